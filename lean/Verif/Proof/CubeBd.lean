import Verif.Proof.CubeUdc
import Mathlib.Data.Multiset.AddSub
import Mathlib.Algebra.BigOperators.Group.List.Basic
import Mathlib.Tactic.Ring
set_option linter.unusedVariables false

/-! The boundary of a cell as an alternating sum, and that applying it twice gives zero. -/
namespace Toppo.Cub
open RawGraph RawGraph.Factor

def sg (b : Bool) : ℤ := if b then 1 else -1

theorem sg_not (b : Bool) : sg (!b) = - sg b := by cases b <;> rfl

/-- the signed sum of a function over a list of signed faces -/
def bsum (θ : List Factor → ℤ) (L : List (Bool × List Factor)) : ℤ := (L.map (fun sf => sg sf.1 * θ sf.2)).sum

/-- the difference of the two ends of an edge -/
def Dl (e : Factor) (φ : Multiset Factor → ℤ) (S : Multiset Factor) : ℤ :=
  match e with
  | .edge x y => φ (.vertex x ::ₘ S.erase (.edge x y)) - φ (.vertex y ::ₘ S.erase (.edge x y))
  | .vertex _ => 0

/-- the alternating sum over a list of edges -/
def D : (List Factor → Multiset Factor → ℤ) → List Factor → Multiset Factor → ℤ
  | _, [], _ => 0
  | ψ, e :: E, S => Dl e (ψ E) S - D (fun E' => ψ (e :: E')) E S

theorem erase_comm' (a b c d : Nat) (v : Nat) (S : Multiset Factor) :
    (Factor.vertex v ::ₘ S.erase (.edge a b)).erase (.edge c d) = Factor.vertex v ::ₘ (S.erase (.edge c d)).erase (.edge a b) := by
  rw [Multiset.erase_cons_tail _ (by simp), Multiset.erase_comm]

theorem Dl_comm (e f : Factor) (φ : Multiset Factor → ℤ) (S : Multiset Factor) : Dl e (Dl f φ) S = Dl f (Dl e φ) S := by
  cases e with
  | vertex v => cases f <;> simp [Dl]
  | edge a b =>
    cases f with
    | vertex w => simp [Dl]
    | edge c d =>
      have k : ∀ (u w : Nat), Factor.vertex w ::ₘ (Factor.vertex u ::ₘ S.erase (.edge a b)).erase (.edge c d) =
          Factor.vertex u ::ₘ (Factor.vertex w ::ₘ S.erase (.edge c d)).erase (.edge a b) := by
        intro u w
        rw [erase_comm' a b c d u S, erase_comm' c d a b w S, Multiset.cons_swap, Multiset.erase_comm]
      simp only [Dl, k]
      ring

theorem Dl_sub (e : Factor) (φ χ : Multiset Factor → ℤ) (S : Multiset Factor) : Dl e (fun S => φ S - χ S) S = Dl e φ S - Dl e χ S := by
  cases e <;> simp only [Dl] <;> ring

theorem D_sub (ψ χ : List Factor → Multiset Factor → ℤ) (E : List Factor) (S : Multiset Factor) :
    D (fun E' S => ψ E' S - χ E' S) E S = D ψ E S - D χ E S := by
  induction E generalizing ψ χ with
  | nil => simp [D]
  | cons e E ih =>
    simp only [D]
    rw [Dl_sub, ih]
    ring

theorem Dl_D (e : Factor) (φ : Multiset Factor → ℤ) (E : List Factor) (S : Multiset Factor) :
    Dl e (D (fun _ => φ) E) S = D (fun _ => Dl e φ) E S := by
  induction E with
  | nil => cases e <;> simp [Dl, D]
  | cons f E ih =>
    have : Dl e (D (fun _ => φ) (f :: E)) S = Dl e (fun S => Dl f φ S - D (fun _ => φ) E S) S := rfl
    rw [this, Dl_sub, ih, Dl_comm]
    rfl

/-- the boundary of the boundary is zero -/
theorem D_D (φ : Multiset Factor → ℤ) (E : List Factor) (S : Multiset Factor) : D (fun E' => D (fun _ => φ) E') E S = 0 := by
  induction E with
  | nil => rfl
  | cons e E ih =>
    have h1 : D (fun E' => D (fun _ => φ) E') (e :: E) S =
        Dl e (D (fun _ => φ) E) S - D (fun E' S => Dl e φ S - D (fun _ => φ) E' S) E S := rfl
    rw [h1, D_sub, Dl_D, ih]
    ring

theorem bsum_faces (ψ : List Factor → Multiset Factor → ℤ) (θ : List Factor → ℤ) (cell : List Factor)
    (hθ : ∀ pre x y post, cell = pre ++ .edge x y :: post → ∀ v, v = x ∨ v = y →
      θ (pre ++ .vertex v :: post) = ψ ((pre ++ post).filter isEdge) ↑(pre ++ Factor.vertex v :: post))
    (fs pre : List Factor) (sign : Bool) (hc : cell = pre ++ fs) :
    bsum θ (Cplx.facesFrom cell pre.length sign fs) = sg sign * D (fun E' => ψ (pre.filter isEdge ++ E')) (fs.filter isEdge) ↑cell := by
  induction fs generalizing pre sign with
  | nil => simp [Cplx.facesFrom, bsum, D]
  | cons f fs ih =>
    cases f with
    | vertex v =>
      have := ih (pre ++ [.vertex v]) sign (by simpa using hc)
      simp only [List.length_append, List.length_singleton, List.filter_append] at this
      simp only [Cplx.facesFrom]
      rw [this]
      simp [isEdge]
    | edge x y =>
      have h := ih (pre ++ [.edge x y]) (!sign) (by simpa using hc)
      simp only [List.length_append, List.length_singleton, List.filter_append] at h
      have hset : ∀ v, cell.set pre.length (.vertex v) = pre ++ .vertex v :: fs := by intro v; rw [hc]; simp
      have hS : (↑cell : Multiset Factor).erase (.edge x y) = ↑(pre ++ fs) := by
        rw [hc]
        have : (↑(pre ++ .edge x y :: fs) : Multiset Factor) = .edge x y ::ₘ ↑(pre ++ fs) := by
          rw [Multiset.cons_coe, Multiset.coe_eq_coe]; exact List.perm_middle
        rw [this, Multiset.erase_cons_head]
      have hv : ∀ v : Nat, (Factor.vertex v ::ₘ (↑(pre ++ fs) : Multiset Factor)) = ↑(pre ++ Factor.vertex v :: fs) := by
        intro v
        rw [Multiset.cons_coe, Multiset.coe_eq_coe]; exact List.perm_middle.symm
      have e1 := hθ pre x y fs hc x (Or.inl rfl)
      have e2 := hθ pre x y fs hc y (Or.inr rfl)
      simp only [Cplx.facesFrom]
      have hb : bsum θ ((sign, cell.set pre.length (.vertex x)) :: (!sign, cell.set pre.length (.vertex y)) :: Cplx.facesFrom cell (pre.length + 1) (!sign) fs) =
          sg sign * θ (cell.set pre.length (.vertex x)) + (sg (!sign) * θ (cell.set pre.length (.vertex y)) + bsum θ (Cplx.facesFrom cell (pre.length + 1) (!sign) fs)) := by
        simp [bsum]
      rw [hb, h, hset, hset, e1, e2, sg_not]
      have hf : List.filter isEdge (Factor.edge x y :: fs) = .edge x y :: fs.filter isEdge := rfl
      rw [hf]
      simp only [D, Dl, hS, hv]
      rw [List.filter_append]
      have hE : List.filter isEdge [Factor.edge x y] = [.edge x y] := rfl
      rw [hE]
      simp only [List.append_assoc, List.singleton_append]
      ring

/-- the signed faces of a cell -/
abbrev faces (c : List Factor) : List (Bool × List Factor) := Cplx.facesFrom c 0 true c

theorem mem_facesFrom {cell fs pre : List Factor} {sign : Bool} (hc : cell = pre ++ fs) {s : Bool} {f : List Factor} (h : (s, f) ∈ Cplx.facesFrom cell pre.length sign fs) :
    ∃ p x y q v, cell = p ++ .edge x y :: q ∧ f = p ++ .vertex v :: q ∧ (v = x ∨ v = y) := by
  induction fs generalizing pre sign with
  | nil => simp [Cplx.facesFrom] at h
  | cons a fs ih =>
    cases a with
    | vertex v =>
      refine ih (pre := pre ++ [.vertex v]) (by simpa using hc) (sign := sign) ?_
      simpa [Cplx.facesFrom] using h
    | edge x y =>
      have hset : ∀ v, cell.set pre.length (.vertex v) = pre ++ .vertex v :: fs := by intro v; rw [hc]; simp
      simp only [Cplx.facesFrom, List.mem_cons, Prod.mk.injEq] at h
      rcases h with ⟨-, rfl⟩ | ⟨-, rfl⟩ | h
      · exact ⟨pre, x, y, fs, x, hc, hset x, Or.inl rfl⟩
      · exact ⟨pre, x, y, fs, y, hc, hset y, Or.inr rfl⟩
      · refine ih (pre := pre ++ [.edge x y]) (by simpa using hc) (sign := !sign) ?_
        simpa using h

theorem mem_faces {c f : List Factor} {s : Bool} (h : (s, f) ∈ faces c) : ∃ p x y q v, c = p ++ .edge x y :: q ∧ f = p ++ .vertex v :: q ∧ (v = x ∨ v = y) :=
  mem_facesFrom (pre := []) rfl h

theorem disjoint_end {x y v : Nat} (hv : v = x ∨ v = y) {f : Factor} (h : f.disjoint (.edge x y) = true) : f.disjoint (.vertex v) = true := by
  cases f <;> simp only [disjoint, Bool.and_eq_true, bne_iff_ne, ne_eq] at h ⊢ <;> rcases hv with rfl | rfl <;> omega

theorem face_disjoint {p q : List Factor} {x y v : Nat} (hc : Disjoint (p ++ .edge x y :: q)) (hv : v = x ∨ v = y) : Disjoint (p ++ .vertex v :: q) := by
  unfold Disjoint at hc ⊢
  rw [List.pairwise_append, List.pairwise_cons] at hc ⊢
  obtain ⟨h1, ⟨h2, h3⟩, h4⟩ := hc
  refine ⟨h1, ⟨?_, h3⟩, ?_⟩
  · intro f hf
    rw [disjoint_comm]
    exact disjoint_end hv (by rw [disjoint_comm]; exact h2 f hf)
  · intro a ha b hb
    rcases List.mem_cons.mp hb with rfl | hb
    · exact disjoint_end hv (h4 a ha _ (by simp))
    · exact h4 a ha b (by simp [hb])

theorem edges_sort {p q : List Factor} {x y v : Nat} (hc : Valid (p ++ .edge x y :: q)) (hv : v = x ∨ v = y) :
    (sort (p ++ .vertex v :: q)).filter isEdge = (p ++ q).filter isEdge := by
  have hd := face_disjoint hc.disjoint hv
  refine Valid.eq_of_perm ((sort_valid hd).filter _) ?_ ?_
  · refine List.Pairwise.filter _ ?_
    exact hc.sublist (List.Sublist.append (List.Sublist.refl _) (List.sublist_cons_self _ _))
  · have := (sort_perm (p ++ .vertex v :: q)).filter isEdge
    refine this.trans ?_
    simp [List.filter_append, isEdge]

/-- the boundary of the boundary of a cell, seen through any function of sets of factors, is zero -/
theorem bd_bd {c : List Factor} (hc : Valid c) (φ : Multiset Factor → ℤ) :
    bsum (fun f => bsum (fun f' => φ ↑f') (faces (sort f))) (faces c) = 0 := by
  have hone : ∀ c : List Factor, bsum (fun f' => φ ↑f') (faces c) = D (fun _ => φ) (c.filter isEdge) ↑c := by
    intro c
    have := bsum_faces (fun _ => φ) (fun f' => φ ↑f') c (fun _ _ _ _ _ _ _ => rfl) c [] true rfl
    rw [show faces c = Cplx.facesFrom c ([] : List Factor).length true c from rfl, this]
    simp [sg]
  have := bsum_faces (fun E' => D (fun _ => φ) E') (fun f => bsum (fun f' => φ ↑f') (faces (sort f))) c ?_ c [] true rfl
  · rw [show faces c = Cplx.facesFrom c ([] : List Factor).length true c from rfl, this]
    simp only [List.filter_nil, List.nil_append]
    rw [D_D]; simp
  · intro pre x y post e v hv
    show bsum (fun f' => φ ↑f') (faces (sort (pre ++ .vertex v :: post))) = _
    rw [hone, edges_sort (e ▸ hc) hv]
    congr 1
    exact Multiset.coe_eq_coe.mpr (sort_perm _)

/-- the number of edges of a face -/
theorem face_dim {p q : List Factor} {x y v : Nat} : (p ++ .edge x y :: q).countP isEdge = (p ++ Factor.vertex v :: q).countP isEdge + 1 := by
  simp only [List.countP_append, List.countP_cons, isEdge]
  simp
  omega

end Toppo.Cub
