import Verif.Proof.SimpWedge
import Verif.Props.SimpSum
import Verif.Props.Euler
import Mathlib.Algebra.Group.Fin.Tuple
set_option linter.unusedVariables false
set_option linter.unusedSectionVars false
/-!
# C128: homology of one-point unions.  C129: suspensions.  C130: the highest dimension, and graphs.
-/
namespace Toppo.Simp
open Toppo Toppo.ModProps

/-- one more free generator -/
def plus (m : Mod) : Mod := ⟨m.freeRank + 1, m.divisors⟩

theorem plus_equiv (m : Mod) : Nonempty (Grp (plus m) ≃+ Grp m × ℤ) :=
  ⟨{ toFun := fun p => ((fun i : Fin m.freeRank => p.1 (Fin.succ i), p.2), p.1 (0 : Fin (m.freeRank + 1)))
     invFun := fun q => (Fin.cons (n := m.freeRank) (α := fun _ => ℤ) q.2 q.1.1, q.1.2)
     left_inv := fun p => by
       refine Prod.ext ?_ rfl
       funext (i : Fin (m.freeRank + 1))
       refine Fin.cases ?_ (fun j => ?_) i
       · rfl
       · rfl
     right_inv := fun q => rfl
     map_add' := fun p q => rfl }⟩

section
variable {T : Type} [DecidableEq T] [LinearOrder (Simplex T)]

/-- what C128-C130 need about one run -/
theorem Computes.red {history : List (List T)} {maxDim bm res} (h : Computes history maxDim bm res) (hh : GoodHistory history) {r : T → ℤ}
    (hr : ∀ x ∈ history.flatten, ∀ y ∈ history.flatten, r x = r y → x = y) :
    (∀ A, Listed bm A → ∀ x ∈ A, ∀ y ∈ A, r x = r y → x = y) ∧ Nonempty (Grp (reportedMod res 0) ≃+ RedHom (Listed bm) r 0 × ℤ) ∧
    ∀ i, 0 < i → (∀ d, maxDim = some d → i ≤ d) → Nonempty (Grp (reportedMod res i) ≃+ RedHom (Listed bm) r i) := by
  obtain ⟨a1, a2, a3, -, a4, -, a5⟩ := h.spec hh
  have hr' : ∀ A, Listed bm A → ∀ x ∈ A, ∀ y ∈ A, r x = r y → x = y := fun A hA x hx y hy =>
    hr x ((a2 x).mpr (a1 A _ hA (by simpa using hx) (by simp))) y ((a2 y).mpr (a1 A _ hA (by simpa using hy) (by simp)))
  refine ⟨hr', ?_, fun i h0 hi => ?_⟩
  · obtain ⟨s, hs⟩ := List.exists_mem_of_ne_nil _ hh.nonempty
    obtain ⟨x, hx⟩ := List.exists_mem_of_ne_nil _ (hh.simplices s hs).1
    obtain ⟨e⟩ := a5 r hr 0 (by simp)
    obtain ⟨e'⟩ := red_zero (K := Listed bm) (r := r) (fun A B => a1 A B) hr' ((a2 x).mp (List.mem_flatten.mpr ⟨s, hs, hx⟩))
    exact ⟨e.symm.trans e'⟩
  · obtain ⟨e⟩ := a5 r hr i hi
    obtain ⟨e'⟩ := red_pos (K := Listed bm) (r := r) h0
    exact ⟨e.symm.trans e'⟩

/-- multiplicities are positive -/
theorem Computes.mult {history : List (List T)} {maxDim bm res} (h : Computes history maxDim bm res) (hh : GoodHistory history) (i : Nat) :
    ∀ dk ∈ (reportedMod res i).divisors, 0 < dk.2 := by
  obtain ⟨c, f0, e1, e2, h1⟩ := h
  obtain ⟨c', bm', r0, g1, g2, hk⟩ := known hh
  rw [e1] at g1; cases g1
  rw [e2] at g2; cases g2
  obtain ⟨f1, res', k1, k2, k3, k4, -⟩ := Hom.c44_homology hk.cc maxDim
  have a := h1 (f0 + f1) (by omega)
  have b := k1 (f0 + f1) (by omega)
  rw [a] at b; cases b
  unfold reportedMod
  cases ho : res[i]? with
  | none => simp
  | some o =>
    have hi : i < bm.length := by have := (List.getElem?_eq_some_iff.mp ho).1; omega
    exact fun dk hd => ((k2 i _ o (List.getElem?_eq_getElem hi) ho).torsion.1 dk hd).2.2

/-- the homology in dimension zero is reported as a free module -/
theorem Computes.zero_free {history : List (List T)} {maxDim bm res} (h : Computes history maxDim bm res) (hh : GoodHistory history) :
    FreeOfRank (reportedMod res 0) (reportedMod res 0).freeRank := by
  obtain ⟨c, f0, e1, e2, h1⟩ := h
  obtain ⟨c', bm', f1, res', o, g1, g2, g3, g4, -, g5⟩ := c117_components hh maxDim
  rw [e1] at g1; cases g1
  rw [e2] at g2; cases g2
  have a := h1 (f0 + f1) (by omega)
  have b := g3 (f0 + f1) (by omega)
  rw [a] at b; cases b
  have : reportedMod res 0 = o.module := by simp [reportedMod, g4]
  rw [this]
  exact ⟨rfl, g5.2⟩

/-! ### C128 -/

/-- **C128**. If the listed simplices of `h` are those of `h₁` and those of `h₂`, and `v` is the only label they have in common, then in every positive dimension up to
the bound the homology reported for `h` is the direct sum of those reported for `h₁` and `h₂`; in dimension zero the free rank is one less than the sum. -/
theorem c128_one_point {h h₁ h₂ : List (List T)} (g : GoodHistory h) (g₁ : GoodHistory h₁) (g₂ : GoodHistory h₂) {maxDim : Option Nat} {bm bm₁ bm₂ res res₁ res₂}
    (k : Computes h maxDim bm res) (k₁ : Computes h₁ maxDim bm₁ res₁) (k₂ : Computes h₂ maxDim bm₂ res₂) (v : T) (v₁ : v ∈ h₁.flatten) (v₂ : v ∈ h₂.flatten)
    (hd : ∀ x ∈ h₁.flatten, x ∈ h₂.flatten → x = v) (hK : ∀ A, Listed bm A ↔ Listed bm₁ A ∨ Listed bm₂ A) :
    (∀ i, 0 < i → (∀ d, maxDim = some d → i ≤ d) → Nonempty (Grp (reportedMod res i) ≃+ Grp (reportedMod res₁ i) × Grp (reportedMod res₂ i)) ∧
      (reportedMod res i).freeRank = (reportedMod res₁ i).freeRank + (reportedMod res₂ i).freeRank) ∧
    (reportedMod res 0).freeRank + 1 = (reportedMod res₁ 0).freeRank + (reportedMod res₂ 0).freeRank := by
  obtain ⟨a1, a2, a3, -, a4, -, a5⟩ := k.spec g
  obtain ⟨b1, b2, b3, -, b4, -, b5⟩ := k₁.spec g₁
  obtain ⟨c1, c2, c3, -, c4, -, c5⟩ := k₂.spec g₂
  obtain ⟨r, hr⟩ := order_exists h
  have m1 : ∀ x ∈ h₁.flatten, x ∈ h.flatten := fun x hx => (a2 x).mpr ((hK _).mpr (Or.inl ((b2 x).mp hx)))
  have m2 : ∀ x ∈ h₂.flatten, x ∈ h.flatten := fun x hx => (a2 x).mpr ((hK _).mpr (Or.inr ((c2 x).mp hx)))
  obtain ⟨a6, ⟨a7⟩, a8⟩ := k.red g hr
  obtain ⟨-, ⟨b7⟩, b8⟩ := k₁.red g₁ (fun x hx y hy => hr x (m1 x hx) y (m1 y hy))
  obtain ⟨-, ⟨c7⟩, c8⟩ := k₂.red g₂ (fun x hx y hy => hr x (m2 x hx) y (m2 y hy))
  have h12 : ∀ A, Listed bm₁ A → Listed bm₂ A → A = {v} := by
    intro A hA hA'
    have hall : ∀ x ∈ A, x = v := fun x hx =>
      hd x ((b2 x).mpr (b1 A _ hA (by simpa using hx) (by simp))) ((c2 x).mpr (c1 A _ hA' (by simpa using hx) (by simp)))
    exact (Finset.eq_singleton_iff_nonempty_unique_mem.mpr ⟨(b3 A hA).1, hall⟩)
  have s := wedge_sum (r := r) hK ((b2 v).mp v₁) ((c2 v).mp v₂) h12 b1 c1 a6
  constructor
  · intro i h0 hi
    obtain ⟨e⟩ := a8 i h0 hi
    obtain ⟨e₁⟩ := b8 i h0 hi
    obtain ⟨e₂⟩ := c8 i h0 hi
    obtain ⟨s⟩ := s i
    have f := e.trans (s.trans (AddEquiv.prodCongr e₁.symm e₂.symm))
    exact ⟨⟨f⟩, rank_sum (a4 i).1 (b4 i).1 (c4 i).1 f⟩
  · obtain ⟨s⟩ := s 0
    obtain ⟨p⟩ := plus_equiv (reportedMod res 0)
    -- (R₁ × R₂ × ℤ) × ℤ ≅ (R₁ × ℤ) × (R₂ × ℤ)
    have f : Grp (plus (reportedMod res 0)) ≃+ Grp (reportedMod res₁ 0) × Grp (reportedMod res₂ 0) :=
      p.trans ((AddEquiv.prodCongr (a7.trans (AddEquiv.prodCongr s (AddEquiv.refl ℤ))) (AddEquiv.refl ℤ)).trans
        ((AddEquiv.prodAssoc (M := RedHom (Listed bm₁) r 0 × RedHom (Listed bm₂) r 0) (N := ℤ) (P := ℤ)).trans
          ((AddEquiv.prodProdProdComm _ _ ℤ ℤ).trans (AddEquiv.prodCongr b7.symm c7.symm))))
    exact rank_sum (m := plus (reportedMod res 0)) (a4 0).1 (b4 0).1 (c4 0).1 f

/-- **C128** with at most 64 labels: one history after the other, with one common label. -/
theorem c128_append {h₁ h₂ : List (List T)} (g₁ : GoodHistory h₁) (g₂ : GoodHistory h₂) (hb : (h₁ ++ h₂).flatten.toFinset.card ≤ 64) (v : T)
    (v₁ : v ∈ h₁.flatten) (v₂ : v ∈ h₂.flatten) (hd : ∀ x ∈ h₁.flatten, x ∈ h₂.flatten → x = v) (maxDim : Option Nat) :
    ∃ bm res bm₁ res₁ bm₂ res₂, Computes (h₁ ++ h₂) maxDim bm res ∧ Computes h₁ maxDim bm₁ res₁ ∧ Computes h₂ maxDim bm₂ res₂ ∧
      (∀ i, 0 < i → (∀ d, maxDim = some d → i ≤ d) → Nonempty (Grp (reportedMod res i) ≃+ Grp (reportedMod res₁ i) × Grp (reportedMod res₂ i)) ∧
        (reportedMod res i).freeRank = (reportedMod res₁ i).freeRank + (reportedMod res₂ i).freeRank) ∧
      (reportedMod res 0).freeRank + 1 = (reportedMod res₁ 0).freeRank + (reportedMod res₂ 0).freeRank := by
  have g : GoodHistory (h₁ ++ h₂) := ⟨by simp [g₁.nonempty], fun s hs => (List.mem_append.mp hs).elim (g₁.simplices s) (g₂.simplices s)⟩
  obtain ⟨bm, res, k⟩ := computes_total g maxDim
  obtain ⟨bm₁, res₁, k₁⟩ := computes_total g₁ maxDim
  obtain ⟨bm₂, res₂, k₂⟩ := computes_total g₂ maxDim
  refine ⟨bm, res, bm₁, res₁, bm₂, res₂, k, k₁, k₂, c128_one_point g g₁ g₂ k k₁ k₂ v v₁ v₂ hd ?_⟩
  have l1 : h₁.flatten.toFinset ⊆ (h₁ ++ h₂).flatten.toFinset := fun x hx => by
    rw [List.mem_toFinset] at *; rw [List.flatten_append]; exact List.mem_append_left _ hx
  have l2 : h₂.flatten.toFinset ⊆ (h₁ ++ h₂).flatten.toFinset := fun x hx => by
    rw [List.mem_toFinset] at *; rw [List.flatten_append]; exact List.mem_append_right _ hx
  rw [(k.spec g).2.2.2.1 hb, (k₁.spec g₁).2.2.2.1 ((Finset.card_le_card l1).trans hb), (k₂.spec g₂).2.2.2.1 ((Finset.card_le_card l2).trans hb)]
  intro A
  unfold IsFace
  simp only [List.mem_append, or_and_right, exists_or, and_or_left]

/-- a case: two hollow triangles with the common label 2 -/
example : GoodHistory [[0, 1], [1, 2], [2, 0]] ∧ GoodHistory [[3, 4], [4, 2], [2, 3]] ∧
    (∀ x ∈ [[0, 1], [1, 2], [2, 0]].flatten, x ∈ [[3, 4], [4, 2], [2, 3]].flatten → x = 2) ∧ ([[0, 1], [1, 2], [2, 0]] ++ [[3, 4], [4, 2], [2, 3]]).flatten.toFinset.card ≤ 64 :=
  ⟨⟨by simp, by decide⟩, ⟨by simp, by decide⟩, by decide, by decide⟩

/-! ### C129 -/

/-- an order of the labels in which `p` and `q` come first -/
theorem first_two (l : List T) {p q : T} (hpq : p ≠ q) : ∃ r : T → ℤ, (∀ x ∈ l, ∀ y ∈ l, r x = r y → x = y) ∧ r p < r q ∧ ∀ x, x ≠ p → x ≠ q → r q < r x := by
  refine ⟨fun x => if x = p then -2 else if x = q then -1 else l.idxOf x, ?_, ?_, ?_⟩
  · intro x hx y hy e
    simp only at e
    split_ifs at e with h1 h2 h2 h2 h2 h2 h2 h2
    all_goals first | (subst_vars; rfl) | omega | skip
    exact (List.idxOf_inj hx).mp (by omega)
  · simp [Ne.symm hpq]
  · intro x h1 h2
    simp only [if_neg h1, if_neg h2, if_neg (Ne.symm hpq), if_true]
    omega

/-- **C129**. If the listed simplices of `h'` form the suspension of those of `h` with the apexes `p` and `q`, the homology reported for `h'` in dimension `i + 1` is that
reported for `h` in dimension `i`, if `0 < i`; in dimension 1 it is free, with the rank reported for `h` in dimension 0 less one; in dimension 0 it is free of rank one. -/
theorem c129_suspension {h h' : List (List T)} (g : GoodHistory h) (g' : GoodHistory h') {maxDim maxDim' : Option Nat} {bm bm' res res'}
    (k : Computes h maxDim bm res) (k' : Computes h' maxDim' bm' res') (p q : T) (hs : Suspension (Listed bm) (Listed bm') p q) :
    (∀ i, 0 < i → (∀ d, maxDim = some d → i ≤ d) → (∀ d, maxDim' = some d → i + 1 ≤ d) →
      Nonempty (Grp (reportedMod res' (i + 1)) ≃+ Grp (reportedMod res i)) ∧ (reportedMod res' (i + 1)).freeRank = (reportedMod res i).freeRank ∧
      (orders (reportedMod res' (i + 1)).divisors).filter (fun d => decide (d ≠ 1)) = (orders (reportedMod res i).divisors).filter (fun d => decide (d ≠ 1))) ∧
    ((∀ d, maxDim' = some d → 1 ≤ d) → ∃ n, FreeOfRank (reportedMod res' 1) n ∧ n + 1 = (reportedMod res 0).freeRank) ∧
    FreeOfRank (reportedMod res' 0) 1 := by
  obtain ⟨a1, a2, a3, -, a4, -, a5⟩ := k.spec g
  obtain ⟨b1, b2, b3, -, b4, b9, b5⟩ := k'.spec g'
  obtain ⟨r, hr', hpq, hmin⟩ := first_two h'.flatten hs.ne
  have m : ∀ x ∈ h.flatten, x ∈ h'.flatten := fun x hx => (b2 x).mpr ((hs.simplices _).mpr (Or.inl ((a2 x).mp hx)))
  have hr : ∀ x ∈ h.flatten, ∀ y ∈ h.flatten, r x = r y → x = y := fun x hx y hy => hr' x (m x hx) y (m y hy)
  obtain ⟨a6, ⟨a7⟩, a8⟩ := k.red g hr
  have hm : ∀ A, Listed bm A → ∀ x ∈ A, r q < r x := fun A hA x hx =>
    hmin x (fun e => hs.notp A hA (e ▸ hx)) (fun e => hs.notq A hA (e ▸ hx))
  have key := hs.hom (r := r) a1 a6 hpq hm
  refine ⟨fun i h0 hi hi' => ?_, fun hi' => ?_, ?_⟩
  · obtain ⟨s⟩ := key i
    obtain ⟨e⟩ := a8 i h0 hi
    obtain ⟨e'⟩ := b5 r hr' (i + 1) hi'
    have f := e'.symm.trans (s.trans e.symm)
    exact ⟨⟨f⟩, same_numbers (b4 _).1 (b4 _).2 (a4 _).1 (a4 _).2 f⟩
  · obtain ⟨s⟩ := key 0
    obtain ⟨e'⟩ := b5 r hr' 1 hi'
    obtain ⟨pl⟩ := plus_equiv (reportedMod res' 1)
    have f : Grp (plus (reportedMod res' 1)) ≃+ Grp (reportedMod res 0) :=
      pl.trans ((AddEquiv.prodCongr (e'.symm.trans s) (AddEquiv.refl ℤ)).trans a7.symm)
    obtain ⟨q1, q2⟩ := same_numbers (a := plus (reportedMod res' 1)) (b4 1).1 (b4 1).2 (a4 0).1 (a4 0).2 f
    refine ⟨(reportedMod res' 1).freeRank, ⟨rfl, ?_⟩, q1⟩
    have hz := (k.zero_free g).2
    have hnil : (orders (reportedMod res 0).divisors).filter (fun d => decide (d ≠ 1)) = [] := by
      rw [List.filter_eq_nil_iff]
      intro d hd
      obtain ⟨x, hx, rfl⟩ := mem_orders hd
      simpa using hz x hx
    rw [hnil, List.filter_eq_nil_iff] at q2
    intro dk hdk
    have hpos : 0 < dk.2 := by
      have : ∀ dk ∈ (reportedMod res' 1).divisors, 0 < dk.2 := k'.mult g' 1
      exact this dk hdk
    have : dk.1.natAbs ∈ orders (plus (reportedMod res' 1)).divisors := by
      unfold orders
      rw [List.mem_flatMap]
      exact ⟨dk, hdk, List.mem_replicate.mpr ⟨by omega, rfl⟩⟩
    simpa using q2 _ this
  · obtain ⟨e'⟩ := b5 r hr' 0 (by simp)
    obtain ⟨z⟩ := hom_zero (K := Listed bm') (r := r) (fun A B => b1 A B) (fun x y hx hy => hr' x ((b2 x).mpr hx) y ((b2 y).mpr hy))
    have hv : Listed bm' {p} := (hs.simplices _).mpr (Or.inr ⟨∅, Or.inr rfl, Or.inl rfl⟩)
    obtain ⟨s, hs'⟩ := List.exists_mem_of_ne_nil _ g.nonempty
    obtain ⟨y, hy⟩ := List.exists_mem_of_ne_nil _ (g.simplices s hs').1
    have hyL : Listed bm {y} := (a2 y).mp (List.mem_flatten.mpr ⟨s, hs', hy⟩)
    have hyS : Listed bm' {y} := (hs.simplices _).mpr (Or.inl hyL)
    have toP : ∀ x : T, Listed bm {x} → Listed bm' {x, p} := fun x hx =>
      (hs.simplices _).mpr (Or.inr ⟨{x}, Or.inl hx, Or.inl (Finset.pair_comm x p)⟩)
    have all : ∀ c : Comp (Listed bm'), c = Quot.mk _ ⟨p, hv⟩ := by
      rintro ⟨x, hx⟩
      by_cases hxp : x = p
      · subst hxp; rfl
      by_cases hxq : x = q
      · have h1 : (Quot.mk _ ⟨x, hx⟩ : Comp (Listed bm')) = Quot.mk _ ⟨y, hyS⟩ := by
          refine Quot.sound ?_
          show Listed bm' {x, y}
          rw [hxq]
          exact (hs.simplices _).mpr (Or.inr ⟨{y}, Or.inl hyL, Or.inr rfl⟩)
        exact h1.trans (Quot.sound (toP y hyL))
      · refine Quot.sound (toP x ?_)
        rcases (hs.simplices _).mp hx with h1 | ⟨B, hB, e | e⟩
        · exact h1
        · exact absurd (Finset.mem_singleton.mp (e ▸ Finset.mem_insert_self p B)).symm hxp
        · exact absurd (Finset.mem_singleton.mp (e ▸ Finset.mem_insert_self q B)).symm hxq
    let u : Unique (Comp (Listed bm')) := ⟨⟨Quot.mk _ ⟨p, hv⟩⟩, all⟩
    exact b9 0 1 ⟨e'.symm.trans (z.trans ((Finsupp.domLCongr (R := ℤ) (M := ℤ) (Equiv.ofUnique (Comp (Listed bm')) (Fin 1))).toAddEquiv.trans
      (Finsupp.linearEquivFunOnFinite ℤ ℤ _).toAddEquiv))⟩

/-- **C129** with at most 64 labels: every simplex of `h` is attached once with the new label `p` and once with the new label `q`. -/
theorem c129_history {h : List (List T)} (g : GoodHistory h) (p q : T) (hpq : p ≠ q) (hp : p ∉ h.flatten) (hq : q ∉ h.flatten) (hb : h.flatten.toFinset.card + 2 ≤ 64)
    (maxDim maxDim' : Option Nat) :
    ∃ bm res bm' res', Computes h maxDim bm res ∧ Computes (h.map (fun s => p :: s) ++ h.map (fun s => q :: s)) maxDim' bm' res' ∧
      (∀ i, 0 < i → (∀ d, maxDim = some d → i ≤ d) → (∀ d, maxDim' = some d → i + 1 ≤ d) →
        Nonempty (Grp (reportedMod res' (i + 1)) ≃+ Grp (reportedMod res i)) ∧ (reportedMod res' (i + 1)).freeRank = (reportedMod res i).freeRank ∧
        (orders (reportedMod res' (i + 1)).divisors).filter (fun d => decide (d ≠ 1)) = (orders (reportedMod res i).divisors).filter (fun d => decide (d ≠ 1))) ∧
      ((∀ d, maxDim' = some d → 1 ≤ d) → ∃ n, FreeOfRank (reportedMod res' 1) n ∧ n + 1 = (reportedMod res 0).freeRank) ∧
      FreeOfRank (reportedMod res' 0) 1 := by
  have hps : ∀ s ∈ h, p ∉ s := fun s hs hx => hp (List.mem_flatten.mpr ⟨s, hs, hx⟩)
  have hqs : ∀ s ∈ h, q ∉ s := fun s hs hx => hq (List.mem_flatten.mpr ⟨s, hs, hx⟩)
  have g' : GoodHistory (h.map (fun s => p :: s) ++ h.map (fun s => q :: s)) := by
    refine ⟨by simp [g.nonempty], fun s hs => ?_⟩
    rcases List.mem_append.mp hs with hs | hs
    · obtain ⟨t, ht, rfl⟩ := List.mem_map.mp hs
      exact ⟨by simp, List.nodup_cons.mpr ⟨hps t ht, (g.simplices t ht).2⟩⟩
    · obtain ⟨t, ht, rfl⟩ := List.mem_map.mp hs
      exact ⟨by simp, List.nodup_cons.mpr ⟨hqs t ht, (g.simplices t ht).2⟩⟩
  have hb' : (h.map (fun s => p :: s) ++ h.map (fun s => q :: s)).flatten.toFinset.card ≤ 64 := by
    have : (h.map (fun s => p :: s) ++ h.map (fun s => q :: s)).flatten.toFinset ⊆ insert p (insert q h.flatten.toFinset) := by
      intro x hx
      simp only [List.mem_toFinset, List.mem_flatten, List.mem_append, List.mem_map, Finset.mem_insert] at hx ⊢
      obtain ⟨l, ⟨t, ht, rfl⟩ | ⟨t, ht, rfl⟩, hx⟩ := hx
      · rcases List.mem_cons.mp hx with e | hx
        · exact Or.inl e
        · exact Or.inr (Or.inr ⟨t, ht, hx⟩)
      · rcases List.mem_cons.mp hx with e | hx
        · exact Or.inr (Or.inl e)
        · exact Or.inr (Or.inr ⟨t, ht, hx⟩)
    have h1 := Finset.card_le_card this
    have h2 := Finset.card_insert_le p (insert q h.flatten.toFinset)
    have h3 := Finset.card_insert_le q h.flatten.toFinset
    omega
  obtain ⟨bm, res, k⟩ := computes_total g maxDim
  obtain ⟨bm', res', k'⟩ := computes_total g' maxDim'
  refine ⟨bm, res, bm', res', k, k', c129_suspension g g' k k' p q ?_⟩
  rw [(k.spec g).2.2.2.1 (by omega), (k'.spec g').2.2.2.1 hb']
  refine ⟨hpq, ?_, ?_, fun A hA => hA.1, fun A => ?_⟩
  · rintro A ⟨-, s, hs, hsub⟩ hpA
    exact hps s hs (by simpa using hsub hpA)
  · rintro A ⟨-, s, hs, hsub⟩ hqA
    exact hqs s hs (by simpa using hsub hqA)
  · constructor
    · rintro ⟨hne, s, hs, hsub⟩
      have key : ∀ (u : T) (t : List T), t ∈ h → A ⊆ (u :: t).toFinset → IsFace h A ∨ ∃ B, (IsFace h B ∨ B = ∅) ∧ A = insert u B := by
        intro u t ht hsub
        rw [List.toFinset_cons] at hsub
        by_cases hu : u ∈ A
        · refine Or.inr ⟨A.erase u, ?_, (Finset.insert_erase hu).symm⟩
          rcases Finset.eq_empty_or_nonempty (A.erase u) with e | e
          · exact Or.inr e
          · exact Or.inl ⟨e, t, ht, Finset.subset_insert_iff.mp hsub⟩
        · exact Or.inl ⟨hne, t, ht, (Finset.subset_insert_iff_of_notMem hu).mp hsub⟩
      rcases List.mem_append.mp hs with hs | hs
      · obtain ⟨t, ht, rfl⟩ := List.mem_map.mp hs
        rcases key p t ht hsub with h1 | ⟨B, h1, h2⟩
        · exact Or.inl h1
        · exact Or.inr ⟨B, h1, Or.inl h2⟩
      · obtain ⟨t, ht, rfl⟩ := List.mem_map.mp hs
        rcases key q t ht hsub with h1 | ⟨B, h1, h2⟩
        · exact Or.inl h1
        · exact Or.inr ⟨B, h1, Or.inr h2⟩
    · have key : ∀ (u : T) (B : Finset T), (IsFace h B ∨ B = ∅) → ∃ t ∈ h, insert u B ⊆ (u :: t).toFinset := by
        rintro u B (⟨-, t, ht, hsub⟩ | rfl)
        · exact ⟨t, ht, by rw [List.toFinset_cons]; exact Finset.insert_subset_insert u hsub⟩
        · obtain ⟨t, ht⟩ := List.exists_mem_of_ne_nil _ g.nonempty
          exact ⟨t, ht, by simp⟩
      rintro (⟨hne, s, hs, hsub⟩ | ⟨B, hB, rfl | rfl⟩)
      · exact ⟨hne, p :: s, List.mem_append_left _ (List.mem_map.mpr ⟨s, hs, rfl⟩), by rw [List.toFinset_cons]; exact hsub.trans (Finset.subset_insert _ _)⟩
      · obtain ⟨t, ht, h1⟩ := key p B hB
        exact ⟨by simp, p :: t, List.mem_append_left _ (List.mem_map.mpr ⟨t, ht, rfl⟩), h1⟩
      · obtain ⟨t, ht, h1⟩ := key q B hB
        exact ⟨by simp, q :: t, List.mem_append_right _ (List.mem_map.mpr ⟨t, ht, rfl⟩), h1⟩

/-- a case: three points, whose suspension has two independent circles -/
example : GoodHistory [[0], [1], [2]] ∧ (3 : Nat) ≠ 4 ∧ 3 ∉ [[0], [1], [2]].flatten ∧ 4 ∉ [[0], [1], [2]].flatten ∧ ([[0], [1], [2]] : List (List Nat)).flatten.toFinset.card + 2 ≤ 64 :=
  ⟨⟨by simp, by decide⟩, by decide, by decide, by decide, by decide⟩

/-! ### C130 -/

theorem cyc_torsion {ds : List Nat} {d : Nat} (hd : d ∈ ds) (h0 : d ≠ 0) (h1 : d ≠ 1) (h : ∀ (n : ℤ) (x : Cyc ds), n ≠ 0 → n • x = 0 → x = 0) : False := by
  obtain ⟨i, hi, e⟩ := List.mem_iff_getElem.mp hd
  have hx := h d (Pi.single (⟨i, hi⟩ : Fin ds.length) 1) (by omega) (by
    rw [← Pi.single_smul, ← Pi.single_zero (⟨i, hi⟩ : Fin ds.length)]
    congr 1
    have : ((ds.get ⟨i, hi⟩ : Nat) : ZMod (ds.get ⟨i, hi⟩)) = 0 := ZMod.natCast_self _
    rw [zsmul_eq_mul, mul_one, ← e]
    exact_mod_cast this)
  have h2 := congrFun hx ⟨i, hi⟩
  rw [Pi.single_eq_same] at h2
  have : ((1 : Nat) : ZMod (ds.get ⟨i, hi⟩)) = 0 := by exact_mod_cast h2
  rw [ZMod.natCast_eq_zero_iff] at this
  have h3 : ds.get ⟨i, hi⟩ = d := e
  rw [h3] at this
  exact h1 (Nat.dvd_one.mp this)

/-- **C130**. If no listed simplex has more than `i + 1` labels, the homology reported in dimension `i` is free. -/
theorem c130_top {h : List (List T)} (g : GoodHistory h) {maxDim : Option Nat} {bm res} (k : Computes h maxDim bm res) (i : Nat) (hi : ∀ d, maxDim = some d → i ≤ d)
    (htop : ∀ A, Listed bm A → A.card ≤ i + 1) : FreeOfRank (reportedMod res i) (reportedMod res i).freeRank := by
  obtain ⟨a1, a2, a3, -, a4, -, a5⟩ := k.spec g
  obtain ⟨r, hr⟩ := order_exists h
  obtain ⟨e⟩ := a5 r hr i hi
  have hfree : ∀ (n : ℤ) (x : Grp (reportedMod res i)), n ≠ 0 → n • x = 0 → x = 0 := by
    intro n x hn hx
    have := top_free (K := Listed bm) (r := r) (i := i) (fun A hA => by have := htop A hA; omega) n hn (e.symm x) (by rw [← map_zsmul, hx, map_zero])
    exact (AddEquiv.map_eq_zero_iff e.symm).mp this
  refine ⟨rfl, fun dk hdk => ?_⟩
  by_contra hne
  have hm : dk.1.natAbs ∈ orders (reportedMod res i).divisors := by
    unfold orders
    rw [List.mem_flatMap]
    exact ⟨dk, hdk, List.mem_replicate.mpr ⟨by have := k.mult g i dk hdk; omega, rfl⟩⟩
  refine cyc_torsion hm (by have := (a4 i).1 dk hdk; omega) hne (fun n x hn hx => ?_)
  have := hfree n (0, x) hn (by rw [Prod.smul_mk, hx, smul_zero]; rfl)
  exact (Prod.ext_iff.mp this).2

/-- where no simplex of the dimension is listed nothing is reported -/
theorem Computes.none {h : List (List T)} (g : GoodHistory h) {maxDim : Option Nat} {bm res} (k : Computes h maxDim bm res) (i : Nat) (hi : ∀ d, maxDim = some d → i ≤ d)
    (htop : ∀ A, Listed bm A → A.card ≠ i + 1) : FreeOfRank (reportedMod res i) 0 := by
  obtain ⟨a1, a2, a3, -, a4, a6, a5⟩ := k.spec g
  obtain ⟨r, hr⟩ := order_exists h
  obtain ⟨e⟩ := a5 r hr i hi
  have hz : Chains (Listed bm) i = ⊥ := by
    rw [eq_bot_iff]
    exact chains_le (fun A hA hc => absurd hc (htop A hA))
  have hs : Subsingleton (SimpHom (Listed bm) r i) := by
    refine Submodule.Quotient.subsingleton_iff.mpr ?_
    ext ⟨z, hz'⟩
    have h1 : z ∈ Chains (Listed bm) i := hz'.1
    rw [hz, Submodule.mem_bot] at h1
    subst h1
    simp only [Submodule.mem_top, iff_true]
    exact Submodule.zero_mem _
  exact a6 i 0 (of_subsingleton (e.symm.toEquiv.subsingleton))

/-- **C130, graphs**. Attach only vertices and edges, with at most 64 labels: the homology in dimension 1 is free, its rank plus the number of labels is the number of
different edges plus the rank in dimension 0 (the number of components, C117), and all higher dimensions are trivial. -/
theorem c130_graph {h : List (List T)} (g : GoodHistory h) (hb : h.flatten.toFinset.card ≤ 64) (h2 : ∀ s ∈ h, s.length ≤ 2) {bm res} (k : Computes h none bm res) :
    (∃ n, FreeOfRank (reportedMod res 1) n ∧
      n + h.flatten.toFinset.card = ((h.map List.toFinset).toFinset.filter (fun A => A.card = 2)).card + (reportedMod res 0).freeRank) ∧
    ∀ i, 2 ≤ i → FreeOfRank (reportedMod res i) 0 := by
  have hL := (k.spec g).2.2.2.1 hb
  have hcard : ∀ A, Listed bm A → A.card ≤ 2 := by
    intro A hA
    rw [hL] at hA
    obtain ⟨-, s, hs, hsub⟩ := hA
    exact (Finset.card_le_card hsub).trans ((List.toFinset_card_le s).trans (h2 s hs))
  have hhigh : ∀ i, 2 ≤ i → FreeOfRank (reportedMod res i) 0 := fun i hi => k.none g i (by simp) (fun A hA => by have := hcard A hA; omega)
  refine ⟨⟨_, c130_top g k 1 (by simp) hcard, ?_⟩, hhigh⟩
  obtain ⟨c, f0, e1, e2, h1⟩ := k
  obtain ⟨c', bm', f1, res', q1, q2, q3, F, hF, q4⟩ := c116_history g hb
  rw [e1] at q1; cases q1
  rw [e2] at q2; cases q2
  have a := h1 (f0 + f1) (by omega)
  have b := q3 (f0 + f1) (by omega)
  rw [a] at b; cases b
  have hbet : ∀ i, Hom.betti res i = (reportedMod res i).freeRank := by
    intro i
    unfold Hom.betti reportedMod
    cases res[i]? <;> rfl
  have hsum := q4 (max bm.length 2) (le_max_left _ _)
  rw [← Finset.sum_subset (Finset.range_mono (le_max_right bm.length 2))] at hsum
  · rw [Finset.sum_range_succ, Finset.sum_range_succ, Finset.sum_range_zero, hbet, hbet] at hsum
    have hF12 : ∀ A ∈ F, A.card = 1 ∨ A.card = 2 := by
      intro A hA
      have h3 := (hF A).mp hA
      have := Finset.card_pos.mpr h3.1
      rw [← hL] at h3
      have := hcard A h3
      omega
    have hV : (F.filter (fun A => A.card = 1)).card = h.flatten.toFinset.card := by
      rw [← Finset.card_image_of_injective h.flatten.toFinset (Finset.singleton_injective)]
      congr 1
      ext A
      rw [Finset.mem_filter, hF, Finset.mem_image]
      constructor
      · rintro ⟨⟨-, s, hs, hsub⟩, hc⟩
        obtain ⟨x, rfl⟩ := Finset.card_eq_one.mp hc
        exact ⟨x, by simpa using ⟨s, hs, by simpa using hsub⟩, rfl⟩
      · rintro ⟨x, hx, rfl⟩
        obtain ⟨s, hs, hxs⟩ := List.mem_flatten.mp (List.mem_toFinset.mp hx)
        exact ⟨⟨by simp, s, hs, by simpa using hxs⟩, by simp⟩
    have hE : F.filter (fun A => A.card = 2) = (h.map List.toFinset).toFinset.filter (fun A => A.card = 2) := by
      ext A
      rw [Finset.mem_filter, hF, Finset.mem_filter, List.mem_toFinset, List.mem_map]
      constructor
      · rintro ⟨⟨-, s, hs, hsub⟩, hc⟩
        refine ⟨⟨s, hs, (Finset.eq_of_subset_of_card_le hsub ?_).symm⟩, hc⟩
        have := (List.toFinset_card_le s).trans (h2 s hs)
        omega
      · rintro ⟨⟨s, hs, rfl⟩, hc⟩
        exact ⟨⟨Finset.card_pos.mp (by omega), s, hs, le_rfl⟩, hc⟩
    have hsplit : (∑ A ∈ F, (-1 : ℤ) ^ (A.card - 1)) = (F.filter (fun A => A.card = 1)).card - (F.filter (fun A => A.card = 2)).card := by
      have hne : F.filter (fun A => ¬ A.card = 1) = F.filter (fun A => A.card = 2) := by
        refine Finset.filter_congr (fun A hA => ?_)
        have := hF12 A hA
        omega
      rw [← Finset.sum_filter_add_sum_filter_not F (fun A => A.card = 1), hne]
      rw [Finset.sum_congr rfl (g := fun _ => (1 : ℤ)) (fun A hA => by rw [(Finset.mem_filter.mp hA).2]; rfl)]
      rw [Finset.sum_congr (s₁ := F.filter (fun A => A.card = 2)) rfl (g := fun _ => (-1 : ℤ)) (fun A hA => by rw [(Finset.mem_filter.mp hA).2]; rfl)]
      simp [sub_eq_add_neg]
    rw [hsplit, hV, hE] at hsum
    simp only [zero_add, pow_zero, one_mul, pow_one] at hsum
    omega
  · intro i _ hi
    rw [Finset.mem_range, not_lt] at hi
    rw [hbet, (hhigh i hi).1]
    simp

/-- a case: two triangles with a common edge, a tail, and an isolated vertex -/
example : GoodHistory [[0, 1], [1, 2], [2, 0], [1, 3], [3, 2], [0, 4], [5], [1, 0]] ∧
    ([[0, 1], [1, 2], [2, 0], [1, 3], [3, 2], [0, 4], [5], [1, 0]] : List (List Nat)).flatten.toFinset.card ≤ 64 ∧
    (∀ s ∈ [[0, 1], [1, 2], [2, 0], [1, 3], [3, 2], [0, 4], [5], [1, 0]], s.length ≤ 2) := ⟨⟨by simp, by decide⟩, by decide, by decide⟩

end
end Toppo.Simp
