import Verif.Model.CubeCplx
import Mathlib.Data.List.Sort
import Mathlib.Data.Multiset.Basic
import Mathlib.Tactic.Linarith
set_option linter.unusedVariables false

/-! Sorted lists of pairwise disjoint factors; sorting; the pure form of the enumeration of cells. -/
namespace Toppo.Cub
open RawGraph RawGraph.Factor

/-- `a` comes before `b` in a cell -/
def Bef (a b : Factor) : Prop := a.disjoint b = true ∧ a.order < b.order

theorem disjoint_comm (a b : Factor) : a.disjoint b = b.disjoint a := by
  rw [Bool.eq_iff_iff]
  cases a <;> cases b <;> simp only [disjoint, Bool.and_eq_true, bne_iff_ne, ne_eq] <;> omega

theorem disjoint_order {a b : Factor} (h : a.disjoint b = true) : a.order ≠ b.order := by
  cases a <;> cases b <;> simp_all [disjoint, order]

theorem disjoint_irrefl (a : Factor) : a.disjoint a = false := by cases a <;> simp [disjoint]

theorem disjoint_ne {a b : Factor} (h : a.disjoint b = true) : a ≠ b := by
  rintro rfl; rw [disjoint_irrefl] at h; cases h

theorem pcmp_disjoint {a b : Factor} (h : a.disjoint b = true) : pcmp a b = some (compare a.order b.order) := by
  unfold pcmp; rw [if_neg (disjoint_ne h), h]; simp

theorem pcmp_not {a b : Factor} (hne : a ≠ b) (h : a.disjoint b = false) : pcmp a b = none := by
  unfold pcmp; rw [if_neg hne, h]; simp

theorem lt_iff {a b : Factor} : lt a b = true ↔ Bef a b := by
  unfold lt Bef
  by_cases e : a = b
  · subst e; simp [pcmp]
  · cases h : a.disjoint b
    · rw [pcmp_not e h]; simp
    · rw [pcmp_disjoint h]
      simp [Nat.compare_eq_lt]

theorem gt_eq (a b : Factor) : gt a b = lt b a := by
  rw [Bool.eq_iff_iff, lt_iff]
  unfold gt Bef
  rw [disjoint_comm b a]
  by_cases e : a = b
  · subst e; simp [pcmp]
  · cases h : a.disjoint b
    · rw [pcmp_not e h]; simp
    · rw [pcmp_disjoint h]
      simp [Nat.compare_eq_gt]

/-- the factors of a cell are pairwise disjoint and sorted -/
abbrev Valid (c : List Factor) : Prop := c.Pairwise Bef

abbrev Disjoint (c : List Factor) : Prop := c.Pairwise (fun a b => a.disjoint b = true)

theorem Valid.disjoint {c : List Factor} (h : Valid c) : Disjoint c := h.imp (fun h => h.1)

theorem Disjoint.perm {c c' : List Factor} (h : Disjoint c) (hp : c.Perm c') : Disjoint c' :=
  hp.pairwise h (fun {a b} h => by rw [disjoint_comm]; exact h)

theorem Disjoint.nodup {c : List Factor} (h : Disjoint c) : c.Nodup := h.imp disjoint_ne

/-! ### sorting -/

theorem insRev_perm (x : Factor) (l : List Factor) : (insRev x l).Perm (x :: l) := by
  induction l with
  | nil => exact .refl _
  | cons y ys ih =>
    unfold insRev
    split
    · exact (ih.cons y).trans (.swap x y ys)
    · exact .refl _

theorem insRev_sorted (x : Factor) (l : List Factor) (hd : ∀ y ∈ l, x.disjoint y = true) (h : l.Pairwise (fun a b => Bef b a)) :
    (insRev x l).Pairwise (fun a b => Bef b a) := by
  induction l with
  | nil => simp [insRev]
  | cons y ys ih =>
    rw [List.pairwise_cons] at h
    unfold insRev
    split
    · rename_i hxy
      rw [List.pairwise_cons]
      refine ⟨?_, ih (fun z hz => hd z (by simp [hz])) h.2⟩
      intro z hz
      rcases List.mem_cons.mp ((insRev_perm x ys).mem_iff.mp hz) with rfl | hz
      · exact lt_iff.mp hxy
      · exact h.1 z hz
    · rename_i hxy
      have hy : Bef y x := by
        have hd' := hd y (by simp)
        refine ⟨by rw [disjoint_comm]; exact hd', ?_⟩
        have hne := disjoint_order hd'
        by_contra hh
        exact hxy (lt_iff.mpr ⟨hd', by omega⟩)
      rw [List.pairwise_cons]
      refine ⟨?_, List.pairwise_cons.mpr h⟩
      intro z hz
      rcases List.mem_cons.mp hz with rfl | hz'
      · exact hy
      · have h1 := h.1 z hz'
        refine ⟨?_, by have := h1.2; have := hy.2; omega⟩
        rw [disjoint_comm]; exact hd z (by simp [hz'])

theorem foldl_ins (c acc : List Factor) : (c.foldl (fun acc x => insRev x acc) acc).Perm (c ++ acc) ∧
    (Disjoint (c ++ acc) → acc.Pairwise (fun a b => Bef b a) → (c.foldl (fun acc x => insRev x acc) acc).Pairwise (fun a b => Bef b a)) := by
  induction c generalizing acc with
  | nil => exact ⟨.refl _, fun _ h => h⟩
  | cons x c ih =>
    obtain ⟨h1, h2⟩ := ih (insRev x acc)
    have hp : (c ++ insRev x acc).Perm (x :: c ++ acc) := ((insRev_perm x acc).append_left c).trans (List.perm_middle)
    refine ⟨h1.trans hp, fun hd hs => h2 (hd.perm hp.symm) ?_⟩
    refine insRev_sorted x acc ?_ hs
    intro y hy
    exact (List.pairwise_cons.mp hd).1 y (by simp [hy])

theorem sort_perm (c : List Factor) : (sort c).Perm c := by
  unfold sort
  have := (foldl_ins c []).1
  rw [List.append_nil] at this
  exact (List.reverse_perm _).trans this

theorem sort_valid {c : List Factor} (h : Disjoint c) : Valid (sort c) := by
  unfold sort Valid
  rw [List.pairwise_reverse]
  exact (foldl_ins c []).2 (by simpa using h) .nil

theorem Valid.eq_of_perm {c c' : List Factor} (h : Valid c) (h' : Valid c') (hp : c.Perm c') : c = c' := by
  refine List.Perm.eq_of_pairwise (le := Bef) ?_ h h' hp
  intro a b _ _ h1 h2
  have := h1.2; have := h2.2; omega

theorem sort_eq_iff {c e : List Factor} (h : Disjoint c) (he : Valid e) : sort c = e ↔ c.Perm e := by
  constructor
  · rintro rfl; exact (sort_perm c).symm
  · intro hp; exact (sort_valid h).eq_of_perm he ((sort_perm c).trans hp)

theorem sort_valid_eq {c : List Factor} (h : Valid c) : sort c = c := (sort_eq_iff h.disjoint h).mpr (.refl _)

/-! ### the enumeration of cells -/

/-- the boundary test, without panic -/
def keepB (b : Nat) : Factor → Bool
  | .vertex v => decide (v < b)
  | .edge x y => if y = x + 1 then decide (y < b) else true

/-- vertices below `n`, and edges with the smaller end first -/
def InRange (n : Nat) : Factor → Prop
  | .vertex x => x < n
  | .edge x y => x < y ∧ y < n

theorem keep_eq {n b : Nat} {f : Factor} (h : InRange n f) : keep b f = some (keepB b f) := by
  cases f with
  | vertex v =>
    simp only [keep, longEdge, isEdge, keepB]
    simp only [Bool.false_eq_true, if_false, Option.bind_eq_bind, Option.bind_some, Bool.false_or]
    congr 1
    rw [Bool.eq_iff_iff, Bool.and_eq_true, lt_iff, decide_eq_true_iff]
    unfold Bef
    simp only [disjoint, order]
    constructor
    · rintro ⟨_, _, h⟩; exact h
    · intro h; have : (v != b) = true := by simp; omega
      exact ⟨this, this, h⟩
  | edge x y =>
    obtain ⟨h1, h2⟩ := h
    have hc : csub y x = some (y - x) := by unfold csub; rw [if_pos (by omega)]
    simp only [keep, longEdge, isEdge, isOrderRespecting, hc, keepB]
    simp only [if_true, Option.map_some, Option.bind_eq_bind, Option.bind_some]
    congr 1
    by_cases hy : y = x + 1
    · have e : (!(y - x == 1)) = false := by simp; omega
      rw [e, if_pos hy]
      simp only [Bool.false_or]
      rw [Bool.eq_iff_iff, Bool.and_eq_true, lt_iff, decide_eq_true_iff]
      unfold Bef
      simp only [disjoint, order, Bool.and_eq_true, bne_iff_ne, ne_eq]
      omega
    · have e : (!(y - x == 1)) = true := by simp; omega
      rw [e, if_neg hy]; rfl

theorem filterO_some {p : Factor → Option Bool} {q : Factor → Bool} {l : List Factor} (h : ∀ f ∈ l, p f = some (q f)) : filterO p l = some (l.filter q) := by
  induction l with
  | nil => rfl
  | cons f fs ih =>
    unfold filterO
    rw [h f (by simp), ih (fun f hf => h f (by simp [hf]))]
    simp only [Option.bind_eq_bind, Option.bind_some, List.filter_cons]
    rfl

/-- the factors with which a prefix is continued, `r` more to come after it -/
def conts (n : Nat) (pool : List Factor) (P : List Factor) (r : Nat) : List Factor :=
  pool.filter (fun f => keepB (n - r) f && (P.all (fun x => x.disjoint f) && (P.getLast?.all (fun x => lt x f))))

/-- all continuations of a prefix by `r` factors -/
def ext (n : Nat) (pool : List Factor) : Nat → List Factor → List (List Factor)
  | 0, P => [P]
  | r + 1, P => (conts n pool P r).flatMap (fun f => ext n pool r (P ++ [f]))

theorem room {n : Nat} {l : List Nat} (h : l.Pairwise (· < ·)) (hn : ∀ x ∈ l, x < n) {m : Nat} (hm : ∀ x ∈ l, m < x) (hmn : m < n) : m + l.length < n := by
  induction l generalizing m with
  | nil => simpa using hmn
  | cons x l ih =>
    rw [List.pairwise_cons] at h
    have := ih h.2 (fun y hy => hn y (by simp [hy])) (m := x) h.1 (hn x (by simp))
    have := hm x (by simp)
    simp only [List.length_cons]; omega

theorem order_lt {n : Nat} {f : Factor} (h : InRange n f) : f.order < n := by
  cases f with
  | vertex x => exact h
  | edge x y => obtain ⟨h1, h2⟩ := h; show x < n; omega

/-- the pruning by the boundary vertex loses no cell -/
theorem keepB_of_valid {n : Nat} {f : Factor} {t : List Factor} (hv : Valid (f :: t)) (hr : ∀ x ∈ f :: t, InRange n x) : keepB (n - t.length) f = true := by
  rw [Valid, List.pairwise_cons] at hv
  have hs : (t.map order).Pairwise (· < ·) := by
    rw [List.pairwise_map]; exact hv.2.imp (fun h => h.2)
  have hn : ∀ x ∈ t.map order, x < n := by
    intro x hx
    obtain ⟨f', hf', rfl⟩ := List.mem_map.mp hx
    exact order_lt (hr f' (by simp [hf']))
  cases f with
  | vertex v =>
    have hv' : v < n := hr (.vertex v) (by simp)
    have := room hs hn (m := v) (by
      intro x hx
      obtain ⟨f', hf', rfl⟩ := List.mem_map.mp hx
      exact (hv.1 f' hf').2) hv'
    rw [List.length_map] at this
    simp only [keepB, decide_eq_true_eq]; omega
  | edge x y =>
    obtain ⟨h1, h2⟩ : x < y ∧ y < n := hr (.edge x y) (by simp)
    show (if y = x + 1 then decide (y < n - t.length) else true) = true
    split
    · rename_i hy
      have := room hs hn (m := y) (by
        intro z hz
        obtain ⟨f', hf', rfl⟩ := List.mem_map.mp hz
        obtain ⟨k1, k2⟩ := hv.1 f' hf'
        have k2 : x < f'.order := k2
        have : f'.order ≠ y := by
          cases f' <;> simp [disjoint, order] at k1 ⊢ <;> omega
        omega) h2
      rw [List.length_map] at this
      simp only [decide_eq_true_eq]; omega
    · rfl

theorem valid_snoc {P : List Factor} {f : Factor} : Valid (P ++ [f]) ↔ Valid P ∧ ∀ x ∈ P, Bef x f := by
  unfold Valid
  rw [List.pairwise_append]
  simp

theorem bef_last {P : List Factor} {f : Factor} (hP : Valid P) : (∀ x ∈ P, Bef x f) ↔
    ((P.all (fun x => x.disjoint f) && (P.getLast?.all (fun x => lt x f))) = true) := by
  rw [Bool.and_eq_true, List.all_eq_true]
  constructor
  · intro h
    refine ⟨fun x hx => (h x hx).1, ?_⟩
    cases hl : P.getLast? with
    | none => rfl
    | some x => exact lt_iff.mpr (h x (List.mem_of_getLast? hl))
  · rintro ⟨h1, h2⟩ x hx
    refine ⟨h1 x hx, ?_⟩
    obtain ⟨Q, z, rfl⟩ : ∃ Q z, P = Q ++ [z] := by
      rcases List.eq_nil_or_concat P with e | ⟨Q, z, e⟩
      · subst e; simp at hx
      · exact ⟨Q, z, by simpa using e⟩
    have hz : Bef z f := by
      simp only [List.getLast?_append, List.getLast?_singleton, Option.some_or, Option.all_some] at h2
      exact lt_iff.mp h2
    rcases List.mem_append.mp hx with hx | hx
    · have := (valid_snoc.mp hP).2 x hx
      have := this.2; have := hz.2; omega
    · rw [List.mem_singleton] at hx; subst hx; exact hz.2

theorem mem_conts {n : Nat} {pool P : List Factor} {r : Nat} {f : Factor} (hP : Valid P) :
    f ∈ conts n pool P r ↔ f ∈ pool ∧ keepB (n - r) f = true ∧ ∀ x ∈ P, Bef x f := by
  unfold conts
  rw [List.mem_filter, bef_last hP, Bool.and_eq_true]

theorem mem_ext {n : Nat} {pool : List Factor} (hpool : ∀ f ∈ pool, InRange n f) (r : Nat) (P : List Factor) (hP : Valid P) (c : List Factor) :
    c ∈ ext n pool r P ↔ ∃ t, c = P ++ t ∧ t.length = r ∧ Valid c ∧ ∀ f ∈ t, f ∈ pool := by
  induction r generalizing P with
  | zero =>
    unfold ext
    rw [List.mem_singleton]
    constructor
    · rintro rfl; exact ⟨[], by simp, rfl, hP, by simp⟩
    · rintro ⟨t, rfl, h, -⟩
      rw [List.length_eq_zero_iff] at h; subst h; simp
  | succ r ih =>
    unfold ext
    rw [List.mem_flatMap]
    constructor
    · rintro ⟨f, hf, hc⟩
      rw [mem_conts hP] at hf
      obtain ⟨t, h1, h2, h3, h4⟩ := (ih (P ++ [f]) (valid_snoc.mpr ⟨hP, hf.2.2⟩)).mp hc
      refine ⟨f :: t, by simpa using h1, by simp [h2], h3, ?_⟩
      intro x hx
      rcases List.mem_cons.mp hx with rfl | hx
      · exact hf.1
      · exact h4 x hx
    · rintro ⟨t, rfl, h2, h3, h4⟩
      cases t with
      | nil => simp at h2
      | cons f t =>
        have hl : t.length = r := by simpa using h2
        have h5 : Valid (P ++ [f] ++ t) := by simpa using h3
        have h6 : Valid (P ++ [f]) := (List.pairwise_append.mp h5).1
        refine ⟨f, ?_, ?_⟩
        · rw [mem_conts hP]
          refine ⟨h4 f (by simp), ?_, (valid_snoc.mp h6).2⟩
          rw [← hl]
          exact keepB_of_valid (List.pairwise_append.mp h3).2.1 (fun x hx => hpool x (h4 x hx))
        · rw [ih _ h6]
          exact ⟨t, by simp, hl, by simpa using h3, fun x hx => h4 x (by simp [hx])⟩

theorem ext_prefix {n : Nat} {pool : List Factor} (r : Nat) (P c : List Factor) (h : c ∈ ext n pool r P) : P <+: c := by
  induction r generalizing P with
  | zero => unfold ext at h; rw [List.mem_singleton] at h; subst h; exact List.prefix_rfl
  | succ r ih =>
    unfold ext at h
    obtain ⟨f, -, hc⟩ := List.mem_flatMap.mp h
    exact (List.prefix_append P [f]).trans (ih _ hc)

theorem ext_nodup {n : Nat} {pool : List Factor} (hpool : pool.Nodup) (r : Nat) (P : List Factor) : (ext n pool r P).Nodup := by
  induction r generalizing P with
  | zero => simp [ext]
  | succ r ih =>
    unfold ext
    rw [List.nodup_flatMap]
    refine ⟨fun f _ => ih _, ?_⟩
    refine (hpool.filter _).imp ?_
    intro a b hab c h1 h2
    have p1 := ext_prefix r _ c h1
    have p2 := ext_prefix r _ c h2
    have : P ++ [a] = P ++ [b] := (List.prefix_of_prefix_length_le p1 p2 (by simp)).eq_of_length (by simp)
    simp at this
    exact hab this

end Toppo.Cub
