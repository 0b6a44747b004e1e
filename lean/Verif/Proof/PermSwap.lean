import Verif.Proof.Permutation
set_option linter.unusedSimpArgs false

/-! Helper lemmas for `Permutation::swap` (C23), the vector action (C22) and built permutations (C16-C18). -/
namespace Toppo
namespace Permutation

theorem mk_pair {a b : Nat} (h : a < b) : Cycle.mk [a, b] = some [a, b] := by
  unfold Cycle.mk
  have hn : ([a, b] : List Nat).Nodup := by simp; omega
  rw [(Cycle.isValid_iff _).mpr hn]
  unfold Cycle.bringSmallestFirst
  have : ([a, b] : List Nat).min? = some a := by simp [List.min?_cons]; omega
  rw [this]; simp

/-- The function of `swapSame`. -/
def sameFn (a c n x : Nat) : Nat :=
  if a ≤ x ∧ x < a + n then c + (x - a) else if c ≤ x ∧ x < c + n then a + (x - c) else x

theorem swapSame_list (a c n : Nat) (h : a + n ≤ c) :
    swapSame (a, a + n) (c, c + n) = some ((List.range n).map (fun i => [a + i, c + i])) := by
  unfold swapSame
  simp only
  rw [if_neg (by omega), if_neg (by omega), if_neg (by omega)]
  have e1 : a + n - a = n := by omega
  have e2 : c + n - c = n := by omega
  rw [e1, e2]
  have hz : (List.range' a n).zip (List.range' c n) = (List.range n).map (fun i => (a + i, c + i)) := by
    rw [List.range'_eq_map_range, List.range'_eq_map_range, List.zip_map']
  rw [hz, List.mapM_map]
  have : ∀ l : List Nat, (∀ i ∈ l, i < n) →
      l.mapM ((fun ij : Nat × Nat => Cycle.mk [ij.1, ij.2]) ∘ fun i => (a + i, c + i)) =
        some (l.map (fun i => [a + i, c + i])) := by
    intro l
    induction l with
    | nil => intro _; rfl
    | cons i is ih =>
      intro hl
      have hi := hl i List.mem_cons_self
      rw [List.mapM_cons, ih (fun j hj => hl j (List.mem_cons_of_mem _ hj))]
      simp only [Function.comp]
      rw [mk_pair (by omega)]
      rfl
  exact this _ (fun i hi => List.mem_range.mp hi)

theorem swapSame_canon (a c n : Nat) (h : a + n ≤ c) (hn : 0 < n) :
    Canon ((List.range n).map (fun i => [a + i, c + i])) := by
  refine ⟨by simp; omega, ?_, ?_, ?_⟩
  · intro cy hc
    obtain ⟨i, hi, rfl⟩ := List.mem_map.mp hc
    have := List.mem_range.mp hi
    refine ⟨by simp, ?_⟩
    intro x hx; simp at hx ⊢; omega
  · rw [List.nodup_flatten]
    constructor
    · intro l hl
      obtain ⟨i, hi, rfl⟩ := List.mem_map.mp hl
      have := List.mem_range.mp hi
      simp; omega
    · rw [List.pairwise_map]
      refine (List.pairwise_lt_range (n := n)).imp_of_mem ?_
      intro i j hi hj hij
      have := List.mem_range.mp hi
      have := List.mem_range.mp hj
      intro x hx hy
      simp at hx hy; omega
  · rw [List.pairwise_map]
    refine (List.pairwise_lt_range (n := n)).imp ?_
    intro i j hij; simp; omega

theorem cycle_pair_map {a b : Nat} (h : a < b) : Cycle.map [a, b] a = b ∧ Cycle.map [a, b] b = a := by
  have hn : ([a, b] : List Nat).Nodup := by simp; omega
  have h0 := Cycle.map_getElem (c := [a, b]) hn 0 (by simp)
  have h1 := Cycle.map_getElem (c := [a, b]) hn 1 (by simp)
  exact ⟨by simpa using h0, by simpa using h1⟩

theorem swapSame_spec (a c n : Nat) (h : a + n ≤ c) (hn : 0 < n) :
    ∃ p, swapSame (a, a + n) (c, c + n) = some p ∧ Canon p ∧ ∀ x, map p x = sameFn a c n x := by
  refine ⟨_, swapSame_list a c n h, swapSame_canon a c n h hn, ?_⟩
  have hc := swapSame_canon a c n h hn
  intro x
  unfold sameFn
  split
  · rename_i hx
    have hm : [a + (x - a), c + (x - a)] ∈ (List.range n).map (fun i => [a + i, c + i]) :=
      List.mem_map.mpr ⟨x - a, List.mem_range.mpr (by omega), rfl⟩
    rw [map_mem_aux _ hc.2.2.1 _ hm x (by simp; omega)]
    have := (cycle_pair_map (a := a + (x - a)) (b := c + (x - a)) (by omega)).1
    rwa [show a + (x - a) = x by omega] at this ⊢
  · split
    · rename_i h1 hx
      have hm : [a + (x - c), c + (x - c)] ∈ (List.range n).map (fun i => [a + i, c + i]) :=
        List.mem_map.mpr ⟨x - c, List.mem_range.mpr (by omega), rfl⟩
      rw [map_mem_aux _ hc.2.2.1 _ hm x (by simp; omega)]
      have := (cycle_pair_map (a := a + (x - c)) (b := c + (x - c)) (by omega)).2
      rwa [show c + (x - c) = x by omega] at this ⊢
    · rename_i h1 h2
      apply map_not_mem
      intro hx
      obtain ⟨l, hl, hxl⟩ := List.mem_flatten.mp hx
      obtain ⟨i, hi, rfl⟩ := List.mem_map.mp hl
      have := List.mem_range.mp hi
      simp at hxl; omega

/-- The exchange of the blocks `[a,b)` and `[c,d)`, `b ≤ c`. -/
def blockFn (a b c d x : Nat) : Nat :=
  if x < a then x
  else if x < b then x + (d - b)
  else if x < c then a + (d - c) + (x - b)
  else if x < d then a + (x - c)
  else x

theorem swap_ordered : ∀ (fuel a b c d : Nat), a < b → b ≤ c → c < d → d - a < fuel →
    ∃ p, swap fuel (a, b) (c, d) = some p ∧ Valid p ∧ ∀ x, map p x = blockFn a b c d x := by
  intro fuel
  induction fuel with
  | zero => intro a b c d _ _ _ h; omega
  | succ fuel ih =>
    intro a b c d hab hbc hcd hf
    unfold swap
    simp only
    rw [if_neg (by omega), if_neg (by omega), if_neg (by omega)]
    by_cases h1 : b - a < d - c
    · rw [if_pos h1]
      obtain ⟨p, hp, hpv, hpm⟩ := ih a c c (d - (b - a)) (by omega) (le_refl _) (by omega) (by omega)
      obtain ⟨q, hq, hqv, hqm⟩ := swapSame_spec a (d - (b - a)) (b - a) (by omega) (by omega)
      rw [show a + (b - a) = b by omega, show d - (b - a) + (b - a) = d by omega] at hq
      rw [hp, hq]
      obtain ⟨r, hr, hrv, hrm⟩ := mul_spec hpv (Or.inr hqv)
      refine ⟨r, hr, hrv, ?_⟩
      intro x
      rw [hrm, hpm, hqm]
      unfold blockFn sameFn
      split_ifs <;> omega
    · rw [if_neg h1]
      by_cases h2 : b - a > d - c
      · rw [if_pos h2]
        obtain ⟨p, hp, hpv, hpm⟩ := ih (a + (d - c)) b b d (by omega) (le_refl _) (by omega) (by omega)
        obtain ⟨q, hq, hqv, hqm⟩ := swapSame_spec a c (d - c) (by omega) (by omega)
        rw [show c + (d - c) = d by omega] at hq
        rw [hp, hq]
        obtain ⟨r, hr, hrv, hrm⟩ := mul_spec hpv (Or.inr hqv)
        refine ⟨r, hr, hrv, ?_⟩
        intro x
        rw [hrm, hpm, hqm]
        unfold blockFn sameFn
        split_ifs <;> omega
      · rw [if_neg h2]
        obtain ⟨q, hq, hqv, hqm⟩ := swapSame_spec a c (b - a) (by omega) (by omega)
        rw [show a + (b - a) = b by omega, show c + (b - a) = d by omega] at hq
        refine ⟨q, hq, Or.inr hqv, ?_⟩
        intro x
        rw [hqm]
        unfold blockFn sameFn
        split_ifs <;> omega

/-- A non-empty `r2` directly before a non-empty `r1` always panics. -/
theorem swap_touching (fuel a b c : Nat) (hca : c < a) (hab : a < b) : swap fuel (a, b) (c, a) = none := by
  -- helper: inverted second range
  have inv2 : ∀ fuel r1 r2, r2.2 < r2.1 → ¬ r2.2 < r1.1 → swap fuel r1 r2 = none := by
    intro fuel r1 r2 h1 h2
    cases fuel with
    | zero => rfl
    | succ fuel =>
      unfold swap
      simp only
      split
      · rfl
      · rw [if_pos (Or.inr h1)]
  have inv1 : ∀ fuel r1 r2, r1.2 < r1.1 → ¬ r2.2 < r1.1 → swap fuel r1 r2 = none := by
    intro fuel r1 r2 h1 h2
    cases fuel with
    | zero => rfl
    | succ fuel =>
      unfold swap
      simp only
      split
      · rfl
      · rw [if_pos (Or.inl h1)]
  cases fuel with
  | zero => rfl
  | succ fuel =>
    unfold swap
    simp only
    rw [if_neg (by omega), if_neg (by omega), if_neg (by omega)]
    by_cases h1 : b - a < a - c
    · rw [if_pos h1]
      have : swap fuel (a, c) (c, a - (b - a)) = none := by
        cases fuel with
        | zero => rfl
        | succ fuel =>
          unfold swap
          simp only
          rw [if_neg (by omega), if_pos (by omega)]
          exact inv2 fuel _ _ (by simp; omega) (by simp)
      rw [this]; rfl
    · rw [if_neg h1]
      by_cases h2 : b - a > a - c
      · rw [if_pos h2]
        have : swap fuel (a + (a - c), b) (b, a) = none := by
          cases fuel with
          | zero => rfl
          | succ fuel =>
            unfold swap
            simp only
            rw [if_neg (by omega), if_pos (by omega)]
            exact inv1 fuel _ _ (by simp; omega) (by simp)
        rw [this]; rfl
      · rw [if_neg h2]
        unfold swapSame
        simp only
        rw [if_neg (by omega), if_pos (by omega)]

theorem mul_nil_right (p : Permutation) : mul p [] = none := by
  unfold mul; rfl

/-- An empty first or second range never returns a permutation, unless both are empty. -/
theorem swap_empty_left (fuel a c d : Nat) (hac : a ≤ c) (hcd : c < d) : swap fuel (a, a) (c, d) = none := by
  cases fuel with
  | zero => rfl
  | succ fuel =>
    unfold swap
    simp only
    rw [if_neg (by omega), if_neg (by omega), if_neg (by omega), if_pos (by omega)]
    cases h : swap fuel (a, c) (c, d - (a - a)) with
    | none => rfl
    | some p =>
      have : swapSame (a, a) (d - (a - a), d) = some [] := by
        have := swapSame_list a d 0 (by omega)
        simpa using this
      rw [this]
      simp [mul_nil_right]

theorem swap_empty_right (fuel a b c : Nat) (hab : a < b) (hbc : b ≤ c) : swap fuel (a, b) (c, c) = none := by
  cases fuel with
  | zero => rfl
  | succ fuel =>
    unfold swap
    simp only
    rw [if_neg (by omega), if_neg (by omega), if_neg (by omega), if_neg (by omega), if_pos (by omega)]
    cases h : swap fuel (a + (c - c), b) (b, c) with
    | none => rfl
    | some p =>
      have : swapSame (a, a + (c - c)) (c, c) = some [] := by
        have := swapSame_list a c 0 (by omega)
        simpa using this
      rw [this]
      simp [mul_nil_right]

/-! ### constructors -/

theorem fromDisjoint_valid {cs p} (hg : ∀ c ∈ cs, c = [] ∨ GoodCycle c) (h : fromDisjointCycles cs = some p) :
    cs.flatten.Nodup := by
  have hfl : ∀ l : List Cycle, (l.filter (fun c => !c.isEmpty)).flatten = l.flatten := by
    intro l
    induction l with
    | nil => rfl
    | cons a as ih =>
      cases a with
      | nil => simpa using ih
      | cons x xs => simp [List.filter_cons, ih]
  unfold fromDisjointCycles at h
  simp only at h
  rw [← hfl cs]
  by_cases he : (cs.filter (fun c => !c.isEmpty)) = []
  · rw [he]; simp
  · set l := cs.filter (fun c => !c.isEmpty) with hl
    have hle : l.isEmpty = false := by rw [List.isEmpty_eq_false_iff]; exact he
    rw [hle] at h
    simp only [Bool.false_eq_true, if_false] at h
    have hperm : (sortCycles l).Perm l := sortCycles_perm l
    have hne : sortCycles l ≠ [] := by
      intro h; rw [h] at hperm; exact he hperm.nil_eq.symm
    have hcn : ∀ c ∈ sortCycles l, c ≠ [] := by
      intro c hc
      have := hperm.mem_iff.mp hc
      rw [hl, List.mem_filter] at this
      rintro rfl; simp at this
    rw [isValid, Permutation.unfixed_eq hne hcn] at h
    rw [← (List.Perm.flatten hperm).nodup_iff, ← Cycle.isValid_iff]
    simp only [Option.map_some] at h
    split at h
    · rename_i h'; exact Option.some.inj h'
    · cases h

theorem mk_good {v c} (h : Cycle.mk v = some c) : c = [] ∨ (GoodCycle c ∧ c.Nodup) := by
  by_cases h1 : v.length = 1
  · unfold Cycle.mk at h; rw [if_pos h1] at h; injection h with h; exact Or.inl h.symm
  · by_cases hn : v.Nodup
    · by_cases h0 : v = []
      · subst h0
        simp [Cycle.mk, Cycle.isValidLoop, Cycle.bringSmallestFirst] at h
      · have h2 : 2 ≤ v.length := by
          have := List.length_pos_iff.mpr h0; omega
        obtain ⟨n, c', e, er, m, cs, em, hmin⟩ := Cycle.mk_spec_long v h2 hn
        rw [h] at e; injection e with e; subst e
        refine Or.inr ⟨⟨by rw [er]; simpa using h2, ?_⟩, by rw [er]; exact List.nodup_rotate.mpr hn⟩
        rw [em] at hmin ⊢; simpa using hmin
    · exfalso
      unfold Cycle.mk at h
      rw [if_neg h1] at h
      have : Cycle.isValidLoop [] v = false := by
        rw [Bool.eq_false_iff]; intro h'; exact hn ((Cycle.isValid_iff v).mp h')
      rw [this] at h; simp at h

theorem fromCycle_valid {c} (h : c = [] ∨ (GoodCycle c ∧ c.Nodup)) : Valid (fromCycle c) := by
  rcases h with rfl | ⟨h1, h2⟩
  · exact Or.inl rfl
  · refine Or.inr ⟨by simp [fromCycle], ?_, by simpa [fromCycle] using h2, by simp [fromCycle]⟩
    intro d hd; rw [fromCycle, List.mem_singleton] at hd; subst hd; exact h1

theorem cyclicFrom_good (lo hi) : Cycle.cyclicFrom lo hi = [] ∨
    (GoodCycle (Cycle.cyclicFrom lo hi) ∧ (Cycle.cyclicFrom lo hi).Nodup) := by
  unfold Cycle.cyclicFrom
  simp only
  split
  · exact Or.inl rfl
  · rename_i h
    simp only [List.length_range'] at h
    by_cases h0 : hi - lo = 0
    · left; rw [h0]; rfl
    · right
      refine ⟨⟨by simp; omega, ?_⟩, List.nodup_range'⟩
      obtain ⟨k, hk⟩ : ∃ k, hi - lo = k + 1 := ⟨hi - lo - 1, by omega⟩
      rw [hk]
      intro x hx
      rw [List.mem_range'_1] at hx
      rw [List.range'_succ]; simp; omega

theorem mapM_mem {α β} {f : α → Option β} : ∀ {l : List α} {r : List β}, l.mapM f = some r → ∀ b ∈ r, ∃ a ∈ l, f a = some b
  | [], r, h, b, hb => by
    have : r = [] := by simpa using h.symm
    subst this; simp at hb
  | x :: xs, r, h, b, hb => by
    rw [List.mapM_cons] at h
    cases hx : f x with
    | none => simp [hx] at h
    | some y =>
      cases hxs : xs.mapM f with
      | none => simp [hx, hxs] at h
      | some ys =>
        simp [hx, hxs] at h
        subst h
        rcases List.mem_cons.mp hb with rfl | hb
        · exact ⟨x, by simp, hx⟩
        · obtain ⟨a, ha, e⟩ := mapM_mem hxs b hb
          exact ⟨a, List.mem_cons_of_mem _ ha, e⟩

/-! ### action -/

theorem vecSwap_spec {α : Type} (v : List α) (i j : Nat) (hi : i < v.length) (hj : j < v.length) :
    ∃ v', vecSwap v i j = some v' ∧ v'.length = v.length ∧ ∀ k, v'[swapFn i j k]? = v[k]? := by
  refine ⟨(v.set i v[j]).set j v[i], ?_, by simp, ?_⟩
  · unfold vecSwap
    rw [List.getElem?_eq_getElem hi, List.getElem?_eq_getElem hj]; rfl
  · intro k
    unfold swapFn
    split
    · rename_i h; subst h
      rw [List.getElem?_set_self (by simpa using hj)]
      rw [List.getElem?_eq_getElem hi]
    · split
      · rename_i h1 h2; subst h2
        rw [List.getElem?_set_ne h1, List.getElem?_set_self (by simpa using hi),
          List.getElem?_eq_getElem hj]
      · rename_i h1 h2
        rw [List.getElem?_set_ne (by omega), List.getElem?_set_ne (by omega)]

theorem genAction_spec {α : Type} (v : List α) {g a b} (hg : IsTransp g a b) (hb : b < v.length) :
    ∃ v', genActionBy v g = some v' ∧ v'.length = v.length ∧ ∀ k, v'[map g k]? = v[k]? := by
  unfold genActionBy
  have hc : Canon g := by rw [hg.2]; exact transp_canon hg.1
  rw [if_neg hc.ne_identity, Valid.unfixed_eq (Or.inr hc)]
  have : g.flatten = [a, b] := by rw [hg.2]; simp
  rw [this]
  obtain ⟨v', h1, h2, h3⟩ := vecSwap_spec v a b (by have := hg.1; omega) hb
  exact ⟨v', h1, h2, fun k => by rw [hg.map, h3]⟩

theorem foldAction_spec {α : Type} : ∀ (gens : List Permutation) (v : List α),
    (∀ g ∈ gens, ∃ a b, IsTransp g a b ∧ b < v.length) →
    ∃ v', gens.foldlM genActionBy v = some v' ∧ v'.length = v.length ∧
      ∀ k, v'[gens.foldl (fun y g => map g y) k]? = v[k]?
  | [], v, _ => ⟨v, rfl, rfl, fun _ => rfl⟩
  | g :: gs, v, h => by
    obtain ⟨a, b, hg, hb⟩ := h g List.mem_cons_self
    obtain ⟨w, h1, h2, h3⟩ := genAction_spec v hg hb
    obtain ⟨v', h4, h5, h6⟩ := foldAction_spec gs w (fun g' hg' => by
      rw [h2]; exact h g' (List.mem_cons_of_mem _ hg'))
    refine ⟨v', ?_, by rw [h5, h2], ?_⟩
    · rw [List.foldlM_cons, h1]; exact h4
    · intro k
      rw [List.foldl_cons, h6, h3]

/-- The generators of a stored permutation only move indices it moves. -/
theorem gens_bound {p} (h : Canon p) : ∀ g ∈ (List.map gensTail p).flatten, ∃ a b, IsTransp g a b ∧ b ∈ p.flatten := by
  intro g hg
  obtain ⟨l, hl, hgl⟩ := List.mem_flatten.mp hg
  obtain ⟨c, hc, rfl⟩ := List.mem_map.mp hl
  have hn := h.nodup hc
  have hgood := h.2.1 c hc
  match c, hc, hn, hgood with
  | [], _, _, hgood => exact absurd rfl hgood.ne_nil
  | m :: cs, hc, hn, hgood =>
    simp only [gensTail, List.tail_cons, List.headD_cons] at hgl
    obtain ⟨e, he, rfl⟩ := List.mem_map.mp hgl
    exact ⟨m, e, ⟨(gensOfCycle_spec hn hgood).2 e he, rfl⟩, List.mem_flatten_of_mem hc (List.mem_cons_of_mem _ he)⟩

theorem inTermsOfGens_canon {p} (h : Canon p) : inTermsOfGens p = some (List.map gensTail p).flatten := by
  have hc : ∀ c ∈ p, c.Nodup ∧ GoodCycle c := fun c hc => ⟨h.nodup hc, h.2.1 c hc⟩
  obtain ⟨gens, h1, _, _, _, _, h5⟩ := inTermsOfGens_spec (Or.inr h)
  unfold inTermsOfGens
  rw [if_neg h.ne_identity, mapM_gens p hc]
  simp only [Option.bind_eq_bind, Option.bind_some]
  have htr := gens_transp hc
  have hprod : product (List.map gensTail p).flatten = some p := by
    obtain ⟨r, h1, h2, h3⟩ := product_spec (List.map gensTail p).flatten
      (fun g hg => by obtain ⟨a, b, ht⟩ := htr g hg; exact ht.valid)
    rw [h1]
    congr 1
    rw [h2.eq_iff (Or.inr h)]
    intro x; rw [h3, foldl_flatten_gens p hc h.2.2.1]
  rw [hprod]; simp

theorem actionBy_spec {α : Type} (v : List α) {p} (h : Valid p) (hb : ∀ x, map p x ≠ x → x < v.length) :
    ∃ v', actionBy v p = some v' ∧ v'.length = v.length ∧ ∀ k, v'[map p k]? = v[k]? := by
  unfold actionBy
  rcases h with rfl | h
  · refine ⟨v, ?_, rfl, fun k => by rw [map_identity]⟩
    simp [inTermsOfGens, genActionBy]
  · rw [inTermsOfGens_canon h]
    simp only [Option.bind_eq_bind, Option.bind_some]
    have hc : ∀ c ∈ p, c.Nodup ∧ GoodCycle c := fun c hc => ⟨h.nodup hc, h.2.1 c hc⟩
    obtain ⟨v', h1, h2, h3⟩ := foldAction_spec (List.map gensTail p).flatten v (fun g hg => by
      obtain ⟨a, b, ht, hbm⟩ := gens_bound h g hg
      exact ⟨a, b, ht, hb b ((h.mem_iff b).mp hbm)⟩)
    exact ⟨v', h1, h2, fun k => by rw [← foldl_flatten_gens p hc h.2.2.1, h3]⟩

end Permutation
end Toppo
