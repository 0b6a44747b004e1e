import Verif.Props.Hessenberg
set_option linter.unusedVariables false

/-
The Francis step chases the bulge down the sub-diagonal of an unreduced Hessenberg matrix.
-/
namespace Toppo.RealAlg
open Finset Matrix

/-- the value of `householder_vec` when the tail does not vanish -/
theorem hvec_eval {m : Nat} {x : Nat → ℝ} (u : ℝ) (hu : 0 ≤ u) (hu2 : u * u = ∑ t ∈ range (m + 1), x t * x t) (ha : ∑ t ∈ range m, x (t + 1) * x (t + 1) ≠ 0) :
    (∀ i, i < m + 1 → (hvec m x).1 i = if i = 0 then 1 else x i / (x 0 - u)) ∧
    (hvec m x).2 = 2 * ((x 0 - u) * (x 0 - u)) / ((∑ t ∈ range m, x (t + 1) * x (t + 1)) + (x 0 - u) * (x 0 - u)) := by
  have has : ∑ k : Fin m, x ((k.succ : Fin (m + 1)) : Nat) * x ((k.succ : Fin (m + 1)) : Nat) = ∑ t ∈ range m, x (t + 1) * x (t + 1) := by
    rw [Finset.sum_range]
    rfl
  set a := ∑ t ∈ range m, x (t + 1) * x (t + 1) with had
  have ha0 : 0 ≤ a := sum_nonneg fun i _ => mul_self_nonneg _
  have hapos : 0 < a := lt_of_le_of_ne ha0 (Ne.symm ha)
  have hu3 : u * u = a + x 0 * x 0 := by
    rw [hu2, Finset.sum_range_succ']
  have hsq : Real.sqrt (a + x 0 * x 0) = u := by
    rw [← hu3]
    exact Real.sqrt_mul_self hu
  have hub : |x 0| < u := by
    rw [← Real.sqrt_mul_self_eq_abs, ← hsq]
    exact Real.sqrt_lt_sqrt (mul_self_nonneg _) (by linarith)
  have hbu' : 0 < x 0 + u := by have := neg_abs_le (x 0); linarith
  have hbu : x 0 < u := lt_of_le_of_lt (le_abs_self _) hub
  have hv0 : (if x 0 ≤ 0 then x 0 - u else -a / (x 0 + u)) = x 0 - u := by
    split
    · rfl
    · rw [div_eq_iff hbu'.ne']; linear_combination hu3
  have heq : householderVec (n := m) (fun i => x i) = (fun i => Function.update (fun i : Fin (m + 1) => x i) 0 (x 0 - u) i / (x 0 - u), 2 * ((x 0 - u) * (x 0 - u)) / (a + (x 0 - u) * (x 0 - u))) := by
    simp only [householderVec, has, Fin.val_zero]
    rw [if_neg (by simp [ha]), if_neg (by simp [ha]), hsq, hv0]
  constructor
  · intro i hi
    by_cases h0 : i = 0
    · subst h0
      rw [if_pos rfl]
      exact hvec_zero m x
    · rw [if_neg h0]
      simp only [hvec, hi, dif_pos, heq]
      rw [Function.update_of_ne (by intro h8; exact h0 (congrArg Fin.val h8))]
  · simp only [hvec, heq]

/-- when the last entry does not vanish, the last entry of the vector and the factor do not vanish either -/
theorem hvec_last {m : Nat} {x : Nat → ℝ} (hm : 0 < m) (hx : x m ≠ 0) : GoodVec m x ∧ (hvec m x).1 m ≠ 0 ∧ (hvec m x).2 ≠ 0 := by
  have h1 : GoodVec m x := by
    rintro ⟨h, -⟩
    apply hx
    have := h (m - 1) (by omega)
    rwa [show m - 1 + 1 = m by omega] at this
  have h2 := (hvec_good h1).2 m (by omega)
  rw [if_neg (by omega)] at h2
  have h3 : (hvec m x).1 m * (∑ t ∈ range (m + 1), (hvec m x).1 t * x t) * (hvec m x).2 ≠ 0 := by
    intro h
    rw [h, sub_zero] at h2
    exact hx h2
  exact ⟨h1, fun h => h3 (by rw [h]; ring), fun h => h3 (by rw [h]; ring)⟩

/-- the vector of the first three coordinates -/
def vec3 (f : FState) : Nat → ℝ := fun t => if t = 0 then f.x else if t = 1 then f.y else f.z

/-- zero below the sub-diagonal, except for the bulge below column `k - 1` -/
def Bulge (n k : Nat) (A : RM) : Prop := ∀ i j, i < n → j + 1 < i → ¬ (1 ≤ k ∧ k ≤ j + 1 ∧ i ≤ k + 2) → A i j = 0

/-- the state before round `k` -/
structure FInv (n k : Nat) (A0 : RM) (f : FState) : Prop where
  shape : Bulge n k f.a
  sub : ∀ j, k + 2 ≤ j → f.a (j + 1) j = A0 (j + 1) j
  hx : 1 ≤ k → f.x = f.a k (k - 1)
  hy : 1 ≤ k → f.y = f.a (k + 1) (k - 1)
  hz : 1 ≤ k → k + 2 < n → f.z = f.a (k + 2) (k - 1)
  ne : k + 2 < n → f.z ≠ 0
  sim : OrthSimilar (toM n A0) (toM n f.a)
  det : (toM n f.a).det = (toM n A0).det

theorem FInv.init {n : Nat} (hn : 3 ≤ n) {A : RM} (hA : IsHess n A) (hU : ∀ j, j + 1 < n → A (j + 1) j ≠ 0) : FInv n 0 A (francisInit n A) where
  shape := fun i j h1 h2 _ => hA i j h1 h2
  sub := fun j _ => rfl
  hx := fun h => absurd h (by omega)
  hy := fun h => absurd h (by omega)
  hz := fun h => absurd h (by omega)
  ne := fun _ => mul_ne_zero (hU 0 (by omega)) (hU 1 (by omega))
  sim := OrthSimilar.rfl
  det := rfl

/-- conjugation by the reflection of a round, on the columns and rows that do not vanish -/
theorem round_eq {n lo len q r : Nat} (h : lo + len ≤ n) {A : RM} {v : Nat → ℝ} {b : ℝ}
    (h1 : ∀ i j, lo ≤ i → i < lo + len → j < q → A i j = 0)
    (h2 : ∀ i j, lo ≤ j → j < lo + len → i < n → r ≤ i → lo + len ≤ i ∧ A i j = 0) :
    toM n (colsRefl (rowsRefl A lo len q n v b) 0 r lo len v b) = refl n (ext lo len v) b * toM n A * refl n (ext lo len v) b := by
  rw [cols_eq h, rows_eq h]
  · intro i j h3 h4 h5 h6
    exact h1 i j h3 h4 (by omega)
  · intro i j h3 h4 h5 h6
    obtain ⟨h7, h8⟩ := h2 i j h3 h4 h5 (by omega)
    unfold rowsRefl
    rw [if_neg (by omega)]
    exact h8

theorem FInv.step {n k : Nat} (hn : 3 ≤ n) (hk : k + 2 < n) {A0 : RM} (hU : ∀ j, j + 1 < n → A0 (j + 1) j ≠ 0) {f : FState} (h : FInv n k A0 f) :
    FInv n (k + 1) A0 (francisRound n f k) := by
  have hne := h.ne hk
  obtain ⟨g1, g2, g3⟩ := hvec_last (m := 2) (x := vec3 f) (by omega) (by simpa [vec3] using hne)
  have hvv : (fun t : Nat => if t = 0 then f.x else if t = 1 then f.y else f.z) = vec3 f := rfl
  set v := (hvec 2 (vec3 f)).1 with hv
  set b := (hvec 2 (vec3 f)).2 with hb
  set r := if k < n - 3 then k + 4 else n with hr
  set B := colsRefl (rowsRefl f.a k 3 (k - 1) n v b) 0 r k 3 v b with hB
  have hfr : francisRound n f k = { a := B, x := B (k + 1) k, y := B (k + 2) k, z := if k < n - 3 then B (k + 3) k else f.z } := by
    unfold francisRound
    simp only [hvv]
    rfl
  have hgood := (hvec_good g1).1
  have hconj : toM n B = refl n (ext k 3 v) b * toM n f.a * refl n (ext k 3 v) b := by
    apply round_eq (by omega)
    · intro i j h1 h2 h3
      exact h.shape i j (by omega) (by omega) (by omega)
    · intro i j h1 h2 h3 h4
      have : k + 4 ≤ i := by
        rw [hr] at h4
        split at h4 <;> omega
      exact ⟨by omega, h.shape i j h3 (by omega) (by omega)⟩
  -- rows and columns that are not touched
  have hlow : ∀ i j, k + 3 ≤ i → (k + 4 ≤ i → i < n → r ≤ i) → (k + 4 ≤ i ∨ j < k ∨ k + 3 ≤ j) → i < n → B i j = f.a i j := by
    intro i j h1 h2 h3 h4
    rw [hB]
    unfold colsRefl rowsRefl
    rw [if_neg (by rintro ⟨-, a2, a3, a4⟩; rcases h3 with h5 | h5 | h5 <;> [skip; omega; omega]; have := h2 h5 h4; omega), if_neg (by omega)]
  have hr4 : ∀ i, k + 4 ≤ i → i < n → r ≤ i := by
    intro i h1 h2
    rw [hr, if_pos (by omega)]
    omega
  rw [hfr]
  refine ⟨?_, ?_, fun _ => rfl, fun _ => rfl, ?_, ?_, ?_, ?_⟩
  · intro i j h1 h2 h3
    have h3' : j < k ∨ k + 4 ≤ i := by omega
    by_cases hi : k + 4 ≤ i
    · simp only
      rw [hlow i j (by omega) (fun _ _ => hr4 i hi h1) (Or.inl hi) h1]
      exact h.shape i j h1 h2 (by omega)
    · have hj : j < k := by omega
      have hcol : B i j = rowsRefl f.a k 3 (k - 1) n v b i j := by
        rw [hB]
        unfold colsRefl
        rw [if_neg (by omega)]
      simp only
      rw [hcol]
      unfold rowsRefl
      by_cases hw : k ≤ i ∧ i < k + 3 ∧ k - 1 ≤ j ∧ j < n
      · rw [if_pos hw]
        obtain ⟨k', rfl⟩ : ∃ k', k = k' + 1 := ⟨k - 1, by omega⟩
        have hjk : j = k' := by omega
        subst hjk
        have hcv : ∀ t, t < 3 → f.a (j + 1 + t) j = vec3 f t := by
          intro t ht
          have e1 := h.hx (by omega)
          have e2 := h.hy (by omega)
          have e3 := h.hz (by omega) hk
          simp only [Nat.add_sub_cancel] at e1 e2 e3
          unfold vec3
          rcases (by omega : t = 0 ∨ t = 1 ∨ t = 2) with rfl | rfl | rfl
          · rw [if_pos rfl, e1]
          · rw [if_neg (by omega), if_pos rfl, e2]
          · rw [if_neg (by omega), if_neg (by omega), e3]
        have hs : ∑ t ∈ range 3, v t * f.a (j + 1 + t) j = ∑ t ∈ range (2 + 1), v t * vec3 f t := by
          apply Finset.sum_congr rfl
          intro t ht
          rw [hcv t (Finset.mem_range.mp ht)]
        have := hvec_below 2 (vec3 f) (i - (j + 1)) (by omega) (by omega)
        rw [← hv, ← hb, ← hs, ← hcv (i - (j + 1)) (by omega), show j + 1 + (i - (j + 1)) = i by omega] at this
        exact this
      · rw [if_neg hw]
        exact h.shape i j h1 h2 (by omega)
  · intro j hj
    simp only
    rw [hB]
    unfold colsRefl rowsRefl
    rw [if_neg (by omega), if_neg (by omega)]
    exact h.sub j (by omega)
  · intro _ h2
    simp only
    rw [if_pos (by omega)]
    rfl
  · intro h2
    simp only
    rw [if_pos (by omega)]
    have hrow : ∀ j, rowsRefl f.a k 3 (k - 1) n v b (k + 3) j = f.a (k + 3) j := by
      intro j
      unfold rowsRefl
      rw [if_neg (by omega)]
    have hz0 : ∀ j, j < k + 2 → f.a (k + 3) j = 0 := fun j hj => h.shape (k + 3) j (by omega) (by omega) (by omega)
    have hr' : k + 3 < r := by
      rw [hr, if_pos (by omega)]
      omega
    rw [hB]
    unfold colsRefl
    rw [if_pos ⟨by omega, hr', le_rfl, by omega⟩]
    simp only [hrow]
    rw [Finset.sum_range_succ, Finset.sum_range_succ, Finset.sum_range_one, hz0 (k + 0) (by omega), hz0 (k + 1) (by omega), hz0 k (by omega), h.sub (k + 2) le_rfl, Nat.sub_self,
      hv, hvec_zero]
    have := hU (k + 2) (by omega)
    simp only [zero_mul, zero_add, mul_one, zero_sub, ne_eq, neg_eq_zero]
    exact mul_ne_zero (mul_ne_zero this g2) g3
  · refine h.sim.trans ⟨_, refl_orth (n := n) (lo := k) (len := 3) (by omega) hgood, ?_⟩
    rw [refl_symm]
    exact hconj
  · simp only
    rw [hconj, Matrix.det_mul, Matrix.det_mul, ← h.det]
    have hd := refl_good_det (n := n) (lo := k) (len := 3) (by omega) hgood
    linear_combination (toM n f.a).det * hd

theorem FInv.run {n : Nat} (hn : 3 ≤ n) {A : RM} (hA : IsHess n A) (hU : ∀ j, j + 1 < n → A (j + 1) j ≠ 0) (m : Nat) (hm : m + 2 ≤ n) :
    FInv n m A ((List.range m).foldl (francisRound n) (francisInit n A)) := by
  induction m with
  | zero => exact FInv.init hn hA hU
  | succ m ih =>
    rw [List.range_succ, List.foldl_append]
    exact (ih (by omega)).step hn (by omega) hU

end Toppo.RealAlg
