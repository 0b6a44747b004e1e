import Verif.Model.Eigen
import Verif.Props.Real
set_option linter.unusedVariables false

/-
Reflections applied to a window of a matrix: when the rest of the rows (columns) vanishes, they are multiplications by an orthogonal matrix.
-/
namespace Toppo.RealAlg
open Finset Matrix

/-- the `n × n` matrix -/
def toM (n : Nat) (A : RM) : Matrix (Fin n) (Fin n) ℝ := Matrix.of (fun i j => A i j)

theorem toM_apply (n : Nat) (A : RM) (i j : Fin n) : toM n A i j = A i j := rfl

/-- a vector on the indices `lo, ..., lo + len - 1`, extended by zero -/
def ext (lo len : Nat) (v : Nat → ℝ) : Nat → ℝ := fun i => if lo ≤ i ∧ i < lo + len then v (i - lo) else 0

/-- the matrix `I - b w wᵀ` -/
def refl (n : Nat) (w : Nat → ℝ) (b : ℝ) : Matrix (Fin n) (Fin n) ℝ := Matrix.of (fun i j => (if i = j then 1 else 0) - b * (w i * w j))

theorem refl_symm (n : Nat) (w : Nat → ℝ) (b : ℝ) : (refl n w b)ᵀ = refl n w b := by
  ext i j
  simp only [refl, Matrix.transpose_apply, Matrix.of_apply, eq_comm, mul_comm]

/-- sums over a window -/
theorem sum_ext {n lo len : Nat} (h : lo + len ≤ n) (v : Nat → ℝ) (f : Nat → ℝ) :
    (∑ t : Fin n, ext lo len v t * f t) = ∑ t ∈ range len, v t * f (lo + t) := by
  rw [Fin.sum_univ_eq_sum_range (fun t => ext lo len v t * f t) n]
  have h1 : ∑ t ∈ range n, ext lo len v t * f t = ∑ t ∈ Finset.Ico lo (lo + len), ext lo len v t * f t := by
    symm
    apply Finset.sum_subset
    · intro t ht
      rw [Finset.mem_Ico] at ht
      rw [Finset.mem_range]
      omega
    · intro t _ ht
      rw [Finset.mem_Ico] at ht
      rw [ext, if_neg ht, zero_mul]
  rw [h1, Finset.sum_Ico_eq_sum_range]
  rw [show lo + len - lo = len by omega]
  apply Finset.sum_congr rfl
  intro t ht
  rw [Finset.mem_range] at ht
  rw [ext, if_pos ⟨by omega, by omega⟩, show lo + t - lo = t by omega]

theorem refl_sq {n lo len : Nat} (h : lo + len ≤ n) {v : Nat → ℝ} {b : ℝ} (hb : b * (b * ∑ t ∈ range len, v t * v t) = 2 * b) :
    refl n (ext lo len v) b * refl n (ext lo len v) b = 1 := by
  ext i j
  rw [Matrix.mul_apply]
  simp only [refl, Matrix.of_apply]
  have h1 : ∀ t : Fin n, (((if i = t then (1 : ℝ) else 0) - b * (ext lo len v i * ext lo len v t)) * ((if t = j then 1 else 0) - b * (ext lo len v t * ext lo len v j))) =
      (if i = t then (1 : ℝ) else 0) * (if t = j then 1 else 0) - (if i = t then (1 : ℝ) else 0) * (b * (ext lo len v t * ext lo len v j)) -
      (b * (ext lo len v i * ext lo len v t)) * (if t = j then 1 else 0) + (b * b * ext lo len v i * ext lo len v j) * (ext lo len v t * ext lo len v t) := by
    intro t
    ring
  rw [Finset.sum_congr rfl (fun t _ => h1 t), Finset.sum_add_distrib, Finset.sum_sub_distrib, Finset.sum_sub_distrib, ← Finset.mul_sum]
  have h2 : ∑ t : Fin n, ext lo len v t * ext lo len v t = ∑ t ∈ range len, v t * v t := by
    rw [sum_ext h]
    apply Finset.sum_congr rfl
    intro t ht
    rw [Finset.mem_range] at ht
    rw [ext, if_pos ⟨by omega, by omega⟩, show lo + t - lo = t by omega]
  rw [h2]
  simp only [ite_mul, one_mul, zero_mul, mul_ite, mul_one, mul_zero, Finset.sum_ite_eq, Finset.sum_ite_eq', Finset.mem_univ, if_true, Matrix.one_apply]
  linear_combination (ext lo len v i * ext lo len v j) * hb

theorem refl_orth {n lo len : Nat} (h : lo + len ≤ n) {v : Nat → ℝ} {b : ℝ} (hb : b * (b * ∑ t ∈ range len, v t * v t) = 2 * b) :
    (refl n (ext lo len v) b)ᵀ * refl n (ext lo len v) b = 1 := by
  rw [refl_symm, refl_sq h hb]

/-- the rows of a block, when the columns outside the window vanish -/
theorem rows_eq {n lo len c0 c1 : Nat} (h : lo + len ≤ n) {A : RM} {v : Nat → ℝ} {b : ℝ}
    (hz : ∀ i j, lo ≤ i → i < lo + len → j < n → (j < c0 ∨ c1 ≤ j) → A i j = 0) :
    toM n (rowsRefl A lo len c0 c1 v b) = refl n (ext lo len v) b * toM n A := by
  ext i j
  rw [Matrix.mul_apply]
  simp only [refl, Matrix.of_apply, toM_apply, rowsRefl]
  have h1 : ∀ t : Fin n, ((if i = t then (1 : ℝ) else 0) - b * (ext lo len v i * ext lo len v t)) * A t j =
      (if i = t then (1 : ℝ) else 0) * A t j - (b * ext lo len v i) * (ext lo len v t * A t j) := by
    intro t
    ring
  rw [Finset.sum_congr rfl (fun t _ => h1 t), Finset.sum_sub_distrib, ← Finset.mul_sum, sum_ext h v (fun t => A t j)]
  simp only [ite_mul, one_mul, zero_mul, Finset.sum_ite_eq, Finset.mem_univ, if_true]
  by_cases hi : lo ≤ i.1 ∧ i.1 < lo + len
  · by_cases hj : c0 ≤ j.1 ∧ j.1 < c1
    · rw [if_pos ⟨hi.1, hi.2, hj⟩, ext, if_pos hi]
      ring
    · rw [if_neg (fun h => hj h.2.2)]
      have : ∑ t ∈ range len, v t * A (lo + t) j = 0 := by
        apply Finset.sum_eq_zero
        intro t ht
        rw [Finset.mem_range] at ht
        rw [hz (lo + t) j (by omega) (by omega) j.2 (by omega), mul_zero]
      rw [this]
      ring
  · rw [if_neg (fun h => hi ⟨h.1, h.2.1⟩), ext, if_neg hi]
    ring

/-- the columns of a block, when the rows outside the window vanish -/
theorem cols_eq {n lo len r0 r1 : Nat} (h : lo + len ≤ n) {A : RM} {v : Nat → ℝ} {b : ℝ}
    (hz : ∀ i j, lo ≤ j → j < lo + len → i < n → (i < r0 ∨ r1 ≤ i) → A i j = 0) :
    toM n (colsRefl A r0 r1 lo len v b) = toM n A * refl n (ext lo len v) b := by
  ext i j
  rw [Matrix.mul_apply]
  simp only [refl, Matrix.of_apply, toM_apply, colsRefl]
  have h1 : ∀ t : Fin n, A i t * ((if t = j then (1 : ℝ) else 0) - b * (ext lo len v t * ext lo len v j)) =
      A i t * (if t = j then (1 : ℝ) else 0) - (b * ext lo len v j) * (ext lo len v t * A i t) := by
    intro t
    ring
  rw [Finset.sum_congr rfl (fun t _ => h1 t), Finset.sum_sub_distrib, ← Finset.mul_sum, sum_ext h v (fun t => A i t)]
  simp only [mul_ite, mul_one, mul_zero, Finset.sum_ite_eq', Finset.mem_univ, if_true]
  have hc : ∑ t ∈ range len, A i (lo + t) * v t = ∑ t ∈ range len, v t * A i (lo + t) := Finset.sum_congr rfl (fun t _ => mul_comm _ _)
  by_cases hj : lo ≤ j.1 ∧ j.1 < lo + len
  · by_cases hi : r0 ≤ i.1 ∧ i.1 < r1
    · rw [if_pos ⟨hi.1, hi.2, hj⟩, ext, if_pos hj, hc]
      ring
    · rw [if_neg (fun h => hi ⟨h.1, h.2.1⟩)]
      have : ∑ t ∈ range len, v t * A i (lo + t) = 0 := by
        apply Finset.sum_eq_zero
        intro t ht
        rw [Finset.mem_range] at ht
        rw [hz i (lo + t) (by omega) (by omega) i.2 (by omega), mul_zero]
      rw [this]
      ring
  · rw [if_neg (fun h => hj h.2.2), ext, if_neg hj]
    ring

/-! ### Householder vectors indexed by numbers -/

theorem hvec_zero (m : Nat) (x : Nat → ℝ) : (hvec m x).1 0 = 1 := by
  unfold hvec
  simp only [Nat.zero_lt_succ, dif_pos]
  unfold householderVec
  simp only
  split
  · simp
  · split
    · simp
    · rename_i h1 h2
      simp only [Fin.zero_eta, Function.update_self]
      set a := ∑ k : Fin m, x ((k.succ : Fin (m + 1)) : Nat) * x ((k.succ : Fin (m + 1)) : Nat) with ha
      set b := x ((0 : Fin (m + 1)) : Nat) with hb
      have ha0 : 0 ≤ a := sum_nonneg fun i _ => mul_self_nonneg _
      have hane : a ≠ 0 := by
        intro h
        rcases le_or_gt 0 b with h3 | h3
        · exact h1 ⟨h, h3⟩
        · exact h2 ⟨h, h3⟩
      have hapos : 0 < a := lt_of_le_of_ne ha0 (Ne.symm hane)
      have hu : 0 < Real.sqrt (a + b * b) := Real.sqrt_pos.mpr (by nlinarith [mul_self_nonneg b])
      apply div_self
      split
      · rename_i h3
        have : b - Real.sqrt (a + b * b) < 0 := by linarith
        exact this.ne
      · rename_i h3
        have h4 : 0 < b + Real.sqrt (a + b * b) := by linarith [not_le.mp h3]
        exact (div_neg_of_neg_of_pos (by linarith) h4).ne

/-- the vectors on which `householder_vec` is right -/
def GoodVec (m : Nat) (x : Nat → ℝ) : Prop := ¬ ((∀ t, t < m → x (t + 1) = 0) ∧ x 0 < 0)

theorem hvec_sum (m : Nat) (x : Nat → ℝ) (f : Nat → ℝ) : (∑ t ∈ range (m + 1), (hvec m x).1 t * f t) = (householderVec (n := m) (fun i => x i)).1 ⬝ᵥ (fun i => f i) := by
  rw [dotProduct, Finset.sum_range]
  apply Finset.sum_congr rfl
  intro t _
  simp only [hvec, t.2, dif_pos]

theorem hvec_good {m : Nat} {x : Nat → ℝ} (h : GoodVec m x) :
    ((hvec m x).2 * ((hvec m x).2 * ∑ t ∈ range (m + 1), (hvec m x).1 t * (hvec m x).1 t) = 2 * (hvec m x).2) ∧
    ∀ i, i < m + 1 → x i - (hvec m x).1 i * (∑ t ∈ range (m + 1), (hvec m x).1 t * x t) * (hvec m x).2 = if i = 0 then Real.sqrt (∑ t ∈ range (m + 1), x t * x t) else 0 := by
  obtain ⟨h1, h2⟩ := c65_householder_partial (n := m) (fun i => x i) (by
    rintro ⟨h3, h4⟩
    exact h ⟨fun t ht => h3 ⟨t, ht⟩, h4⟩)
  have hv : (fun i : Fin (m + 1) => (hvec m x).1 i) = (householderVec (n := m) (fun i => x i)).1 := by
    funext i
    simp only [hvec, i.2, dif_pos]
  constructor
  · rw [hvec_sum, hv]
    have h3 := congrFun (congrFun h1 0) 0
    have h0 : (householderVec (n := m) (fun i => x i)).1 0 = 1 := by
      rw [← hv]
      exact hvec_zero m x
    set v := (householderVec (n := m) (fun i => x i)).1 with hvd
    set b := (householderVec (n := m) (fun i => x i)).2 with hbd
    have hb : (hvec m x).2 = b := rfl
    rw [hb]
    have hsy : (reflector (v, b))ᵀ = reflector (v, b) := by
      ext i j
      simp only [reflector, Matrix.transpose_apply, Matrix.sub_apply, Matrix.smul_apply, vecMulVec_apply, Matrix.one_apply, eq_comm, mul_comm]
    have h4 : (reflector (v, b) *ᵥ (fun i => reflector (v, b) i 0)) 0 = 1 := by
      have : (reflector (v, b))ᵀ * reflector (v, b) = 1 := h1
      rw [hsy] at this
      have := congrFun (congrFun this 0) 0
      rw [Matrix.mul_apply, Matrix.one_apply_eq] at this
      exact this
    rw [reflector_mulVec] at h4
    simp only [reflector, Matrix.sub_apply, Matrix.smul_apply, vecMulVec_apply, Matrix.one_apply_eq, smul_eq_mul, h0, mul_one] at h4
    have h5 : (v ⬝ᵥ fun i => (1 - b • vecMulVec v v : Matrix _ _ ℝ) i 0) = 1 - b * (v ⬝ᵥ v) := by
      have : (fun i => (1 - b • vecMulVec v v : Matrix _ _ ℝ) i 0) = Pi.single 0 1 - b • v := by
        funext i
        simp only [Matrix.sub_apply, Matrix.smul_apply, vecMulVec_apply, h0, mul_one, smul_eq_mul, Pi.sub_apply, Pi.smul_apply, Matrix.one_apply]
        congr 1
        by_cases hi : i = 0
        · subst hi; simp
        · simp [hi]
      rw [this, dotProduct_sub, dotProduct_smul, dotProduct_single, h0]
      simp
    rw [show (v ⬝ᵥ fun i => (1 : Matrix (Fin (m + 1)) (Fin (m + 1)) ℝ) i 0 - b * v i) = 1 - b * (v ⬝ᵥ v) by
      rw [← h5]
      congr 1
      funext i
      simp only [Matrix.sub_apply, Matrix.smul_apply, vecMulVec_apply, h0, mul_one, smul_eq_mul]] at h4
    linear_combination h4
  · intro i hi
    have h3 := congrFun h2 ⟨i, hi⟩
    rw [reflector_mulVec] at h3
    rw [hvec_sum]
    have h4 : (hvec m x).1 i = (householderVec (n := m) (fun i => x i)).1 ⟨i, hi⟩ := by
      simp only [hvec, hi, dif_pos]
    have h5 : (fun i : Fin (m + 1) => x i) ⬝ᵥ (fun i : Fin (m + 1) => x i) = ∑ t ∈ range (m + 1), x t * x t := by
      rw [dotProduct, Finset.sum_range]
    rw [h4, ← h5]
    have h6 : (Pi.single 0 (Real.sqrt ((fun i : Fin (m + 1) => x i) ⬝ᵥ (fun i : Fin (m + 1) => x i))) : Fin (m + 1) → ℝ) ⟨i, hi⟩ =
        if i = 0 then Real.sqrt ((fun i : Fin (m + 1) => x i) ⬝ᵥ (fun i : Fin (m + 1) => x i)) else 0 := by
      by_cases h7 : i = 0
      · subst h7
        simp
      · rw [if_neg h7]
        apply Pi.single_eq_of_ne
        intro h8
        exact h7 (congrArg Fin.val h8)
    rw [← h6, ← h3]
    simp only [hvec]
    ring

theorem hvec_bad {m : Nat} {x : Nat → ℝ} (h : ¬ GoodVec m x) : (hvec m x).2 = -2 ∧ (∀ i, i ≠ 0 → (hvec m x).1 i = 0) ∧ (∀ t, t < m → x (t + 1) = 0) ∧ x 0 < 0 := by
  unfold GoodVec at h
  rw [not_not] at h
  have ha : ∑ k : Fin m, x ((k.succ : Fin (m + 1)) : Nat) * x ((k.succ : Fin (m + 1)) : Nat) = 0 := by
    apply Finset.sum_eq_zero
    intro k _
    rw [show ((k.succ : Fin (m + 1)) : Nat) = k.1 + 1 from rfl, h.1 k k.2, mul_zero]
  have hb : ¬ 0 ≤ x 0 := not_le.mpr h.2
  refine ⟨?_, ?_, h⟩
  · simp only [hvec, householderVec, ha]
    simp [hb, h.2]
  · intro i hi
    simp only [hvec, householderVec, ha]
    simp only [Fin.val_zero, hb, and_false, if_false, h.2, and_self, if_true]
    split
    · rename_i hlt
      rw [Function.update_of_ne (by intro h8; exact hi (congrArg Fin.val h8))]
      obtain ⟨t, rfl⟩ : ∃ t, i = t + 1 := ⟨i - 1, by omega⟩
      exact h.1 t (by omega)
    · rfl

/-- the vector of a bad or good column ends up as a multiple of the first unit vector -/
theorem hvec_below (m : Nat) (x : Nat → ℝ) (i : Nat) (h0 : i ≠ 0) (hi : i < m + 1) :
    x i - (hvec m x).1 i * (∑ t ∈ range (m + 1), (hvec m x).1 t * x t) * (hvec m x).2 = 0 := by
  by_cases h : GoodVec m x
  · rw [(hvec_good h).2 i hi, if_neg h0]
  · obtain ⟨-, h2, h3, -⟩ := hvec_bad h
    obtain ⟨t, rfl⟩ : ∃ t, i = t + 1 := ⟨i - 1, by omega⟩
    rw [h2 _ h0, h3 t (by omega)]
    ring

/-- its first entry is non-negative exactly for the good ones -/
theorem hvec_first (m : Nat) (x : Nat → ℝ) :
    (0 ≤ x 0 - (hvec m x).1 0 * (∑ t ∈ range (m + 1), (hvec m x).1 t * x t) * (hvec m x).2) ↔ GoodVec m x := by
  by_cases h : GoodVec m x
  · rw [(hvec_good h).2 0 (by omega), if_pos rfl]
    exact iff_of_true (Real.sqrt_nonneg _) h
  · obtain ⟨h1, h2, h3, h4⟩ := hvec_bad h
    refine iff_of_false ?_ h
    rw [h1, hvec_zero]
    have : ∑ t ∈ range (m + 1), (hvec m x).1 t * x t = x 0 := by
      rw [Finset.sum_range_succ', hvec_zero, one_mul]
      have : ∑ k ∈ range m, (hvec m x).1 (k + 1) * x (k + 1) = 0 := by
        apply Finset.sum_eq_zero
        intro t ht
        rw [h2 (t + 1) (by omega), zero_mul]
      rw [this, zero_add]
    rw [this]
    linarith

end Toppo.RealAlg
