import Verif.Proof.Reflect
import Mathlib.LinearAlgebra.Matrix.NonsingularInverse
import Mathlib.LinearAlgebra.Matrix.Charpoly.Coeff
set_option linter.unusedVariables false

/-
C79: the Hessenberg form; exact real arithmetic.
-/
namespace Toppo.RealAlg
open Finset Matrix

/-! ### Specification -/

/-- zero below the first sub-diagonal -/
def IsHess (n : Nat) (B : RM) : Prop := ∀ i j, i < n → j + 1 < i → B i j = 0

/-- orthogonally similar: `B = Qᵀ A Q` with `Q` orthogonal -/
def OrthSimilar {n : Nat} (A B : Matrix (Fin n) (Fin n) ℝ) : Prop := ∃ Q : Matrix (Fin n) (Fin n) ℝ, Qᵀ * Q = 1 ∧ B = Qᵀ * A * Q

theorem OrthSimilar.rfl {n : Nat} {A : Matrix (Fin n) (Fin n) ℝ} : OrthSimilar A A := ⟨1, by simp, by simp⟩

theorem OrthSimilar.trans {n : Nat} {A B C : Matrix (Fin n) (Fin n) ℝ} (h1 : OrthSimilar A B) (h2 : OrthSimilar B C) : OrthSimilar A C := by
  obtain ⟨Q, q1, q2⟩ := h1
  obtain ⟨R, r1, r2⟩ := h2
  refine ⟨Q * R, ?_, ?_⟩
  · rw [transpose_mul, Matrix.mul_assoc, ← Matrix.mul_assoc Qᵀ, q1, Matrix.one_mul, r1]
  · rw [r2, q2, transpose_mul]
    simp only [Matrix.mul_assoc]

/-- what it means for the eigenvalues: the characteristic polynomials agree -/
theorem OrthSimilar.charpoly {n : Nat} {A B : Matrix (Fin n) (Fin n) ℝ} (h : OrthSimilar A B) : B.charpoly = A.charpoly := by
  obtain ⟨Q, q1, q2⟩ := h
  have q3 : Q * Qᵀ = 1 := mul_eq_one_comm.mp q1
  rw [q2]
  have := Matrix.charpoly_units_conj' (M := (⟨Q, Qᵀ, q3, q1⟩ : (Matrix (Fin n) (Fin n) ℝ)ˣ)) A
  rw [← Matrix.coe_units_inv] at this
  exact this

/-! ### Proofs -/

/-- conjugation by the reflection of one round -/
theorem hessStep_eq {n k : Nat} (hk : k + 2 < n) {A : RM} (hA : ∀ i j, i < n → j < k → j + 1 < i → A i j = 0) :
    toM n (hessStep n A k) = refl n (ext (k + 1) (n - k - 1) (hvec (n - k - 2) (fun t => A (k + 1 + t) k)).1) (hvec (n - k - 2) (fun t => A (k + 1 + t) k)).2 * toM n A *
      refl n (ext (k + 1) (n - k - 1) (hvec (n - k - 2) (fun t => A (k + 1 + t) k)).1) (hvec (n - k - 2) (fun t => A (k + 1 + t) k)).2 := by
  unfold hessStep
  simp only
  rw [cols_eq (by omega) (by intro i j _ _ h1 h2; omega), rows_eq (by omega)]
  intro i j h1 h2 h3 h4
  exact hA i j (by omega) (by omega) (by omega)

theorem hessStep_col {n k : Nat} (hk : k + 2 < n) (A : RM) (i : Nat) (hi : k < i) (hn : i < n) :
    hessStep n A k i k = A i k - (hvec (n - k - 2) (fun t => A (k + 1 + t) k)).1 (i - (k + 1)) *
      (∑ t ∈ range (n - k - 2 + 1), (hvec (n - k - 2) (fun t => A (k + 1 + t) k)).1 t * A (k + 1 + t) k) * (hvec (n - k - 2) (fun t => A (k + 1 + t) k)).2 := by
  unfold hessStep
  unfold colsRefl rowsRefl
  rw [if_neg (by omega), if_pos ⟨by omega, by omega, le_rfl, by omega⟩, show n - k - 1 = n - k - 2 + 1 by omega]

theorem hessStep_old {n k : Nat} (A : RM) (i j : Nat) (hj : j < k) : hessStep n A k i j = A i j := by
  unfold hessStep
  unfold colsRefl rowsRefl
  rw [if_neg (by omega), if_neg (by omega)]

/-- a reflection of the wrong kind multiplies one coordinate by three -/
theorem refl_bad_det {n lo len : Nat} (h : lo + len ≤ n) (hl : 0 < len) {v : Nat → ℝ} (h0 : v 0 = 1) (hv : ∀ i, i ≠ 0 → v i = 0) : (refl n (ext lo len v) (-2)).det = 3 := by
  have h1 : refl n (ext lo len v) (-2) = Matrix.diagonal (fun i : Fin n => if i = ⟨lo, by omega⟩ then (3 : ℝ) else 1) := by
    ext i j
    simp only [refl, Matrix.of_apply, Matrix.diagonal_apply]
    have h2 : ∀ i : Fin n, ext lo len v i = if i = ⟨lo, by omega⟩ then 1 else 0 := by
      intro i
      unfold ext
      by_cases hi : i = ⟨lo, by omega⟩
      · subst hi
        rw [if_pos ⟨le_rfl, by simp only; omega⟩, if_pos rfl]
        simp [h0]
      · have hi' : i.1 ≠ lo := fun h => hi (Fin.ext h)
        rw [if_neg hi]
        split
        · exact hv _ (by omega)
        · rfl
    rw [h2, h2]
    by_cases hij : i = j
    · subst hij
      rw [if_pos rfl, if_pos rfl]
      split <;> norm_num
    · rw [if_neg hij, if_neg hij]
      by_cases hi : i = ⟨lo, by omega⟩
      · rw [if_pos hi, if_neg (fun h => hij (hi.trans h.symm))]
        ring
      · rw [if_neg hi]
        ring
  rw [h1, Matrix.det_diagonal, Finset.prod_ite_eq']
  simp

theorem refl_good_det {n lo len : Nat} (h : lo + len ≤ n) {v : Nat → ℝ} {b : ℝ} (hb : b * (b * ∑ t ∈ range len, v t * v t) = 2 * b) :
    (refl n (ext lo len v) b).det * (refl n (ext lo len v) b).det = 1 := by
  rw [← Matrix.det_mul, refl_sq h hb, Matrix.det_one]

theorem hess_run {n : Nat} (A : RM) (m : Nat) (hm : m + 2 ≤ n) :
    (∀ i j, i < n → j < m → j + 1 < i → (List.range m).foldl (hessStep n) A i j = 0) ∧
    ((∀ k, k < m → 0 ≤ (List.range m).foldl (hessStep n) A (k + 1) k) → OrthSimilar (toM n A) (toM n ((List.range m).foldl (hessStep n) A))) ∧
    (toM n ((List.range m).foldl (hessStep n) A)).det = 9 ^ ((range m).filter (fun k => (List.range m).foldl (hessStep n) A (k + 1) k < 0)).card * (toM n A).det := by
  induction m with
  | zero => exact ⟨fun i j _ h => absurd h (by omega), fun _ => OrthSimilar.rfl, by rw [Finset.range_zero, Finset.filter_empty]; simp⟩
  | succ m ih =>
    obtain ⟨i1, i2, i3⟩ := ih (by omega)
    have hfold : (List.range (m + 1)).foldl (hessStep n) A = hessStep n ((List.range m).foldl (hessStep n) A) m := by
      rw [List.range_succ, List.foldl_append]
      rfl
    rw [hfold]
    clear hfold
    set B := (List.range m).foldl (hessStep n) A with hB
    set x : Nat → ℝ := fun t => B (m + 1 + t) m with hx
    have hstep := hessStep_eq (A := B) (show m + 2 < n by omega) i1
    have hcol := hessStep_col (show m + 2 < n by omega) B
    have hfirst : 0 ≤ hessStep n B m (m + 1) m ↔ GoodVec (n - m - 2) x := by
      rw [hcol (m + 1) (by omega) (by omega), Nat.sub_self]
      exact hvec_first (n - m - 2) x
    have hold : ∀ k, k < m → hessStep n B m (k + 1) k = B (k + 1) k := fun k hk => hessStep_old B (k + 1) k hk
    refine ⟨?_, ?_, ?_⟩
    · intro i j hi hj hji
      by_cases hjm : j = m
      · subst hjm
        rw [hcol i (by omega) hi]
        have := hvec_below (n - j - 2) x (i - (j + 1)) (by omega) (by omega)
        rw [hx] at this
        simp only at this
        rw [show j + 1 + (i - (j + 1)) = i by omega] at this
        exact this
      · rw [hessStep_old B i j (by omega)]
        exact i1 i j hi (by omega) hji
    · intro hpos
      refine (i2 (fun k hk => by rw [← hold k hk]; exact hpos k (by omega))).trans ?_
      have hgood := hfirst.mp (hpos m (by omega))
      have := (hvec_good hgood).1
      rw [show n - m - 2 + 1 = n - m - 1 by omega] at this
      refine ⟨_, refl_orth (n := n) (lo := m + 1) (len := n - m - 1) (by omega) this, ?_⟩
      rw [refl_symm]
      exact hstep
    · rw [hstep, Matrix.det_mul, Matrix.det_mul, i3]
      have hfl : (range m).filter (fun k => hessStep n B m (k + 1) k < 0) = (range m).filter (fun k => B (k + 1) k < 0) := by
        apply Finset.filter_congr
        intro k hk
        rw [Finset.mem_range] at hk
        rw [hold k hk]
      rw [Finset.range_add_one, Finset.filter_insert, hfl]
      by_cases hgood : GoodVec (n - m - 2) x
      · rw [if_neg (not_lt.mpr (hfirst.mpr hgood))]
        have := (hvec_good hgood).1
        rw [show n - m - 2 + 1 = n - m - 1 by omega] at this
        have hd := refl_good_det (n := n) (lo := m + 1) (len := n - m - 1) (by omega) this
        linear_combination (9 ^ ((range m).filter (fun k => B (k + 1) k < 0)).card * (toM n A).det) * hd
      · rw [if_pos (not_le.mp (fun h => hgood (hfirst.mp h)))]
        obtain ⟨b1, b2, -, -⟩ := hvec_bad hgood
        have hd := refl_bad_det (n := n) (lo := m + 1) (len := n - m - 1) (by omega) (by omega) (hvec_zero (n - m - 2) x) b2
        rw [b1, hd, Finset.card_insert_of_notMem (by simp)]
        ring

/-- **C79**: `hessenberg_form` of a square matrix returns a matrix that vanishes below the first sub-diagonal. -/
theorem c79_shape (n : Nat) (A : RM) : ∃ B, hessenberg n n A = some B ∧ IsHess n B := by
  unfold hessenberg
  rw [if_neg (by simp)]
  by_cases h : n < 2
  · rw [if_pos h]
    exact ⟨A, rfl, fun i j h1 h2 => by omega⟩
  · rw [if_neg h]
    refine ⟨_, rfl, fun i j h1 h2 => ?_⟩
    exact (hess_run A (n - 2) (by omega)).1 i j h1 (by omega) h2

/-- **C79**, what holds of similarity: if no entry of the first sub-diagonal of the result (except possibly the last one) is negative, the result is orthogonally similar to
the input.  Otherwise it is not, in general: `c79_false`. -/
theorem c79_similar_partial (n : Nat) (A B : RM) (h : hessenberg n n A = some B) (hpos : ∀ k, k + 2 < n → 0 ≤ B (k + 1) k) : OrthSimilar (toM n A) (toM n B) := by
  unfold hessenberg at h
  rw [if_neg (by simp)] at h
  by_cases h2 : n < 2
  · rw [if_pos h2] at h
    injection h with h
    subst h
    exact OrthSimilar.rfl
  · rw [if_neg h2] at h
    injection h with h
    subst h
    exact (hess_run A (n - 2) (by omega)).2.1 (fun k hk => hpos k (by omega))

/-- **C79 fails**: every negative entry of the first sub-diagonal of the result (except the last one) comes from a wrong reflection (C65), which multiplies the determinant by 9. -/
theorem c79_false (n : Nat) (A B : RM) (h : hessenberg n n A = some B) :
    (toM n B).det = 9 ^ ((range (n - 2)).filter (fun k => B (k + 1) k < 0)).card * (toM n A).det := by
  unfold hessenberg at h
  rw [if_neg (by simp)] at h
  by_cases h2 : n < 2
  · rw [if_pos h2] at h
    injection h with h
    subst h
    rw [show n - 2 = 0 by omega]
    simp
  · rw [if_neg h2] at h
    injection h with h
    subst h
    exact (hess_run A (n - 2) (by omega)).2.2

/-- a non-square matrix is rejected -/
theorem c79_nonsquare (n m : Nat) (h : n ≠ m) (A : RM) : hessenberg n m A = none := by
  unfold hessenberg
  rw [if_pos h]

/-- A concrete case of `c79_similar_partial`: column `(3, 4)` below the diagonal is turned into `(5, 0)`. -/
def exHess : RM := fun i j => if j = 0 then (if i = 1 then 3 else if i = 2 then 4 else 0) else if i = j then 1 else 0

example : ∃ B, hessenberg 3 3 exHess = some B ∧ B 1 0 = 5 ∧ B 2 0 = 0 ∧ OrthSimilar (toM 3 exHess) (toM 3 B) := by
  obtain ⟨B, b1, b2⟩ := c79_shape 3 exHess
  have h10 : B 1 0 = 5 := by
    have : hessenberg 3 3 exHess = some (hessStep 3 exHess 0) := by
      unfold hessenberg
      rw [if_neg (by simp), if_neg (by omega)]
      rfl
    rw [this] at b1
    injection b1 with b1
    rw [← b1, hessStep_col (by omega) _ 1 (by omega) (by omega)]
    have hg : GoodVec (3 - 0 - 2) (fun t => exHess (0 + 1 + t) 0) := by
      rintro ⟨-, h⟩
      simp [exHess] at h
      norm_num at h
    have := (hvec_good hg).2 0 (by omega)
    simp only [Nat.sub_self]
    rw [show exHess 1 0 = exHess (0 + 1 + 0) 0 from rfl]
    rw [this, if_pos rfl]
    rw [Finset.sum_range_succ, Finset.sum_range_one]
    simp only [exHess]
    norm_num
    rw [show (25 : ℝ) = 5 ^ 2 by norm_num]
    exact Real.sqrt_sq (by norm_num)
  refine ⟨B, b1, h10, b2 2 0 (by omega) (by omega), c79_similar_partial 3 exHess B b1 ?_⟩
  intro k hk
  obtain rfl : k = 0 := by omega
  rw [h10]
  norm_num

/-- A concrete case of the failure: a cyclic permutation matrix with one sign changed is "reduced" to a matrix with determinant -9 instead of -1. -/
def exHessBad : RM := fun i j => if i = 1 ∧ j = 0 then -1 else if (i = 2 ∧ j = 1) ∨ (i = 0 ∧ j = 2) then 1 else 0

example : ∃ B, hessenberg 3 3 exHessBad = some B ∧ (toM 3 exHessBad).det = -1 ∧ (toM 3 B).det = -9 ∧ (toM 3 B).charpoly ≠ (toM 3 exHessBad).charpoly := by
  have h0 : hessenberg 3 3 exHessBad = some (hessStep 3 exHessBad 0) := by
    unfold hessenberg
    rw [if_neg (by simp), if_neg (by omega)]
    rfl
  have hd : (toM 3 exHessBad).det = -1 := by
    rw [Matrix.det_fin_three]
    simp only [toM_apply, exHessBad]
    norm_num
  have hneg : hessStep 3 exHessBad 0 (0 + 1) 0 < 0 := by
    rw [← not_le, hessStep_col (by omega) _ 1 (by omega) (by omega), Nat.sub_self]
    intro h
    have h1 := (hvec_first (3 - 0 - 2) (fun t => exHessBad (0 + 1 + t) 0)).mp h
    apply h1
    constructor
    · intro t ht
      obtain rfl : t = 0 := by omega
      simp [exHessBad]
    · simp [exHessBad]
  have hd2 : (toM 3 (hessStep 3 exHessBad 0)).det = -9 := by
    rw [c79_false 3 exHessBad _ h0, hd]
    have : (range (3 - 2)).filter (fun k => hessStep 3 exHessBad 0 (k + 1) k < 0) = {0} := by
      rw [show 3 - 2 = 1 from rfl, Finset.range_one, Finset.filter_singleton, if_pos hneg]
    rw [this]
    norm_num
  refine ⟨_, h0, hd, hd2, ?_⟩
  intro hc
  have h1 := Matrix.det_eq_sign_charpoly_coeff (toM 3 exHessBad)
  have h2 := Matrix.det_eq_sign_charpoly_coeff (toM 3 (hessStep 3 exHessBad 0))
  rw [hc, ← h1, hd, hd2] at h2
  norm_num at h2

end Toppo.RealAlg
