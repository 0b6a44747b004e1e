import Verif.Props.FloatLU
import Mathlib.LinearAlgebra.Matrix.Block
set_option linter.unusedVariables false

/-!
# `det` on `f64` (C107)

Specification: Mathlib's determinant of a matrix of rational numbers; `val` is the exact value of a number, `u = 2^-53`, `eta = 2^-1075`.
-/
namespace Toppo.FloatProps
open Toppo F64 FloatAlg

/-- a running product of `f64`: all factors are finite if the result is, and its error -/
theorem prod_acc (d : Nat → F64) : ∀ m, ((List.range m).foldl (fun p i => p * d i) 1).isFinite = true →
    (∀ i < m, (d i).isFinite = true) ∧
    |val ((List.range m).foldl (fun p i => p * d i) 1) - ∏ i ∈ Finset.range m, val (d i)| ≤
      (g ^ m - 1) * |∏ i ∈ Finset.range m, val (d i)| + (∑ k ∈ Finset.range m, ∏ j ∈ Finset.Ico (k + 1) m, |val (d j)|) * g ^ m * eta := by
  intro m
  induction m with
  | zero => intro _; simp [val_one]
  | succ m ih =>
    intro h
    rw [List.range_succ, List.foldl_append, List.foldl_cons, List.foldl_nil] at *
    set p := (List.range m).foldl (fun p i => p * d i) 1
    obtain ⟨h1, h2, h3⟩ := mul_fin h
    obtain ⟨i1, i2⟩ := ih h1
    refine ⟨fun i hi => ?_, ?_⟩
    · rcases Nat.lt_or_ge i m with h | h
      · exact i1 i h
      · rw [show i = m by omega]; exact h2
    · rw [Finset.prod_range_succ]
      have e1 : ∑ k ∈ Finset.range (m + 1), ∏ j ∈ Finset.Ico (k + 1) (m + 1), |val (d j)| =
          (∑ k ∈ Finset.range m, ∏ j ∈ Finset.Ico (k + 1) m, |val (d j)|) * |val (d m)| + 1 := by
        rw [Finset.sum_range_succ, Finset.sum_mul]
        congr 1
        · refine Finset.sum_congr rfl fun k hk => ?_
          have := Finset.mem_range.mp hk
          rw [Finset.prod_Ico_succ_top (by omega)]
        · simp
      rw [e1, pow_succ, g_eq]
      have hS : 0 ≤ ∑ k ∈ Finset.range m, ∏ j ∈ Finset.Ico (k + 1) m, |val (d j)| :=
        Finset.sum_nonneg fun _ _ => Finset.prod_nonneg fun _ _ => abs_nonneg _
      have hG := gpow_ge m
      rw [g_eq] at hG i2
      generalize (∑ k ∈ Finset.range m, ∏ j ∈ Finset.Ico (k + 1) m, |val (d j)|) = S at *
      generalize (∏ i ∈ Finset.range m, val (d i)) = P at *
      generalize val (p * d m) = q at *
      generalize val (d m) = w at *
      generalize val p = r at *
      generalize (1 + u) ^ m = G at *
      have hu := u_pos
      have he := eta_pos
      generalize u = v at *
      generalize eta = e at *
      have k1 : |q - P * w| ≤ |q - r * w| + |r - P| * |w| := by
        have : q - P * w = (q - r * w) + (r - P) * w := by ring
        rw [this, ← abs_mul]; exact abs_add_le _ _
      have hw := abs_nonneg w
      have k2 : |r| ≤ |P| + |r - P| := by
        have := abs_sub_abs_le_abs_sub r P; linarith
      have k3 : v * |r * w| ≤ v * ((|P| + |r - P|) * |w|) := by
        rw [abs_mul]
        exact mul_le_mul_of_nonneg_left (mul_le_mul_of_nonneg_right k2 hw) hu.le
      have k4 : (1 + v) * (|r - P| * |w|) ≤ (1 + v) * (((G - 1) * |P| + S * G * e) * |w|) :=
        mul_le_mul_of_nonneg_left (mul_le_mul_of_nonneg_right i2 hw) (by linarith)
      have k5 : e ≤ G * (1 + v) * e := le_mul_of_one_le_left he.le (by nlinarith)
      rw [abs_mul P w]
      linarith

/-- `lu`: if the numbers on the diagonal of the result are finite, all are. -/
theorem diag_finite {n : Nat} {a b : Nat → Nat → F64} (ha : ∀ i < n, ∀ j < n, Rep (a i j)) (h : lu n a = some b)
    (hd : ∀ i < n, (b i i).isFinite = true) : ∀ i < n, ∀ j < n, (b i j).isFinite = true := by
  have key : ∀ c < n, ∀ t < c, (b c t).isFinite = true ∧ (b t c).isFinite = true := by
    intro c hc t ht
    obtain ⟨h1, h2, h3⟩ := lu_chain h hc hc
    exact (chain_err (fun t => b c t) (fun t => b t c) c (fun t => luAt n a t c c) (fun t _ => rep_luAt ha t c hc c hc)
      (fun t ht => h1 t ht ht) (by rw [← h2 le_rfl]; exact hd c hc)).1.2 t ht
  intro i hi j hj
  rcases Nat.lt_trichotomy i j with hij | rfl | hij
  · exact (key j hj i hij).2
  · exact hd i hi
  · exact (key i hi j hij).1

theorem det_low_upp (b : Nat → Nat → F64) (n : Nat) :
    (Matrix.of fun i j : Fin n => ∑ k ∈ Finset.range n, low b i k * upp b k j).det = ∏ i ∈ Finset.range n, upp b i i := by
  have e : (Matrix.of fun i j : Fin n => ∑ k ∈ Finset.range n, low b i k * upp b k j) =
      (Matrix.of fun i k : Fin n => low b i k) * (Matrix.of fun k j : Fin n => upp b k j) := by
    ext i j
    rw [Matrix.mul_apply]
    exact (Fin.sum_univ_eq_sum_range (fun k => low b i k * upp b k j) n).symm
  rw [e, Matrix.det_mul, Matrix.det_of_isLowerTriangular, Matrix.det_of_isUpperTriangular]
  · have : ∏ i : Fin n, Matrix.of (fun i k : Fin n => low b i k) i i = 1 := by
      refine Finset.prod_eq_one fun i _ => ?_
      change low b i i = 1
      unfold low; rw [if_neg (by omega), if_pos rfl]
    rw [this, one_mul]
    exact Fin.prod_univ_eq_prod_range (fun i => upp b i i) n
  · intro i j hij
    change upp b i j = 0
    have : (j : Nat) < i := hij
    unfold upp; rw [if_neg (by omega)]
  · intro i j hij
    change low b i j = 0
    have : (i : Nat) < j := hij
    unfold low; rw [if_neg (by omega), if_neg (by omega)]

/-- **C107**: a matrix that is not square has determinant `0`.  If the answer `d` of `det` for a square matrix is finite, it is close to the exact determinant of
a matrix `A'` close to the given one: `A'` is the product of the computed triangular factors, and the distances are bounded by the sizes of these factors. -/
theorem c107_det (n m : Nat) (a : Nat → Nat → F64) (ha : ∀ i < n, ∀ j < n, Rep (a i j)) :
    (n ≠ m → det n m a = some 0) ∧ (n = 0 → det n n a = none) ∧
    (∀ d, det n n a = some d → d.isFinite = true → ∃ (b : Nat → Nat → F64) (A' : Matrix (Fin n) (Fin n) ℚ), lu n a = some b ∧
      (∀ i j : Fin n, (a i j).isFinite = true ∧ |val (a i j) - A' i j| ≤
        ((1 + u) ^ n - 1) * ∑ k ∈ Finset.range n, |low b i k * upp b k j| + n * (1 + |upp b j j|) * (1 + u) ^ n * eta) ∧
      |val d - A'.det| ≤ ((1 + u) ^ n - 1) * |A'.det| + (∑ k ∈ Finset.range n, ∏ j ∈ Finset.Ico (k + 1) n, |upp b j j|) * (1 + u) ^ n * eta) := by
  refine ⟨fun h => by unfold det; rw [if_pos h], fun h => by subst h; rfl, fun d hd hfin => ?_⟩
  unfold det at hd
  rw [if_neg (by simp)] at hd
  cases hl : lu n a with
  | none => rw [hl] at hd; cases hd
  | some b =>
    rw [hl, Option.map_some, Option.some.injEq] at hd
    subst hd
    obtain ⟨h1, h2⟩ := prod_acc (fun i => b i i) n hfin
    have hf := diag_finite ha hl h1
    have hc := c105_lu n a b ha hl hf
    refine ⟨b, Matrix.of fun i j : Fin n => ∑ k ∈ Finset.range n, low b i k * upp b k j, rfl, fun i j => ⟨hc.2.1 i i.2 j j.2, hc.2.2 i i.2 j j.2⟩, ?_⟩
    rw [det_low_upp]
    have hu : ∀ k, upp b k k = val (b k k) := fun k => by unfold upp; rw [if_pos le_rfl]
    simp only [hu]
    exact h2

/-- Example: the hypotheses hold. -/
example : ∃ d, det 3 3 (rows [[3, 1, 0], [1, 3, 8], [4, 4, 8]]) = some d ∧ d.isFinite = true ∧ val d = -1 / 2 ^ 46 := by
  exact ⟨_, rfl, by decide +kernel, by decide +kernel⟩

/-- **C107**, findings: an invertible matrix can get the determinant `0` (underflow), infinity (overflow although the determinant is `2^200`) or NaN (zero
pivot, the determinant is `-1`), and a singular one a non-zero determinant. -/
theorem c107_det_limits :
    det 2 2 (rows [[1 / 2 ^ 600, 0], [0, 1 / 2 ^ 600]]) = some 0 ∧
    det 3 3 (rows [[2 ^ 600, 0, 0], [0, 2 ^ 600, 0], [0, 0, 1 / 2 ^ 1000]]) = some (inf false) ∧
    det 2 2 (rows [[0, 1], [1, 0]]) = some nan ∧
    (∃ d, det 3 3 (rows [[3, 1, 0], [1, 3, 8], [4, 4, 8]]) = some d ∧ d.isFinite = true ∧ val d ≠ 0) ∧
    (!![3, 1, 0; 1, 3, 8; 4, 4, 8] : Matrix (Fin 3) (Fin 3) ℚ).det = 0 := by
  refine ⟨by decide +kernel, by decide +kernel, by decide +kernel, ⟨_, rfl, by decide +kernel, by decide +kernel⟩, ?_⟩
  simp [Matrix.det_fin_three]
  norm_num

end Toppo.FloatProps
