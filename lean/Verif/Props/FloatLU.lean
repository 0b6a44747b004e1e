import Verif.Proof.FloatLU
import Verif.Props.FloatMul
set_option linter.unusedVariables false

/-!
# `lu` on `f64` (C105)

Specification: `low b` and `upp b` are the unit lower triangular and the upper triangular matrix packed in the result `b` of `lu` (exact values of the
numbers); `u = 2^-53`, `eta = 2^-1075`.
-/
namespace Toppo.FloatProps
open Toppo F64 FloatAlg

/-- the unit lower triangular matrix packed in `b` -/
def low (b : Nat → Nat → F64) (i k : Nat) : ℚ := if k < i then val (b i k) else if k = i then 1 else 0
/-- the upper triangular matrix packed in `b` -/
def upp (b : Nat → Nat → F64) (k j : Nat) : ℚ := if k ≤ j then val (b k j) else 0

theorem sum_cut {n m : Nat} {f : Nat → ℚ} (hm : m < n) (h : ∀ k, m < k → k < n → f k = 0) : ∑ k ∈ Finset.range n, f k = ∑ k ∈ Finset.range m, f k + f m := by
  rw [← Finset.sum_range_succ]
  symm
  apply Finset.sum_subset
  · intro x hx; rw [Finset.mem_range] at *; omega
  · intro x h1 h2
    rw [Finset.mem_range] at h1 h2
    exact h x (by omega) h1

theorem low_mul_upp (b : Nat → Nat → F64) {n i j : Nat} (φ : ℚ → ℚ) (h0 : φ 0 = 0) (hi : i < n) (hj : j < n) :
    ∑ k ∈ Finset.range n, φ (low b i k * upp b k j) =
      if i ≤ j then φ (val (b i j)) + ∑ t ∈ Finset.range i, φ (val (b i t) * val (b t j))
      else φ (val (b i j) * val (b j j)) + ∑ t ∈ Finset.range j, φ (val (b i t) * val (b t j)) := by
  split_ifs with h
  · rw [sum_cut hi (fun k h1 h2 => by unfold low; rw [if_neg (by omega), if_neg (by omega), zero_mul, h0]), add_comm]
    congr 1
    · unfold low upp; rw [if_neg (by omega), if_pos rfl, if_pos h, one_mul]
    · refine Finset.sum_congr rfl (fun t ht => ?_)
      have := Finset.mem_range.mp ht
      unfold low upp; rw [if_pos this, if_pos (by omega)]
  · rw [sum_cut hj (fun k h1 h2 => by unfold upp; rw [if_neg (by omega), mul_zero, h0]), add_comm]
    congr 1
    · unfold low upp; rw [if_pos (by omega), if_pos le_rfl]
    · refine Finset.sum_congr rfl (fun t ht => ?_)
      have := Finset.mem_range.mp ht
      unfold low upp; rw [if_pos (by omega), if_pos (by omega)]

theorem weaken_bound {G G' X c d e : ℚ} (h1 : G ≤ G') (h0 : 0 ≤ G) (hX : 0 ≤ X) (hd : 0 ≤ d) (hc : c ≤ d) (he : 0 ≤ e) :
    (G - 1) * X + c * G * e ≤ (G' - 1) * X + d * G' * e := by
  have a1 : (G - 1) * X ≤ (G' - 1) * X := mul_le_mul_of_nonneg_right (by linarith) hX
  have a2 : c * G * e ≤ d * G' * e := mul_le_mul_of_nonneg_right (mul_le_mul hc h1 h0 hd) he
  linarith

/-- **C105**: if all numbers in the result of `lu` are finite, then no pivot is zero (but possibly the last one, by which nothing is divided), the matrix had
finite entries only, and the product of the two triangular factors is the matrix up to a relative error in the size of the terms and a tiny error from underflow.
The number of digits lost depends on the size of the factors: there is no pivoting. -/
theorem c105_lu (n : Nat) (a b : Nat → Nat → F64) (ha : ∀ i < n, ∀ j < n, Rep (a i j)) (h : lu n a = some b)
    (hf : ∀ i < n, ∀ j < n, (b i j).isFinite = true) :
    (∀ i, i + 1 < n → upp b i i ≠ 0) ∧ (∀ i < n, ∀ j < n, (a i j).isFinite = true) ∧
    ∀ i < n, ∀ j < n, |val (a i j) - ∑ k ∈ Finset.range n, low b i k * upp b k j| ≤
      ((1 + u) ^ n - 1) * ∑ k ∈ Finset.range n, |low b i k * upp b k j| + n * (1 + |upp b j j|) * (1 + u) ^ n * eta := by
  refine ⟨fun i hi => ?_, fun i hi j hj => lu_input_finite ha h hf hi hj, fun i hi j hj => ?_⟩
  · have := (lu_lower ha h hf hi (Nat.lt_succ_self i)).1
    unfold upp; rw [if_pos le_rfl]; exact this
  · have e1 := low_mul_upp b (fun x => x) rfl hi hj
    have e2 := low_mul_upp b (fun x => |x|) abs_zero hi hj
    have hX : 0 ≤ ∑ k ∈ Finset.range n, |low b i k * upp b k j| := Finset.sum_nonneg fun _ _ => abs_nonneg _
    have hjj : upp b j j = val (b j j) := by unfold upp; rw [if_pos le_rfl]
    have hp := abs_nonneg (val (b j j))
    have hn : (1 : ℚ) ≤ n := by exact_mod_cast (show 1 ≤ n by omega)
    rw [e1, e2] at *
    rw [hjj]
    split_ifs at * with hij
    · have := lu_upper ha h hf hj hij
      refine this.trans (weaken_bound (gpow_mono (by omega)) (pow_pos g_pos _).le hX (by nlinarith) ?_ eta_pos.le)
      have : (i : ℚ) ≤ n := by exact_mod_cast hi.le
      nlinarith
    · have := (lu_lower ha h hf hi (not_le.mp hij)).2
      refine this.trans (weaken_bound (gpow_mono (by omega)) (pow_pos g_pos _).le hX (by nlinarith) ?_ eta_pos.le)
      have : (j : ℚ) ≤ n := by exact_mod_cast hj.le
      nlinarith

/-- entries of a matrix given by rows -/
def rows (l : List (List ℚ)) (i j : Nat) : F64 := lit ((l.getD i []).getD j 0)

theorem rep_rows (l : List (List ℚ)) (i j : Nat) : Rep (rows l i j) := ofExact_rep _ _

/-- Example: the hypotheses hold for a matrix whose factors are not exact. -/
example : ∃ b, lu 3 (rows [[3, 1, 1], [1, 3, 1], [1, 1, 3]]) = some b ∧ (∀ i < 3, ∀ j < 3, (b i j).isFinite = true) ∧ b 1 0 = lit (1 / 3) ∧ val (b 1 0) ≠ 1 / 3 := by
  refine ⟨_, rfl, ?_, ?_, ?_⟩
  · intro i hi j hj
    interval_cases i <;> interval_cases j <;> decide +kernel
  · decide +kernel
  · decide +kernel

/-- **C105**, findings: `lu` never exchanges rows.  An invertible matrix with a zero pivot gives infinities, and with a small pivot the finite factors have a
product far from the matrix (here `1` instead of `0` in a corner). -/
theorem c105_lu_limits :
    (∃ b, lu 2 (rows [[0, 1], [1, 1]]) = some b ∧ b 1 0 = inf false ∧ b 1 1 = inf true) ∧
    (∃ b, lu 2 (rows [[1 / 2 ^ 60, 1], [1, 1]]) = some b ∧ (∀ i < 2, ∀ j < 2, (b i j).isFinite = true) ∧
      val (rows [[1 / 2 ^ 60, 1], [1, 1]] 1 1) = 1 ∧ ∑ k ∈ Finset.range 2, low b 1 k * upp b k 1 = 0) := by
  refine ⟨⟨_, rfl, by decide +kernel, by decide +kernel⟩, ⟨_, rfl, ?_, by decide +kernel, ?_⟩⟩
  · intro i hi j hj
    interval_cases i <;> interval_cases j <;> decide +kernel
  · decide +kernel

end Toppo.FloatProps
