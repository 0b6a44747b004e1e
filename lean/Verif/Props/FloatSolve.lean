import Verif.Proof.FloatSolve
import Verif.Props.FloatLU
set_option linter.unusedVariables false

/-!
# `solve` on `f64` (C106)

Specification: `low f`, `upp f` are the triangular factors packed in the result `f` of `lu` (Props/FloatLU.lean), `val` the exact value of a number; `u = 2^-53`,
`eta = 2^-1075`.
-/
namespace Toppo.FloatProps
open Toppo F64 FloatAlg

open Finset in
theorem combine (n : Nat) (B : ℚ) (A L : Nat → ℚ) (U : Nat → Nat → ℚ) (x y : Nat → ℚ) (G G' e : ℚ) (hG : 1 ≤ G) (hG' : 1 ≤ G') (he : 0 ≤ e)
    (hF : |B - ∑ k ∈ range n, L k * y k| ≤ (G - 1) * ∑ k ∈ range n, |L k * y k| + n * G * e)
    (hB : ∀ k < n, |y k - ∑ j ∈ range n, U k j * x j| ≤ (G' - 1) * ∑ j ∈ range n, |U k j * x j| + (n + |U k k|) * G' * e)
    (hA : ∀ j < n, |A j - ∑ k ∈ range n, L k * U k j| ≤ (G - 1) * ∑ k ∈ range n, |L k * U k j| + n * (1 + |U j j|) * G * e) :
    |B - ∑ j ∈ range n, A j * x j| ≤ (G * G * G' - 1) * ∑ k ∈ range n, ∑ j ∈ range n, |L k * U k j * x j| +
      (n + ∑ k ∈ range n, |L k| * (n + |U k k|) + n * ∑ j ∈ range n, (1 + |U j j|) * |x j|) * (G * G * G') * e := by
  set W := ∑ k ∈ range n, ∑ j ∈ range n, |L k * U k j * x j| with hW
  set V := ∑ k ∈ range n, |L k| * (n + |U k k|) with hV
  set Z := ∑ j ∈ range n, (1 + |U j j|) * |x j| with hZ
  have hW0 : 0 ≤ W := sum_nonneg fun _ _ => sum_nonneg fun _ _ => abs_nonneg _
  have hn : (0 : ℚ) ≤ n := Nat.cast_nonneg n
  have hV0 : 0 ≤ V := sum_nonneg fun k _ => mul_nonneg (abs_nonneg _) (add_nonneg hn (abs_nonneg _))
  have hZ0 : 0 ≤ Z := sum_nonneg fun k _ => mul_nonneg (by have := abs_nonneg (U k k); linarith) (abs_nonneg _)
  have hW1 : W = ∑ k ∈ range n, |L k| * ∑ j ∈ range n, |U k j * x j| := by
    rw [hW]
    refine sum_congr rfl fun k _ => ?_
    rw [mul_sum]
    refine sum_congr rfl fun j _ => ?_
    rw [mul_assoc, abs_mul]
  have hW2 : W = ∑ j ∈ range n, (∑ k ∈ range n, |L k * U k j|) * |x j| := by
    rw [hW, sum_comm]
    refine sum_congr rfl fun j _ => ?_
    rw [sum_mul]
    refine sum_congr rfl fun k _ => ?_
    rw [abs_mul]
  -- the decomposition of the residual
  have e1 : B - ∑ j ∈ range n, A j * x j = (B - ∑ k ∈ range n, L k * y k) + ∑ k ∈ range n, L k * (y k - ∑ j ∈ range n, U k j * x j) +
      ∑ j ∈ range n, -(A j - ∑ k ∈ range n, L k * U k j) * x j := by
    have a1 : ∑ k ∈ range n, L k * (y k - ∑ j ∈ range n, U k j * x j) = ∑ k ∈ range n, L k * y k - ∑ k ∈ range n, ∑ j ∈ range n, L k * U k j * x j := by
      rw [← sum_sub_distrib]
      refine sum_congr rfl fun k _ => ?_
      rw [mul_sub, mul_sum]
      congr 1
      exact sum_congr rfl fun j _ => (mul_assoc _ _ _).symm
    have a2 : ∑ j ∈ range n, -(A j - ∑ k ∈ range n, L k * U k j) * x j = ∑ k ∈ range n, ∑ j ∈ range n, L k * U k j * x j - ∑ j ∈ range n, A j * x j := by
      rw [sum_comm, ← sum_sub_distrib]
      refine sum_congr rfl fun j _ => ?_
      rw [← sum_mul]; ring
    rw [a1, a2]; ring
  have b1 : ∑ k ∈ range n, |L k * y k| ≤ G' * W + G' * e * V := by
    rw [hW1, hV, mul_sum, mul_sum, ← sum_add_distrib]
    refine sum_le_sum fun k hk => ?_
    have hk' := hB k (mem_range.mp hk)
    set T := ∑ j ∈ range n, |U k j * x j| with hT
    have c1 : |∑ j ∈ range n, U k j * x j| ≤ T := abs_sum_le_sum_abs _ _
    have c2 : |y k| ≤ G' * T + (n + |U k k|) * G' * e := by
      have := abs_sub_abs_le_abs_sub (y k) (∑ j ∈ range n, U k j * x j)
      linarith
    rw [abs_mul]
    refine (mul_le_mul_of_nonneg_left c2 (abs_nonneg (L k))).trans (le_of_eq ?_)
    ring
  have b2 : |∑ k ∈ range n, L k * (y k - ∑ j ∈ range n, U k j * x j)| ≤ (G' - 1) * W + G' * e * V := by
    refine (abs_sum_le_sum_abs _ _).trans ?_
    rw [hW1, hV, mul_sum, mul_sum, ← sum_add_distrib]
    refine sum_le_sum fun k hk => ?_
    rw [abs_mul]
    refine (mul_le_mul_of_nonneg_left (hB k (mem_range.mp hk)) (abs_nonneg (L k))).trans (le_of_eq ?_)
    ring
  have b3 : |∑ j ∈ range n, -(A j - ∑ k ∈ range n, L k * U k j) * x j| ≤ (G - 1) * W + n * G * e * Z := by
    refine (abs_sum_le_sum_abs _ _).trans ?_
    rw [hW2, hZ, mul_sum, mul_sum, ← sum_add_distrib]
    refine sum_le_sum fun j hj => ?_
    rw [abs_mul, abs_neg]
    refine (mul_le_mul_of_nonneg_right (hA j (mem_range.mp hj)) (abs_nonneg (x j))).trans (le_of_eq ?_)
    ring
  rw [e1]
  refine (abs_add_three _ _ _).trans ?_
  have b4 : (G - 1) * ∑ k ∈ range n, |L k * y k| ≤ (G - 1) * (G' * W + G' * e * V) := mul_le_mul_of_nonneg_left b1 (by linarith)
  have b5 : (G * G * G' - 1) * W + (n + V + n * Z) * (G * G * G') * e - ((G - 1) * (G' * W + G' * e * V) + n * G * e + ((G' - 1) * W + G' * e * V) + ((G - 1) * W + n * G * e * Z)) =
      (G - 1) * (G * G' - 1) * W + V * (G * G') * e * (G - 1) + (n * (1 + Z)) * G * e * (G * G' - 1) := by ring
  have hGG : 1 ≤ G * G' := by nlinarith
  have c1 : 0 ≤ (G - 1) * (G * G' - 1) * W := mul_nonneg (mul_nonneg (by linarith) (by linarith)) hW0
  have c2 : 0 ≤ V * (G * G') * e * (G - 1) := mul_nonneg (mul_nonneg (mul_nonneg hV0 (by linarith)) he) (by linarith)
  have c3 : 0 ≤ (n * (1 + Z)) * G * e * (G * G' - 1) :=
    mul_nonneg (mul_nonneg (mul_nonneg (mul_nonneg hn (by linarith)) (by linarith)) he) (by linarith)
  linarith

theorem low_mul_vec (f : Nat → Nat → F64) (y : Nat → F64) {n i : Nat} (φ : ℚ → ℚ) (h0 : φ 0 = 0) (hi : i < n) :
    ∑ k ∈ Finset.range n, φ (low f i k * val (y k)) = φ (val (y i)) + ∑ t ∈ Finset.range i, φ (val (f i t) * val (y t)) := by
  rw [sum_cut hi (fun k h1 h2 => by unfold low; rw [if_neg (by omega), if_neg (by omega), zero_mul, h0]), add_comm]
  congr 1
  · unfold low; rw [if_neg (by omega), if_pos rfl, one_mul]
  · refine Finset.sum_congr rfl (fun t ht => ?_)
    have := Finset.mem_range.mp ht
    unfold low; rw [if_pos this]

theorem upp_mul_vec (f : Nat → Nat → F64) (x : Nat → F64) {n i : Nat} (φ : ℚ → ℚ) (h0 : φ 0 = 0) (hi : i < n) :
    ∑ j ∈ Finset.range n, φ (upp f i j * val (x j)) = φ (val (f i i) * val (x i)) + ∑ t ∈ Finset.Ico (i + 1) n, φ (val (f i t) * val (x t)) := by
  rw [← Finset.sum_range_add_sum_Ico _ hi, Finset.sum_range_succ, Finset.sum_eq_zero (s := Finset.range i) (fun k hk => by
    have := Finset.mem_range.mp hk
    unfold upp; rw [if_neg (by omega), zero_mul, h0]), zero_add]
  congr 1
  · unfold upp; rw [if_pos le_rfl]
  · refine Finset.sum_congr rfl (fun t ht => ?_)
    have := Finset.mem_Ico.mp ht
    unfold upp; rw [if_pos (by omega)]

/-- **C106**: if the factors computed by `lu` and the answer of `solve` consist of finite numbers, then no pivot is zero, the right-hand side was finite, and the
answer satisfies every equation up to a relative error in the size of the terms (of the product of the factors and of the answer) and a tiny error from underflow. -/
theorem c106_solve (n : Nat) (a f : Nat → Nat → F64) (b x : Nat → F64) (ha : ∀ i < n, ∀ j < n, Rep (a i j)) (hb : ∀ i < n, Rep (b i))
    (hl : lu n a = some f) (hf : ∀ i < n, ∀ j < n, (f i j).isFinite = true) (hs : solve n a b = some x) (hx : ∀ i < n, (x i).isFinite = true) :
    (∀ i < n, upp f i i ≠ 0) ∧ (∀ i < n, (b i).isFinite = true) ∧
    ∀ i < n, |val (b i) - ∑ j ∈ Finset.range n, val (a i j) * val (x j)| ≤
      ((1 + u) ^ (3 * n + 1) - 1) * ∑ k ∈ Finset.range n, ∑ j ∈ Finset.range n, |low f i k * upp f k j * val (x j)| +
      (n + ∑ k ∈ Finset.range n, |low f i k| * (n + |upp f k k|) + n * ∑ j ∈ Finset.range n, (1 + |upp f j j|) * |val (x j)|) * (1 + u) ^ (3 * n + 1) * eta := by
  obtain ⟨f', y, h1, hn, h2, h3, h4, h5⟩ := solve_eq hs
  rw [hl] at h1
  injection h1 with h1
  subst h1
  have hrf : ∀ i < n, Rep (f i i) ∧ (f i i).isFinite = true := fun i hi => ⟨by
    rw [(lu_chain hl hi hi).2.1 le_rfl]; exact rep_luAt ha i i hi i hi, hf i hi i hi⟩
  have hry : ∀ i < n, Rep (y i) := by
    intro i hi
    rcases Nat.eq_zero_or_pos i with rfl | h
    · rw [h2]; exact hb 0 hi
    · rw [h3 i h hi]; exact rep_sub _ _
  have hB := fun i hi => bwd_row (i := i) hrf hry hi h4 h5 (hx i hi)
  have hF := fun i hi => fwd_row (i := i) hb hi h2 h3 (hB i hi).2.1
  have hu : ∀ k, upp f k k = val (f k k) := fun k => by unfold upp; rw [if_pos le_rfl]
  refine ⟨fun i hi => by rw [hu]; exact (hB i hi).1, fun i hi => (hF i hi).1, fun i hi => ?_⟩
  have key := combine n (val (b i)) (fun j => val (a i j)) (fun k => low f i k) (upp f) (fun j => val (x j)) (fun k => val (y k)) (g ^ n) (g ^ (n + 1)) eta (gpow_ge _) (gpow_ge _) eta_pos.le
    (by
      have e1 := low_mul_vec f y (fun z => z) rfl hi
      have e2 := low_mul_vec f y (fun z => |z|) abs_zero hi
      rw [e1, e2]
      exact (hF i hi).2)
    (fun k hk => by
      have e1 := upp_mul_vec f x (fun z => z) rfl hk
      have e2 := upp_mul_vec f x (fun z => |z|) abs_zero hk
      rw [e1, e2, hu]
      exact (hB k hk).2.2)
    (fun j hj => (c105_lu n a f ha hl hf).2.2 i hi j hj)
  have e : g ^ n * g ^ n * g ^ (n + 1) = (1 + u) ^ (3 * n + 1) := by
    rw [← g_eq, ← pow_add, ← pow_add]; congr 1; omega
  rw [e] at key
  exact key

/-- entries of a vector given as a list -/
def vec (l : List ℚ) (i : Nat) : F64 := lit (l.getD i 0)

theorem rep_vec (l : List ℚ) (i : Nat) : Rep (vec l i) := ofExact_rep _ _

/-- Example: the hypotheses hold for a system with a solution that is not exact. -/
example : ∃ f x, lu 3 (rows [[3, 1, 1], [1, 3, 1], [1, 1, 3]]) = some f ∧ (∀ i < 3, ∀ j < 3, (f i j).isFinite = true) ∧
    solve 3 (rows [[3, 1, 1], [1, 3, 1], [1, 1, 3]]) (vec [1, 0, 0]) = some x ∧ (∀ i < 3, (x i).isFinite = true) ∧ (x 0).isFinite = true ∧ val (x 0) ≠ 2 / 5 := by
  refine ⟨_, _, rfl, ?_, rfl, ?_, ?_, ?_⟩
  · intro i hi j hj
    interval_cases i <;> interval_cases j <;> decide +kernel
  · intro i hi
    interval_cases i <;> decide +kernel
  · decide +kernel
  · decide +kernel

/-- **C106**, findings: the answer of `solve` can be finite and wrong.

* With a small pivot: the system `2^-60 x + y = 1`, `x + y = 2` has a solution near `(1, 1)` (its matrix is invertible and well conditioned); the answer is `(0, 1)`.
* If a number of the factorization overflows (finite matrix and right-hand side): the system `x + H y = 1`, `H x = 0` with `H = 2^1000` has the solution
`(0, 1 / H)`; the answer is `(1, 0)`: dividing by the infinite pivot gives `0`. -/
theorem c106_solve_limits :
    (∃ x, solve 2 (rows [[1 / 2 ^ 60, 1], [1, 1]]) (vec [1, 2]) = some x ∧ (x 0).isFinite = true ∧ (x 1).isFinite = true ∧ val (x 0) = 0 ∧ val (x 1) = 1) ∧
    (∀ x y : ℚ, 1 / 2 ^ 60 * x + y = 1 → x + y = 2 → |x - 1| < 1 / 2 ^ 59 ∧ |y - 1| < 1 / 2 ^ 59) ∧
    (∃ x, solve 2 (rows [[1, 2 ^ 1000], [2 ^ 1000, 0]]) (vec [1, 0]) = some x ∧ (x 0).isFinite = true ∧ (x 1).isFinite = true ∧ val (x 0) = 1 ∧ val (x 1) = 0) ∧
    (∀ i < 2, ∀ j < 2, (rows [[1, 2 ^ 1000], [2 ^ 1000, 0]] i j).isFinite = true) := by
  refine ⟨⟨_, rfl, by decide +kernel, by decide +kernel, by decide +kernel, by decide +kernel⟩, ?_, ⟨_, rfl, by decide +kernel, by decide +kernel, by decide +kernel, by decide +kernel⟩, ?_⟩
  · intro x y h1 h2
    have e1 : x = 2 ^ 60 / (2 ^ 60 - 1) := by
      have : y = 2 - x := by linarith
      subst this
      norm_num at h1 ⊢
      linarith
    have e2 : y = 2 - x := by linarith
    rw [e2, e1]
    constructor <;> rw [abs_lt] <;> constructor <;> norm_num
  · intro i hi j hj
    interval_cases i <;> interval_cases j <;> decide +kernel

end Toppo.FloatProps
