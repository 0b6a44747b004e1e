import Verif.Proof.FloatSum
import Verif.Props.ConstMatrix
set_option linter.unusedVariables false
/-!
# Arithmetic of `ConstVector<f64>` and `ConstMatrix<f64>` (C119)

`val x` is the exact value of a finite `f64`, `u = 2^-53`, `eta = 2^-1075`.
-/
namespace Toppo.FloatProps
open Toppo Toppo.CMat F64 FloatAlg

variable {n m : Nat}

/-- `r` is the correctly rounded result of an operation on finite numbers, with exact value `x`: a relative error of at most `u` -/
def Close (r : F64) (x : ℚ) : Prop := |val r - x| ≤ u * |x|
/-- the same with a tiny absolute error from underflow -/
def CloseU (r : F64) (x : ℚ) : Prop := |val r - x| ≤ u * |x| + eta

/-- **C119**, vectors: `+`, `-`, multiplication and division by a number and `-` act on the entries; a finite entry of the result comes from finite entries and is
rounded once; the negative is exact. -/
theorem c119_vector_ops (x y : Fin n → F64) (c : F64) (hx : ∀ i, Rep (x i)) (hy : ∀ i, Rep (y i)) (hc : Rep c) :
    (∃ z, vAdd (arr x) (arr y) = arr z ∧ ∀ i : Fin n, (z i).isFinite = true → (x i).isFinite = true ∧ (y i).isFinite = true ∧ Close (z i) (val (x i) + val (y i))) ∧
    (∃ z, vSub (arr x) (arr y) = arr z ∧ ∀ i : Fin n, (z i).isFinite = true → (x i).isFinite = true ∧ (y i).isFinite = true ∧ Close (z i) (val (x i) - val (y i))) ∧
    (∃ z, vMul (arr x) c = arr z ∧ ∀ i : Fin n, (z i).isFinite = true → (x i).isFinite = true ∧ c.isFinite = true ∧ CloseU (z i) (val (x i) * val c)) ∧
    (∃ z, vDiv (arr x) c = arr z ∧ ∀ i : Fin n, (z i).isFinite = true → (x i).isFinite = true ∧
      (c.isFinite = true → val c ≠ 0 ∧ CloseU (z i) (val (x i) / val c)) ∧ (c.isFinite = false → val (z i) = 0)) ∧
    (∃ z, vNeg (arr x) = arr z ∧ ∀ i : Fin n, (z i).isFinite = (x i).isFinite ∧ val (z i) = -val (x i)) := by
  refine ⟨⟨_, zipAssign_arr _ x y, fun i h => add_fin (hx i) (hy i) h⟩, ⟨_, zipAssign_arr _ x y, fun i h => sub_fin (hx i) (hy i) h⟩,
    ⟨fun i => x i * c, ?_, fun i h => mul_fin h⟩, ⟨fun i => x i / c, ?_, fun i h => ?_⟩, ⟨fun i => -x i, ?_, fun i => ⟨fin_neg _, val_neg _⟩⟩⟩
  · simp only [vMul, arr, List.map_ofFn]; rfl
  · simp only [vDiv, arr, List.map_ofFn]; rfl
  · obtain ⟨h1, h2⟩ := div_fin_cases h
    refine ⟨h1, fun hf => ?_, fun hf => ?_⟩
    · obtain ⟨-, p, q⟩ := div_fin hc hf h
      exact ⟨p, q⟩
    · rcases h2 with h2 | h2
      · rw [h2] at hf; cases hf
      · exact h2
  · simp only [vNeg, arr, List.map_ofFn]; rfl

/-- **C119**, matrices: the same for `ConstMatrix`. -/
theorem c119_matrix_ops (A B : Matrix (Fin n) (Fin m) F64) (c : F64) (hA : ∀ i j, Rep (A i j)) (hB : ∀ i j, Rep (B i j)) (hc : Rep c) :
    (∃ C : Matrix (Fin n) (Fin m) F64, mAdd (rows A) (rows B) = rows C ∧ ∀ i j, (C i j).isFinite = true →
      (A i j).isFinite = true ∧ (B i j).isFinite = true ∧ Close (C i j) (val (A i j) + val (B i j))) ∧
    (∃ C : Matrix (Fin n) (Fin m) F64, mSub (rows A) (rows B) = rows C ∧ ∀ i j, (C i j).isFinite = true →
      (A i j).isFinite = true ∧ (B i j).isFinite = true ∧ Close (C i j) (val (A i j) - val (B i j))) ∧
    (∃ C : Matrix (Fin n) (Fin m) F64, mMul (rows A) c = rows C ∧ ∀ i j, (C i j).isFinite = true →
      (A i j).isFinite = true ∧ c.isFinite = true ∧ CloseU (C i j) (val (A i j) * val c)) ∧
    (∃ C : Matrix (Fin n) (Fin m) F64, mDiv (rows A) c = rows C ∧ ∀ i j, (C i j).isFinite = true → (A i j).isFinite = true ∧
      (c.isFinite = true → val c ≠ 0 ∧ CloseU (C i j) (val (A i j) / val c)) ∧ (c.isFinite = false → val (C i j) = 0)) ∧
    (∃ C : Matrix (Fin n) (Fin m) F64, mNeg (rows A) = rows C ∧ ∀ i j, (C i j).isFinite = (A i j).isFinite ∧ val (C i j) = -val (A i j)) := by
  refine ⟨⟨_, flatZipAssign_rows _ A B, fun i j h => add_fin (hA i j) (hB i j) h⟩, ⟨_, flatZipAssign_rows _ A B, fun i j h => sub_fin (hA i j) (hB i j) h⟩,
    ⟨fun i j => A i j * c, ?_, fun i j h => mul_fin h⟩, ⟨fun i j => A i j / c, ?_, fun i j h => ?_⟩, ⟨fun i j => -A i j, ?_, fun i j => ⟨fin_neg _, val_neg _⟩⟩⟩
  · simp only [mMul, rows, List.map_ofFn]; congr 1; funext i; simp only [Function.comp, List.map_ofFn]; rfl
  · simp only [mDiv, rows, List.map_ofFn]; congr 1; funext i; simp only [Function.comp, List.map_ofFn]; rfl
  · obtain ⟨h1, h2⟩ := div_fin_cases h
    refine ⟨h1, fun hf => ?_, fun hf => ?_⟩
    · obtain ⟨-, p, q⟩ := div_fin hc hf h
      exact ⟨p, q⟩
    · rcases h2 with h2 | h2
      · rw [h2] at hf; cases hf
      · exact h2
  · simp only [mNeg, rows, List.map_ofFn]; congr 1; funext i; simp only [Function.comp, List.map_ofFn]; rfl

theorem dot_fsum (x y : Fin n → F64) : dot (arr x) (arr y) = fsum ((List.finRange n).map (fun k => x k * y k)) := by
  have h : List.zipWith (fun a b => a * b) (arr x) (arr y) = (List.finRange n).map (fun i => x i * y i) := by
    apply List.ext_getElem <;> simp [arr]
  rw [dot, h]; rfl

theorem finRange_sum (f : Fin n → ℚ) : ((List.finRange n).map f).sum = ∑ i, f i := by
  rw [← List.ofFn_eq_map, List.sum_ofFn]

/-- **C119**, `dot`: if the result is finite, so are all entries, and it differs from the exact scalar product by a relative error in the size of the terms and a tiny
error from underflow. -/
theorem c119_dot (x y : Fin n → F64) (h : (dot (arr x) (arr y)).isFinite = true) :
    (∀ i, (x i).isFinite = true ∧ (y i).isFinite = true) ∧
    |val (dot (arr x) (arr y)) - ∑ i, val (x i) * val (y i)| ≤ ((1 + u) ^ n - 1) * ∑ i, |val (x i) * val (y i)| + n * (1 + u) ^ n * eta := by
  rw [dot_fsum] at *
  obtain ⟨a1, a2⟩ := prod_err (List.finRange n) x y h
  refine ⟨fun i => a1 i (List.mem_finRange i), ?_⟩
  rw [List.length_finRange, finRange_sum, finRange_sum] at a2
  exact a2

/-- **C119**, `dot`, no overflow: for finite entries whose products stay small the result is finite. -/
theorem c119_dot_finite (x y : Fin n → F64) (hx : ∀ i, (x i).isFinite = true) (hy : ∀ i, (y i).isFinite = true)
    (h : (1 + u) ^ (n + 1) * (∑ i, |val (x i) * val (y i)| + n * eta) < 2 ^ 1023) : (dot (arr x) (arr y)).isFinite = true := by
  rw [dot_fsum]
  refine prod_fin (List.finRange n) x y (fun k _ => hx k) (fun k _ => hy k) ?_
  rw [List.length_finRange, finRange_sum]
  exact h

/-- a case: `(1, 2) · (3, -1)` is exactly `1` -/
example : (dot (arr ![(1 : F64), F64.lit 2]) (arr ![F64.lit 3, -1])).isFinite = true ∧ val (dot (arr ![(1 : F64), F64.lit 2]) (arr ![F64.lit 3, -1])) = 1 := by
  decide +kernel

end Toppo.FloatProps
