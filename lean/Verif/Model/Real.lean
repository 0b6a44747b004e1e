import Mathlib.Data.Real.Sqrt
import Mathlib.Data.Matrix.Mul
set_option linter.unusedVariables false

/-
Model of numerical routines of alg/src/lin_alg/matrix_impl.rs over exact real numbers: `householder_vec`, `givens_rotation`,
`gram_schmidt`, `gram_schmidt_without_normalize`, `real_spectrum_of_two_by_two`, `spectrum` on 2 × 2 matrices, the norms.
Simplification: `f64` rounding, infinities and NaN are not modelled; the reals are exact and `x / 0 = 0` (the theorems
assume the divisors non-zero where it matters).
-/
namespace Toppo.RealAlg
open Finset

/-- `Matrix::householder_vec`, matrix_impl.rs:1262-1286, on a column vector with `n + 1` entries. -/
noncomputable def householderVec {n : Nat} (x : Fin (n + 1) → ℝ) : (Fin (n + 1) → ℝ) × ℝ :=
  let a := ∑ k : Fin n, x k.succ * x k.succ
  let b := x 0
  if a = 0 ∧ 0 ≤ b then (Function.update x 0 1, 0)
  else if a = 0 ∧ b < 0 then (Function.update x 0 1, -2)
  else
    let u := Real.sqrt (a + b * b)
    let v0 := if b ≤ 0 then b - u else -a / (b + u)
    let d := v0 * v0
    (fun i => Function.update x 0 v0 i / v0, 2 * d / (a + d))

/-- `Matrix::givens_rotation`, matrix_impl.rs:1288-1304. -/
noncomputable def givens (a b : ℝ) : ℝ × ℝ :=
  if |b| < 0.000000000001 then (1, 0)
  else if |a| < |b| then
    let c := -a / b
    let y := 1 / Real.sqrt (1 + c * c)
    (c * y, y)
  else
    let c := -b / a
    let x := 1 / Real.sqrt (1 + c * c)
    (x, c * x)

/-- one update of the inner loop of `gram_schmidt`, matrix_impl.rs:1196-1197 (column `i` against the normalised column `j`) -/
def gsStep {n : Nat} (i : Nat) (v : Nat → Fin n → ℝ) (j : Nat) : Nat → Fin n → ℝ :=
  Function.update v i (v i - (v i ⬝ᵥ v j) • v j)

/-- `self[(..,i)] /= factor` with the 2-norm, matrix_impl.rs:1191-1192, 1199-1200 (`two_norm`: 1655-1661) -/
noncomputable def normalize {n : Nat} (v : Nat → Fin n → ℝ) (i : Nat) : Nat → Fin n → ℝ :=
  Function.update v i ((Real.sqrt (v i ⬝ᵥ v i))⁻¹ • v i)

/-- `Matrix::gram_schmidt`, matrix_impl.rs:1189-1204, on a matrix with `m` columns `v 0, ..., v (m-1)`;
`none`: column 0 does not exist. -/
noncomputable def gramSchmidt {n : Nat} (m : Nat) (v : Nat → Fin n → ℝ) : Option (Nat → Fin n → ℝ) :=
  if m = 0 then none
  else some ((List.range' 1 (m - 1)).foldl (fun v i => normalize ((List.range i).foldl (gsStep i) v) i) (normalize v 0))

/-- one update of the inner loop of `gram_schmidt_without_normalize`, matrix_impl.rs:1209-1210 -/
noncomputable def gsStep' {n : Nat} (i : Nat) (v : Nat → Fin n → ℝ) (j : Nat) : Nat → Fin n → ℝ :=
  Function.update v i (v i - (v j ⬝ᵥ v j)⁻¹ • (v i ⬝ᵥ v j) • v j)

/-- `Matrix::gram_schmidt_without_normalize`, matrix_impl.rs:1206-1215. -/
noncomputable def gramSchmidt' {n : Nat} (m : Nat) (v : Nat → Fin n → ℝ) : Nat → Fin n → ℝ :=
  (List.range' 1 (m - 1)).foldl (fun v i => (List.range i).foldl (gsStep' i) v) v

/-- `real_spectrum_of_two_by_two`, matrix_impl.rs:1682-1692, on `[[a, b], [c, d]]`. -/
noncomputable def realSpectrum2 (a b c d : ℝ) : Option (ℝ × ℝ) :=
  let det := a * d - b * c
  let m := (a + d) / 2
  if 0 < m * m - det then
    let rad := Real.sqrt (m * m - det)
    some (m - rad, m + rad)
  else none

/-- `Matrix::spectrum` on a 2 × 2 matrix, matrix_impl.rs:1338-1364: `qr` (1792-1840) only deflates the sub-diagonal entry (the
Hessenberg loop `0..n-2` and the search for `q` are empty), then the eigenvalues are read off and sorted; `none` = failed `unwrap`. -/
noncomputable def spectrum2 (a b c d : ℝ) : Option (ℝ × ℝ) :=
  let c := if |c| < 0.000000000000001 * (|a| + |d|) then 0 else c
  let r := if |c| < 0.00000000001 then some (a, d) else realSpectrum2 a b c d
  r.map (fun p => if p.1 ≤ p.2 then p else (p.2, p.1))

/-- `one_norm`, matrix_impl.rs:1649-1653: largest column sum; the fold starts at 0. -/
noncomputable def oneNorm (n m : Nat) (f : Nat → Nat → ℝ) : ℝ :=
  ((List.range m).map (fun j => ((List.range n).map (fun i => |f i j|)).sum)).foldl (fun mx v => if mx ≤ v then v else mx) 0

/-- `inf_norm`, matrix_impl.rs:1663-1667. -/
noncomputable def infNorm (n m : Nat) (f : Nat → Nat → ℝ) : ℝ :=
  ((List.range n).map (fun i => ((List.range m).map (fun j => |f i j|)).sum)).foldl (fun mx v => if mx ≤ v then v else mx) 0

/-- `frobenius_norm`, matrix_impl.rs:1669-1676. -/
noncomputable def frobeniusNorm (n m : Nat) (f : Nat → Nat → ℝ) : ℝ :=
  Real.sqrt (((List.range n).map (fun i => ((List.range m).map (fun j => f i j * f i j)).sum)).sum)

end Toppo.RealAlg
