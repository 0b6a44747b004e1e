import Verif.Model.Real
import Verif.Model.Eigen
set_option linter.unusedVariables false

/-
Model of `alg/src/lin_alg/matrix_impl.rs`, lines 1217-1260: `gram_schmidt_coeff_update` and `lll_lattice_reduce`, in exact real arithmetic.
A matrix is the sequence of its columns `v 0, ..., v (m - 1)`.
-/
namespace Toppo.RealAlg
open Finset Matrix

/-- `f64::round`: to the nearest integer, half-way cases away from zero (used in matrix_impl.rs:1240). -/
noncomputable def rround (x : ℝ) : ℤ := if 0 ≤ x then ⌊x + 1 / 2⌋ else ⌈x - 1 / 2⌉

/-- the locals of `lll_lattice_reduce`, matrix_impl.rs:1226-1232: the columns of `self`, `orthogonal_basis`, `gram_schmidt_coeff` -/
structure LState (n : Nat) where
  v : Nat → Fin n → ℝ
  o : Nat → Fin n → ℝ
  c : Nat → Nat → ℝ

/-- `gram_schmidt_without_normalize` and `gram_schmidt_coeff_update`, matrix_impl.rs:1217-1224, 1230-1232, 1244-1245, 1255-1256.  The coefficients are written
for `j < i` only, and only these are read; the model gives the same formula for all `i`, `j`. -/
noncomputable def lllFresh {n : Nat} (m : Nat) (v : Nat → Fin n → ℝ) : LState n :=
  { v := v
    o := gramSchmidt' m v
    c := fun i j => (v i ⬝ᵥ gramSchmidt' m v j) / (gramSchmidt' m v j ⬝ᵥ gramSchmidt' m v j) }

/-- one round of the inner loop, matrix_impl.rs:1238-1245 -/
noncomputable def lllSize {n : Nat} (m i : Nat) (s : LState n) (j : Nat) : LState n :=
  if |s.c i j| ≤ 0.5 then s else lllFresh m (Function.update s.v i (s.v i - (rround (s.c i j) : ℝ) • s.v j))

/-- `swap_cols(i - 1, i)`, matrix_impl.rs:1254 -/
def swapCols {n : Nat} (v : Nat → Fin n → ℝ) (i : Nat) : Nat → Fin n → ℝ := fun k => if k = i - 1 then v i else if k = i then v (i - 1) else v k

/-- one round of the outer loop, matrix_impl.rs:1236-1258 -/
noncomputable def lllStep {n : Nat} (m : Nat) (δ : ℝ) (s : LState n) (i : Nat) : LState n × Nat :=
  let s := (List.range i).reverse.foldl (lllSize m i) s
  if (s.o (i - 1) ⬝ᵥ s.o (i - 1)) * (δ - s.c i (i - 1) ^ 2) < s.o i ⬝ᵥ s.o i then (s, i + 1)
  else (lllFresh m (swapCols s.v i), max (i - 1) 1)

/-- the outer loop, matrix_impl.rs:1235-1259, for a number of rounds -/
noncomputable def lllLoop {n : Nat} (m : Nat) (δ : ℝ) : Nat → LState n → Nat → Outcome (Nat → Fin n → ℝ)
  | 0, _, _ => .running
  | fuel + 1, s, i => if i < m then lllLoop m δ fuel (lllStep m δ s i).1 (lllStep m δ s i).2 else .done s.v

/-- `lll_lattice_reduce`, matrix_impl.rs:1226-1262, on a matrix with `n` rows and the `m` columns `v`, for a number of rounds -/
noncomputable def lllReduce (fuel : Nat) {n : Nat} (m : Nat) (v : Nat → Fin n → ℝ) (δ : ℝ) : Outcome (Nat → Fin n → ℝ) :=
  if n < m then .panic
  else if ¬ (0.25 < δ ∧ δ < 1) then .panic
  else lllLoop m δ fuel (lllFresh m v) 1

end Toppo.RealAlg
