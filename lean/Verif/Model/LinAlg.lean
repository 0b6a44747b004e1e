import Mathlib.Algebra.Field.Defs
import Mathlib.Algebra.BigOperators.Group.Finset.Basic
import Mathlib.Order.Interval.Finset.Nat
set_option linter.unusedVariables false

/-
Model of the exact-field algorithms of alg/src/lin_alg/matrix_impl.rs: `rank_as_linear_map`, `lu`, `det`, `solve`.

Matrices are entry functions `Nat → Nat → K` (only entries inside the size matter); the elementary operations are the closed
forms proved for the memory-level operations in `Props/MatrixOps.lean` (C31, C32).  `lu`, `det` and `solve` are `f64` code;
the model runs them over an arbitrary field `K` with exact arithmetic.  Simplification: an `f64` division by zero (which gives
an infinity or NaN and no panic) is `none`.
-/
namespace Toppo.LinAlg
open Finset

variable {K : Type} [Field K] [DecidableEq K]

/-- `row_operation`, matrix_impl.rs:167-170. -/
def rowOp (a : Nat → Nat → K) (r1 r2 : Nat) (c : K) : Nat → Nat → K := fun i j => if i = r1 then a r1 j + a r2 j * c else a i j

/-- `col_operation`, matrix_impl.rs:172-175. -/
def colOp (a : Nat → Nat → K) (c1 c2 : Nat) (c : K) : Nat → Nat → K := fun i j => if j = c1 then a i c1 + a i c2 * c else a i j

/-- the Rust range `lo..hi`. Used for matrix_impl.rs:1083-1099. -/
def rng (lo hi : Nat) : List Nat := List.range' lo (hi - lo)

/-- bringing a non-zero entry to `(k, k)`, matrix_impl.rs:1083-1099: the column search and the row search both start at `k+2`;
the flag says whether the position is skipped -/
def rankPivot (n m : Nat) (a : Nat → Nat → K) (k : Nat) : (Nat → Nat → K) × Bool :=
  let a := if a k k = 0 then
      match (rng (k + 2) m).find? (fun i => decide (a k i ≠ 0)) with
      | some j => colOp a k j 1
      | none => a
    else a
  if a k k = 0 then
    match (rng (k + 2) n).find? (fun j => decide (a j k ≠ 0)) with
    | some i => (rowOp a k i 1, false)
    | none => (a, true)
  else (a, false)

/-- normalising and eliminating, matrix_impl.rs:1101-1110 -/
def rankElim (n : Nat) (a : Nat → Nat → K) (k : Nat) : Nat → Nat → K :=
  let coeff := 1 / a k k
  let a := rowOp a k k (coeff - 1)
  (rng (k + 1) n).foldl (fun a l => if a l k = 0 then a else rowOp a l k ((0 - 1) * a l k)) a

/-- one round of the main loop, matrix_impl.rs:1082-1111 (state: the working copy and `skipped`) -/
def rankStep (n m : Nat) (s : (Nat → Nat → K) × Nat) (k : Nat) : (Nat → Nat → K) × Nat :=
  let (a, skip) := rankPivot n m s.1 k
  if skip then (a, s.2 + 1) else (rankElim n a k, s.2)

/-- `rank_as_linear_map`, matrix_impl.rs:1078-1114. -/
def rankAsLinearMap (n m : Nat) (a : Nat → Nat → K) : Nat :=
  min n m - ((List.range (min n m)).foldl (rankStep n m) (a, 0)).2

/-- one round of `lu`, matrix_impl.rs:1698-1703; `none` = division by zero -/
def luStep (n : Nat) (a : Nat → Nat → K) (i : Nat) : Option (Nat → Nat → K) :=
  if a i i = 0 then none
  else
    let a1 := fun r c => if i + 1 ≤ r ∧ r < n ∧ c = i then a r i / a i i else a r c
    some (fun r c => if i + 1 ≤ r ∧ r < n ∧ i + 1 ≤ c ∧ c < n then a1 r c - a1 r i * a1 i c else a1 r c)

/-- `SubMatrix::lu`, matrix_impl.rs:1694-1704, on an `n × n` matrix; `0..n-1` underflows for `n = 0`. -/
def lu (n : Nat) (a : Nat → Nat → K) : Option (Nat → Nat → K) :=
  if n = 0 then none else (List.range (n - 1)).foldlM (luStep n) a

/-- `Matrix::det`, matrix_impl.rs:1137-1147 (`n × m` matrix). -/
def det (n m : Nat) (a : Nat → Nat → K) : Option K :=
  if n ≠ m then some 0
  else (lu n a).map (fun b => (List.range n).foldl (fun p i => p * b i i) 1)

/-- forward substitution step, matrix_impl.rs:1325-1327 -/
def fwdStep (f : Nat → Nat → K) (b : Nat → K) (i : Nat) : Nat → K :=
  fun r => if r = i then b i - ∑ k ∈ range i, f i k * b k else b r

/-- backward substitution step, matrix_impl.rs:1331-1334 (for the last row the sum is empty: line 1330) -/
def bwdStep (n : Nat) (f : Nat → Nat → K) (b : Nat → K) (i : Nat) : Nat → K :=
  fun r => if r = i then (b i - ∑ k ∈ Finset.Ico (i + 1) n, f i k * b k) / f i i else b r

/-- `Matrix::solve`, matrix_impl.rs:1306-1337, for a square matrix and a right-hand side whose first column is `b` (the only
column the function touches).  The sums are `dot` products of views (C31).  `none`: division by zero. -/
def solve (n : Nat) (a : Nat → Nat → K) (b : Nat → K) : Option (Nat → K) := do
  let f ← lu n a
  let y := (rng 1 n).foldl (fwdStep f) b
  if ∀ i ∈ List.range n, f i i ≠ 0 then
    return (List.range n).reverse.foldl (bwdStep n f) y
  else none

end Toppo.LinAlg
