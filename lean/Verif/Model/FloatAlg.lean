import Verif.Model.Float64
set_option linter.unusedVariables false

/-
Model of the `f64` routines of alg/src/lin_alg/matrix_impl.rs with the rounding, overflow and NaN of `f64` (Model/Float64.lean): `dot`,
`lu`, `det`, `solve`, the norms, `givens_rotation`, `householder_vec`.

As in Model/LinAlg.lean matrices are entry functions (only entries inside the size matter), the views and copies of the code are replaced by the
closed forms proved for the memory-level operations in Props/MatrixOps.lean.  Sums start at `0.0` (newer versions of the standard
library start at `-0.0`; this changes at most the sign of a zero).
-/
namespace Toppo.FloatAlg
open F64

/-- `iter.sum()` for `f64`, as in matrix_impl.rs:137 -/
def fsum (l : List F64) : F64 := l.foldl (· + ·) 0

/-- `dot`, matrix_impl.rs:126-138, of the rows `lo..hi` -/
def dotF (lo hi : Nat) (a b : Nat → F64) : F64 := fsum ((List.range' lo (hi - lo)).map (fun k => a k * b k))

/-- one round of `lu`, matrix_impl.rs:1699-1702: the column below the pivot is divided by it; then the product of this column and of the row of the
pivot (dot products of length 1) is subtracted from the rest -/
def luStep (n : Nat) (a : Nat → Nat → F64) (i : Nat) : Nat → Nat → F64 :=
  let a1 := fun r c => if i + 1 ≤ r ∧ r < n ∧ c = i then a r i / a i i else a r c
  fun r c => if i + 1 ≤ r ∧ r < n ∧ i + 1 ≤ c ∧ c < n then a1 r c - fsum [a1 r i * a1 i c] else a1 r c

/-- `SubMatrix::lu`, matrix_impl.rs:1694-1704, on an `n × n` matrix; `0..n-1` underflows for `n = 0`. -/
def lu (n : Nat) (a : Nat → Nat → F64) : Option (Nat → Nat → F64) :=
  if n = 0 then none else some ((List.range (n - 1)).foldl (luStep n) a)

/-- `Matrix::det`, matrix_impl.rs:1137-1147 (`n × m` matrix); `product()` starts at `1.0`. -/
def det (n m : Nat) (a : Nat → Nat → F64) : Option F64 :=
  if n ≠ m then some 0
  else (lu n a).map (fun b => (List.range n).foldl (fun p i => p * b i i) 1)

/-- forward substitution step, matrix_impl.rs:1325-1327 -/
def fwdStep (f : Nat → Nat → F64) (b : Nat → F64) (i : Nat) : Nat → F64 :=
  fun r => if r = i then b i - dotF 0 i (f i) b else b r

/-- backward substitution step, matrix_impl.rs:1331-1334 -/
def bwdStep (n : Nat) (f : Nat → Nat → F64) (b : Nat → F64) (i : Nat) : Nat → F64 :=
  fun r => if r = i then (b i - dotF (i + 1) n (f i) b) / f i i else b r

/-- the last row, matrix_impl.rs:1330 -/
def bwdLast (n : Nat) (f : Nat → Nat → F64) (b : Nat → F64) : Nat → F64 :=
  fun r => if r = n - 1 then b (n - 1) / f (n - 1) (n - 1) else b r

/-- `Matrix::solve`, matrix_impl.rs:1306-1337, for a square matrix and a right-hand side whose first column is `b` (the only
column the function touches). -/
def solve (n : Nat) (a : Nat → Nat → F64) (b : Nat → F64) : Option (Nat → F64) := do
  let f ← lu n a
  let y := (List.range' 1 (n - 1)).foldl (fwdStep f) b
  return (List.range (n - 1)).reverse.foldl (bwdStep n f) (bwdLast n f y)

/-- `one_norm`, matrix_impl.rs:1649-1653 -/
def oneNorm (n m : Nat) (a : Nat → Nat → F64) : F64 :=
  ((List.range m).map (fun j => fsum ((List.range n).map (fun i => (a i j).abs)))).foldl (fun mx v => if mx.le v then v else mx) 0

/-- `inf_norm`, matrix_impl.rs:1663-1667 -/
def infNorm (n m : Nat) (a : Nat → Nat → F64) : F64 :=
  ((List.range n).map (fun i => fsum ((List.range m).map (fun j => (a i j).abs)))).foldl (fun mx v => if mx.le v then v else mx) 0

/-- `two_norm` of an `n × m` matrix, matrix_impl.rs:1655-1661; `none`: more than one column -/
noncomputable def twoNorm (n m : Nat) (a : Nat → Nat → F64) : Option F64 :=
  if m = 1 then some (fsum ((List.range n).map (fun i => a i 0 * a i 0))).sqrt else none

/-- `frobenius_norm`, matrix_impl.rs:1669-1676 -/
noncomputable def frobeniusNorm (n m : Nat) (a : Nat → Nat → F64) : F64 :=
  (fsum ((List.range n).map (fun i => fsum ((List.range m).map (fun j => a i j * a i j))))).sqrt

/-- `Matrix::givens_rotation`, matrix_impl.rs:1288-1304 -/
noncomputable def givens (a b : F64) : F64 × F64 :=
  if b.abs.lt (lit 0.000000000001) then (1, 0)
  else if a.abs.lt b.abs then
    let c := -a / b
    let y := 1 / (1 + c * c).sqrt
    (c * y, y)
  else
    let c := -b / a
    let x := 1 / (1 + c * c).sqrt
    (x, c * x)

/-- `Matrix::householder_vec`, matrix_impl.rs:1262-1286, on a column vector with `n` entries; `none`: entry 0 does not exist -/
noncomputable def householderVec (n : Nat) (x : Nat → F64) : Option ((Nat → F64) × F64) :=
  if n = 0 then none
  else
    let a := dotF 1 n x x
    let b := x 0
    let y := fun i => if i = 0 then 1 else x i
    if a.eqv 0 && le 0 b then some (y, 0)
    else if a.eqv 0 && b.lt 0 then some (y, lit (-2))
    else
      let u := (a + b * b).sqrt
      let v0 := if b.le 0 then b - u else -a / (b + u)
      let d := v0 * v0
      some (fun i => (if i = 0 then v0 else x i) / v0, lit 2 * d / (a + d))

end Toppo.FloatAlg
