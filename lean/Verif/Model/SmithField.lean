import Verif.Model.Rational
import Verif.Model.FieldHomology
import Mathlib.Algebra.Field.Defs
set_option linter.unusedVariables false

/-
Model of the generic code of alg/src/commutative.rs and alg/src/lin_alg/matrix_impl.rs at a *field* type: the `PID` operations that
`pid_impl_for_fields!` (commutative.rs:175-188) generates, `gcd`, `bezout_identity`, `smith_normal_form` (matrix_impl.rs:820-1073) and
`rank_as_linear_map` (matrix_impl.rs:1078-1114), and of `homology` with field coefficients (topo_spaces/src/lib.rs:5-26).

The arithmetic is a parameter: `exact K` is a field with exact arithmetic, `rat ok` is the type `Rational` with checked `u64` arithmetic.
An operation that panics is `none`.  Matrices are entry functions of which only the entries inside the size matter.

Simplification: at a field type `euclid_div` always has remainder zero, so `divides` returns `true` or panics; the bodies of the loops and
`if`s guarded by `!divides` (matrix_impl.rs:911-975, 1031-1065) are therefore never entered and left out.  The guards are kept.
-/
namespace Toppo.SmithF
open Toppo

/-- the arithmetic of a field type: the trait bounds of `PID` and `Field`, alg/src/commutative.rs:106-122 -/
structure Arith (F : Type) where
  zero : F
  one : F
  add : F → F → Option F
  sub : F → F → Option F
  mul : F → F → Option F
  div : F → F → Option F
  neg : F → F

/-- exact arithmetic in a field; division by zero is a panic.  Used for commutative.rs:175-188. -/
def exact (K : Type) [Field K] [DecidableEq K] : Arith K where
  zero := 0
  one := 1
  add x y := some (x + y)
  sub x y := some (x - y)
  mul x y := some (x * y)
  div x y := if y = 0 then none else some (x / y)
  neg x := -x

/-- the arithmetic of `Rational`, rational_impl.rs:100-197 -/
def rat (ok : Nat → Bool) : Arith Rational where
  zero := Rational.zero
  one := Rational.one
  add := Rational.add ok
  sub := Rational.sub ok
  mul := Rational.mul ok
  div := Rational.div ok
  neg := Rational.neg

variable {F : Type} [DecidableEq F] (A : Arith F)

/-- `euclid_div` of a field, commutative.rs:180 -/
def euclidDiv (x d : F) : Option (F × F) := do
  let q ← A.div x d
  return (q, A.zero)

/-- `simplify` of a field, commutative.rs:181-183 -/
def simplify (x : F) : F × F := (A.one, x)

/-- `is_prime` of a field, commutative.rs:178 -/
def isPrime (x : F) : Bool := true

/-- `n_prime_factors` of a field, commutative.rs:179 -/
def nPrimeFactors (x : F) : Nat := 1

/-- `divides`, commutative.rs:118-120: `n.euclid_div(self).1 == zero` -/
def divides (d n : F) : Option Bool := do
  let (_, r) ← euclidDiv A n d
  return decide (r = A.zero)

/-- `gcd`, commutative.rs:191-195; `fuel` bounds the depth of the recursion -/
def gcd : Nat → F → F → Option F
  | 0, _, _ => none
  | fuel + 1, a, b =>
    if a = A.zero then some (simplify A b).2
    else do
      let (_, r) ← euclidDiv A b a
      gcd fuel r a

/-- `bezout_identity_rec`, commutative.rs:201-208 -/
def bezoutRec : Nat → (a b x1 x2 y1 y2 : F) → Option (F × F × F)
  | 0, _, _, _, _, _, _ => none
  | fuel + 1, a, b, x1, x2, y1, y2 =>
    if a = A.zero then do
      let (u, b) := simplify A b
      let (x, _) ← euclidDiv A x2 u
      let (y, _) ← euclidDiv A y2 u
      return (b, x, y)
    else do
      let (q, r) ← euclidDiv A b a
      let x ← A.sub x2 (← A.mul x1 q)
      let y ← A.sub y2 (← A.mul y1 q)
      bezoutRec fuel r a x x1 y y1

/-- `bezout_identity`, commutative.rs:197-199 -/
def bezoutIdentity (fuel : Nat) (a b : F) : Option (F × F × F) := bezoutRec A fuel a b A.one A.zero A.zero A.one

/-- The five matrices of the running algorithm, matrix_impl.rs:823-826. -/
structure St (F : Type) where
  a : Nat → Nat → F
  p : Nat → Nat → F
  pinv : Nat → Nat → F
  q : Nat → Nat → F
  qinv : Nat → Nat → F

/-- `Matrix::identity`, matrix_impl.rs:811-816. -/
def ident : Nat → Nat → F := fun i j => if i = j then A.one else A.zero

/-- `swap_rows`, matrix_impl.rs:151-157. -/
def swapRows (a : Nat → Nat → F) (r1 r2 : Nat) : Nat → Nat → F := fun i j => if i = r1 then a r2 j else if i = r2 then a r1 j else a i j

/-- `swap_cols`, matrix_impl.rs:159-165. -/
def swapCols (a : Nat → Nat → F) (c1 c2 : Nat) : Nat → Nat → F := fun i j => if j = c1 then a i c2 else if j = c2 then a i c1 else a i j

/-- one entry of a row or column operation, matrix_impl.rs:167-175: the product first, then the sum -/
def axpy (x y c : F) : Option F := do
  let p ← A.mul y c
  A.add x p

/-- `row_operation`, matrix_impl.rs:167-170, on a matrix with `m` columns; it panics if one of the entries does -/
def rowOp (m : Nat) (a : Nat → Nat → F) (r1 r2 : Nat) (c : F) : Option (Nat → Nat → F) :=
  if (List.range m).all (fun j => (axpy A (a r1 j) (a r2 j) c).isSome) then
    some (fun i j => if i = r1 then (axpy A (a r1 j) (a r2 j) c).getD A.zero else a i j)
  else none

/-- `col_operation`, matrix_impl.rs:172-175, on a matrix with `n` rows -/
def colOp (n : Nat) (a : Nat → Nat → F) (c1 c2 : Nat) (c : F) : Option (Nat → Nat → F) :=
  if (List.range n).all (fun i => (axpy A (a i c1) (a i c2) c).isSome) then
    some (fun i j => if j = c1 then (axpy A (a i c1) (a i c2) c).getD A.zero else a i j)
  else none

/-- the Rust range `lo..hi`. Used for matrix_impl.rs:910. -/
def rng (lo hi : Nat) : List Nat := List.range' lo (hi - lo)

/-- first column `l ≥ j` with a non-zero entry in the rows from `i` on, matrix_impl.rs:887, 891 -/
def findCol (n m i j : Nat) (a : Nat → Nat → F) : Option Nat :=
  (rng j m).find? (fun l => (rng i n).any (fun k => decide (a k l ≠ A.zero)))

/-- bringing a non-zero entry to `(i, j)`, matrix_impl.rs:891-906; `none` = `panic!()`, failed `unwrap` or failed assertion -/
def choosePivot (n m i j : Nat) (st : St F) : Option (St F) := do
  let l ← findCol A n m i j st.a
  let st := { st with a := swapCols st.a j l, q := swapCols st.q j l, qinv := swapRows st.qinv j l }
  let st ← if st.a i j = A.zero then do
      let k ← (rng i n).find? (fun k => decide (st.a k j ≠ A.zero))
      pure { st with a := swapRows st.a i k, p := swapRows st.p i k, pinv := swapCols st.pinv i k }
    else pure st
  if st.a i j ≠ A.zero then return st else none

/-- the guard of the loop "Improving the pivot", matrix_impl.rs:910 (as "all divisible"; a false one would enter the loop, which cannot
happen) -/
def guardPivot (n m i j : Nat) (a : Nat → Nat → F) : Option Bool := do
  let b ← (rng (i + 1) n).allM (fun k => divides A (a i j) (a k j))
  if b then (rng (j + 1) m).allM (fun l => divides A (a i j) (a i l)) else return false

/-- one round of the row elimination, matrix_impl.rs:978-985 -/
def elimRow (n m i j : Nat) (st : St F) (k : Nat) : Option (St F) :=
  if st.a k j = A.zero then some st
  else do
    let (ratio, _) ← euclidDiv A (st.a k j) (st.a i j)
    let a ← rowOp A m st.a k i (A.neg ratio)
    let p ← rowOp A n st.p k i (A.neg ratio)
    let pinv ← colOp A n st.pinv i k ratio
    return { st with a := a, p := p, pinv := pinv }

/-- one round of the column elimination, matrix_impl.rs:987-994 -/
def elimCol (n m i j : Nat) (st : St F) (l : Nat) : Option (St F) :=
  if st.a i l = A.zero then some st
  else do
    let (ratio, _) ← euclidDiv A (st.a i l) (st.a i j)
    let a ← colOp A n st.a l j (A.neg ratio)
    let q ← colOp A m st.q l j (A.neg ratio)
    let qinv ← rowOp A m st.qinv j l ratio
    return { st with a := a, q := q, qinv := qinv }

/-- The main loop, matrix_impl.rs:885-997, with at most `k` rounds to go (`n` are enough: `i` grows in every round). -/
def mainLoop (n m : Nat) : (k i j : Nat) → St F → Option (St F)
  | 0, _, _, st => some st
  | k + 1, i, j, st =>
    if i < n ∧ j < m then
      match findCol A n m i j st.a with
      | none => some st
      | some j => do
        let st ← choosePivot A n m i j st
        let b ← guardPivot A n m i j st.a
        if b then
          let st ← (rng (i + 1) n).foldlM (elimRow A n m i j) st
          let st ← (rng (j + 1) m).foldlM (elimCol A n m i j) st
          mainLoop n m k (i + 1) (j + 1) st
        else none
    else some st

/-- "Bringing all the pivots to the diagonal", matrix_impl.rs:1001-1016. -/
def diagLoop (m : Nat) : List Nat → St F → St F
  | [], st => st
  | r :: rest, st =>
    if st.a r r ≠ A.zero then diagLoop m rest st
    else
      match (rng (r + 1) m).find? (fun s => decide (st.a r s ≠ A.zero)) with
      | none => st
      | some s => diagLoop m rest { st with
          a := fun i j => if i = r ∧ j = s then A.zero else if i = r ∧ j = r then st.a r s else st.a i j
          q := swapCols st.q r s
          qinv := swapRows st.qinv s r }

/-- the rank, matrix_impl.rs:1020-1023 -/
def rankOf (n m : Nat) (a : Nat → Nat → F) : Nat :=
  match (rng 0 (min n m)).find? (fun r => decide (a r r = A.zero)) with
  | some r => r
  | none => min n m

/-- the guards `divides` of the divisibility phase and of the final assertion, matrix_impl.rs:1025-1030, 1068 -/
def guardDiag (rank : Nat) (a : Nat → Nat → F) : Option Bool :=
  (rng 0 rank).allM (fun i => (rng (i + 1) rank).allM (fun k => divides A (a i i) (a k k)))

/-- `smith_normal_form`, matrix_impl.rs:820-1073; the result is `(pinv, p, a, q, qinv)`. -/
def snf (n m : Nat) (a : Nat → Nat → F) : Option (St F) := do
  if n = 0 ∨ m = 0 then none
  else
    let st ← mainLoop A n m n 0 0 { a := a, p := ident A, pinv := ident A, q := ident A, qinv := ident A }
    let st := diagLoop A m (rng 0 (min n m)) st
    let rank := rankOf A n m st.a
    let b ← guardDiag A rank st.a
    if b then
      let b ← guardDiag A rank st.a
      if b then return st else none
    else none

/-- bringing a non-zero entry to `(k, k)`, matrix_impl.rs:1083-1099; the flag says whether the position is skipped -/
def rankPivot (n m : Nat) (a : Nat → Nat → F) (k : Nat) : Option ((Nat → Nat → F) × Bool) := do
  let a ← if a k k = A.zero then
      match (rng (k + 2) m).find? (fun i => decide (a k i ≠ A.zero)) with
      | some j => colOp A n a k j A.one
      | none => some a
    else some a
  if a k k = A.zero then
    match (rng (k + 2) n).find? (fun j => decide (a j k ≠ A.zero)) with
    | some i => do
      let a ← rowOp A m a k i A.one
      return (a, false)
    | none => return (a, true)
  else return (a, false)

/-- one round of the elimination in `rank_as_linear_map`, matrix_impl.rs:1105-1110 -/
def rankElimRow (m k : Nat) (a : Nat → Nat → F) (l : Nat) : Option (Nat → Nat → F) := do
  let minusOne ← A.sub A.zero A.one
  if a l k = A.zero then return a
  else
    let c ← A.mul minusOne (a l k)
    rowOp A m a l k c

/-- normalising and eliminating, matrix_impl.rs:1101-1110 -/
def rankElim (n m : Nat) (a : Nat → Nat → F) (k : Nat) : Option (Nat → Nat → F) := do
  let coeff ← A.div A.one (a k k)
  let c ← A.sub coeff A.one
  let a ← rowOp A m a k k c
  (rng (k + 1) n).foldlM (rankElimRow A m k) a

/-- one round of the main loop, matrix_impl.rs:1082-1111 (state: the working copy and `skipped`) -/
def rankStep (n m : Nat) (s : (Nat → Nat → F) × Nat) (k : Nat) : Option ((Nat → Nat → F) × Nat) := do
  let (a, skip) ← rankPivot A n m s.1 k
  if skip then return (a, s.2 + 1)
  else
    let a ← rankElim A n m a k
    return (a, s.2)

/-- `rank_as_linear_map`, matrix_impl.rs:1078-1114 (`skipped` is at most the number of rounds). -/
def rankAsLinearMap (n m : Nat) (a : Nat → Nat → F) : Option Nat := do
  let s ← (List.range (min n m)).foldlM (rankStep A n m) (a, 0)
  return min n m - s.2

/-- rank and nullity of one boundary map, topo_spaces/src/lib.rs:8-15; `none` is an underflow or a panic in the rank -/
def imKer (b : FHom.FMap F) : Option (Nat × Nat) := do
  let im ← rankAsLinearMap A b.n b.m b.a
  if b.m < im then none else return (im, b.m - im)

/-- `HomologyWithFieldCoefficients::homology`, topo_spaces/src/lib.rs:5-26. -/
def homology (maps : List (FHom.FMap F)) : Option (List Nat) := do
  if maps.isEmpty then return []
  else
    let ik ← maps.mapM (imKer A)
    let first ← ik.head?
    let out ← FHom.loop first.2 ik.tail
    let last ← ik.getLast?
    return out ++ [last.2]

end Toppo.SmithF
