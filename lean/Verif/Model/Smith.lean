import Verif.Model.PID
set_option linter.unusedVariables false

/-
Model of `Matrix::smith_normal_form`, alg/src/lin_alg/matrix_impl.rs:820-1073, for integer entries.

Matrices are entry functions `Nat → Nat → Int`; only the entries inside the size `n × m` matter.  The elementary operations
below are the closed forms that `Props/MatrixOps.lean` (C31, C32, C29 `write`) proves for the memory-level operations.
Simplifications: unbounded integers (`ideal`, no overflow); the debug assertions are kept (a failing one is `none`);
the two `while` loops take a step bound `fuel` (running out of it is `none`) and C36 proves that enough fuel always exists.
-/
namespace Toppo.Smith
open Toppo

abbrev M := Nat → Nat → Int

/-- The five matrices of the running algorithm (`self`, `r_op`, `r_op_inv`, `c_op`, `c_op_inv`), matrix_impl.rs:820-826. -/
structure St where
  a : M
  p : M
  pinv : M
  q : M
  qinv : M

/-- `Matrix::identity`, matrix_impl.rs:811-816. -/
def ident : M := fun i j => if i = j then 1 else 0

/-- `swap_rows`, matrix_impl.rs:151-157. -/
def swapRows (a : M) (r1 r2 : Nat) : M := fun i j => if i = r1 then a r2 j else if i = r2 then a r1 j else a i j

/-- `swap_cols`, matrix_impl.rs:159-165. -/
def swapCols (a : M) (c1 c2 : Nat) : M := fun i j => if j = c1 then a i c2 else if j = c2 then a i c1 else a i j

/-- `row_operation`, matrix_impl.rs:167-170. -/
def rowOp (a : M) (r1 r2 : Nat) (c : Int) : M := fun i j => if i = r1 then a r1 j + a r2 j * c else a i j

/-- `col_operation`, matrix_impl.rs:172-175. -/
def colOp (a : M) (c1 c2 : Nat) (c : Int) : M := fun i j => if j = c1 then a i c1 + a i c2 * c else a i j

/-- Simultaneous rewriting of two rows from column `j0` on:
`row i := row i * x + row k * y`, `row k := row i * z + row k * w` (both computed from the old rows),
e.g. matrix_impl.rs:921-924. -/
def mixRows (a : M) (i k j0 : Nat) (x y z w : Int) : M := fun r c =>
  if c < j0 then a r c
  else if r = k then a i c * z + a k c * w
  else if r = i then a i c * x + a k c * y
  else a r c

/-- The same for two columns from row `i0` on, e.g. matrix_impl.rs:953-956. -/
def mixCols (a : M) (j l i0 : Nat) (x y z w : Int) : M := fun r c =>
  if r < i0 then a r c
  else if c = l then a r j * z + a r l * w
  else if c = j then a r j * x + a r l * y
  else a r c

/-- the Rust range `lo..hi`. Used for matrix_impl.rs:910. -/
def rng (lo hi : Nat) : List Nat := List.range' lo (hi - lo)

/-- one round of the `for k in i+1..n` loop, matrix_impl.rs:912-938 -/
def improveRow (i j : Nat) (st : St) (k : Nat) : Option St := do
  let d ← divides ideal (st.a i j) (st.a k j)
  if d then return st
  else
    let (g, x, y) ← bezoutIdentity ideal (st.a i j) (st.a k j)
    let (s, _) ← euclidDiv ideal (st.a i j) g
    let (t, _) ← euclidDiv ideal (st.a k j) g
    let st' : St := { st with
      a := mixRows st.a i k j x y (-t) s
      p := mixRows st.p i k 0 x y (-t) s
      pinv := mixCols st.pinv i k 0 s t (-y) x }
    if st'.a i j = g then return st' else none

/-- one round of the `for l in j+1..m` loop, matrix_impl.rs:945-970 -/
def improveCol (i j : Nat) (st : St) (l : Nat) : Option St := do
  let d ← divides ideal (st.a i j) (st.a i l)
  if d then return st
  else
    let (g, x, y) ← bezoutIdentity ideal (st.a i j) (st.a i l)
    let (s, _) ← euclidDiv ideal (st.a i j) g
    let (t, _) ← euclidDiv ideal (st.a i l) g
    let st' : St := { st with
      a := mixCols st.a j l i x y (-t) s
      q := mixCols st.q j l 0 x y (-t) s
      qinv := mixRows st.qinv j l 0 s t (-y) x }
    if st'.a i j = g then return st' else none

/-- `(i+1..n).all(|k| self[(i,j)].divides(self[(k,j)]))` (divisor zero panics), matrix_impl.rs:910, 940 -/
def colDiv (n i j : Nat) (st : St) : Option Bool :=
  (rng (i + 1) n).allM (fun k => divides ideal (st.a i j) (st.a k j))

/-- `(j+1..m).all(|l| self[(i,j)].divides(self[(i,l)]))`, matrix_impl.rs:910, 972 -/
def rowDiv (m i j : Nat) (st : St) : Option Bool :=
  (rng (j + 1) m).allM (fun l => divides ideal (st.a i j) (st.a i l))

/-- The loop "Improving the pivot", matrix_impl.rs:908-975. -/
def improve (n m i j : Nat) : Nat → St → Option St
  | 0, _ => none
  | fuel + 1, st => do
    let b ← colDiv n i j st
    let b ← if b then rowDiv m i j st else some false
    if b then return st
    else
      let st ← (rng (i + 1) n).foldlM (improveRow i j) st
      let ok ← colDiv n i j st
      if ok then
        let st ← (rng (j + 1) m).foldlM (improveCol i j) st
        let ok ← rowDiv m i j st
        if ok then improve n m i j fuel st else none
      else none

/-- one round of the row elimination, matrix_impl.rs:978-985 -/
def elimRow (i j : Nat) (st : St) (k : Nat) : Option St :=
  if st.a k j = 0 then some st
  else do
    let (ratio, _) ← euclidDiv ideal (st.a k j) (st.a i j)
    return { st with
      a := rowOp st.a k i (-ratio)
      p := rowOp st.p k i (-ratio)
      pinv := colOp st.pinv i k ratio }

/-- one round of the column elimination, matrix_impl.rs:987-994 -/
def elimCol (i j : Nat) (st : St) (l : Nat) : Option St :=
  if st.a i l = 0 then some st
  else do
    let (ratio, _) ← euclidDiv ideal (st.a i l) (st.a i j)
    return { st with
      a := colOp st.a l j (-ratio)
      q := colOp st.q l j (-ratio)
      qinv := rowOp st.qinv j l ratio }

/-- first column `l ≥ j` with a non-zero entry in the rows from `i` on, matrix_impl.rs:887, 891 -/
def findCol (n m i j : Nat) (a : M) : Option Nat :=
  (rng j m).find? (fun l => (rng i n).any (fun k => a k l != 0))

/-- bringing a non-zero entry to `(i, j)`, matrix_impl.rs:891-906; `none` = `panic!()`, failed `unwrap` or failed assertion -/
def choosePivot (n m i j : Nat) (st : St) : Option St := do
  let l ← findCol n m i j st.a
  let st := { st with a := swapCols st.a j l, q := swapCols st.q j l, qinv := swapRows st.qinv j l }
  let st ← if st.a i j = 0 then do
      let k ← (rng i n).find? (fun k => st.a k j != 0)
      pure { st with a := swapRows st.a i k, p := swapRows st.p i k, pinv := swapCols st.pinv i k }
    else pure st
  if st.a i j ≠ 0 then return st else none

/-- The main loop, matrix_impl.rs:885-997. -/
def mainLoop (n m : Nat) : Nat → Nat → Nat → St → Option St
  | 0, _, _, _ => none
  | fuel + 1, i, j, st =>
    if i < n ∧ j < m then
      match findCol n m i j st.a with
      | none => some st
      | some j => do
        let st ← choosePivot n m i j st
        let st ← improve n m i j fuel st
        let st ← (rng (i + 1) n).foldlM (elimRow i j) st
        let st ← (rng (j + 1) m).foldlM (elimCol i j) st
        mainLoop n m fuel (i + 1) (j + 1) st
    else some st

/-- "Bringing all the pivots to the diagonal", matrix_impl.rs:1001-1016. -/
def diagLoop (m : Nat) : List Nat → St → St
  | [], st => st
  | r :: rest, st =>
    if st.a r r ≠ 0 then diagLoop m rest st
    else
      match (rng (r + 1) m).find? (fun s => st.a r s != 0) with
      | none => st
      | some s => diagLoop m rest { st with
          a := fun i j => if i = r ∧ j = s then 0 else if i = r ∧ j = r then st.a r s else st.a i j
          q := swapCols st.q r s
          qinv := swapRows st.qinv s r }

/-- the rank, matrix_impl.rs:1020-1023 -/
def rankOf (n m : Nat) (a : M) : Nat :=
  match (rng 0 (min n m)).find? (fun r => a r r == 0) with
  | some r => r
  | none => min n m

/-- one round of the divisibility loop, matrix_impl.rs:1026-1066.  Note the last operation on `c_op_inv`: the code calls
`row_operation(s, r, w*y)` (line 1061). -/
def fixStep (r : Nat) (st : St) (s : Nat) : Option St := do
  let d ← divides ideal (st.a r r) (st.a s s)
  if d then return st
  else
    let a1 := colOp st.a r s 1
    let q1 := colOp st.q r s 1
    let qi1 := rowOp st.qinv s r (-1)
    let (g, x, y) ← bezoutIdentity ideal (a1 r r) (a1 s r)
    let (z, _) ← euclidDiv ideal (a1 r r) g
    let (w, _) ← euclidDiv ideal (a1 s r) g
    let a2 := mixRows a1 r s 0 x y (-w) z
    let st' : St := {
      a := colOp a2 s r (-w * y)
      p := mixRows st.p r s 0 x y (-w) z
      pinv := mixCols st.pinv r s 0 z w (-y) x
      q := colOp q1 s r (-w * y)
      qinv := rowOp qi1 s r (w * y) }
    if st'.a r r = g ∧ st'.a r s = 0 ∧ st'.a s r = 0 then return st' else none

/-- the divisibility phase, matrix_impl.rs:1025-1067 -/
def fixLoop (rank : Nat) (st : St) : Option St :=
  (rng 0 rank).foldlM (fun st r => (rng (r + 1) rank).foldlM (fixStep r) st) st

/-- the phases before the divisibility phase, matrix_impl.rs:820-1016 -/
def snfDiag (fuel n m : Nat) (a : M) : Option St := do
  if n = 0 ∨ m = 0 then none
  else
    let st ← mainLoop n m fuel 0 0 { a := a, p := ident, pinv := ident, q := ident, qinv := ident }
    return diagLoop m (rng 0 (min n m)) st

/-- `smith_normal_form`, matrix_impl.rs:820-1073; the result is `(pinv, p, a, q, qinv)`. -/
def snf (fuel n m : Nat) (a : M) : Option St := do
  let st ← snfDiag fuel n m a
  let rank := rankOf n m st.a
  let st ← fixLoop rank st
  let ok ← (rng 0 rank).allM (fun i => (rng (i + 1) rank).allM (fun k => divides ideal (st.a i i) (st.a k k)))
  if ok then return st else none

end Toppo.Smith
