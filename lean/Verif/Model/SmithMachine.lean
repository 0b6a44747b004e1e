import Verif.Model.Smith
import Verif.Model.Homology
set_option linter.unusedVariables false

/-
Model of `Matrix::smith_normal_form`, alg/src/lin_alg/matrix_impl.rs:820-1073, and `IntegralHomology::new`, topo_spaces/src/lib.rs:43-136,
for machine integers: `ok` says which integers are representable (`fits 64` for `i64`), and every product, sum, negation and quotient that
the code computes is checked; one that is not representable is a panic (`none`), as in the debug profile.

This is `Model/Smith.lean` and `Model/Homology.lean` with the checks added; `Props/Machine.lean` proves how the two are related.
-/
namespace Toppo.Smith
open Toppo

/-- `row_operation`, matrix_impl.rs:167-170, on a matrix with `m` columns: the products are computed first (`&self[(r2, ..)] * scalar`), then the sums. -/
def rowOpW (ok : Width) (m : Nat) (a : M) (r1 r2 : Nat) (c : Int) : Option M :=
  if (rng 0 m).all (fun j => ok (a r2 j * c) && ok (a r1 j + a r2 j * c)) then some (rowOp a r1 r2 c) else none

/-- `col_operation`, matrix_impl.rs:172-175, on a matrix with `n` rows. -/
def colOpW (ok : Width) (n : Nat) (a : M) (c1 c2 : Nat) (c : Int) : Option M :=
  if (rng 0 n).all (fun i => ok (a i c2 * c) && ok (a i c1 + a i c2 * c)) then some (colOp a c1 c2 c) else none

/-- two rows rewritten from column `j0` on, e.g. matrix_impl.rs:921-924, on a matrix with `m` columns: four scalar multiples, two sums. -/
def mixRowsW (ok : Width) (m : Nat) (a : M) (i k j0 : Nat) (x y z w : Int) : Option M :=
  if (rng j0 m).all (fun c => ok (a i c * x) && ok (a k c * y) && ok (a i c * x + a k c * y) &&
      ok (a i c * z) && ok (a k c * w) && ok (a i c * z + a k c * w)) then some (mixRows a i k j0 x y z w) else none

/-- two columns rewritten from row `i0` on, e.g. matrix_impl.rs:953-956, on a matrix with `n` rows. -/
def mixColsW (ok : Width) (n : Nat) (a : M) (j l i0 : Nat) (x y z w : Int) : Option M :=
  if (rng i0 n).all (fun r => ok (a r j * x) && ok (a r l * y) && ok (a r j * x + a r l * y) &&
      ok (a r j * z) && ok (a r l * w) && ok (a r j * z + a r l * w)) then some (mixCols a j l i0 x y z w) else none

/-- one round of the `for k in i+1..n` loop, matrix_impl.rs:912-938 -/
def improveRowW (ok : Width) (n m i j : Nat) (st : St) (k : Nat) : Option St := do
  let d ← divides ok (st.a i j) (st.a k j)
  if d then return st
  else
    let (g, x, y) ← bezoutIdentity ok (st.a i j) (st.a k j)
    let (s, _) ← euclidDiv ok (st.a i j) g
    let (t, _) ← euclidDiv ok (st.a k j) g
    let t' ← ck ok (-t)
    let a ← mixRowsW ok m st.a i k j x y t' s
    let p ← mixRowsW ok n st.p i k 0 x y t' s
    let y' ← ck ok (-y)
    let pinv ← mixColsW ok n st.pinv i k 0 s t y' x
    let st' : St := { st with a := a, p := p, pinv := pinv }
    if st'.a i j = g then return st' else none

/-- one round of the `for l in j+1..m` loop, matrix_impl.rs:945-970 -/
def improveColW (ok : Width) (n m i j : Nat) (st : St) (l : Nat) : Option St := do
  let d ← divides ok (st.a i j) (st.a i l)
  if d then return st
  else
    let (g, x, y) ← bezoutIdentity ok (st.a i j) (st.a i l)
    let (s, _) ← euclidDiv ok (st.a i j) g
    let (t, _) ← euclidDiv ok (st.a i l) g
    let t' ← ck ok (-t)
    let a ← mixColsW ok n st.a j l i x y t' s
    let q ← mixColsW ok m st.q j l 0 x y t' s
    let y' ← ck ok (-y)
    let qinv ← mixRowsW ok m st.qinv j l 0 s t y' x
    let st' : St := { st with a := a, q := q, qinv := qinv }
    if st'.a i j = g then return st' else none

/-- matrix_impl.rs:910, 940 -/
def colDivW (ok : Width) (n i j : Nat) (st : St) : Option Bool :=
  (rng (i + 1) n).allM (fun k => divides ok (st.a i j) (st.a k j))

/-- matrix_impl.rs:910, 972 -/
def rowDivW (ok : Width) (m i j : Nat) (st : St) : Option Bool :=
  (rng (j + 1) m).allM (fun l => divides ok (st.a i j) (st.a i l))

/-- The loop "Improving the pivot", matrix_impl.rs:908-975. -/
def improveW (ok : Width) (n m i j : Nat) : Nat → St → Option St
  | 0, _ => none
  | fuel + 1, st => do
    let b ← colDivW ok n i j st
    let b ← if b then rowDivW ok m i j st else some false
    if b then return st
    else
      let st ← (rng (i + 1) n).foldlM (improveRowW ok n m i j) st
      let b ← colDivW ok n i j st
      if b then
        let st ← (rng (j + 1) m).foldlM (improveColW ok n m i j) st
        let b ← rowDivW ok m i j st
        if b then improveW ok n m i j fuel st else none
      else none

/-- one round of the row elimination, matrix_impl.rs:978-985 -/
def elimRowW (ok : Width) (n m i j : Nat) (st : St) (k : Nat) : Option St :=
  if st.a k j = 0 then some st
  else do
    let (ratio, _) ← euclidDiv ok (st.a k j) (st.a i j)
    let ratio' ← ck ok (-ratio)
    let a ← rowOpW ok m st.a k i ratio'
    let p ← rowOpW ok n st.p k i ratio'
    let pinv ← colOpW ok n st.pinv i k ratio
    return { st with a := a, p := p, pinv := pinv }

/-- one round of the column elimination, matrix_impl.rs:987-994 -/
def elimColW (ok : Width) (n m i j : Nat) (st : St) (l : Nat) : Option St :=
  if st.a i l = 0 then some st
  else do
    let (ratio, _) ← euclidDiv ok (st.a i l) (st.a i j)
    let ratio' ← ck ok (-ratio)
    let a ← colOpW ok n st.a l j ratio'
    let q ← colOpW ok m st.q l j ratio'
    let qinv ← rowOpW ok m st.qinv j l ratio
    return { st with a := a, q := q, qinv := qinv }

/-- The main loop, matrix_impl.rs:885-997. -/
def mainLoopW (ok : Width) (n m : Nat) : Nat → Nat → Nat → St → Option St
  | 0, _, _, _ => none
  | fuel + 1, i, j, st =>
    if i < n ∧ j < m then
      match findCol n m i j st.a with
      | none => some st
      | some j => do
        let st ← choosePivot n m i j st
        let st ← improveW ok n m i j fuel st
        let st ← (rng (i + 1) n).foldlM (elimRowW ok n m i j) st
        let st ← (rng (j + 1) m).foldlM (elimColW ok n m i j) st
        mainLoopW ok n m fuel (i + 1) (j + 1) st
    else some st

/-- one round of the divisibility loop, matrix_impl.rs:1026-1066 -/
def fixStepW (ok : Width) (n m r : Nat) (st : St) (s : Nat) : Option St := do
  let d ← divides ok (st.a r r) (st.a s s)
  if d then return st
  else
    let a1 ← colOpW ok n st.a r s 1
    let q1 ← colOpW ok m st.q r s 1
    let qi1 ← rowOpW ok m st.qinv s r (-1)
    let (g, x, y) ← bezoutIdentity ok (a1 r r) (a1 s r)
    let (z, _) ← euclidDiv ok (a1 r r) g
    let (w, _) ← euclidDiv ok (a1 s r) g
    let w' ← ck ok (-w)
    let a2 ← mixRowsW ok m a1 r s 0 x y w' z
    let p ← mixRowsW ok n st.p r s 0 x y w' z
    let y' ← ck ok (-y)
    let pinv ← mixColsW ok n st.pinv r s 0 z w y' x
    let c ← ck ok (w' * y)
    let a ← colOpW ok n a2 s r c
    let q ← colOpW ok m q1 s r c
    let c' ← ck ok (w * y)
    let qinv ← rowOpW ok m qi1 s r c'
    let st' : St := { a := a, p := p, pinv := pinv, q := q, qinv := qinv }
    if st'.a r r = g ∧ st'.a r s = 0 ∧ st'.a s r = 0 then return st' else none

/-- the divisibility phase, matrix_impl.rs:1025-1067 -/
def fixLoopW (ok : Width) (n m rank : Nat) (st : St) : Option St :=
  (rng 0 rank).foldlM (fun st r => (rng (r + 1) rank).foldlM (fixStepW ok n m r) st) st

/-- `smith_normal_form`, matrix_impl.rs:820-1073, on machine integers -/
def snfW (ok : Width) (fuel n m : Nat) (a : M) : Option St :=
  if n = 0 ∨ m = 0 then none
  else do
    let st ← mainLoopW ok n m fuel 0 0 { a := a, p := ident, pinv := ident, q := ident, qinv := ident }
    let st := diagLoop m (rng 0 (min n m)) st
    let rank := rankOf n m st.a
    let st ← fixLoopW ok n m rank st
    let b ← (rng 0 rank).allM (fun i => (rng (i + 1) rank).allM (fun k => divides ok (st.a i i) (st.a k k)))
    if b then return st else none

end Toppo.Smith

namespace Toppo.Hom
open Toppo Smith

/-- `xi.1 * d` on machine integers: every coefficient is checked, lin_alg.rs:256-263 -/
def smulW {B : Type} (ok : Width) (v : FSum Int B) (d : Int) : Option (FSum Int B) :=
  if d = 0 then some []
  else if v.all (fun sb => ok (sb.1 * d)) then some (FSum.smul v d) else none

/-- the closure applied to every boundary map, topo_spaces/src/lib.rs:53-109, on machine integers.  The additions inside `changeBasis` only concern
cells listed twice in the basis and are not checked: for a basis without repetitions there are none. -/
def stepW {B : Type} [LinearOrder B] (ok : Width) (fuel : Nat) (hi : Hi) (b : BMap B) : Option (Out B × Hi) := do
  let st ← snfW ok fuel b.n b.m b.a
  let rank := rankOf b.n b.m st.a
  if b.m < rank then none
  else if b.m - rank < hi.rank then none
  else
    let module := Mod.new (b.m - rank - hi.rank) hi.divs
    let cyc ← changeBasis b.m st.q b.basis
    let bnd ← changeBasis hi.size hi.rowOp b.basis
    let bnd ← (bnd.zipIdx.filter (fun xi => decide (xi.2 < hi.rank))).mapM (fun xi => do
      let d ← pick hi.divs xi.2
      smulW ok xi.1 d)
    return ({ module := module
              cycles := (cyc.zipIdx.filter (fun xi => decide (rank ≤ xi.2))).map (fun xi => xi.1)
              boundaries := bnd },
            { rank := rank, divs := groupDiv st.a rank, rowOp := st.pinv, size := b.n })

/-- topo_spaces/src/lib.rs:50-113 -/
def runW {B : Type} [LinearOrder B] (ok : Width) (fuel : Nat) (init : Hi) : List (BMap B) → Option (List (Out B) × Hi)
  | [] => some ([], init)
  | b :: rest => do
    let (outs, hi) ← runW ok fuel init rest
    let (o, hi') ← stepW ok fuel hi b
    return (o :: outs, hi')

/-- `IntegralHomology::new`, topo_spaces/src/lib.rs:43-136, on machine integers -/
def newW {B : Type} [LinearOrder B] (ok : Width) (fuel : Nat) (cplx : List (BMap B)) (maxDim : Option Nat) : Option (List (Out B)) := do
  let last ← cplx.getLast?
  let (outs, _) ← runW ok fuel { rank := 0, divs := [], rowOp := ident, size := last.m } cplx
  let outs := match maxDim with
    | none => outs
    | some d => outs.take (d + 1)
  return (outs.reverse.dropWhile (fun o => o.module.isZero)).reverse

end Toppo.Hom
