import Verif.Model.Smith
import Verif.Model.Module
import Verif.Model.FormalSum
set_option linter.unusedVariables false

/-
Model of `IntegralHomology::new`, topo_spaces/src/lib.rs:43-136, for an arbitrary implementation of `Complex`
(the list of boundary matrices with their bases is the input).  Unbounded integers; `none` is a panic (or, for
`smith_normal_form`, running out of `fuel`; C36 shows that enough fuel exists).
-/
namespace Toppo.Hom
open Toppo Smith

/-- One element of `Complex::boundary_map()`, lib.rs:168-171: an `n × m` integer matrix and the basis of its source. -/
structure BMap (B : Type) where
  n : Nat
  m : Nat
  a : M
  basis : List B

/-- The variables carried from a dimension to the next lower one, lib.rs:47-49; `size` is the size of the square matrix `rowOp`. -/
structure Hi where
  rank : Nat
  divs : List (Int × Nat)
  rowOp : M
  size : Nat

/-- What is computed for one dimension, lib.rs:107. -/
structure Out (B : Type) where
  module : Mod
  cycles : List (FSum Int B)
  boundaries : List (FSum Int B)

/-- `Matrix::transpose(a) * basis` for a square matrix of size `n`, matrix_impl.rs:1119-1133: row `i` of the transpose gives the
formal sum of `a[(j, i)] * basis[j]` (`i64 * Cell` is `Vector::from(cell) * i64`, lin_alg.rs:469-474). -/
def changeBasis {B : Type} [LinearOrder B] (n : Nat) (a : M) (basis : List B) : Option (List (FSum Int B)) :=
  if n ≠ basis.length then none
  else (List.range n).mapM (fun i => FSum.sum (basis.zipIdx.map (fun bj => FSum.smul (FSum.single bj.1) (a bj.2 i))))

/-- the divisor belonging to index `i`: the `while` loop at lib.rs:80-85, with its indexing panic -/
def pick : List (Int × Nat) → Nat → Option Int
  | [], _ => none
  | (d, k) :: rest, i => if k ≤ i then pick rest (i - k) else some d

/-- collecting equal consecutive diagonal entries: the closure at lib.rs:91-102, for `i` in `0..rank` -/
def groupStep (a : M) (l : List (Int × Nat)) (i : Nat) : List (Int × Nat) :=
  match l.getLast? with
  | some (d, k) => if d = a i i then l.dropLast ++ [(d, k + 1)] else l ++ [(a i i, 1)]
  | none => l ++ [(a i i, 1)]

def groupDiv (a : M) (rank : Nat) : List (Int × Nat) := (List.range rank).foldl (groupStep a) []

/-- the closure applied to every boundary map, lib.rs:53-109 -/
def step {B : Type} [LinearOrder B] (fuel : Nat) (hi : Hi) (b : BMap B) : Option (Out B × Hi) := do
  let st ← snf fuel b.n b.m b.a
  let rank := rankOf b.n b.m st.a
  if b.m < rank then none
  else if b.m - rank < hi.rank then none
  else
    let module := Mod.new (b.m - rank - hi.rank) hi.divs
    let cyc ← changeBasis b.m st.q b.basis
    let bnd ← changeBasis hi.size hi.rowOp b.basis
    let bnd ← (bnd.zipIdx.filter (fun xi => decide (xi.2 < hi.rank))).mapM (fun xi => do
      let d ← pick hi.divs xi.2
      return FSum.smul xi.1 d)
    return ({ module := module
              cycles := (cyc.zipIdx.filter (fun xi => decide (rank ≤ xi.2))).map (fun xi => xi.1)
              boundaries := bnd },
            { rank := rank, divs := groupDiv st.a rank, rowOp := st.pinv, size := b.n })

/-- the closure run over the boundary maps from the last to the first, and the outputs put back in order, lib.rs:50-113 -/
def run {B : Type} [LinearOrder B] (fuel : Nat) (init : Hi) : List (BMap B) → Option (List (Out B) × Hi)
  | [] => some ([], init)
  | b :: rest => do
    let (outs, hi) ← run fuel init rest
    let (o, hi') ← step fuel hi b
    return (o :: outs, hi')

/-- `IntegralHomology::new`, lib.rs:43-136. -/
def new {B : Type} [LinearOrder B] (fuel : Nat) (cplx : List (BMap B)) (maxDim : Option Nat) : Option (List (Out B)) := do
  let last ← cplx.getLast?
  let (outs, _) ← run fuel { rank := 0, divs := [], rowOp := ident, size := last.m } cplx
  -- `while output.len()-1 > max_dim { output.pop(); }`
  let outs := match maxDim with
    | none => outs
    | some d => outs.take (d + 1)
  -- trailing zero modules
  return (outs.reverse.dropWhile (fun o => o.module.isZero)).reverse

end Toppo.Hom
