import Verif.Model.Simplicial
import Verif.Model.Rational
/-
Model of `SimplicialCplx::n_cells_of_dim` (topo_spaces/src/simplicial/mod_impl.rs:271-320) on the machine: `usize` products and
sums and the `i64` total are checked for overflow (debug profile: an overflow is a panic, `none`); the casts `as` wrap silently.
-/
namespace Toppo.Simp.Cplx
open Toppo

/-- `.product::<usize>()`, mod_impl.rs:279: every intermediate product is checked -/
def mulAllW (l : List Nat) : Option Nat := l.foldlM (fun a b => uck u64 (a * b)) 1

/-- `.sum::<usize>()`, mod_impl.rs:309: every intermediate sum is checked -/
def sumAllW (l : List Nat) : Option Nat := l.foldlM (fun a b => uck u64 (a + b)) 0

/-- the closure `binomial`, mod_impl.rs:275-281 -/
def binomialW (x y : Nat) : Option Nat :=
  if x < y then some 0
  else do
    let p ← mulAllW (List.range' (x - y + 1) y)
    let q ← mulAllW (List.range' 1 y)
    return p / q

/-- `sum as i64`, mod_impl.rs:311,313: two's complement reinterpretation -/
def asI64 (s : Nat) : Int := if s < 2 ^ 63 then (s : Int) else (s : Int) - 2 ^ 64

/-- `out as usize`, mod_impl.rs:319 -/
def asUsize (x : Int) : Nat := (x % 2 ^ 64).toNat

variable {T : Type} [DecidableEq T]

/-- the loop of `n_cells_of_dim`, mod_impl.rs:288-318, as `countLoop`, with checked arithmetic -/
def countLoopW (c : Cplx T) (dim : Nat) : (k i : Nat) → (sign : Bool) → (out : Int) → Option Int
  | 0, _, _, out => some out
  | k + 1, i, sign, out => do
    let tuples ← tupleIter (c.cells.length ^ i + 1) c.cells i
    let inters := (tuples.map (fun t => t.foldl Cell.inter c.largest)).filter (fun m => !m.isEmpty)
    if inters.isEmpty then return out
    else
      let ds ← inters.mapM (fun m => m.dim)
      let bs ← ds.mapM (fun d => do
        let x ← uck u64 (d + 1)
        let y ← uck u64 (dim + 1)
        binomialW x y)
      let sum ← sumAllW bs
      let out ← ck (fits 64) (if sign then out + asI64 sum else out - asI64 sum)
      countLoopW c dim k (i + 1) (!sign) out

/-- `n_cells_of_dim`, mod_impl.rs:271-320 -/
def nCellsOfDimW (c : Cplx T) (dim : Nat) : Option Nat := do
  let out ← countLoopW c dim c.cells.length 1 true 0
  return asUsize out

end Toppo.Simp.Cplx
