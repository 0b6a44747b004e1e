import Verif.Model.LinAlg
set_option linter.unusedVariables false

/-
Model of `HomologyWithFieldCoefficients::homology`, topo_spaces/src/lib.rs:4-26, over an arbitrary exact field.
-/
namespace Toppo.FHom
open Toppo.LinAlg
variable {K : Type} [Field K] [DecidableEq K]

/-- one boundary matrix: an `n × m` matrix with entries `a`. Used for lib.rs:8-15. -/
structure FMap (K : Type) where
  n : Nat
  m : Nat
  a : Nat → Nat → K

/-- rank and nullity, lib.rs:8-15; `none` is an underflow -/
def imKer (b : FMap K) : Option (Nat × Nat) :=
  let im := rankAsLinearMap b.n b.m b.a
  if b.m < im then none else some (im, b.m - im)

/-- the loop at lib.rs:19-23: `kernel` is the nullity of the previous map -/
def loop : Nat → List (Nat × Nat) → Option (List Nat)
  | _, [] => some []
  | kernel, (im, ker) :: rest => do
    if kernel < im then none
    else
      let out ← loop ker rest
      return (kernel - im) :: out

/-- `homology`, lib.rs:5-26. -/
def homology (maps : List (FMap K)) : Option (List Nat) := do
  if maps.isEmpty then return []
  else
    let ik ← maps.mapM imKer
    let first ← ik.head?
    let out ← loop first.2 ik.tail
    let last ← ik.getLast?
    return out ++ [last.2]

end Toppo.FHom
