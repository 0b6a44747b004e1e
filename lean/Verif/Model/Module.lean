set_option linter.unusedVariables false

/-
Model of `Module<i64>`, alg/src/lin_alg.rs:72-103 (and of its use in topo_spaces/src/lib.rs).
`i64` is unbounded here (the functions do no arithmetic).  `Display` is in Model/Display.lean.
-/
namespace Toppo

/-- `struct Module`, lin_alg.rs:72-75: the free rank and the list of (divisor, multiplicity). -/
structure Mod where
  freeRank : Nat
  divisors : List (Int × Nat)
deriving DecidableEq

namespace Mod

/-- `Module::new`, lin_alg.rs:79-86. -/
def new (freeRank : Nat) (divisors : List (Int × Nat)) : Mod :=
  { freeRank := freeRank, divisors := divisors.filter (fun dm => dm.1 != 1) }

/-- `Module::trivial`, lin_alg.rs:88-93. -/
def trivial : Mod := { freeRank := 0, divisors := [] }

/-- `Module::is_isomorphic_to`, lin_alg.rs:95-97. -/
def isIsomorphicTo (a b : Mod) : Bool := a.freeRank == b.freeRank && a.divisors == b.divisors

/-- `Module::is_zero`, lin_alg.rs:99-102. -/
def isZero (a : Mod) : Bool := a.freeRank == 0 && a.divisors.isEmpty

end Mod
end Toppo
