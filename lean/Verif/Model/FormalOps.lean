import Verif.Model.FormalSum
set_option linter.unusedVariables false

/-
Model of the remaining operators of `Vector<Coeff, Basis>`, alg/src/lin_alg.rs:178-289, and of the operators on basis elements which the macro
`formal_sum_impl!` generates, lin_alg.rs:438-483 (used for `Simplex<String>`, simplicial/mod.rs:24, and `Cube`, cubical.rs:439).
-/
namespace Toppo.FSum
variable {K B : Type}

/-- `len`, lin_alg.rs:182-184. -/
def len (v : FSum K B) : Nat := v.length

/-- `remove(i)`, lin_alg.rs:186-188: the removed item and the vector afterwards; `none` is the panic of `Vec::remove`. -/
def remove (v : FSum K B) (i : Nat) : Option ((K × B) × FSum K B) := do
  let x ← v[i]?
  return (x, v.eraseIdx i)

/-- `Div<Coeff>`, lin_alg.rs:265-272; `none` is the panic for zero. -/
def div [Div K] [Zero K] [DecidableEq K] (v : FSum K B) (c : K) : Option (FSum K B) :=
  if c = 0 then none else some (v.map (fun sb => (sb.1 / c, sb.2)))

variable [LinearOrder B] [Add K] [Zero K] [One K] [DecidableEq K]

/-- `Add<Basis>`, lin_alg.rs:274-279. -/
def addBasis (v : FSum K B) (b : B) : Option (FSum K B) := add v (single b)

/-- `Sub<Basis>`, lin_alg.rs:281-286. -/
def subBasis [Neg K] [Mul K] (v : FSum K B) (b : B) : Option (FSum K B) := sub v (single b)

/-- `Basis + Basis`, lin_alg.rs:441-446. -/
def basisAdd (a b : B) : Option (FSum K B) := add (single a) (single b)

/-- `Basis + Vector`, lin_alg.rs:448-453. -/
def basisAddVec (a : B) (v : FSum K B) : Option (FSum K B) := add (single a) v

/-- `Basis - Basis`, lin_alg.rs:455-460. -/
def basisSub [Neg K] [Mul K] (a b : B) : Option (FSum K B) := sub (single a) (single b)

/-- `Basis - Vector`, lin_alg.rs:462-467. -/
def basisSubVec [Neg K] [Mul K] (a : B) (v : FSum K B) : Option (FSum K B) := sub (single a) v

/-- `i64 * Basis`, lin_alg.rs:469-474. -/
def basisMul [Mul K] (c : K) (b : B) : FSum K B := smul (single b) c

/-- `-Basis`, lin_alg.rs:476-481. -/
def basisNeg [Neg K] [Mul K] (b : B) : FSum K B := neg (single b)

end Toppo.FSum
