import Verif.Model.Float64
import Verif.Model.FormalSum
set_option linter.unusedVariables false

/-
Model of `Vector<f64, Basis>`, alg/src/lin_alg.rs:172-406: the code of `Model/FormalSum.lean` with `f64` coefficients.  The only difference is the
comparison with zero, which is `==` of `f64` (`-0.0 == 0.0`, and NaN is not equal to anything).
-/
namespace Toppo.FSumF
open Toppo FSum
variable {B : Type} [LinearOrder B]

/-- `coeff == Coeff::zero()`, lin_alg.rs:259, 268 and 391. -/
def isZero (c : F64) : Bool := F64.eqv c 0

/-- The `while` loop of `Sum`, lin_alg.rs:373-396.  `fuel` bounds the number of rounds. -/
def sumLoop : Nat → List (FSum.Stream F64 B) → FSum F64 B → Option (FSum F64 B)
  | _, [], out => some out
  | 0, _ :: _, _ => none
  | fuel + 1, s :: ss, out =>
    let n := ((s :: ss).takeWhile (fun t => decide (t.1.2 = s.1.2))).length
    let coeff := (ss.take (n - 1)).foldl (fun c t => c + t.1.1) s.1.1
    let next := sortStreams (advance ((s :: ss).take n))
    let iters := mergeBy ((s :: ss).drop n) next
    let out := if isZero coeff then out else out ++ [(coeff, s.1.2)]
    sumLoop fuel iters out

/-- `Sum`, lin_alg.rs:359-397. -/
def sum (vs : List (FSum F64 B)) : Option (FSum F64 B) :=
  sumLoop (vs.map List.length).sum (sortStreams (streams vs)) []

/-- `Add`, lin_alg.rs:234-239. -/
def add (v w : FSum F64 B) : Option (FSum F64 B) := sum [v, w]

/-- `Neg`, lin_alg.rs:248-254. -/
def neg (v : FSum F64 B) : FSum F64 B := v.map (fun sb => (sb.1 * -1, sb.2))

/-- `Sub`, lin_alg.rs:241-246. -/
def sub (v w : FSum F64 B) : Option (FSum F64 B) := add v (neg w)

/-- `Mul<Coeff>`, lin_alg.rs:256-263. -/
def smul (v : FSum F64 B) (c : F64) : FSum F64 B :=
  if isZero c then [] else v.map (fun sb => (sb.1 * c, sb.2))

/-- `Div<Coeff>`, lin_alg.rs:265-272; `none` is the panic for zero. -/
def div (v : FSum F64 B) (c : F64) : Option (FSum F64 B) :=
  if isZero c then none else some (v.map (fun sb => (sb.1 / c, sb.2)))

end Toppo.FSumF
