import Verif.Model.Analysis
set_option linter.unusedVariables false

/-
Model of the comparison of symbolic functions, `#[derive(PartialEq, PartialOrd)]` on `AtomicSmoothFn`, analysis/src/lib.rs:227-249, and on
`Vector`, alg/src/lin_alg.rs:172-175: first the variants in the order in which they are declared, then the fields from left to right; lists
and pairs lexicographically.  Numbers are reals, so `partial_cmp` of two of them is never `None` (a NaN coefficient is not modelled).
-/
namespace Toppo.Analysis
noncomputable section

/-- the position of the variant in the declaration, analysis/src/lib.rs:228-249 -/
def tag : Fn → Nat
  | .zero => 0
  | .one => 1
  | .proj _ => 2
  | .rpow _ _ => 3
  | .sin _ => 4
  | .cos _ => 5
  | .sum _ => 6
  | .prod _ => 7

mutual
/-- the derived `partial_cmp`, analysis/src/lib.rs:227 -/
def cmp : Fn → Fn → Ordering
  | .proj n, .proj m => compare n m
  | .rpow f a, .rpow g b => (cmp f g).then (compare a b)
  | .sin f, .sin g => cmp f g
  | .cos f, .cos g => cmp f g
  | .sum v, .sum w => cmpSum v w
  | .prod v, .prod w => cmpProd v w
  | f, g => compare (tag f) (tag g)
/-- the derived `partial_cmp` of a `Vector` with real coefficients, lin_alg.rs:172 -/
def cmpSum : List (ℝ × Fn) → List (ℝ × Fn) → Ordering
  | [], [] => .eq
  | [], _ :: _ => .lt
  | _ :: _, [] => .gt
  | (a, f) :: v, (b, g) :: w => ((compare a b).then (cmp f g)).then (cmpSum v w)
/-- the derived `partial_cmp` of a `Vector` with integer coefficients, lin_alg.rs:172 -/
def cmpProd : List (ℤ × Fn) → List (ℤ × Fn) → Ordering
  | [], [] => .eq
  | [], _ :: _ => .lt
  | _ :: _, [] => .gt
  | (a, f) :: v, (b, g) :: w => ((compare a b).then (cmp f g)).then (cmpProd v w)
end

end
end Toppo.Analysis
