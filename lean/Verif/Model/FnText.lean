import Verif.Model.Analysis
import Verif.Model.Display
set_option linter.unusedVariables false

/-
Model of `Display` of `AtomicSmoothFn` and `MultiVarFn`, analysis/src/lib.rs:384-406, 589-596, with `Display` of `Vector`, alg/src/lin_alg.rs:410-435.

The text of an `f64` is a parameter `num` (the shortest decimal text that is read back as the same number, `core::fmt`).
-/
namespace Toppo.Analysis
open Toppo Text
noncomputable section
variable (num : ℝ → Text)

mutual
/-- `Display` of `AtomicSmoothFn`, analysis/src/lib.rs:384-406 -/
def text : Fn → Text
  | .zero => ['0']
  | .one => ['1']
  | .proj m => ['x', '['] ++ dec m ++ [']']
  | .sin g => ['s', 'i', 'n', '('] ++ text g ++ [')']
  | .cos g => ['c', 'o', 's', '('] ++ text g ++ [')']
  | .rpow g a => ['('] ++ text g ++ [')', '^'] ++ num a
  | .sum v => ['('] ++ sumText v ++ [')']
  | .prod v => prodText v
/-- `Display` of the `Vector` of summands, lin_alg.rs:410-429 -/
def sumText : List (ℝ × Fn) → Text
  | [] => ['0']
  | (c, f) :: v => (if c = 1 then text f else if c = -1 then '-' :: text f else num c ++ '·' :: text f) ++ restText v
/-- the summands after the first, lin_alg.rs:431-433 -/
def restText : List (ℝ × Fn) → Text
  | [] => []
  | (c, f) :: v => [' ', '+', ' ', '('] ++ num c ++ [')', '·'] ++ text f ++ restText v
/-- the factors of a product, analysis/src/lib.rs:394-402 -/
def prodText : List (ℤ × Fn) → Text
  | [] => []
  | (e, f) :: v => ' ' :: ((if e = 1 then text f else text f ++ '^' :: decI e) ++ prodText v)
end

/-- `Display` of `MultiVarFn`, analysis/src/lib.rs:589-596: one line for every component, from number `i` on -/
def linesText (i : Nat) : List Fn → Text
  | [] => []
  | g :: gs => ['f', '['] ++ dec i ++ [']', ' ', '=', ' '] ++ text num g ++ [',', '\n'] ++ linesText (i + 1) gs

end
end Toppo.Analysis
