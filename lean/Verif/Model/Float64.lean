import Mathlib.Data.Int.Log
import Mathlib.Data.Rat.Floor
import Mathlib.Algebra.Order.Archimedean.Real.Basic
import Mathlib.Analysis.Real.Sqrt
set_option linter.unusedVariables false

/-
Model of the type `f64` (IEEE 754 binary64, round to nearest, ties to even) as used by alg/src/lin_alg/matrix_impl.rs:1136-2000.

A finite number is a sign and a magnitude; the magnitude is an exact rational number.  Nothing forces the magnitude to be
representable: `F64.Rep` says that it is, and every operation below returns a representable number (`Proof/Float64.lean`, where it
is also proved that the rounding gives a nearest representable number).  NaN payloads are not modelled.
-/
namespace Toppo

/-- values of type `f64`, alg/src/lin_alg/matrix_impl.rs:1136: not a number, an infinity, or a number with sign bit and magnitude -/
inductive F64 where
  | nan
  | inf (neg : Bool)
  | num (neg : Bool) (m : ℚ)
deriving DecidableEq

namespace F64

section rounding
variable {K : Type} [Field K] [LinearOrder K] [IsStrictOrderedRing K] [FloorRing K]

/-- rounding to the nearest integer, ties to the even one (IEEE 754, 4.3.1); used by the operations of matrix_impl.rs:1136-2000 -/
def roundEven (y : K) : ℤ :=
  if y - (⌊y⌋ : K) < 1 / 2 then ⌊y⌋
  else if 1 / 2 < y - (⌊y⌋ : K) then ⌊y⌋ + 1
  else if ⌊y⌋ % 2 = 0 then ⌊y⌋ else ⌊y⌋ + 1

/-- the exponent of the last bit of the significand for a positive number: 53 bits, but not below `2^-1074`; for the operations of
matrix_impl.rs:1136-2000 -/
def expo (x : K) : ℤ := max (Int.log 2 x - 52) (-1074)

/-- rounding a positive number to 53 bits, without a limit on large exponents; for the operations of matrix_impl.rs:1136-2000 -/
def rnd (x : K) : ℚ := (roundEven (x / (2 : K) ^ expo x) : ℚ) * 2 ^ expo x

end rounding

/-- the result of an operation whose exact value is `x` (`s`: the sign of a result that is exactly zero), with overflow to infinity;
for the operations of matrix_impl.rs:1136-2000 -/
def ofExact (s : Bool) (x : ℚ) : F64 :=
  if x = 0 then num s 0
  else if 2 ^ 1024 ≤ rnd |x| then inf (decide (x < 0))
  else num (decide (x < 0)) (rnd |x|)

/-- the exact value of a finite number (0 for the others); specification of the operations of matrix_impl.rs:1136-2000 -/
def val : F64 → ℚ
  | num true m => -m
  | num false m => m
  | _ => 0

/-- `is_finite`, for the results of matrix_impl.rs:1136-2000 -/
def isFinite : F64 → Bool
  | num _ _ => true
  | _ => false

/-- unary minus, as in matrix_impl.rs:1294 -/
def neg : F64 → F64
  | nan => nan
  | inf s => inf (!s)
  | num s m => num (!s) m

/-- `+` on `f64`, as in matrix_impl.rs:1277 -/
def add : F64 → F64 → F64
  | nan, _ => nan
  | _, nan => nan
  | inf s, inf t => if s = t then inf s else nan
  | inf s, num _ _ => inf s
  | num _ _, inf t => inf t
  | num s m, num t n => ofExact (s && t) (val (num s m) + val (num t n))

/-- `-` on `f64`, as in matrix_impl.rs:1279 -/
def sub (x y : F64) : F64 := add x (neg y)

/-- `*` on `f64`, as in matrix_impl.rs:137 -/
def mul : F64 → F64 → F64
  | nan, _ => nan
  | _, nan => nan
  | inf s, inf t => inf (xor s t)
  | inf s, num t n => if n = 0 then nan else inf (xor s t)
  | num s m, inf t => if m = 0 then nan else inf (xor s t)
  | num s m, num t n => ofExact (xor s t) (val (num s m) * val (num t n))

/-- `/` on `f64`, as in matrix_impl.rs:1330 -/
def div : F64 → F64 → F64
  | nan, _ => nan
  | _, nan => nan
  | inf s, inf t => nan
  | inf s, num t n => inf (xor s t)
  | num s m, inf t => num (xor s t) 0
  | num s m, num t n =>
    if n = 0 then (if m = 0 then nan else inf (xor s t)) else ofExact (xor s t) (val (num s m) / val (num t n))

/-- `f64::sqrt`, as in matrix_impl.rs:1277: the exact square root, rounded -/
noncomputable def sqrt : F64 → F64
  | nan => nan
  | inf s => if s then nan else inf false
  | num s m => if m = 0 then num s 0 else if s then nan else num false (rnd (Real.sqrt (m : ℝ)))

/-- `f64::abs`, as in matrix_impl.rs:1289 -/
def abs : F64 → F64
  | nan => nan
  | inf _ => inf false
  | num _ m => num false m

/-- `<=` on `f64`, as in matrix_impl.rs:1652; false if one side is NaN -/
def le : F64 → F64 → Bool
  | nan, _ => false
  | _, nan => false
  | inf true, _ => true
  | _, inf false => true
  | inf false, _ => false
  | _, inf true => false
  | num s m, num t n => decide (val (num s m) ≤ val (num t n))

/-- `<` on `f64`, as in matrix_impl.rs:1289; false if one side is NaN -/
def lt : F64 → F64 → Bool
  | nan, _ => false
  | _, nan => false
  | inf s, inf t => s && !t
  | inf s, num _ _ => s
  | num _ _, inf t => !t
  | num s m, num t n => decide (val (num s m) < val (num t n))

/-- `==` on `f64`, as in matrix_impl.rs:1271; false if one side is NaN -/
def eqv : F64 → F64 → Bool
  | inf s, inf t => s == t
  | num s m, num t n => decide (val (num s m) = val (num t n))
  | _, _ => false

/-- the literal nearest to `q`, such as `0.000000000001` in matrix_impl.rs:1289 -/
def lit (q : ℚ) : F64 := ofExact false q

/-- `+`, matrix_impl.rs:1277 -/
instance : Add F64 := ⟨add⟩
/-- `-`, matrix_impl.rs:1279 -/
instance : Sub F64 := ⟨sub⟩
/-- `*`, matrix_impl.rs:137 -/
instance : Mul F64 := ⟨mul⟩
/-- `/`, matrix_impl.rs:1330 -/
instance : Div F64 := ⟨div⟩
/-- unary minus, matrix_impl.rs:1294 -/
instance : Neg F64 := ⟨neg⟩
/-- `0.0`, matrix_impl.rs:1271 -/
instance : Zero F64 := ⟨num false 0⟩
/-- `1.0`, matrix_impl.rs:1269 -/
instance : One F64 := ⟨num false 1⟩

/-- a number of the format: a significand below `2^53` times a power of two from `2^-1074` to `2^971`; the inputs of
matrix_impl.rs:1136-2000 -/
def Rep : F64 → Prop
  | num _ m => ∃ (k : ℕ) (e : ℤ), k < 2 ^ 53 ∧ -1074 ≤ e ∧ e ≤ 971 ∧ m = k * 2 ^ e
  | _ => True

end F64
end Toppo
