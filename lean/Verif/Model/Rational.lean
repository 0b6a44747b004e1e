/-
Model of `Rational`: struct in alg/src/commutative.rs:62-67, operations in alg/src/commutative/rational_impl.rs.

`ok : Nat → Bool` says which unsigned results are representable (overflowing `u64` arithmetic panics = `none`);
`u64` is the real machine predicate.  `num::integer::gcd` is the greatest common divisor (`Nat.gcd`), trusted.
-/
namespace Toppo

/-- the machine range of `u64`, the type of the parts of a rational number, alg/src/commutative.rs:63-67 -/
def u64 : Nat → Bool := fun x => decide (x < 2 ^ 64)

/-- checked unsigned result. Used for rational_impl.rs:67-83. -/
def uck (ok : Nat → Bool) (x : Nat) : Option Nat := if ok x then some x else none

/-- checked unsigned subtraction. Used for rational_impl.rs:103-115. -/
def usub (a b : Nat) : Option Nat := if b ≤ a then some (a - b) else none

/-- checked unsigned division. Used for rational_impl.rs:39-51. -/
def udiv (a b : Nat) : Option Nat := if b = 0 then none else some (a / b)

/-- `struct Rational`, alg/src/commutative.rs:62-67 (derives `PartialEq`, `Eq`: field-wise). -/
structure Rational where
  numerator : Nat
  denominator : Nat
  sign : Bool
deriving DecidableEq, Repr

namespace Rational

/-- `optimize`, rational_impl.rs:39-51. -/
def optimize (r : Rational) : Option Rational :=
  if r.numerator = 0 then some { r with denominator := 1, sign := true }
  else do
    let g := Nat.gcd r.numerator r.denominator
    let n ← udiv r.numerator g
    let d ← udiv r.denominator g
    return { r with numerator := n, denominator := d }

/-- `Rational::new`, rational_impl.rs:22-33.  `i64::abs` panics for `i64::MIN`; arguments outside the `i64` range are
not possible calls and are mapped to `none` too. -/
def new (n d : Int) : Option Rational :=
  if d = 0 then none
  else if 2 ^ 63 ≤ n.natAbs ∨ 2 ^ 63 ≤ d.natAbs then none
  else optimize { numerator := n.natAbs, denominator := d.natAbs, sign := decide (n ≥ 0) == decide (d ≥ 0) }

/-- `Zero for Rational`, rational_impl.rs:187-191: `new(0,1)`. -/
def zero : Rational := ⟨0, 1, true⟩
/-- `One for Rational`, rational_impl.rs:193-197: `new(1,1)`. -/
def one : Rational := ⟨1, 1, true⟩

/-- `abs`, rational_impl.rs:53-56. -/
def abs (r : Rational) : Rational := { r with sign := true }

/-- `Neg`, rational_impl.rs:179-185. -/
def neg (r : Rational) : Rational := { r with sign := !r.sign }

/-- `Ord::cmp`, rational_impl.rs:67-83. -/
def cmp (ok : Nat → Bool) (s r : Rational) : Option Ordering := do
  let gn := Nat.gcd s.numerator r.numerator
  let gd := Nat.gcd s.denominator r.denominator
  let a ← uck ok ((← udiv s.numerator gn) * (← udiv r.denominator gd))
  let b ← uck ok ((← udiv r.numerator gn) * (← udiv s.denominator gd))
  if s.sign && r.sign then return compare a b
  else if !s.sign && !r.sign then return compare b a
  else if s.sign && !r.sign then return .gt
  else return .lt

/-- The `if / else if / else` of `Add` computing numerator and sign, rational_impl.rs:103-115.
`self.abs() >= rhs.abs()` goes through `partial_cmp`/`cmp`. -/
def addParts (ok : Nat → Bool) (s r : Rational) : Option (Nat × Bool) :=
  let gd := Nat.gcd s.denominator r.denominator
  if s.sign == r.sign then do
    let x ← uck ok (s.numerator * (← udiv r.denominator gd))
    let y ← uck ok ((← udiv s.denominator gd) * r.numerator)
    let n ← uck ok (x + y)
    return (n, s.sign)
  else do
    let c ← cmp ok s.abs r.abs
    if c ≠ .lt then do
      let x ← uck ok (s.numerator * (← udiv r.denominator gd))
      let y ← uck ok ((← udiv s.denominator gd) * r.numerator)
      let n ← usub x y
      return (n, s.sign)
    else do
      let x ← uck ok ((← udiv s.denominator gd) * r.numerator)
      let y ← uck ok (s.numerator * (← udiv r.denominator gd))
      let n ← usub x y
      return (n, r.sign)

/-- `Add`, rational_impl.rs:100-125. -/
def add (ok : Nat → Bool) (s r : Rational) : Option Rational := do
  let gd := Nat.gcd s.denominator r.denominator
  let ns ← addParts ok s r
  let d ← uck ok (s.denominator * (← udiv r.denominator gd))
  optimize { numerator := ns.1, denominator := d, sign := ns.2 }

/-- `Mul`, rational_impl.rs:135-147. -/
def mul (ok : Nat → Bool) (s r : Rational) : Option Rational := do
  let n ← uck ok (s.numerator * r.numerator)
  let d ← uck ok (s.denominator * r.denominator)
  optimize { numerator := n, denominator := d, sign := s.sign == r.sign }

/-- `Sub`, rational_impl.rs:127-133: `self + rhs * -one`. -/
def sub (ok : Nat → Bool) (s r : Rational) : Option Rational := do
  let m ← mul ok r one.neg
  add ok s m

/-- `Div`, rational_impl.rs:149-162. -/
def div (ok : Nat → Bool) (s r : Rational) : Option Rational :=
  if r = zero then none
  else do
    let n ← uck ok (s.numerator * r.denominator)
    let d ← uck ok (s.denominator * r.numerator)
    optimize { numerator := n, denominator := d, sign := s.sign == r.sign }

/-- `Sum`, rational_impl.rs:206-210. -/
def sum (ok : Nat → Bool) (l : List Rational) : Option Rational := l.foldlM (add ok) zero

/-- `Product`, rational_impl.rs:212-216: the fold starts from `Rational::zero()`. -/
def product (ok : Nat → Bool) (l : List Rational) : Option Rational := l.foldlM (mul ok) zero

end Rational
end Toppo
