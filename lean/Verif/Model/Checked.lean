import Verif.Model.PID
import Verif.Model.Rational
import Verif.Model.MatrixView
import Verif.Model.Sparse
import Verif.Model.FormalSum
set_option linter.unusedVariables false

/-
Machine integers and `Rational` as matrix entries: the scalar types `i8 … i128` of alg/src/commutative.rs:9-35 and 73-95, with overflow checks (debug profile), and
`Rational` (rational_impl.rs).

The generic matrix code (matrix_impl.rs, sparse_matrix_impl.rs, const_matrix_impl.rs) is instantiated at `Chk w` and `RChk ok`: a value is a number,
or `none` once an operation on the way to it has overflowed.  In the program the first overflow unwinds the whole operation; since
nothing of an interrupted operation can be observed, it does not matter which one comes first, and `collect` below turns one overflowed entry
into a panic of the whole operation.
-/
namespace Toppo

/-- A `w`-bit integer in the middle of a computation; `none`: the computation has overflowed. commutative.rs:9-35. -/
@[ext] structure Chk (w : Nat) where
  out : Option Int
deriving DecidableEq

namespace Chk
variable {w : Nat}

/-- a stored value (entries of a matrix). commutative.rs:9-35. -/
def lit (x : Int) : Chk w := ⟨some x⟩

/-- an operator with its overflow check; commutative.rs:107-115 requires `Add`, `Sub`, `Mul` and takes Rust's own. -/
def bin (op : Int → Int → Int) (a b : Chk w) : Chk w := ⟨do
  let x ← a.out
  let y ← b.out
  ck (fits w) (op x y)⟩

/-- `T::zero()`, commutative.rs:9-18. -/
instance : Zero (Chk w) := ⟨lit 0⟩
/-- `T::one()`, commutative.rs:20-32. -/
instance : One (Chk w) := ⟨lit 1⟩
/-- `+` of the machine type. commutative.rs:107-115. -/
instance : Add (Chk w) := ⟨bin (· + ·)⟩
/-- `-` of the machine type. commutative.rs:107-115. -/
instance : Sub (Chk w) := ⟨bin (· - ·)⟩
/-- `*` of the machine type. commutative.rs:107-115. -/
instance : Mul (Chk w) := ⟨bin (· * ·)⟩
/-- unary `-` of the machine type (panics on the least integer). commutative.rs:107-115. -/
instance : Neg (Chk w) := ⟨fun a => ⟨do let x ← a.out; ck (fits w) (-x)⟩⟩

end Chk

/-- A `Rational` in the middle of a computation, with checked `u64` parts; `none`: an operation has panicked. rational_impl.rs:100-197. -/
@[ext] structure RChk (ok : Nat → Bool) where
  out : Option Rational

namespace RChk
variable {ok : Nat → Bool}

/-- a stored value (entries of a matrix). rational_impl.rs:22-33. -/
def lit (x : Rational) : RChk ok := ⟨some x⟩

/-- an operator of `Rational`; it is not reached if one of the operands has panicked. rational_impl.rs:100-162. -/
def bin (op : Rational → Rational → Option Rational) (a b : RChk ok) : RChk ok := ⟨do
  let x ← a.out
  let y ← b.out
  op x y⟩

/-- `zero`, rational_impl.rs:187-191. -/
instance : Zero (RChk ok) := ⟨lit Rational.zero⟩
/-- `Add`, rational_impl.rs:100-125. -/
instance : Add (RChk ok) := ⟨bin (Rational.add ok)⟩
/-- `Sub`, rational_impl.rs:127-133. -/
instance : Sub (RChk ok) := ⟨bin (Rational.sub ok)⟩
/-- `Mul`, rational_impl.rs:135-147. -/
instance : Mul (RChk ok) := ⟨bin (Rational.mul ok)⟩
/-- `Div`, rational_impl.rs:149-162. -/
instance : Div (RChk ok) := ⟨bin (Rational.div ok)⟩
/-- `Neg`, rational_impl.rs:179-185. -/
instance : Neg (RChk ok) := ⟨fun a => ⟨do let x ← a.out; return x.neg⟩⟩

end RChk

/-- The outcome of a matrix operation on such numbers: it panics if one of the entries does. Used for the operators of
matrix_impl.rs:332-399, 487-498 and 513-524. -/
def Mat.collect {K L : Type} (out : K → Option L) (r : Option (Mat K)) : Option (Mat L) := do
  let c ← r
  Mat.build c.size.1 c.size.2 (fun i j => do
    let x ← View.get c.data c.view i j
    out x)

/-- The same for the products of sparse matrices with `n × m` results, sparse_matrix_impl.rs:210-283. -/
def Sparse.collect {K L : Type} (out : K → Option L) (n m : Nat) (r : Option (Nat → Nat → Option K)) : Option (Nat → Nat → Option L) := do
  let h ← r
  Sparse.forEntries n m (fun i j => do
    let x ← h i j
    out x)

/-- The outcome for machine integers, matrix_impl.rs:332-399 and 487-498. -/
abbrev Mat.run {w : Nat} (r : Option (Mat (Chk w))) : Option (Mat Int) := Mat.collect Chk.out r
/-- The outcome for `Rational`, matrix_impl.rs:332-399, 487-498 and 513-524. -/
abbrev Mat.runR {ok : Nat → Bool} (r : Option (Mat (RChk ok))) : Option (Mat Rational) := Mat.collect RChk.out r
/-- The outcome for machine integers, sparse_matrix_impl.rs:210-283. -/
abbrev Sparse.run {w : Nat} (n m : Nat) (r : Option (Nat → Nat → Option (Chk w))) : Option (Nat → Nat → Option Int) := Sparse.collect Chk.out n m r
/-- The outcome for `Rational`, sparse_matrix_impl.rs:210-283. -/
abbrev Sparse.runR {ok : Nat → Bool} (n m : Nat) (r : Option (Nat → Nat → Option (RChk ok))) : Option (Nat → Nat → Option Rational) := Sparse.collect RChk.out n m r

/-- The outcome of an operation on formal sums with machine coefficients, lin_alg.rs:234-263 and 359-397: it panics if one of the coefficients has overflowed. -/
def FSum.run {w : Nat} {B : Type} (v : FSum (Chk w) B) : Option (FSum Int B) := v.mapM (fun x => x.1.out.map (fun k => (k, x.2)))

/-- The same for arrays, const_matrix_impl.rs:99-191. -/
def CMat.run {w : Nat} (l : List (Chk w)) : Option (List Int) := l.mapM (fun x => x.out)

/-- The same for arrays of arrays, const_matrix_impl.rs:142-191. -/
def CMat.runRows {w : Nat} (l : List (List (Chk w))) : Option (List (List Int)) := l.mapM CMat.run

end Toppo
