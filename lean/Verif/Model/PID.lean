/-
Model of the integer part of `alg/src/commutative.rs` (lines 108-211): `is_prime`, `n_prime_factors`, `euclid_div`,
`simplify`, `divides`, `gcd`, `bezout_identity`.

All functions take `ok : Int → Bool`, which says which results of `+ - * /` are representable; a result that is not
makes the operation panic (`none`), as in the debug profile.  `ideal` accepts everything, `fits w` is the `w`-bit
two's-complement range (`w` = 8, 16, 32, 64, 128, as in `pid_impl!{ isize i8 i16 i32 i64 i128 }`, line 174).
-/
set_option linter.unusedVariables false
namespace Toppo

/-- which integers are representable. Used for alg/src/commutative.rs:146-159. -/
abbrev Width := Int → Bool

/-- unbounded integers (no overflow in alg/src/commutative.rs:128-211) -/
def ideal : Width := fun _ => true

/-- `w`-bit signed integers (`pid_impl!{ isize i8 i16 i32 i64 i128 }`, alg/src/commutative.rs:173) -/
def fits (w : Nat) : Width := fun x => decide (-(2 ^ (w - 1) : Int) ≤ x ∧ x < (2 ^ (w - 1) : Int))

/-- result of an arithmetic operation, checked for overflow. Used for alg/src/commutative.rs:146-159. -/
def ck (ok : Width) (x : Int) : Option Int := if ok x then some x else none

/-- `euclid_div`, alg/src/commutative.rs:146-159.  Rust's `/` and `%` truncate; both panic on a zero divisor and on
overflow of the quotient. -/
def euclidDiv (ok : Width) (a d : Int) : Option (Int × Int) :=
  if d = 0 then none
  else do
    let q ← ck ok (a.tdiv d)
    let r := a.tmod d
    if r < 0 then
      if d > 0 then
        let r ← ck ok (r + d)
        let q ← ck ok (q - 1)
        return (q, r)
      else
        let r ← ck ok (r - d)
        let q ← ck ok (q + 1)
        return (q, r)
    else return (q, r)

/-- `simplify`, alg/src/commutative.rs:161-168. -/
def simplify (ok : Width) (a : Int) : Option (Int × Int) :=
  let sign : Int := if a < 0 then -1 else 1
  do
    let v ← ck ok (sign * a)
    return (sign, v)

/-- `divides`, alg/src/commutative.rs:120-122: `n.euclid_div(self).1 == 0`. -/
def divides (ok : Width) (a n : Int) : Option Bool := do
  let (_, r) ← euclidDiv ok n a
  return r == 0

theorem ck_eq {ok : Width} {x y : Int} (h : ck ok x = some y) : x = y := by
  unfold ck at h; split at h
  · injection h
  · cases h

theorem euclidDiv_some {ok : Width} {a d q r : Int} (h : euclidDiv ok a d = some (q, r)) :
    d ≠ 0 ∧ a = q * d + r ∧ 0 ≤ r ∧ r < d.natAbs := by
  unfold euclidDiv at h
  split at h
  · cases h
  · rename_i hd
    have hda := Int.mul_tdiv_add_tmod a d
    have hlt : (a.tmod d).natAbs < d.natAbs := by
      rw [Int.natAbs_tmod]; exact Nat.mod_lt _ (by omega)
    simp only [Option.bind_eq_bind, Option.bind_eq_some_iff] at h
    obtain ⟨q0, hq, h⟩ := h
    have hq := ck_eq hq
    subst hq
    have hcomm : d * a.tdiv d = a.tdiv d * d := Int.mul_comm _ _
    split at h
    · split at h
      · simp only [Option.bind_eq_some_iff] at h
        obtain ⟨r1, h1, q1, h2, h3⟩ := h
        have h1 := ck_eq h1; have h2 := ck_eq h2; subst h1; subst h2
        simp only [pure, Option.some.injEq, Prod.mk.injEq] at h3
        obtain ⟨rfl, rfl⟩ := h3
        refine ⟨hd, ?_, by omega, by omega⟩
        rw [Int.sub_mul]; omega
      · simp only [Option.bind_eq_some_iff] at h
        obtain ⟨r1, h1, q1, h2, h3⟩ := h
        have h1 := ck_eq h1; have h2 := ck_eq h2; subst h1; subst h2
        simp only [pure, Option.some.injEq, Prod.mk.injEq] at h3
        obtain ⟨rfl, rfl⟩ := h3
        refine ⟨hd, ?_, by omega, by omega⟩
        rw [Int.add_mul]; omega
    · simp only [pure, Option.some.injEq, Prod.mk.injEq] at h
      obtain ⟨rfl, rfl⟩ := h
      exact ⟨hd, by omega, by omega, by omega⟩

/-- `gcd`, alg/src/commutative.rs:191-195. -/
def gcd (ok : Width) (a b : Int) : Option Int :=
  if a = 0 then (simplify ok b).map (·.2)
  else
    match h : euclidDiv ok b a with
    | none => none
    | some (_, r) => gcd ok r a
termination_by a.natAbs
decreasing_by
  have := euclidDiv_some h
  omega

/-- `bezout_identity_rec`, alg/src/commutative.rs:201-208. -/
def bezoutRec (ok : Width) (a b x1 x2 y1 y2 : Int) : Option (Int × Int × Int) :=
  if a = 0 then do
    let (unit, b) ← simplify ok b
    let (x, _) ← euclidDiv ok x2 unit
    let (y, _) ← euclidDiv ok y2 unit
    return (b, x, y)
  else
    match h : euclidDiv ok b a with
    | none => none
    | some (q, r) => do
      let p ← ck ok (x1 * q)
      let x ← ck ok (x2 - p)
      let p' ← ck ok (y1 * q)
      let y ← ck ok (y2 - p')
      bezoutRec ok r a x x1 y y1
termination_by a.natAbs
decreasing_by
  have := euclidDiv_some h
  omega

/-- `bezout_identity`, alg/src/commutative.rs:197-199. -/
def bezoutIdentity (ok : Width) (a b : Int) : Option (Int × Int × Int) := bezoutRec ok a b 1 0 0 1

/-- The integers of the Rust range `lo..hi` (empty when `hi ≤ lo`). Used for alg/src/commutative.rs:128-131. -/
def intRange (lo hi : Int) : List Int := (List.range (hi - lo).toNat).map (fun (k : Nat) => lo + (k : Int))

/-- `is_prime`, alg/src/commutative.rs:128-131: `(2..self).all(|x| self/x != 0)`. -/
def isPrime (n : Int) : Bool :=
  if n = 0 ∨ n = 1 then false
  else (intRange 2 n).all (fun x => n.tdiv x != 0)

/-- The `while num/x==0 { count += 1; num /= x; }` loop of `n_prime_factors`, alg/src/commutative.rs:138-141, with a
step bound (the loop diverges when `0/x == 0`); `none` = more than `fuel` rounds or division by zero. -/
def countLoop : Nat → Int → Int → Nat → Option Nat
  | 0, _, _, _ => none
  | fuel + 1, num, x, count =>
    if x = 0 then none
    else if num.tdiv x = 0 then countLoop fuel (num.tdiv x) x (count + 1) else some count

/-- `n_prime_factors`, alg/src/commutative.rs:133-144.  (`self/x` with `x = 0` cannot occur: `0` is filtered out.) -/
def nPrimeFactors (fuel : Nat) (n : Int) : Option Nat :=
  if isPrime n then some 1
  else
    (((intRange 0 n).filter isPrime).filter (fun x => n.tdiv x == 0)).foldlM (fun count x => countLoop fuel n x count) 0

end Toppo
