import Mathlib.Algebra.Field.Defs
set_option linter.unusedVariables false

/-
Model of `ConstVector<T, N>` and `ConstMatrix<T, N_ROW, N_COL>`, alg/src/lin_alg/const_matrix_impl.rs.

A `[T; N]` is a list (of length `N`), a `[[T; M]; N]` a list of rows.  `T` is an exact ring or field.  `none` is an
out-of-range index.  The in-place loops return the new array.
-/
namespace Toppo.CMat
variable {T : Type}

/-- `iter_mut().zip(rhs).for_each(|(x, y)| *x = f(x, y))`: elements beyond the shorter side are left as they are.  Used by
`AddAssign`/`SubAssign` for `ConstVector`, const_matrix_impl.rs:99-113. -/
def zipAssign (f : T → T → T) : List T → List T → List T
  | x :: xs, y :: ys => f x y :: zipAssign f xs ys
  | xs, _ => xs

/-- `AddAssign`, const_matrix_impl.rs:99-105 (and `Add`, 47-53). -/
def vAdd [Add T] (x y : List T) : List T := zipAssign (· + ·) x y
/-- `SubAssign`, const_matrix_impl.rs:108-114 (and `Sub`, 56-62). -/
def vSub [Sub T] (x y : List T) : List T := zipAssign (· - ·) x y
/-- `MulAssign<T>`, const_matrix_impl.rs:116-121 (and `Mul<T>`, 65-71). -/
def vMul [Mul T] (x : List T) (c : T) : List T := x.map (fun a => a * c)
/-- `DivAssign<T>`, const_matrix_impl.rs:123-128 (and `Div<T>`, 82-88). -/
def vDiv [Div T] (x : List T) (c : T) : List T := x.map (fun a => a / c)
/-- `Neg`, const_matrix_impl.rs:132-139. -/
def vNeg [Neg T] (x : List T) : List T := x.map (fun a => -a)

/-- `iter_mut().map(|r| r.iter_mut()).flatten().zip(rhs flattened).for_each(..)`: the rows are visited one after the other, all of
them drawing from the same stream `ys`. Used for const_matrix_impl.rs:142-150. -/
def flatZipAssign (f : T → T → T) : List (List T) → List T → List (List T)
  | [], _ => []
  | r :: rs, ys => zipAssign f r ys :: flatZipAssign f rs (ys.drop r.length)

/-- `AddAssign` for matrices, const_matrix_impl.rs:142-150. -/
def mAdd [Add T] (x y : List (List T)) : List (List T) := flatZipAssign (· + ·) x y.flatten
/-- `SubAssign` for matrices, const_matrix_impl.rs:153-161. -/
def mSub [Sub T] (x y : List (List T)) : List (List T) := flatZipAssign (· - ·) x y.flatten
/-- `MulAssign<T>` for matrices, const_matrix_impl.rs:163-170. -/
def mMul [Mul T] (x : List (List T)) (c : T) : List (List T) := x.map (fun r => r.map (fun a => a * c))
/-- `DivAssign<T>` for matrices, const_matrix_impl.rs:172-179. -/
def mDiv [Div T] (x : List (List T)) (c : T) : List (List T) := x.map (fun r => r.map (fun a => a / c))
/-- `Neg` for matrices, const_matrix_impl.rs:183-191. -/
def mNeg [Neg T] (x : List (List T)) : List (List T) := x.map (fun r => r.map (fun a => -a))

/-- `ConstVector::zero`, const_matrix_impl.rs:206-208. -/
def vZero [Zero T] (n : Nat) : List T := List.replicate n 0
/-- `dot`, const_matrix_impl.rs:210-212. -/
def dot [Zero T] [Add T] [Mul T] (x y : List T) : T := (List.zipWith (fun a b => a * b) x y).foldl (· + ·) 0
/-- `ConstMatrix::zero`, const_matrix_impl.rs:222-224. -/
def mZero [Zero T] (n m : Nat) : List (List T) := List.replicate n (List.replicate m 0)

/-- `m[i][j] = v`, with bounds checks. Used for const_matrix_impl.rs:228-234. -/
def set2 (x : List (List T)) (i j : Nat) (v : T) : Option (List (List T)) := do
  let r ← x[i]?
  if j < r.length then return x.set i (r.set j v) else none

/-- `identity`, const_matrix_impl.rs:228-234. -/
def ident [Zero T] [One T] (n : Nat) : Option (List (List T)) :=
  (List.range n).foldlM (fun m i => set2 m i i 1) (mZero n n)

/-- `From<[ConstVector<T, N_ROW>; N_COL]>`: the vectors become the columns, const_matrix_impl.rs:237-247. -/
def fromCols [Zero T] (n m : Nat) (v : List (List T)) : Option (List (List T)) :=
  (List.range m).foldlM (fun x j => (List.range n).foldlM (fun x i => do
    let c ← v[j]?
    let e ← c[i]?
    set2 x i j e) x) (mZero n m)

end Toppo.CMat
