import Mathlib.Algebra.Group.Defs
set_option linter.unusedVariables false

/-
Model of dense matrices and their views, alg/src/lin_alg/matrix_impl.rs:17-815, at the level of the flat allocation.

A `Matrix` owns one allocation (`List K`, row-major at creation) plus a size and strides ("offsets"); a `SubMatrix` reference is
a base address inside that allocation together with a size and strides that are packed into the 64-bit slice-length word of
the fat pointer.  `none` is a panic; an address outside the allocation would be undefined behaviour in the code and is also
`none` here (it is proved never to occur for elements, see C29).
Not modelled: the allocator, `Drop`, alignment, and the fact that `Matrix::new` leaves entries uninitialised.
-/
namespace Toppo

/-- 64-bit truncation of a shifted `usize` (`<<` drops the high bits). Used for matrix_impl.rs:23-30. -/
def shl64 (x k : Nat) : Nat := (x <<< k) % 2 ^ 64

/-- `compress`, matrix_impl.rs:23-30, for a 64-bit `usize` (`data_offset = 16`). -/
def compress (size off : Nat × Nat) : Nat :=
  shl64 size.1 48 ||| shl64 size.2 32 ||| shl64 off.1 16 ||| off.2

/-- `extract`, matrix_impl.rs:32-39 (`window = 0xffff`). -/
def extract (d : Nat) : (Nat × Nat) × (Nat × Nat) :=
  (((d >>> 48) &&& 65535, (d >>> 32) &&& 65535), ((d >>> 16) &&& 65535, d &&& 65535))

/-- A `&SubMatrix<T>`: base address (in elements, relative to the allocation), size and strides as `extract` reports them. Used for matrix_impl.rs:41-59. -/
structure View where
  base : Nat
  size : Nat × Nat
  off : Nat × Nat
deriving DecidableEq, Repr

/-- `submatrix_from_raw_parts(_mut)`, matrix_impl.rs:41-59: the size and strides go through the packed word. -/
def View.fromRaw (base : Nat) (size off : Nat × Nat) : View :=
  let d := compress size off
  { base := base, size := (extract d).1, off := (extract d).2 }

namespace View

/-- length of the slice formed by `slice_from_sub_matrix(_mut)`, matrix_impl.rs:61-75; `none` = underflow panic. -/
def sliceLen (v : View) : Option Nat :=
  if v.size.1 * v.off.1 = 0 ∨ v.size.2 * v.off.2 = 0 then none
  else some ((v.size.1 * v.off.1 - 1) + (v.size.2 * v.off.2 - 1) + 1)

/-- `as_ptr` / `as_mut_ptr`, matrix_impl.rs:107-115: forms the slice, then takes its start. -/
def asPtr (v : View) : Option Nat := (sliceLen v).map (fun _ => v.base)

/-- `SubMatrix::transpose`, matrix_impl.rs:117-124. -/
def transpose (v : View) : View := fromRaw v.base (v.size.2, v.size.1) (v.off.2, v.off.1)

/-- The range arguments accepted by the index operators, matrix_impl.rs:192-229. -/
inductive Rng where
  | idx (i : Nat)             -- a plain `usize`
  | full                      -- `..`
  | range (a b : Nat)         -- `a..b`
  | fromR (a : Nat)           -- `a..`
  | incl (a b : Nat)          -- `a..=b`
  | to (b : Nat)              -- `..b`
  | toIncl (b : Nat)          -- `..=b`

/-- `unpack_bounds_for_sub`, matrix_impl.rs:231-245. -/
def unpack (r : Rng) (size : Nat) : Nat × Nat :=
  match r with
  | .idx i => (i, i + 1)
  | .full => (0, size)
  | .range a b => (a, b)
  | .fromR a => (a, size)
  | .incl a b => (a, b + 1)
  | .to b => (0, b)
  | .toIncl b => (0, b + 1)

/-- `check_bounds_for_sub`, matrix_impl.rs:247-254 (`end - start` underflows for inverted ranges). -/
def checkSub (a b size : Nat) : Bool := decide (a ≤ b) && decide (b - a ≤ size) && decide (b ≤ size)

/-- `index((rows, cols))` with ranges, matrix_impl.rs:256-295. -/
def sub (v : View) (rows cols : Rng) : Option View :=
  let (r0, r1) := unpack rows v.size.1
  let (c0, c1) := unpack cols v.size.2
  if checkSub r0 r1 v.size.1 && checkSub c0 c1 v.size.2 then do
    let p ← v.asPtr
    return fromRaw (p + (v.off.1 * r0 + v.off.2 * c0)) (r1 - r0, c1 - c0) v.off
  else none

/-- Address of an element, matrix_impl.rs:319 and 328. -/
def addr (v : View) (i j : Nat) : Nat := v.base + (i * v.off.1 + j * v.off.2)

/-- `index((usize, usize))`, matrix_impl.rs:309-322. -/
def get {K : Type} (mem : List K) (v : View) (i j : Nat) : Option K :=
  if i < v.size.1 ∧ j < v.size.2 then do
    let _ ← v.asPtr
    mem[v.addr i j]?
  else none

/-- assignment through `index_mut((usize, usize))`, matrix_impl.rs:324-330. -/
def set {K : Type} (mem : List K) (v : View) (i j : Nat) (x : K) : Option (List K) :=
  if i < v.size.1 ∧ j < v.size.2 then do
    let _ ← v.asPtr
    if v.addr i j < mem.length then some (mem.set (v.addr i j) x) else none
  else none

/-- `swap_rows`, matrix_impl.rs:151-157. -/
def swapRows {K : Type} (mem : List K) (v : View) (r1 r2 : Nat) : Option (List K) :=
  (List.range v.size.2).foldlM (fun mem j => do
    let tmp ← get mem v r1 j
    let x ← get mem v r2 j
    let mem ← set mem v r1 j x
    set mem v r2 j tmp) mem

/-- `swap_cols`, matrix_impl.rs:159-165. -/
def swapCols {K : Type} (mem : List K) (v : View) (c1 c2 : Nat) : Option (List K) :=
  (List.range v.size.1).foldlM (fun mem i => do
    let tmp ← get mem v i c1
    let x ← get mem v i c2
    let mem ← set mem v i c1 x
    set mem v i c2 tmp) mem

/-- `row_operation`, matrix_impl.rs:167-170: the scaled row is copied first. -/
def rowOperation {K : Type} [Add K] [Mul K] (mem : List K) (v : View) (r1 r2 : Nat) (c : K) : Option (List K) := do
  let row ← v.sub (.idx r2) .full
  let vals ← (List.range row.size.2).mapM (fun j => do let x ← get mem row 0 j; return x * c)
  (List.range v.size.2).foldlM (fun mem i => do
    let x ← get mem v r1 i
    let y ← vals[i]?
    set mem v r1 i (x + y)) mem

/-- `col_operation`, matrix_impl.rs:172-175. -/
def colOperation {K : Type} [Add K] [Mul K] (mem : List K) (v : View) (c1 c2 : Nat) (c : K) : Option (List K) := do
  let col ← v.sub .full (.idx c2)
  let vals ← (List.range col.size.1).mapM (fun i => do let x ← get mem col i 0; return x * c)
  (List.range v.size.1).foldlM (fun mem j => do
    let x ← get mem v j c1
    let y ← vals[j]?
    set mem v j c1 (x + y)) mem

/-- positions in the order of the nested loops `for i in 0..n { for j in 0..m {..} }`. Used for matrix_impl.rs:177-184. -/
def positions (n m : Nat) : List (Nat × Nat) :=
  (List.range n).flatMap (fun i => (List.range m).map (fun j => (i, j)))

/-- `SubMatrix::write`, matrix_impl.rs:177-184: copies the entries of `w` (in `mem'`) over those of `v`. -/
def write {K : Type} (mem : List K) (v : View) (mem' : List K) (w : View) : Option (List K) :=
  if v.size = w.size then
    (positions v.size.1 v.size.2).foldlM (fun mem p => do
      let x ← get mem' w p.1 p.2
      set mem v p.1 p.2 x) mem
  else none

/-- `+=` and `-=`, matrix_impl.rs:354-385, with the operation `f` (rust's `assert_eq!` on the sizes). -/
def combineAssign {K : Type} (f : K → K → K) (mem : List K) (v : View) (mem' : List K) (w : View) : Option (List K) :=
  if v.size = w.size then
    (positions v.size.1 v.size.2).foldlM (fun mem p => do
      let x ← get mem v p.1 p.2
      let y ← get mem' w p.1 p.2
      set mem v p.1 p.2 (f x y)) mem
  else none

/-- `*= scalar` and `/= scalar`, matrix_impl.rs:527-556, with `f x = x * c` or `f x = x / c`. -/
def mapAssign {K : Type} (f : K → K) (mem : List K) (v : View) : Option (List K) :=
  (positions v.size.1 v.size.2).foldlM (fun mem p => do
    let x ← get mem v p.1 p.2
    set mem v p.1 p.2 (f x)) mem

/-- `dot`, matrix_impl.rs:126-138; `sum()` folds from zero. -/
def dot {K : Type} [Add K] [Mul K] [Zero K] (mem : List K) (v : View) (mem' : List K) (w : View) : Option K :=
  if v.size.1 = 1 ∧ w.size.2 = 1 ∧ v.size.2 = w.size.1 then do
    let l ← (List.range v.size.2).mapM (fun i => do
      let x ← get mem v 0 i
      let y ← get mem' w i 0
      return x * y)
    return l.foldl (· + ·) 0
  else none

/-- `PartialEq for SubMatrix`, matrix_impl.rs:559-573. -/
def eq {K : Type} [DecidableEq K] (mem : List K) (v : View) (mem' : List K) (w : View) : Option Bool :=
  if v.size ≠ w.size then some false
  else (positions v.size.1 v.size.2).foldlM (fun b p =>
    if b then do
      let x ← get mem v p.1 p.2
      let y ← get mem' w p.1 p.2
      return decide (x = y)
    else some false) true

end View

/-- `struct Matrix`, lin_alg.rs:7-13. -/
structure Mat (K : Type) where
  data : List K
  size : Nat × Nat
  off : Nat × Nat

namespace Mat
variable {K : Type}

/-- `Deref for Matrix`, matrix_impl.rs:717-724. -/
def view (a : Mat K) : View := View.fromRaw 0 a.size a.off

/-- `Matrix::new(n, m)` filled by nested loops with the values `f i j`, matrix_impl.rs:594-603 and e.g. 332-350: strides
`(m, 1)`, the loops write the whole allocation in address order.  Simplification: the freshly written allocation is given as
one list. -/
def build (n m : Nat) (f : Nat → Nat → Option K) : Option (Mat K) := do
  let l ← (View.positions n m).mapM (fun p => f p.1 p.2)
  return { data := l, size := (n, m), off := (m, 1) }

/-- `Matrix::transpose`, matrix_impl.rs:674-680. -/
def transpose (a : Mat K) : Mat K := { a with size := (a.size.2, a.size.1), off := (a.off.2, a.off.1) }

/-- `Matrix::zero`, matrix_impl.rs:800-809. -/
def zero [Zero K] (n m : Nat) : Option (Mat K) := if 0 < n ∧ 0 < m then build n m (fun _ _ => some 0) else none

/-- `Matrix::identity`, matrix_impl.rs:811-816: the diagonal is overwritten by ones. -/
def identity [Zero K] [One K] (n : Nat) : Option (Mat K) := do
  let z ← (if 0 < n then zero n n else none : Option (Mat K))
  let d ← (List.range n).foldlM (fun mem i => View.set mem z.view i i 1) z.data
  return { z with data := d }

/-- `as_matrix` (and `Clone`), matrix_impl.rs:140-149 and 750-754. -/
def ofView (mem : List K) (v : View) : Option (Mat K) := build v.size.1 v.size.2 (fun i j => View.get mem v i j)

/-- `&SubMatrix + &SubMatrix` and `-`, matrix_impl.rs:332-351, with the operation `f`. -/
def zipWith (f : K → K → K) (mem : List K) (v : View) (mem' : List K) (w : View) : Option (Mat K) :=
  if v.size ≠ w.size then none
  else build v.size.1 v.size.2 (fun i j => do
    let x ← View.get mem v i j
    let y ← View.get mem' w i j
    return f x y)

/-- `&SubMatrix * &SubMatrix`, matrix_impl.rs:388-399. -/
def mul [Add K] [Mul K] [Zero K] (mem : List K) (v : View) (mem' : List K) (w : View) : Option (Mat K) :=
  build v.size.1 w.size.2 (fun i j => do
    let a ← v.sub (.idx i) .full
    let b ← w.sub .full (.idx j)
    View.dot mem a mem' b)

/-- `&SubMatrix * T`, matrix_impl.rs:487-498. -/
def smul [Mul K] (mem : List K) (v : View) (c : K) : Option (Mat K) :=
  build v.size.1 v.size.2 (fun i j => do
    let x ← View.get mem v i j
    return x * c)

/-- `&SubMatrix / T` for fields, matrix_impl.rs:513-524. -/
def sdiv [Div K] (mem : List K) (v : View) (c : K) : Option (Mat K) :=
  build v.size.1 v.size.2 (fun i j => do
    let x ← View.get mem v i j
    return x / c)

/-- `Matrix::from_array`, matrix_impl.rs:655-672. -/
def fromArray (v : List (List K)) : Option (Mat K) :=
  match v with
  | [] => none
  | r :: _ =>
    if r.length = 0 then none
    else if v.all (fun x => decide (x.length ≠ r.length)) then none
    else build v.length r.length (fun i j => do
      let row ← v[i]?
      row[j]?)

/-- `is_diagonal`, matrix_impl.rs:623-632. -/
def isDiagonal [Zero K] [DecidableEq K] (a : Mat K) : Option Bool :=
  (View.positions a.size.1 a.size.2).foldlM (fun b p =>
    if b then do
      let x ← View.get a.data a.view p.1 p.2
      return !(decide (x ≠ 0) && decide (p.1 ≠ p.2))
    else some false) true

end Mat
end Toppo
