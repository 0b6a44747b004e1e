/-
Model of `util/src/lib.rs` lines 371-456: `TupleIterator` and `tuple_iter`.  Panics are `none`; all `usize`
subtractions are checked.
-/
namespace Toppo

/-- checked `usize` subtraction: `none` is the debug-profile panic on underflow. Used for util/src/lib.rs:379-390. -/
def csub (a b : Nat) : Option Nat := if b ≤ a then some (a - b) else none

/-- `struct TupleIterator`, util/src/lib.rs:371-376. -/
structure TupleIterator (α : Type) where
  data : List α
  indeces : List Nat
  currIdx : Nat
  isDone : Bool

namespace TupleIterator
variable {α : Type}

/-- `TupleIterator::new`, util/src/lib.rs:379-390; `size-1` underflows (panics) for `size = 0`. -/
def new (data : List α) (size : Nat) : Option (TupleIterator α) := do
  let cur ← csub size 1
  return { data := data, indeces := List.range size, currIdx := cur, isDone := decide (data.length < size) }

/-- `TupleIterator::is_blocked`, util/src/lib.rs:392-406. -/
def isBlocked (s : TupleIterator α) : Option Bool := do
  let last ← csub s.indeces.length 1
  if s.currIdx ≥ last then
    let x ← s.indeces[s.currIdx]?
    let m ← csub s.data.length 1
    return decide (x ≥ m)
  else
    let x ← s.indeces[s.currIdx]?
    let y ← s.indeces[s.currIdx + 1]?
    return decide (x + 1 = y)

/-- The `while` loop of `next`, util/src/lib.rs:420-422. -/
def backUp (indeces : List Nat) : Nat → Option Nat
  | 0 => some 0
  | cur + 1 => do
    let x ← indeces[cur + 1]?
    let y ← indeces[cur]?
    let d ← csub x y
    if d = 1 then backUp indeces cur else return cur + 1

/-- One step `self.indeces[idx] -= diff` of the `for` loop, util/src/lib.rs:430. -/
def subAt (diff : Nat) (indeces : List Nat) (idx : Nat) : Option (List Nat) := do
  let x ← indeces[idx]?
  let y ← csub x diff
  return indeces.set idx y

/-- `self.indeces.iter().map(|&idx| &self.data[idx]).collect()`, util/src/lib.rs:416. -/
def fetch (data : List α) : List Nat → Option (List α)
  | [] => some []
  | i :: is => do
    let a ← data[i]?
    let r ← fetch data is
    return a :: r

/-- `TupleIterator::next`, util/src/lib.rs:412-440.  Outer `none` = panic; inner `none` = end of iteration. -/
def next (s : TupleIterator α) : Option (Option (List α) × TupleIterator α) :=
  if s.isDone then some (none, s)
  else do
    let out ← fetch s.data s.indeces
    let blocked ← s.isBlocked
    if blocked then
      let cur ← backUp s.indeces s.currIdx
      if cur = 0 then
        return (some out, { s with currIdx := cur, isDone := true })
      else
        let x ← s.indeces[cur - 1]?
        let ind := s.indeces.set (cur - 1) (x + 1)
        let y ← ind[cur]?
        let d ← csub y (x + 1)
        let diff ← csub d 1
        let ind' ← (List.range' cur (ind.length - cur)).foldlM (subAt diff) ind
        let last ← csub ind'.length 1
        return (some out, { s with indeces := ind', currIdx := last })
    else
      let x ← s.indeces[s.currIdx]?
      return (some out, { s with indeces := s.indeces.set s.currIdx (x + 1) })

/-- Repeated calls of `next` until it answers `None`; `fuel` bounds the number of calls. `none`: panic or fuel used up. Used for util/src/lib.rs:443-451. -/
def collect : Nat → TupleIterator α → Option (List (List α))
  | 0, _ => none
  | fuel + 1, s =>
    match s.next with
    | none => none
    | some (none, _) => some []
    | some (some t, s') => (collect fuel s').map (t :: ·)

end TupleIterator

/-- `data.tuple_iter(size)` driven to the end with at most `fuel` calls of `next`, util/src/lib.rs:443-451. -/
def tupleIter {α : Type} (fuel : Nat) (data : List α) (size : Nat) : Option (List (List α)) := do
  let s ← TupleIterator.new data size
  s.collect fuel

end Toppo
