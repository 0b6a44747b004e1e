import Verif.Model.BinaryPool
/-
Model of `util/src/lib.rs` lines 252-322: `LabeledSet`, `LabeledSetIter`.  Panics are `none`.
-/
namespace Toppo

/-- `struct LabeledSet`, util/src/lib.rs:252-258. -/
structure LabeledSet (α : Type) where
  set : BinaryPool
  labels : List α
deriving DecidableEq

namespace LabeledSet
variable {α : Type} [DecidableEq α]

/-- `LabeledSet::new`, util/src/lib.rs:263-268. -/
def new (labels : List α) : LabeledSet α := ⟨BinaryPool.new labels.length, labels⟩

/-- `LabeledSet::add`, util/src/lib.rs:270-275: `position` of the first equal label; panic when not registered. -/
def add (s : LabeledSet α) (label : α) : Option (LabeledSet α) :=
  match s.labels.findIdx? (· == label) with
  | some p => (s.set.add p).map (fun q => { s with set := q })
  | none => none

/-- `LabeledSet::remove`, util/src/lib.rs:277-282. -/
def remove (s : LabeledSet α) (label : α) : Option (LabeledSet α) :=
  match s.labels.findIdx? (· == label) with
  | some p => (s.set.remove p).map (fun q => { s with set := q })
  | none => none

/-- `LabeledSet::n_elements`, util/src/lib.rs:284-286. -/
def nElements (s : LabeledSet α) : Nat := s.set.nElements

/-- Looking up labels of the indices the pool iterator yields; `self.data.labels[i]` panics out of range. Used for util/src/lib.rs:288-322. -/
def lookup (labels : List α) : List Nat → Option (List α)
  | [] => some []
  | i :: is => do
    let a ← labels[i]?
    let r ← lookup labels is
    return a :: r

/-- `set.iter().collect()`, util/src/lib.rs:288-322. -/
def toList (s : LabeledSet α) : Option (List α) := s.set.toList.bind (lookup s.labels)

end LabeledSet
end Toppo
