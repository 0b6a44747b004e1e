import Verif.Model.BinaryPool
import Verif.Model.TupleIter
import Verif.Model.Homology
import Mathlib.Data.List.Sort

/-
Model of `topo_spaces/src/simplicial/mod.rs` and `mod_impl.rs`.  Panics are `none`.  The 64-bit words are modelled at machine
width; `usize` counts and the `i64` totals of `n_cells_of_dim` are unbounded.
-/
namespace Toppo.Simp
open Toppo

/-- `struct Simplex`, simplicial/mod.rs:16-22. -/
structure Simplex (T : Type) where
  dim : Nat
  labels : List T
deriving DecidableEq

/-- `struct SimplicialCell`, simplicial/mod.rs:41-47. -/
structure Cell where
  words : List (BitVec 64)
  size : Nat
  dim : Option Nat

/-- `struct SimplicialCplx`, simplicial/mod.rs:49-54. -/
structure Cplx (T : Type) where
  size : Nat
  cells : List Cell
  labels : List T

namespace Cell

/-- `SimplicialCell::dim`, mod_impl.rs:80-92: number of ones minus one. -/
def dimOf (words : List (BitVec 64)) : Option Nat :=
  let k := (words.map countOnes).sum
  if k > 0 then some (k - 1) else none

/-- the `while` loop of `resize`, mod_impl.rs:96-98 -/
def growWords (newSize : Nat) (words : List (BitVec 64)) : List (BitVec 64) :=
  if newSize > 64 * words.length then growWords newSize (words ++ [0#64]) else words
termination_by newSize - 64 * words.length
decreasing_by simp; omega

/-- `resize`, mod_impl.rs:95-100 -/
def resize (c : Cell) (newSize : Nat) : Cell := { c with words := growWords newSize c.words, size := newSize }

/-- the new `dim` in `cone`, mod_impl.rs:46-50 -/
def bumpDim : Option Nat → Option Nat
  | some d => some (d + 1)
  | none => some 0

/-- `cone`, mod_impl.rs:40-51 -/
def cone (c : Cell) (v : Nat) : Option Cell := do
  let c := if v ≥ c.size then c.resize (v + 1) else c
  let w ← c.words[v / 64]?
  return { c with words := c.words.set (v / 64) (w ||| (1#64 <<< (v % 64)))
                  dim := bumpDim c.dim }

/-- two neighbouring entries are equal, mod_impl.rs:18-24 -/
def hasAdjDup : List Nat → Bool
  | x :: y :: l => x == y || hasAdjDup (y :: l)
  | _ => false

/-- `SimplicialCell::new`, mod_impl.rs:7-37 (`sort` is modelled by insertion sort) -/
def new (s : Nat) (raw : List Nat) : Option Cell := do
  let raw := raw.insertionSort (· ≤ ·)
  if s = 0 then none
  else
    let first ← raw.head?
    if s < first then none
    else if hasAdjDup raw then none
    else
      let c ← raw.foldlM cone { words := List.replicate (s / 64 + 1) 0#64, size := s, dim := some 0 }
      return { c with dim := dimOf c.words }

/-- `join`, mod_impl.rs:53-65: the zip truncates to the shorter list, then missing words are copied from `cell` -/
def join (c d : Cell) : Cell :=
  let w := (c.words.zip d.words).map (fun xy => xy.1 ||| xy.2)
  let w := w ++ d.words.drop w.length
  { c with words := w, dim := dimOf w }

/-- `intersection`, mod_impl.rs:67-78 -/
def inter (c d : Cell) : Cell :=
  let w := (c.words.zip d.words).map (fun xy => xy.1 &&& xy.2)
  { dim := dimOf w, words := w, size := c.size }

/-- `is_connected_with`, mod_impl.rs:102-104 -/
def meets (c d : Cell) : Bool := (c.words.zip d.words).any (fun xy => xy.1 &&& xy.2 != 0#64)

/-- `is_empty`, mod_impl.rs:106-108 -/
def isEmpty (c : Cell) : Bool := c.words.all (fun x => x == 0#64)

/-- `contains`, mod_impl.rs:110-112 -/
def contains (c d : Cell) : Bool := (c.words.zip d.words).all (fun xy => xy.1 ||| xy.2 == xy.1)

/-- `(idx..).find(..)`, mod_impl.rs:131: the first set bit from `idx` on; indexing past the last word panics -/
def findBit (words : List (BitVec 64)) (idx : Nat) : Option Nat :=
  if h : idx / 64 < words.length then
    if ((words[idx / 64] >>> (idx % 64)) % 2#64) == 1#64 then some idx else findBit words (idx + 1)
  else none
termination_by 64 * words.length - idx

/-- the `for` loop of `get_face`, mod_impl.rs:124-135: `k` faces still to be produced, searching from `idx` -/
def faceLoop (c : Cell) (dim : Nat) : (k idx : Nat) → Option (List Cell)
  | 0, _ => some []
  | k + 1, idx => do
    let i ← findBit c.words idx
    let w ← c.words[i / 64]?
    let f : Cell := { c with words := c.words.set (i / 64) (w &&& ~~~(1#64 <<< (i % 64))), dim := some dim }
    let rest ← faceLoop c dim k (i + 1)
    return f :: rest

/-- `get_face`, mod_impl.rs:114-137: `d-1` underflows for a vertex -/
def getFace (c : Cell) : Option (List Cell) := do
  let d ← c.dim
  let n ← csub d 1
  faceLoop c n (n + 2) 0

/-- `PartialEq`, mod_impl.rs:347-355 -/
def eq (c d : Cell) : Bool :=
  if c.words.length = d.words.length then c.words == d.words
  else (c.words.zip d.words).all (fun xy => xy.1 == xy.2)

/-- comparison of `Option<usize>`: `None < Some(_)`. Used for mod_impl.rs:358-375. -/
def cmpDim (a b : Option Nat) : Ordering :=
  match a, b with
  | none, none => .eq
  | none, some _ => .lt
  | some _, none => .gt
  | some x, some y => compare x y

/-- `.find(|&cmp| cmp != Equal)` on the comparisons of the words, mod_impl.rs:366-373 -/
def cmpWords : List (BitVec 64 × BitVec 64) → Ordering
  | [] => .eq
  | (x, y) :: l => if x < y then .lt else if y < x then .gt else cmpWords l

/-- `Ord::cmp`, mod_impl.rs:358-375 -/
def cmp (c d : Cell) : Ordering :=
  match cmpDim c.dim d.dim with
  | .gt => .gt
  | .lt => .lt
  | .eq => cmpWords (c.words.zip d.words)

end Cell

/-- `Vec::dedup`: of a run of equal elements the first is kept. Used for mod_impl.rs:323-344. -/
def dedupAdj : List Cell → List Cell
  | [] => []
  | x :: l => x :: go x l
where
  go (x : Cell) : List Cell → List Cell
    | [] => []
    | y :: l => if Cell.eq y x then go x l else y :: go y l

namespace Simplex
/-- `Simplex::from`, mod_impl.rs:143-148: `labels.len() - 1` underflows for no label -/
def ofLabels {T : Type} (labels : List T) : Option (Simplex T) := do
  let d ← csub labels.length 1
  return ⟨d, labels⟩
end Simplex

namespace Cplx
variable {T : Type} [DecidableEq T]

/-- `SimplicialCplx::new`, mod_impl.rs:154-160 -/
def empty : Cplx T := ⟨0, [], []⟩

/-- `new_from_zero_skeleton`, mod_impl.rs:162-171 -/
def ofZeroSkeleton (labels : List T) : Option (Cplx T) := do
  let cells ← (List.range labels.length).mapM (fun x => Cell.new 1 [x])
  return ⟨labels.length, cells, labels⟩

/-- adding the missing vertices, mod_impl.rs:190-196 -/
def addVertex (c : Cplx T) (v : T) : Option (Cplx T) :=
  if v ∈ c.labels then some c
  else do
    let cell ← Cell.new (c.size + 1) [c.size]
    return ⟨c.size + 1, c.cells ++ [cell], c.labels ++ [v]⟩

/-- `attach`, mod_impl.rs:188-222 -/
def attach (c : Cplx T) (s : Simplex T) : Option (Cplx T) := do
  let c ← s.labels.foldlM addVertex c
  let idx ← s.labels.mapM (fun l => c.labels.findIdx? (fun l2 => decide (l = l2)))
  let cell ← Cell.new c.size idx
  if c.cells.any (fun m => m.contains cell) then return c
  else return { c with cells := c.cells.filter (fun m => !cell.contains m) ++ [cell] }

/-- a history of `attach` calls starting from the empty complex (this is also the macro `simplicial_cplx!`, simplicial/mod.rs:56-71,
and, for one simplex, `new_from`, mod_impl.rs:173-178) -/
def build (history : List (List T)) : Option (Cplx T) :=
  history.foldlM (fun c labels => do
    let s ← Simplex.ofLabels labels
    c.attach s) empty

/-- `get_simplex`, mod_impl.rs:180-186 -/
def getSimplex (c : Cplx T) (cell : Cell) : Option (Simplex T) := do
  let flags ← (List.range cell.size).mapM (fun i => do
    let v ← Cell.new (i + 1) [i]
    return (i, cell.contains v))
  let labels ← (flags.filter (fun ib => ib.2)).mapM (fun ib => c.labels[ib.1]?)
  let d ← cell.dim
  return ⟨d, labels⟩

/-- `dim`, mod_impl.rs:228-234 -/
def dim (c : Cplx T) : Option Nat := (c.cells.map (fun m => m.dim.getD 0)).max?

/-- the loop of `is_connected`, mod_impl.rs:244-263; `fuel` bounds the number of rounds -/
def connLoop (c : Cplx T) : Nat → Cell → Option Nat → Option Bool
  | 0, _, _ => none
  | fuel + 1, j, prev => do
    let j' := (c.cells.filter (fun m => m.meets j)).foldl Cell.join j
    let top ← csub c.size 1
    if j'.dim = some top then return true
    else if j'.dim = prev then return false
    else connLoop c fuel j' j'.dim

/-- `is_connected`, mod_impl.rs:236-264 -/
def isConnected (c : Cplx T) (fuel : Nat) : Option Bool :=
  match c.cells.head? with
  | none => some true
  | some j => connLoop c fuel j j.dim

/-- the closure `binomial`, mod_impl.rs:275-281 -/
def binomial (x y : Nat) : Nat :=
  if x < y then 0 else ((List.range' (x - y + 1) y).foldl (· * ·) 1) / ((List.range' 1 y).foldl (· * ·) 1)

/-- `largest_cell`, mod_impl.rs:291-295 -/
def largest (c : Cplx T) : Cell := { words := List.replicate (c.size / 64 + 1) (~~~0#64), size := c.size, dim := some c.size }

/-- the loop of `n_cells_of_dim`, mod_impl.rs:288-318, for `i` onwards (`k` rounds left); the iterator gets enough fuel (C07) -/
def countLoop (c : Cplx T) (dim : Nat) : (k i : Nat) → (sign : Bool) → (out : Int) → Option Int
  | 0, _, _, out => some out
  | k + 1, i, sign, out => do
    let tuples ← tupleIter (c.cells.length ^ i + 1) c.cells i
    let inters := (tuples.map (fun t => t.foldl Cell.inter c.largest)).filter (fun m => !m.isEmpty)
    if inters.isEmpty then return out
    else
      let ds ← inters.mapM (fun m => m.dim)
      let sum : Nat := (ds.map (fun d => binomial (d + 1) (dim + 1))).sum
      countLoop c dim k (i + 1) (!sign) (if sign then out + sum else out - sum)

/-- `n_cells_of_dim`, mod_impl.rs:271-320 (the final cast `as usize` is left out: the number is an integer) -/
def nCellsOfDim (c : Cplx T) (dim : Nat) : Option Int := countLoop c dim c.cells.length 1 true 0

/-- `get_i_cells`, mod_impl.rs:323-344; `sort` is a stable sort by `cmp`, modelled by insertion sort -/
def getICells (c : Cplx T) (i : Nat) (upper : Option (List Cell)) : Option (List Cell) := do
  let ds ← c.cells.mapM (fun m => do let d ← m.dim; return (m, d))
  let own := (ds.filter (fun md => md.2 == i)).map (fun md => md.1)
  match upper with
  | none => return own
  | some up =>
    let faces ← up.mapM Cell.getFace
    return dedupAdj ((own ++ faces.flatten).insertionSort (fun x y => Cell.cmp x y ≠ .gt))

/-- writing alternating signs at the rows `is` of column `j`, mod_impl.rs:406-411 -/
def colLoop (j : Nat) : List Nat → Int → (Nat → Nat → Int) → (Nat → Nat → Int)
  | [], _, a => a
  | i :: is, s, a => colLoop j is (-s) (fun i' j' => if i' = i ∧ j' = j then s else a i' j')

/-- the double loop filling a boundary matrix, mod_impl.rs:402-413 -/
def fillCols (lower : List Cell) : (j : Nat) → List Cell → (Nat → Nat → Int) → Option (Nat → Nat → Int)
  | _, [], a => some a
  | j, cell :: rest, a => do
    let faces ← cell.getFace
    let rows := (lower.zipIdx.filter (fun xi => faces.any (fun f => Cell.eq f xi.1))).map (fun xi => xi.2)
    fillCols lower (j + 1) rest (colLoop j rows 1 a)

/-- the loop of `boundary_map` from dimension `n` down, mod_impl.rs:394-420, giving the maps of dimensions `0..=n` -/
def bmLoop (c : Cplx T) : (n : Nat) → List Cell → Option (List (Hom.BMap (Simplex T)))
  | 0, cells => do
    let basis ← cells.mapM c.getSimplex
    return [⟨1, cells.length, fun _ _ => 0, basis⟩]
  | n + 1, cells => do
    let basis ← cells.mapM c.getSimplex
    let lower ← c.getICells n (some cells)
    let a ← fillCols lower 0 cells (fun _ _ => 0)
    let rest ← bmLoop c n lower
    return rest ++ [⟨lower.length, cells.length, a, basis⟩]

/-- `boundary_map`, mod_impl.rs:387-424 -/
def boundaryMap (c : Cplx T) : Option (List (Hom.BMap (Simplex T))) := do
  let d ← c.dim
  let cells ← c.getICells d none
  bmLoop c d cells

end Cplx
end Toppo.Simp
