import Verif.Model.Cube
import Verif.Model.MultiGraph
import Verif.Model.Homology

/-
Model of `CubeFactor` ordering (graph.rs:1363-1380, 1410-1417, 1521-1539) and of `CubicalCplx`, topo_spaces/src/cubical.rs:9-359.

`none` is a panic.  `usize` is `Nat`, `i64` is `Int`.
-/
namespace Toppo
namespace RawGraph.Factor

/-- `get_order`, graph.rs:1410-1417 -/
def order : Factor → Nat
  | vertex x => x
  | edge x _ => x

/-- `is_order_respecting`, graph.rs:1356-1360: the subtraction may underflow -/
def isOrderRespecting : Factor → Option Bool
  | edge i j => (csub j i).map (· == 1)
  | vertex _ => none

/-- `is_disrespected_by`, graph.rs:1362-1368 -/
def isDisrespectedBy (self other : Factor) : Option Bool :=
  match other.edgeOf, self.vertexOf with
  | some (i, j), some k => some (decide (i < k) && decide (k < j))
  | _, _ => none

/-- `is_in_maximal_tree`, graph.rs:1324-1329 -/
def isInMaximalTree (g : RawGraph) : Factor → Option Bool
  | edge x y => g.treeContains x y
  | vertex _ => some true

/-- `partial_cmp`, graph.rs:1522-1539; in all four cases the first vertices are compared, which are `get_order` -/
def pcmp (a b : Factor) : Option Ordering :=
  if a = b then some .eq
  else if !a.disjoint b then none
  else some (compare a.order b.order)

/-- `<` on factors: `partial_cmp(..) == Some(Less)`. Used for cubical.rs:80-81. -/
def lt (a b : Factor) : Bool := pcmp a b == some .lt

/-- `>` on factors. Used for cubical.rs:112-122. -/
def gt (a b : Factor) : Bool := pcmp a b == some .gt

/-- moving the last element to the left past all larger ones; the sorted prefix is given in reverse (the `sort` of cubical.rs:143-161) -/
def insRev (x : Factor) : List Factor → List Factor
  | [] => [x]
  | y :: ys => if lt x y then y :: insRev x ys else x :: y :: ys

/-- `Vec::sort`, which compares with `<` of `PartialOrd`: the insertion sort std uses for up to 20 elements.  Simplification: for more elements std
merges sorted runs; on the lists of pairwise disjoint factors this code sorts, `<` is a strict total order and every stable sort gives this. Used for cubical.rs:143-161. -/
def sort (c : List Factor) : List Factor := (c.foldl (fun acc x => insRev x acc) []).reverse

end RawGraph.Factor

namespace Cub
open RawGraph

/-- `struct Branch`, cubical.rs:9-15 -/
structure Branch where
  parent : Option Nat
  children : List Nat
  val : Factor
deriving DecidableEq, Repr

/-- `struct CubicalCplx`, cubical.rs:58-66; `pool` is what `factor_pool.iter()` yields (the graph is not changed after the construction) -/
structure Cplx where
  n : Nat
  pool : List Factor
  data : List Branch
  first : List Nat
  final : List Nat
  dim : Nat
  ranks : List Nat
deriving DecidableEq, Repr

/-- `factor_iter(idx).collect()`, cubical.rs:204-234: the values from the branch to the root.  `fuel` bounds the number of steps; parents have
smaller indices, callers supply `idx + 1`. -/
def up (data : List Branch) : Nat → Nat → Option (List Factor)
  | 0, _ => none
  | fuel + 1, idx =>
    match data[idx]? with
    | none => none
    | some b =>
      match b.parent with
      | none => some [b.val]
      | some p => (up data fuel p).map (b.val :: ·)

/-- `dim_of`, cubical.rs:188-200 -/
def dimOf (data : List Branch) : Nat → Nat → Option Nat
  | 0, _ => none
  | fuel + 1, idx =>
    match data[idx]? with
    | none => none
    | some b =>
      match b.parent with
      | none => some (if b.val.isEdge then 1 else 0)
      | some p => (dimOf data fuel p).map ((if b.val.isEdge then 1 else 0) + ·)

/-- `factor.is_edge() && !factor.is_order_respecting()`, cubical.rs:80, 81, 116, 117 -/
def longEdge (f : Factor) : Option Bool := if f.isEdge then (f.isOrderRespecting).map not else some false

/-- the two filters with the boundary vertex, cubical.rs:80-81, 116-117 -/
def keep (b : Nat) (f : Factor) : Option Bool := do
  let e ← longEdge f
  return (e || f.disjoint (.vertex b)) && (e || Factor.lt f (.vertex b))

/-- `filter(..).collect()` with a predicate that may panic. Used for cubical.rs:112-122. -/
def filterO (p : Factor → Option Bool) : List Factor → Option (List Factor)
  | [] => some []
  | f :: fs => do
    let b ← p f
    let r ← filterO p fs
    return if b then f :: r else r

/-- the base case of `expand`, cubical.rs:103-109 -/
def finish (idx : Nat) (s : Cplx) : Option Cplx := do
  let d ← dimOf s.data (idx + 1) idx
  let r ← s.ranks[d]?
  return { s with final := s.final ++ [idx], ranks := s.ranks.set d (r + 1), dim := if d > s.dim then d else s.dim }

/-- the filters of `expand`, cubical.rs:112-122 -/
def newFactors (s : Cplx) (idx b : Nat) : Option (List Factor) := do
  let anc ← up s.data (idx + 1) idx
  let cur ← s.data[idx]?
  let l ← filterO (keep b) s.pool
  return l.filter (fun f => anc.all (fun x => x.disjoint f) && Factor.gt f cur.val)

/-- appending a branch below `idx`, cubical.rs:125-128 -/
def attach (idx : Nat) (s : Cplx) (f : Factor) : Option Cplx := do
  let cur ← s.data[idx]?
  return { s with data := s.data.set idx { cur with children := cur.children ++ [s.data.length] } ++ [⟨some idx, [], f⟩] }

/-- `expand`, cubical.rs:101-130 -/
def expand : Nat → Nat → Cplx → Option Cplx
  | 0, idx, s => finish idx s
  | r + 1, idx, s => do
    let b ← csub s.n r
    let new ← newFactors s idx b
    new.foldlM (fun s f => do
      let s' ← attach idx s f
      expand r s.data.length s') s

/-- the part of `udc` after the subdivision, cubical.rs:74-98 -/
def ofGraph (g : RawGraph) (points : Nat) : Option Cplx := do
  if g.n < 2 then none
  else
    let r ← csub points 1
    let b ← csub g.n r
    let pool ← g.factorIter
    let fs ← filterO (keep b) pool
    let data := fs.map (fun f => (⟨none, [], f⟩ : Branch))
    let first := List.range data.length
    let s : Cplx := ⟨g.n, pool, data, first, [], 0, List.replicate (points + 1) 0⟩
    first.foldlM (fun s idx => expand r idx s) s

/-- `udc`, cubical.rs:71-99 -/
def udc {α : Type} [DecidableEq α] (m : MGraph α) (points : Nat) : Option Cplx := do
  let g ← SGraph.subdivide m points
  ofGraph g.data points

namespace Cplx

/-- `get_cell_from_idx`, cubical.rs:133-141, and the `unwrap` of its only caller -/
def cellAt (s : Cplx) (idx : Nat) : Option (List Factor) :=
  if idx ∈ s.final then (up s.data (idx + 1) idx).map List.reverse else none

/-- `self.data[..].child_indeces.iter().find(..)`, cubical.rs:164, 169; an index out of range panics, which is `none` as the caller unwraps -/
def findVal (data : List Branch) (f : Factor) : List Nat → Option Nat
  | [] => none
  | i :: is =>
    match data[i]? with
    | none => none
    | some b => if b.val = f then some i else findVal data f is

/-- the loop of `get_index_of`, cubical.rs:168-173 -/
def follow (data : List Branch) : Nat → List Factor → Option Nat
  | idx, [] => some idx
  | idx, f :: fs =>
    match data[idx]? with
    | none => none
    | some b =>
      match findVal data f b.children with
      | none => none
      | some i => follow data i fs

/-- `get_index_of`, cubical.rs:163-175 (`cell[0]` panics on the empty cell; here `none` as for a cell not found) -/
def indexOf (s : Cplx) : List Factor → Option Nat
  | [] => none
  | f :: fs =>
    match findVal s.data f s.first with
    | none => none
    | some i => follow s.data i fs

/-- `contains`, cubical.rs:177-182 -/
def contains (s : Cplx) (c : List Factor) : Bool := (s.indexOf c).isSome

/-- `n_cells`, cubical.rs:184-186 -/
def nCells (s : Cplx) : Nat := s.final.length

/-- the loop of `get_boundaries_of`, cubical.rs:147-155, over the factors from position `i` on -/
def facesFrom (cell : List Factor) : Nat → Bool → List Factor → List (Bool × List Factor)
  | _, _, [] => []
  | i, sign, .vertex _ :: fs => facesFrom cell (i + 1) sign fs
  | i, sign, .edge x y :: fs => (sign, cell.set i (.vertex x)) :: (!sign, cell.set i (.vertex y)) :: facesFrom cell (i + 1) (!sign) fs

/-- `get_boundaries_of`, cubical.rs:143-161 -/
def boundariesOf (s : Cplx) (idx : Nat) : Option (List (Bool × Nat)) := do
  let cell ← s.cellAt idx
  (facesFrom cell 0 true cell).mapM (fun sf => (s.indexOf (Factor.sort sf.2)).map (fun j => (sf.1, j)))

/-- the numbering of the cells of each dimension, cubical.rs:333-338 -/
def number (data : List Branch) : List Nat → List Nat → List Nat → Option (List Nat)
  | [], numbering, _ => some numbering
  | idx :: rest, numbering, counter => do
    let d ← dimOf data (idx + 1) idx
    let c ← counter[d]?
    if idx < numbering.length then number data rest (numbering.set idx c) (counter.set d (c + 1)) else none

/-- an integer matrix. Used for matrix_impl.rs:800-809. -/
structure IMat where
  n : Nat
  m : Nat
  a : Nat → Nat → Int

/-- `Matrix::zero(n, m)`, which panics on an empty size (matrix_impl.rs:800-809) -/
def zeroMat (n m : Nat) : Option IMat := if 0 < n ∧ 0 < m then some ⟨n, m, fun _ _ => 0⟩ else none

/-- adding `v` to the entry `(i, j)` of the matrix number `d`, cubical.rs:350-351 -/
def addAt (maps : List IMat) (d i j : Nat) (v : Int) : Option (List IMat) := do
  let x ← maps[d]?
  if i < x.n ∧ j < x.m then some (maps.set d { x with a := fun i' j' => if i' = i ∧ j' = j then x.a i j + v else x.a i' j' }) else none

/-- the innermost loop, cubical.rs:349-352 -/
def fillCol (numbering : List Nat) (d j : Nat) : List (Bool × Nat) → List IMat → Option (List IMat)
  | [], maps => some maps
  | (sign, b) :: rest, maps => do
    let i ← numbering[b]?
    let maps ← addAt maps d i j (if sign then 1 else -1)
    fillCol numbering d j rest maps

/-- the loop filling the boundary maps, cubical.rs:345-353 -/
def fill (s : Cplx) (numbering : List Nat) : List Nat → List IMat → Option (List IMat)
  | [], maps => some maps
  | idx :: rest, maps => do
    let d ← dimOf s.data (idx + 1) idx
    if d = 0 then fill s numbering rest maps
    else
      let bs ← s.boundariesOf idx
      let j ← numbering[idx]?
      let maps ← fillCol numbering d j bs maps
      fill s numbering rest maps

/-- the zero matrices, cubical.rs:341-342 -/
def zeros (s : Cplx) : Option (List IMat) := do
  let r0 ← s.ranks[0]?
  let z ← zeroMat 1 r0
  let zs ← (List.range s.dim).mapM (fun i => do
    let a ← s.ranks[i]?
    let b ← s.ranks[i + 1]?
    zeroMat a b)
  return z :: zs

/-- `boundary_map`, cubical.rs:330-359.  The bases it returns are all empty (cubical.rs:331 fills them with nothing). -/
def boundaryMap (s : Cplx) : Option (List (Hom.BMap (List Factor))) := do
  let numbering ← number s.data s.final (List.replicate s.data.length 0) (List.replicate (s.dim + 1) 0)
  let maps ← s.zeros
  let maps ← fill s numbering s.final maps
  return maps.map (fun x => ⟨x.n, x.m, x.a, []⟩)

end Cplx
end Cub
end Toppo
