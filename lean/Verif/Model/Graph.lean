import Verif.Model.BinaryPool
import Verif.Model.TupleIter
import Verif.Model.Permutation
/-
Model of topo_spaces/src/graph.rs: `RawSimpleGraph` (249-351, 353-355, 437-480, 517-546), the maximal tree
(786-934), `EdgeIter` and `VertexIter` (1420-1519), `CubeFactor` (1308-1418, 1521-1539).

`none` is a panic.  `usize` is `Nat`: overflow of `n*(n-1)/2` is not modelled (such a graph does not fit in memory).
`debug_assert!`s are checked, as in the debug profile used by the project's tests.
-/
namespace Toppo

/-- `struct RawSimpleGraph`, graph.rs:249-253 (derived `Eq`). -/
structure RawGraph where
  data : BinaryPool
  n : Nat
  treeChosen : Bool
deriving DecidableEq, Repr

namespace RawGraph

/-- `RawSimpleGraph::new`, graph.rs:256-262: `n_vertices-1` underflows for no vertices. -/
def new (n : Nat) : Option RawGraph := do
  let m ← csub n 1
  return ⟨BinaryPool.new (n * m / 2), n, false⟩

/-- `raw_idx`, graph.rs:265-268, with its `debug_assert!`. -/
def rawIdx (i j : Nat) : Option Nat := if i < j then some (j * (j - 1) / 2 + i) else none

/-- `add_edge`, graph.rs:270-272. -/
def addEdge (g : RawGraph) (i j : Nat) : Option RawGraph := do
  let k ← rawIdx i j
  let d ← g.data.add k
  return { g with data := d }

/-- `remove_edge`, graph.rs:274-276. -/
def removeEdge (g : RawGraph) (i j : Nat) : Option RawGraph := do
  let k ← rawIdx i j
  let d ← g.data.remove k
  return { g with data := d }

/-- `contains`, graph.rs:278-280. -/
def contains (g : RawGraph) (i j : Nat) : Option Bool := do
  let k ← rawIdx i j
  g.data.contains k

/-- `n_edges`, graph.rs:282-284. -/
def nEdges (g : RawGraph) : Nat := g.data.nElements

/-- The test inside `AdjacentVerticesIter::next`, graph.rs:457-465: is `curr` adjacent to `v`? -/
def adjTest (g : RawGraph) (v curr : Nat) : Option Bool :=
  if v < curr then do g.data.contains (← rawIdx v curr)
  else if v > curr then do g.data.contains (← rawIdx curr v)
  else some false

/-- `AdjacentVerticesIter::next`, graph.rs:452-473 (tail recursive): the item and the new `curr`. -/
def adjNext (g : RawGraph) (v curr : Nat) : Option (Option Nat × Nat) :=
  if curr < g.n then
    match g.adjTest v curr with
    | none => none
    | some true => some (some curr, curr + 1)
    | some false => adjNext g v (curr + 1)
  else some (none, curr)
termination_by g.n - curr

/-- Calling `next` until `None`; `fuel` bounds the number of calls, `adj` supplies `n + 1` which always suffices. Used for graph.rs:443-447. -/
def adjDrain (g : RawGraph) (v : Nat) : Nat → Nat → Option (List Nat)
  | 0, _ => none
  | fuel + 1, curr =>
    match g.adjNext v curr with
    | none => none
    | some (none, _) => some []
    | some (some x, curr') => (adjDrain g v fuel curr').map (x :: ·)

/-- `adjacent_vertices_iter(v).collect()`, graph.rs:443-447, 476-480; `get_adjacent_vertices`, 353-355. -/
def adj (g : RawGraph) (v : Nat) : Option (List Nat) := g.adjDrain v (g.n + 1) 0

/-- The ordered pair on two different vertices: `if a < b {(a, b)} else {(b, a)}`, graph.rs:297, 298, 309. -/
def ordered (a b : Nat) : Nat × Nat := if a < b then (a, b) else (b, a)

/-- `edges.iter().for_each(|&(i,j)| self.add_edge(i,j))`, graph.rs:301-302, 826. -/
def addEdges (g : RawGraph) : List (Nat × Nat) → Option RawGraph
  | [] => some g
  | e :: es => (g.addEdge e.1 e.2).bind (fun h => h.addEdges es)

/-- `edges_to_delete.iter().for_each(..)`, graph.rs:310. -/
def removeEdges (g : RawGraph) : List (Nat × Nat) → Option RawGraph
  | [] => some g
  | e :: es => (g.removeEdge e.1 e.2).bind (fun h => h.removeEdges es)

/-- `remove_edges_adjacent_to`, graph.rs:308-311. -/
def removeAdjacent (g : RawGraph) (i : Nat) : Option RawGraph := do
  let a ← g.adj i
  g.removeEdges (a.map (fun j => ordered i j))

/-- `swap`, graph.rs:290-306, with its `debug_assert!`. -/
def swap (g : RawGraph) (i j : Nat) : Option RawGraph :=
  if ¬ (i < j ∧ j < g.n) then none
  else do
    let isotopy ← g.contains i j
    let ai ← g.adj i
    let aj ← g.adj j
    let tmpI := (ai.filter (fun v => v != j)).map (fun v => ordered j v)
    let tmpJ := (aj.filter (fun v => v != i)).map (fun v => ordered i v)
    let g1 ← g.removeAdjacent i
    let g2 ← g1.removeAdjacent j
    let g3 ← g2.addEdges tmpI
    let g4 ← g3.addEdges tmpJ
    if isotopy then g4.addEdge i j else some g4

/-- `degree_of`, graph.rs:313-316. -/
def degreeOf (g : RawGraph) (v : Nat) : Option Nat :=
  if v ≥ g.n then none else (g.adj v).map List.length

/-- The closure of `for_each` in `is_connected`, graph.rs:344-349: `w` is recorded and pushed if new.  The stack
`new_vertices` is a list whose head is the last element. -/
def visitAll (visited : BinaryPool) (stack : List Nat) : List Nat → Option (BinaryPool × List Nat)
  | [] => some (visited, stack)
  | w :: ws => do
    let c ← visited.contains w
    if c then visitAll visited stack ws
    else do
      let visited' ← visited.add w
      visitAll visited' (w :: stack) ws

/-- The `loop` of `is_connected`, graph.rs:335-350.  `fuel` bounds the number of rounds; `isConnected` supplies
`2 * n + 1`, proved to be enough. -/
def connLoop (g : RawGraph) : Nat → BinaryPool → List Nat → Option Bool
  | 0, _, _ => none
  | fuel + 1, visited, stack =>
    if visited.isFull then some true
    else match stack with
      | [] => some false
      | v :: rest => do
        let a ← g.adj v
        let r ← visitAll visited rest a
        connLoop g fuel r.1 r.2

/-- `is_connected`, graph.rs:329-351.  (`adjacent_vertices_iter(0)` yields nothing, without panic, when there are no
vertices; such a graph cannot be made.) -/
def isConnected (g : RawGraph) : Option Bool := do
  let a ← g.adj 0
  let visited ← (BinaryPool.new g.n).addAll a
  g.connLoop (2 * g.n + 1) visited a.reverse

/-- `gen_action_by`, graph.rs:517-530, with its `debug_assert!`. -/
def genActionBy (g : RawGraph) (p : Permutation) : Option RawGraph :=
  if p = Permutation.identity then some g
  else
    match Permutation.unfixed p with
    | some [i, j] => g.swap i j
    | _ => none

/-- `action_by` (default method), non_commutative.rs:27-32; `<<` and `<<=`, graph.rs:532-546. -/
def actionBy (g : RawGraph) (p : Permutation) : Option RawGraph := do
  let gens ← Permutation.inTermsOfGens p
  gens.foldlM genActionBy g

/-! ### edges and vertices -/

/-- `enum CubeFactor`, graph.rs:1308-1312. -/
inductive Factor where
  | edge (x y : Nat)
  | vertex (x : Nat)
deriving DecidableEq, Repr

/-- One step of the `loop` in `EdgeIter::next`, graph.rs:1456-1461: the next candidate pair. -/
def edgeAdvance (c : Nat × Nat) : Nat × Nat := if c.1 = 0 then (c.2, c.2 + 1) else (c.1 - 1, c.2)

/-- The `loop` in `EdgeIter::next`, graph.rs:1455-1470: the new position and `is_done`.  `fuel` bounds the rounds;
`edgeIter` supplies `n*n + n`, proved to be enough. -/
def edgeSeek (g : RawGraph) : Nat → Nat × Nat → Option ((Nat × Nat) × Bool)
  | 0, _ => none
  | fuel + 1, c =>
    let c' := edgeAdvance c
    if c'.2 ≥ g.n then some (c', true)
    else match g.contains c'.1 c'.2 with
      | none => none
      | some true => some (c', false)
      | some false => edgeSeek g fuel c'

/-- `EdgeIter::next` until it returns `None`, graph.rs:1448-1473. -/
def edgeDrain (g : RawGraph) : Nat → Nat × Nat → Bool → Option (List Factor)
  | 0, _, _ => none
  | fuel + 1, c, isDone =>
    if isDone then some []
    else do
      let (c', d) ← g.edgeSeek (g.n * g.n + g.n) c
      let r ← edgeDrain g fuel c' d
      return Factor.edge c.1 c.2 :: r

/-- `edge_iter().collect()`, graph.rs:1478-1485: starts at `(0,1)`, done at once for fewer than two vertices. -/
def edgeIter (g : RawGraph) : Option (List Factor) := g.edgeDrain (g.n * g.n + 2) (0, 1) (decide (g.n < 2))

/-- `vertex_iter().collect()`, graph.rs:1420-1436, 1487-1492. -/
def vertexIter (g : RawGraph) : List Factor := (List.range g.n).map Factor.vertex

/-- `iter().collect()`, graph.rs:1496-1519: the vertices, then the edges. -/
def factorIter (g : RawGraph) : Option (List Factor) := (g.edgeIter).map (fun es => g.vertexIter ++ es)

/-! ### the maximal tree -/

/-- `(a..b).any(|k| f(k))` with a panicking predicate: stops at the first `true`. Used for graph.rs:924-934. -/
def anyRange (f : Nat → Option Bool) : List Nat → Option Bool
  | [] => some false
  | k :: ks => do
    let b ← f k
    if b then return true else anyRange f ks

/-- `maximal_tree_contains`, graph.rs:924-934. -/
def treeContains (g : RawGraph) (i j : Nat) : Option Bool :=
  if !g.treeChosen then none
  else do
    let c ← g.contains i j
    if !c then return false
    else do
      let b ← anyRange (fun k => g.contains k j) (List.range' (i + 1) (j - (i + 1)))
      return !b

/-- `fetch_right_and_swap`, graph.rs:842-853.  The iterator is lazy, `filter(..).next()` takes the first neighbour
above `j`; collecting it first can only differ by a panic for `i` out of range, which then happens anyway. -/
def fetchRight (g : RawGraph) (i j : Nat) : Option (RawGraph × Option Permutation) := do
  let a ← g.adj i
  match (a.filter (fun k => decide (k > j))).head? with
  | some k => do
    let p ← Permutation.pair j k
    let g' ← g.actionBy p
    return (g', some p)
  | none => return (g, none)

/-- The inner loop `for i in (0..j).rev()`, graph.rs:860-867, started with `i` values left; it breaks when `i,j` is an
edge or when a neighbour was fetched. -/
def dfsInner (j : Nat) : Nat → RawGraph → Permutation → Option (RawGraph × Permutation)
  | 0, g, p => some (g, p)
  | i + 1, g, p => do
    let c ← g.contains i j
    if c then return (g, p)
    else do
      let (g', r) ← g.fetchRight i j
      match r with
      | some q => do
        let p' ← Permutation.mul q p
        return (g', p')
      | none => dfsInner j i g' p

/-- The outer loop of `choose_maximal_tree_by_depth_first`, graph.rs:859-868, over the given values of `j`. -/
def dfsOuter : List Nat → RawGraph → Permutation → Option (RawGraph × Permutation)
  | [], g, p => some (g, p)
  | j :: js, g, p => do
    let (g', p') ← dfsInner j j g p
    dfsOuter js g' p'

/-- `choose_maximal_tree_by_depth_first`, graph.rs:855-872. -/
def chooseDfs (g : RawGraph) : Option (RawGraph × Permutation) :=
  dfsOuter (List.range' 1 (g.n - 1)) g Permutation.identity

end RawGraph
end Toppo
