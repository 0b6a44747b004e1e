import Verif.Model.Graph
import Verif.Model.EdgePath

/-
Model of `CubeFactor`, topo_spaces/src/graph.rs:1308-1418, of the edge paths of configurations, graph.rs:357-436.

`none` is a panic.  A `Cube` is the list of its factors.
-/
namespace Toppo
namespace RawGraph.Factor

/-- `is_disjoint_from`, graph.rs:1315-1322 -/
def disjoint : Factor → Factor → Bool
  | edge w x, edge y z => w != y && w != z && x != y && x != z
  | vertex x, edge y z => x != y && x != z
  | edge x y, vertex z => x != z && y != z
  | vertex x, vertex y => x != y

/-- `is_edge`, graph.rs:1331-1336 -/
def isEdge : Factor → Bool
  | edge _ _ => true
  | vertex _ => false

/-- `is_vertex`, graph.rs:1338-1340 -/
def isVertex (f : Factor) : Bool := !f.isEdge

/-- `edge`, graph.rs:1342-1347 -/
def edgeOf : Factor → Option (Nat × Nat)
  | edge x y => some (x, y)
  | vertex _ => none

/-- `vertex`, graph.rs:1349-1354 -/
def vertexOf : Factor → Option Nat
  | edge _ _ => none
  | vertex x => some x

/-- `terminal`, graph.rs:1387-1390 -/
def terminal (f : Factor) : Option Factor := f.edgeOf.map (fun e => vertex e.1)

/-- `initial`, graph.rs:1392-1395 -/
def initial (f : Factor) : Option Factor := f.edgeOf.map (fun e => vertex e.2)

/-- `(0..m).rev().find(|&i| graph.contains(i, v) && graph.maximal_tree_contains([i, v])).unwrap()`, graph.rs:1400 -/
def findParent (g : RawGraph) (v : Nat) : Nat → Option Nat
  | 0 => none
  | m + 1 =>
    match g.contains m v with
    | none => none
    | some false => findParent g v m
    | some true =>
      match g.treeContains m v with
      | none => none
      | some false => findParent g v m
      | some true => some m

/-- `flow`, graph.rs:1397-1405 -/
def flow (g : RawGraph) : Factor → Option Factor
  | vertex v => if v = 0 then none else (findParent g v v).map (fun t => edge t v)
  | edge _ _ => none

/-- the closure in `is_blocked`, graph.rs:1377 -/
def meets (w : Nat) : Factor → Bool
  | vertex x => x == w
  | edge x y => x == w || y == w

/-- `is_blocked`, graph.rs:1370-1385 -/
def isBlocked (g : RawGraph) (cube : List Factor) : Factor → Option Bool
  | vertex v =>
    if v = 0 then some true
    else match findParent g v v with
      | none => none
      | some w => some (cube.any (meets w))
  | edge _ _ => none

end RawGraph.Factor

namespace EdgePath
open RawGraph

/-- the filtered enumeration in `get_edge_path_recc`, graph.rs:358-361, from index `i` on.  Both callers pass cubes of vertices only (graph.rs:394-402,
419), so the configuration is the list of vertices. -/
def unblockedFrom (g : RawGraph) (cube : List Factor) : Nat → List Nat → Option (List (Nat × Nat))
  | _, [] => some []
  | i, v :: vs =>
    match Factor.isBlocked g cube (.vertex v) with
    | none => none
    | some b =>
      match unblockedFrom g cube (i + 1) vs with
      | none => none
      | some r => some (if b then r else (i, v) :: r)

/-- `min_by`, graph.rs:362: the first of the smallest -/
def minFirst : List (Nat × Nat) → Option (Nat × Nat)
  | [] => none
  | x :: xs =>
    match minFirst xs with
    | none => some x
    | some y => if y.2 < x.2 then some y else some x

/-- `get_edge_path_recc`, graph.rs:357-383; `fuel` bounds the recursion depth, the sum of the vertices plus one is proved to be enough -/
def recc (g : RawGraph) (forward : Bool) : Nat → List Nat → List Move → Option (List Nat × List Move)
  | 0, _, _ => none
  | fuel + 1, c, path =>
    match unblockedFrom g (c.map Factor.vertex) 0 c with
    | none => none
    | some us =>
      match minFirst us with
      | none => some (c, path)
      | some (idx, v) =>
        match (Factor.flow g (.vertex v)).bind Factor.terminal with
        | some (.vertex t) =>
          recc g forward fuel (c.set idx t) (if forward then path ++ [(v, t)] else (t, v) :: path)
        | _ => none

/-- the start and the end of a cube, graph.rs:394-402 -/
def startOf : Factor → Nat
  | .vertex x => x
  | .edge _ x => x

@[inherit_doc startOf]
def endOf : Factor → Nat
  | .vertex x => x
  | .edge x _ => x

/-- `get_edge_path`, graph.rs:385-416 -/
def getEdgePath (g : RawGraph) (c : List Factor) : Option Path :=
  let start := c.map startOf
  let end_ := c.map endOf
  match (c.find? Factor.isEdge).bind Factor.edgeOf with
  | none => none
  | some (x, y) =>
    match recc g false (start.sum + 1) start [(y, x)] with
    | none => none
    | some (_, path) =>
      match recc g true (end_.sum + 1) end_ path with
      | none => none
      | some (_, path) => reduce (path.map (fun e => [e]))

/-- `get_edge_path_to_from_base_pt`, graph.rs:418-436 -/
def getEdgePathBase (g : RawGraph) (c : List Factor) (to : Bool) : Option Path :=
  if c.all Factor.isVertex then
    let vs := c.filterMap Factor.vertexOf
    match recc g true (vs.sum + 1) vs [] with
    | none => none
    | some (_, path) =>
      match reduce (path.map (fun e => [e])) with
      | none => none
      | some p => if to then some p else inverse p
  else none

end EdgePath
end Toppo
