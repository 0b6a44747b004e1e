import Verif.Model.Graph
/-
Model of topo_spaces/src/graph.rs:786-840 and 874-922: choice of the base point, ordering of the branches, and
`choose_maximal_tree`.  `none` is a panic.
-/
namespace Toppo.RawGraph

/-- The `for i in 0..n` loop of `choose_base_point`, graph.rs:810-837, over the given values of `i`; the end of the loop
is `panic!("good basepoint does not exist.")`. -/
def basePointLoop : List Nat → RawGraph → Option (RawGraph × Permutation)
  | [], _ => none
  | i :: is, g => do
    let d ← g.degreeOf i
    if d = 1 then do
      let g' ← g.swap 0 i
      let p ← Permutation.pair 0 i
      return (g', p)
    else if d ≥ 3 then do
      let a ← g.adj i
      let tmpEdges := a.map (fun j => ordered i j)
      let g1 ← g.removeAdjacent i
      let e ← tmpEdges.head?
      let g2 ← g1.addEdge e.1 e.2
      let connected ← g2.isConnected
      let g3 ← g2.addEdges tmpEdges
      if connected then
        if i = 0 then return (g3, Permutation.identity)
        else do
          let g' ← g3.swap 0 i
          let p ← Permutation.pair 0 i
          return (g', p)
      else basePointLoop is g3
    else basePointLoop is g

/-- `choose_base_point`, graph.rs:806-840. -/
def chooseBasePoint (g : RawGraph) : Option (RawGraph × Permutation) := do
  let d ← g.degreeOf 0
  if d ≠ 1 then basePointLoop (List.range g.n) g
  else return (g, Permutation.identity)

/-- `(0..i).any(|k| (lo..hi).any(|l| self.contains(k, l)))`, graph.rs:889 and 898. -/
def sepTest (g : RawGraph) (i lo hi : Nat) : Option Bool :=
  anyRange (fun k => anyRange (fun l => g.contains k l) (List.range' lo (hi - lo))) (List.range i)

/-- `.filter(|&j| self.contains(i,j)).filter(|&j| self.maximal_tree_contains([i,j]))`, graph.rs:885-886. -/
def treeChildren (g : RawGraph) (i : Nat) : List Nat → Option (List Nat)
  | [] => some []
  | j :: js => do
    let c ← g.contains i j
    let t ← if c then g.treeContains i j else some false
    let r ← treeChildren g i js
    return if t then j :: r else r

/-- The closure building the branches with its mutable `start`, graph.rs:882-900, and the last branch. -/
def branchLoop (g : RawGraph) (i : Nat) : Nat → List Nat → Option (List ((Nat × Nat) × Bool))
  | start, [] => do
    let s ← g.sepTest i start g.n
    return [((start, g.n), s)]
  | start, j :: js => do
    let s ← g.sepTest i start j
    let r ← branchLoop g i j js
    return ((start, j), s) :: r

/-- The closure of the action with its mutable `end`, graph.rs:904-917, over the reversed separating branches.
`Permutation.swap` is given enough recursion depth. -/
def actionLoop : Nat → List (Nat × Nat) → Option (List Permutation)
  | _, [] => some []
  | e, b :: bs => do
    let size ← csub b.2 b.1
    let out ← if e = b.2 then some Permutation.identity else Permutation.swap (e + 1) b (b.2, e)
    let e' ← csub e size
    let r ← actionLoop e' bs
    return out :: r

/-- One round of the loop of `modify_ordering_of_the_branches`, graph.rs:878-920. -/
def modifyAt (g : RawGraph) (p : Permutation) (i : Nat) : Option (RawGraph × Permutation) := do
  let d ← g.degreeOf i
  if d ≤ 2 then return (g, p)
  else do
    let js ← g.treeChildren i (List.range' (i + 2) (g.n - (i + 2)))
    let branches ← g.branchLoop i (i + 1) js
    let perms ← actionLoop g.n ((branches.reverse.filter (fun b => b.2)).map (fun b => b.1))
    let action ← Permutation.product perms
    let g' ← g.actionBy action
    let p' ← Permutation.mul action p
    return (g', p')

/-- The loop `for i in 0..n-1`, graph.rs:878. -/
def modifyLoop : List Nat → RawGraph → Permutation → Option (RawGraph × Permutation)
  | [], g, p => some (g, p)
  | i :: is, g, p => do
    let (g', p') ← g.modifyAt p i
    modifyLoop is g' p'

/-- `modify_ordering_of_the_branches`, graph.rs:874-922. -/
def modifyOrdering (g : RawGraph) : Option (RawGraph × Permutation) := do
  let m ← csub g.n 1
  modifyLoop (List.range m) g Permutation.identity

/-- `choose_maximal_tree`, graph.rs:786-804. -/
def chooseMaximalTree (g : RawGraph) : Option (RawGraph × Permutation) := do
  let (g1, q1) ← g.chooseBasePoint
  let p1 ← Permutation.mul q1 Permutation.identity
  let (g2, q2) ← g1.chooseDfs
  let p2 ← Permutation.mul q2 p1
  let g3 := { g2 with treeChosen := true }
  let (g4, q3) ← g3.modifyOrdering
  let p3 ← Permutation.mul q3 p2
  return (g4, p3)

end Toppo.RawGraph
