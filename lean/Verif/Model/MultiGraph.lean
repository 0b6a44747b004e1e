import Verif.Model.TupleIter
import Verif.Model.Rational
import Verif.Model.MaxTree
/-
Model of topo_spaces/src/graph.rs: `Graph::from` (41-100), `SimpleGraph::subdivided_graph_from` (1109-1181),
`WeightedSimpleGraph::from` and `laplacian` (1667-1732).  Labels are any type with decidable equality (`String` in the code).
`none` is a panic.
-/
namespace Toppo

/-- `struct Graph`, graph.rs:29-36.  Every `Edge` has weight one, so the `Vec<Edge>` at a position is its length. -/
structure MGraph (α : Type) where
  data : List (List Nat)
  labels : List α
  nNonLoop : Nat
  nUp : Nat
  nLoops : Nat
deriving DecidableEq

namespace MGraph
variable {α : Type} [DecidableEq α]

/-- `if !labels.contains(x) { labels.push(x) }`, graph.rs:49-54. -/
def register (l : List α) (v : α) : List α := if v ∈ l then l else l ++ [v]

/-- registering the vertices, graph.rs:46-55 -/
def registerAll (edges : List (α × α)) : List α := edges.foldl (fun l e => register (register l e.1) e.2) []

/-- `data[i][j].push(..)` and the new length, graph.rs:80, 83 -/
def bump (data : List (List Nat)) (i j : Nat) : Option (List (List Nat) × Nat) := do
  let row ← data[i]?
  let c ← row[j]?
  return (data.set i (row.set j (c + 1)), c + 1)

/-- the closure registering one edge, graph.rs:60-91 -/
def addOne (g : MGraph α) (e : α × α) : Option (MGraph α) := do
  let v ← g.labels.findIdx? (fun x => decide (x = e.1))
  let w ← g.labels.findIdx? (fun x => decide (x = e.2))
  let vw := if v ≤ w then (v, w) else (w, v)
  let r ← bump g.data vw.1 vw.2
  let up ← csub g.nUp (if r.2 > 1 then 1 else 0)
  if vw.1 = vw.2 then do
    let nl ← csub g.nNonLoop 1
    let up' ← csub up 1
    return { g with data := r.1, nLoops := g.nLoops + 1, nNonLoop := nl, nUp := up' }
  else return { g with data := r.1, nUp := up }

/-- `Graph::from`, graph.rs:41-100. -/
def ofEdges (edges : List (α × α)) : Option (MGraph α) :=
  let labels := registerAll edges
  edges.foldlM addOne
    { data := List.replicate labels.length (List.replicate labels.length 0), labels := labels, nNonLoop := edges.length,
      nUp := edges.length, nLoops := 0 }

/-- `graph.data[i][j].len()`. Used for graph.rs:1141-1158. -/
def mult (g : MGraph α) (i j : Nat) : Option Nat := do
  let row ← g.data[i]?
  row[j]?

end MGraph

/-! ### subdivision -/

/-- `enum SimpleVertex` with `struct VertexVector`, graph.rs:203-236. -/
inductive SVertex (α : Type) where
  | essential (a : α)
  | redundant (start stop : α) (direction : Nat) (pos : Rational)
deriving DecidableEq

/-- `struct SimpleGraph`, graph.rs:1091-1095. -/
structure SGraph (α : Type) where
  data : RawGraph
  verts : List (SVertex α)
  nEssential : Nat

namespace SGraph
variable {α : Type} [DecidableEq α]

/-- the vertices `l = 2..=n_mid` of one strand, graph.rs:1152-1155 and 1168-1171: `k` values left, the next is `l` -/
def midLoop (a b : α) (dir d : Nat) : (k l : Nat) → SGraph α → Option (SGraph α)
  | 0, _, g => some g
  | k + 1, l, g => do
    let last ← csub g.verts.length 1
    let r ← g.data.addEdge last g.verts.length
    let q ← Rational.new l d
    midLoop a b dir d k (l + 1) { g with data := r, verts := g.verts ++ [.redundant a b dir q] }

/-- one strand from vertex `i` to vertex `j` with `mid` inner vertices and denominator `d`, graph.rs:1149-1157 (and 1165-1173 with
`j = i`); `dir` is the number of the edge -/
def strand (a b : α) (i j mid d : Nat) (g : SGraph α) (dir : Nat) : Option (SGraph α) := do
  let r ← g.data.addEdge i g.verts.length
  let q ← Rational.new 1 d
  let g1 ← midLoop a b dir d (mid - 1) 2 { g with data := r, verts := g.verts ++ [.redundant a b dir q] }
  let last ← csub g1.verts.length 1
  let r ← g1.data.addEdge j last
  return { g1 with data := r }

/-- the strands of all edges between the vertices `i` and `j`, graph.rs:1141-1158 and 1161-1174 -/
def strands (m : MGraph α) (i j mid d : Nat) (g : SGraph α) : Option (SGraph α) := do
  let k ← m.mult i j
  let a ← m.labels[i]?
  let b ← m.labels[j]?
  (List.range k).foldlM (strand a b i j mid d) g

/-- the body of the outer loop, graph.rs:1138-1175: the edges to later vertices, then the loops -/
def atVertex (m : MGraph α) (n : Nat) (g : SGraph α) (i : Nat) : Option (SGraph α) := do
  let g1 ← (List.range' (i + 1) (m.labels.length - (i + 1))).foldlM (fun g j => strands m i j (max (n - 2) 1) (n - 1) g) g
  strands m i i n (n + 1) g1

/-- the subdivided graph before the maximal tree is chosen, graph.rs:1113-1175 -/
def preTree (m : MGraph α) (points : Nat) : Option (SGraph α) := do
  let n := if points < 2 then 2 else points
  let raw ← RawGraph.new (m.labels.length + m.nNonLoop * max (n - 2) 1 + m.nLoops * n)
  (List.range m.labels.length).foldlM (atVertex m n)
    { data := raw, verts := m.labels.map SVertex.essential, nEssential := m.labels.length }

/-- `subdivided_graph_from`, graph.rs:1113-1181. -/
def subdivide (m : MGraph α) (points : Nat) : Option (SGraph α) := do
  let g ← preTree m points
  let r ← g.data.chooseMaximalTree
  let vs ← Permutation.actionBy g.verts r.2
  return { g with data := r.1, verts := vs }

end SGraph

/-! ### weighted graphs -/

/-- `struct WeightedSimpleGraph`, graph.rs:1667-1671; the square matrix is given by its entries. -/
structure WGraph (α T : Type) where
  labels : List α
  w : Nat → Nat → T

namespace WGraph
variable {α T : Type} [DecidableEq α]

/-- position of a label, pushing it if it is new, graph.rs:1683-1697 (`idx` was looked up before) -/
def place (labels : List α) (v : α) (idx : Option Nat) : List α × Nat :=
  match idx with
  | some i => (labels, i)
  | none => (labels ++ [v], labels.length)

/-- the first loop of `from`, graph.rs:1677-1700: note that both positions are looked up before either label is pushed -/
def addWeight (s : List α × List (Nat × Nat × T)) (e : α × α × T) : Option (List α × List (Nat × Nat × T)) :=
  if e.1 = e.2.1 then none
  else
    let i1 := s.1.findIdx? (fun x => decide (x = e.1))
    let i2 := s.1.findIdx? (fun x => decide (x = e.2.1))
    let p1 := place s.1 e.1 i1
    let p2 := place p1.1 e.2.1 i2
    some (p2.1, s.2 ++ [(p1.2, p2.2, e.2.2)])

/-- `data[(i,j)] = weight; data[(j,i)] = weight`, graph.rs:1704-1707 -/
def putWeight (w : Nat → Nat → T) (e : Nat × Nat × T) : Nat → Nat → T := fun i j =>
  if (i = e.2.1 ∧ j = e.1) ∨ (i = e.1 ∧ j = e.2.1) then e.2.2 else w i j

/-- `WeightedSimpleGraph::from`, graph.rs:1674-1713; `Matrix::zero(0, 0)` panics for an empty input. -/
def ofEdges [Zero T] (input : List (α × α × T)) : Option (WGraph α T) := do
  let s ← input.foldlM addWeight ([], [])
  if s.1.length = 0 then none
  else return { labels := s.1, w := s.2.foldl putWeight (fun _ _ => 0) }

/-- the first loop of `laplacian`, graph.rs:1718-1720, for row `i`: the sum runs over the matrix as it is then -/
def diagStep [Zero T] [Add T] (n : Nat) (a : Nat → Nat → T) (i : Nat) : Nat → Nat → T := fun r c =>
  if r = i ∧ c = i then ((List.range n).map (fun j => a i j)).foldl (· + ·) 0 else a r c

/-- `laplacian`, graph.rs:1715-1732. -/
def laplacian [Zero T] [One T] [Add T] [Mul T] [Neg T] (g : WGraph α T) : Nat → Nat → T :=
  let n := g.labels.length
  let a := (List.range n).foldl (diagStep n) g.w
  fun i j => if i = j then a i j else a i j * -1

end WGraph
end Toppo
