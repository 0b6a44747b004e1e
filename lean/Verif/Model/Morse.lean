import Verif.Model.CubeFlow
import Verif.Model.LabeledSet

/-
Model of `UdnMorseCplx`, topo_spaces/src/cubical.rs:738-990, 1096-1130, 1376-1416.

`none` is a panic.  `usize` is `Nat`, `i64` is `Int`.  The state is `Cplx` (Model/CubeCplx.lean); its field `pool` holds what `factor_pool.iter()`
yields.  `upper_dim` is `none` for `usize::MAX`, which no dimension reaches.
-/
namespace Toppo
namespace Cub
namespace Morse
open RawGraph

/-- `unpaid_edges`, cubical.rs:808-815: the edges of the path (from the branch to the root) in the maximal tree with no vertex of the path between their ends -/
def unpaid (g : RawGraph) (anc : List Factor) : Option (List Factor) :=
  filterO (fun f => do
    let t ← f.isInMaximalTree g
    if t then noneBetween f (anc.filter Factor.isVertex) else some false) (anc.filter Factor.isEdge)

/-- one round of the loop for `upper_bound2`, cubical.rs:828-833: the next smaller vertex not met by the path; the subtraction may underflow -/
def down (anc : List Factor) : Nat → Option Nat
  | 0 => none
  | u + 1 => if anc.any (fun f => !f.disjoint (.vertex u)) then down anc u else some u

/-- `upper_bound2`, cubical.rs:825-835: `r` rounds, from `u` -/
def upper2 (anc : List Factor) : Nat → Nat → Option Nat
  | 0, u => some u
  | r + 1, u => (down anc u).bind (upper2 anc r)

/-- `std::cmp::min(upper_bound1, upper_bound2)`, cubical.rs:816-838; both are vertices, and `usize::MAX` is never the smaller one -/
def upperBound (unpaid anc : List Factor) (n r : Nat) : Option Nat := do
  let u2 ← upper2 anc r n
  match unpaid with
  | [] => some u2
  | f :: _ => do
    let e ← f.edgeOf
    return min e.2 u2

/-- `!vertices_candidates.is_empty()`, cubical.rs:846-847 -/
def hasCandidate (anc : List Factor) (x y : Nat) : Bool := (List.range' (x + 1) (y - (x + 1))).any (fun v => anc.all (fun f => f.disjoint (.vertex v)))

/-- the filters of `expand`, cubical.rs:840-852 -/
def admissible (g : RawGraph) (anc : List Factor) (last : Factor) (ub : Nat) (f : Factor) : Option Bool :=
  if anc.all (fun p => f.disjoint p) && Factor.gt f last && (Factor.lt f (.vertex ub) || (f.isEdge && Factor.lt (.vertex f.order) (.vertex ub))) then
    match f with
    | .vertex _ => some true
    | .edge x y => (f.isInMaximalTree g).map (fun t => if t then hasCandidate anc x y else true)
  else some false

/-- `retain` when one factor remains, cubical.rs:861-864 -/
def lastOnly (g : RawGraph) (r : Nat) (l : List Factor) : Option (List Factor) :=
  if r = 0 then filterO (fun f => if f.isVertex then some true else (f.isInMaximalTree g).map not) l else some l

/-- the factors to branch on in a call that is not the first one, cubical.rs:806-872, with `r + 1` factors remaining -/
def branches (g : RawGraph) (upper : Option Nat) (s : Cplx) (idx r : Nat) (possible : LabeledSet Factor) : Option (List Factor) := do
  let anc ← up s.data (idx + 1) idx
  let cur ← s.data[idx]?
  let up1 ← unpaid g anc
  let ub ← upperBound up1 anc s.n r
  let ps ← possible.toList
  let l ← filterO (admissible g anc cur.val ub) ps
  let l := if r + 1 = up1.length then l.filter Factor.isVertex else l
  let l ← lastOnly g r l
  let d ← dimOf s.data (idx + 1) idx
  return if some d = upper then l.filter Factor.isVertex else l

/-- the vertices `v > terminal` whose flow ends at `terminal`, cubical.rs:912-916, 922-926 -/
def childrenOf (g : RawGraph) (x : Nat) : Option (List Factor) :=
  filterO (fun v => if Factor.gt v (.vertex x) then (do
    let e ← v.flow g
    let t ← e.terminal
    return decide (t = .vertex x)) else some false) g.vertexIter

/-- `factors_added`, cubical.rs:901-927 -/
def factorsAdded (g : RawGraph) : Factor → Option (List Factor)
  | .vertex v => some (if v + 1 < g.n then [.vertex (v + 1)] else [])
  | .edge x y => do
    let t ← (Factor.edge x y).isInMaximalTree g
    let cs ← childrenOf g x
    return if t then cs ++ (if y + 1 < g.n then [.vertex (y + 1)] else []) else cs

/-- `for_each(|factor| possible_factors.add(factor))`, cubical.rs:929 -/
def addAll (s : LabeledSet Factor) : List Factor → Option (LabeledSet Factor)
  | [] => some s
  | f :: fs => (s.add f).bind (fun s => addAll s fs)

/-- `for_each(|factor| possible_factors.remove(factor))`, cubical.rs:936 -/
def removeAll (s : LabeledSet Factor) : List Factor → Option (LabeledSet Factor)
  | [] => some s
  | f :: fs => (s.remove f).bind (fun s => removeAll s fs)

/-- adding the new branches, cubical.rs:873-884: below `idx`, or as first branches in the initial call -/
def attachAll (initial : Bool) (idx : Nat) (s : Cplx) (fs : List Factor) : Option Cplx :=
  let new := List.range' s.data.length fs.length
  if initial then some { s with data := s.data ++ fs.map (fun f => ⟨none, [], f⟩), first := new }
  else
    match s.data[idx]? with
    | none => none
    | some b => some { s with data := s.data.set idx { b with children := new } ++ fs.map (fun f => ⟨some idx, [], f⟩) }

/-- `ranks_of_chain_cplx[dim] += 1` for all new cells, cubical.rs:890-891 -/
def countRanks : List Nat → List Nat → Option (List Nat)
  | [], ranks => some ranks
  | d :: ds, ranks =>
    match ranks[d]? with
    | none => none
    | some r => countRanks ds (ranks.set d (r + 1))

/-- the base case, cubical.rs:886-896 -/
def finishAll (idxs : List Nat) (s : Cplx) : Option Cplx := do
  let ds ← idxs.mapM (fun i => dimOf s.data (i + 1) i)
  let ranks ← countRanks ds s.ranks
  let m ← ds.max?
  return { s with final := s.final ++ idxs, ranks := ranks, dim := if m > s.dim then m else s.dim }

/-- `expand`, cubical.rs:796-940; the first argument is `n_rem_factors`, whose decrement underflows at 0 -/
def expand (g : RawGraph) (upper : Option Nat) : Nat → Nat → LabeledSet Factor → Cplx → Option (LabeledSet Factor × Cplx)
  | 0, _, _, _ => none
  | r + 1, idx, possible, s => do
    let fs ← if s.data.isEmpty then possible.toList else branches g upper s idx r possible
    if fs.isEmpty then some (possible, s)
    else
      let s1 ← attachAll s.data.isEmpty idx s fs
      if r = 0 then (finishAll (List.range' s.data.length fs.length) s1).map (fun t => (possible, t))
      else
        (fs.zipIdx s.data.length).foldlM (fun ps fi => do
          let added ← factorsAdded g fi.1
          let p1 ← addAll ps.1 added
          let q ← expand g upper r fi.2 p1 ps.2
          let p2 ← q.1.add fi.1
          let p3 ← removeAll p2 added
          return (p3, q.2)) (possible, s1)

/-- `new_from_simple_graph`, cubical.rs:760-794 -/
def ofGraph (g : RawGraph) (points : Nat) (upper : Option Nat) : Option Cplx := do
  if g.n < 2 then none
  else
    let pool ← g.factorIter
    let es ← g.edgeIter
    let long ← filterO (fun f => f.isOrderRespecting.map not) es
    let possible ← addAll (LabeledSet.new pool) (.vertex 0 :: long)
    let s : Cplx := ⟨g.n, pool, [], [], [], 0, List.replicate (points + 1) 0⟩
    let r ← expand g upper points 0 possible s
    return r.2

/-- `new`, cubical.rs:749-758 -/
def new {α : Type} [DecidableEq α] (m : MGraph α) (points : Nat) (upper : Option Nat) : Option Cplx := do
  let g ← SGraph.subdivide m points
  ofGraph g.data points upper

/-- `Cube::from_index`, cubical.rs:461-465; the factors are listed from the root -/
def cellAt (s : Cplx) (idx : Nat) : Option (List Factor) := (up s.data (idx + 1) idx).map List.reverse

/-- `get_cells_of_dim`, cubical.rs:985-990 -/
def cellsOfDim (s : Cplx) (d : Nat) : Option (List (List Factor)) :=
  s.final.foldrM (fun i acc => do
    let e ← dimOf s.data (i + 1) i
    if e = d then (cellAt s i).map (· :: acc) else some acc) []

/-- `get_boundary_of`, cubical.rs:976-983; `fuel` for the flow is proved to be enough in C60 -/
def boundaryOf (g : RawGraph) (fuel : Nat) (s : Cplx) (idx : Nat) : Option Ch := do
  let c ← cellAt s idx
  let b ← getBoundary c
  let vs ← b.mapM (fun ic => (flowC g fuel ic.2).map (fun v => smulC v ic.1))
  let v ← sumC vs
  sumC (v.map (fun ic => smulC [(1, Factor.sort ic.2)] ic.1))

/-- filling one column, cubical.rs:1398-1403 -/
def fillCol (s : Cplx) (numbering : List Nat) (d i : Nat) : Ch → List Cplx.IMat → Option (List Cplx.IMat)
  | [], maps => some maps
  | (c, cube) :: rest, maps => do
    let j ← s.indexOf cube
    let a ← numbering[j]?
    let b ← numbering[i]?
    let maps ← Cplx.addAt maps d a b c
    fillCol s numbering d i rest maps

/-- the loop filling the boundary maps and the bases, cubical.rs:1394-1408 -/
def fill (g : RawGraph) (fuel : Nat) (s : Cplx) (numbering : List Nat) : List Nat → List Cplx.IMat → List (List (List Factor)) →
    Option (List Cplx.IMat × List (List (List Factor)))
  | [], maps, bases => some (maps, bases)
  | i :: rest, maps, bases => do
    let d ← dimOf s.data (i + 1) i
    if d = 0 then fill g fuel s numbering rest maps bases
    else
      let b ← boundaryOf g fuel s i
      let maps ← fillCol s numbering d i b maps
      let c ← cellAt s i
      let l ← bases[d]?
      fill g fuel s numbering rest maps (bases.set d (l ++ [c]))

/-- the first listed cell of dimension 0, cubical.rs:1390 -/
def zeroCell (s : Cplx) : List Nat → Option Nat
  | [] => none
  | i :: rest => do
    let d ← dimOf s.data (i + 1) i
    if d = 0 then some i else zeroCell s rest

/-- `boundary_map`, cubical.rs:1378-1415, with the debug assertion -/
def boundaryMap (g : RawGraph) (fuel : Nat) (s : Cplx) : Option (List (Hom.BMap (List Factor))) := do
  let numbering ← Cplx.number s.data s.final (List.replicate s.data.length 0) (List.replicate (s.dim + 1) 0)
  let maps ← s.zeros
  let z ← zeroCell s s.final
  let c0 ← cellAt s z
  let r ← fill g fuel s numbering s.final maps ((List.replicate (s.dim + 1) []).set 0 [c0])
  let out := List.zipWith (fun x l => (⟨x.n, x.m, x.a, l⟩ : Hom.BMap (List Factor))) r.1 r.2
  if out.all (fun x => decide (x.m = x.basis.length)) then some out else none

end Morse
end Cub
end Toppo
