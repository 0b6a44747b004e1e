import Verif.Proof.Stem
import Verif.Props.EdgeFlow
set_option linter.unusedVariables false

/-
C74 (C54 on the graphs the library uses it on): `g` is the graph `m` of the list of edges `edges`, subdivided for `points` marked points
(`SimpleGraph::subdivided_graph_from`, Props/Subdivide.lean).  The tree then does not branch before the vertex number `points - 1`,
and the walks of `points` particles or fewer do reach the base configuration `{0, …, k-1}`.
-/
namespace Toppo.EdgePath
open Toppo RawGraph GraphProps SubdivideProps

variable {α : Type} [DecidableEq α]

theorem Stem.mono {g : RawGraph} {k k' : Nat} (h : Stem g k) (hk : k' ≤ k) : Stem g k' := fun x y hx => h x y (by omega)

/-- **C74**, subdivided graphs, paths to and from the base point: for every connected multigraph subdivided for `points` marked points and every
configuration of at most `points` particles, the path to the base point leads the particles from `c` to `{0, …, k-1}` along tree edges, each
to an unoccupied vertex, and the path from the base point leads back. -/
theorem c74_path_to_base (edges : List (α × α)) (hc : ConnectedInput edges) (m : MGraph α) (hm : MGraph.ofEdges edges = some m) (points : Nat)
    (hp : points + 1 < 2 ^ 63) (g : SGraph α) (hg : SGraph.subdivide m points = some g)
    (c : List Nat) (hlt : ∀ v ∈ c, v < g.data.n) (hn : c.Nodup) (hk : c.length ≤ max points 2) :
    ∃ b p r, getEdgePathBase g.data (c.map Factor.vertex) true = some p ∧ getEdgePathBase g.data (c.map Factor.vertex) false = some r ∧
      Walk c p.flatten b ∧ Walk b r.flatten c ∧ b.Perm (List.range c.length) ∧
      (∀ s ∈ p.flatten, Parent g.data s.2 s.1) ∧ (∀ s ∈ r.flatten, Parent g.data s.1 s.2) ∧ (∀ L ∈ p ++ r, L.Pairwise Disj) := by
  obtain ⟨hT, hS⟩ := subdivide_tree edges hc m hm points hp g hg
  obtain ⟨b, p, r, k1, k2, k3, k4, k5, k6, k7, k8, k9⟩ := c54_base_partial hT c hlt hn
  exact ⟨b, p, r, k1, k2, k3, k4, k9 (hS.mono hk), k5, k6, k7⟩

/-- **C74**, subdivided graphs, the loop of a cube with one edge: it is a closed walk from the base configuration along tree edges away from the
root, through the edge, and along tree edges back to the base configuration, and the induced permutation is the one the particles undergo. -/
theorem c74_edge_loop (edges : List (α × α)) (hc : ConnectedInput edges) (m : MGraph α) (hm : MGraph.ofEdges edges = some m) (points : Nat)
    (hp : points + 1 < 2 ^ 63) (g : SGraph α) (hg : SGraph.subdivide m points = some g)
    (l1 l2 : List Nat) (x y : Nat) (hlt : ∀ v ∈ l1 ++ x :: y :: l2, v < g.data.n) (hn : (l1 ++ x :: y :: l2).Nodup)
    (hk : l1.length + l2.length + 1 ≤ max points 2) :
    (∃ q s t w1 w2, getEdgePath g.data (l1.map Factor.vertex ++ Factor.edge x y :: l2.map Factor.vertex) = some q ∧
      s.Perm (List.range (l1.length + l2.length + 1)) ∧ t.Perm (List.range (l1.length + l2.length + 1)) ∧ Walk s q.flatten t ∧
      Eqv q.flatten (w1 ++ (y, x) :: w2) ∧ Walk s w1 (l1 ++ y :: l2) ∧ Walk (l1 ++ x :: l2) w2 t ∧
      (∀ m ∈ w1, Parent g.data m.1 m.2) ∧ (∀ m ∈ w2, Parent g.data m.2 m.1) ∧ (∀ L ∈ q, L.Pairwise Disj)) ∧
    ∃ q s t σ, getEdgePath g.data (l1.map Factor.vertex ++ Factor.edge x y :: l2.map Factor.vertex) = some q ∧ Walk s q.flatten t ∧
      s.Perm (List.range (l1.length + l2.length + 1)) ∧ evaluate (l1.length + l2.length + 1) q = some σ ∧
      σ.Perm (List.range (l1.length + l2.length + 1)) ∧ s.map (fun i => σ.getD i 0) = t := by
  obtain ⟨hT, hS⟩ := subdivide_tree edges hc m hm points hp g hg
  refine ⟨?_, c54_permutation hT l1 l2 x y hlt hn (hS.mono hk)⟩
  obtain ⟨q, s, t, w1, w2, a1, a2, a3, a4, a5, a6, a7, a8, a9, a10, a11⟩ := c54_edge_partial hT l1 l2 x y hlt hn
  exact ⟨q, s, t, w1, w2, a1, (a11 (hS.mono hk)).1, (a11 (hS.mono hk)).2, a7, a2, a3, a4, a5, a6, a8⟩

/-- Example: an edge with a loop at its end, for three points; the path of `{2, 4, 5}` to the base point.  (`ConnectedInput` for this list is an
example in Props/Subdivide.lean.) -/
example : (MGraph.ofEdges [((0 : Nat), 1), (1, 1)]).bind (fun m => (SGraph.subdivide m 3).bind (fun g => getEdgePathBase g.data [.vertex 2, .vertex 4, .vertex 5] true)) =
    some [[(2, 1), (4, 3)], [(1, 0), (3, 2), (5, 4)], [(2, 1), (4, 3)], [(3, 2)]] := by decide +kernel

end Toppo.EdgePath
