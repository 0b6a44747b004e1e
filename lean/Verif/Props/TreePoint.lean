import Verif.Proof.TreePoint
set_option linter.unusedVariables false
/-!
# C158: one point on a tree, over every field
-/
namespace Toppo.CubeProps
open Toppo RawGraph Cub GraphProps EdgePath MGraphProps Toppo.SubdivideProps Toppo.Univ
variable {α : Type} [DecidableEq α]

/-- the boundary of an edge with one point -/
theorem incidence_edge (x y i : Nat) : incidence [.edge x y] [.vertex i] = (if i = x then 1 else 0) - (if i = y then 1 else 0) := by
  simp [incidence, List.range_succ, dimC, eq_comm (a := i)]

/-- **C158**: for a tree with at least one edge (a connected multigraph with one more vertex than edges) and one point, `homology()` over every field answers `[1, 0]`; the rank of the
boundary matrix is computed correctly. -/
theorem c158_tree (edges : List (α × α)) (hc : ConnectedInput edges) (m : MGraph α) (hm : MGraph.ofEdges edges = some m) (ht : edges.length + 1 = (MGraphProps.endpoints edges).length)
    (g : SGraph α) (hg : SGraph.subdivide m 1 = some g) :
    ∃ s maps, udc m 1 = some s ∧ s.boundaryMap = some maps ∧ ∀ (K : Type) [Field K] [DecidableEq K], FHom.homology (fieldMaps K maps) = some [1, 0] ∧
      ∀ c, maps[1]? = some c → LinAlg.rankAsLinearMap c.n c.m (inField K c.a) = (LinAlg.mat c.n c.m (inField K c.a)).rank := by
  obtain ⟨s, maps, s1, s2, s3, s4, hd, n0, n1, h0, h1⟩ := tree_cells edges hc m hm ht g hg
  obtain ⟨s', maps', r, t1, t2, t3, t4⟩ := c157_one_point edges hc m hm g hg
  rw [s1] at t1; cases t1
  rw [s2] at t2; cases t2
  refine ⟨s, maps, s1, s2, fun K _ _ => ?_⟩
  obtain ⟨t, a1, a2⟩ := t4 K
  have hrk : ∀ c, maps[1]? = some c → LinAlg.rankAsLinearMap c.n c.m (inField K c.a) = (LinAlg.mat c.n c.m (inField K c.a)).rank := by
    intro c hcm
    obtain ⟨b, b1, b2, b3, b4⟩ := s4.entries 0 (by omega)
    rw [Nat.zero_add] at b1 b3 b4
    have hbc : c = b := by rw [b1] at hcm; exact (Option.some.inj hcm).symm
    subst c
    apply LinAlg.c37_minors_partial
    intro j hj
    have hw := (LinAlg.mat b.n b.m (inField K b.a)).rank_le_width
    have hx : ∀ c : Nat, ∃ x, c < j → x ≤ c ∧ (cellsDim s 1)[c]? = some [.edge x (c + 1)] := by
      intro c
      by_cases hcj : c < j
      · have hl : c < (cellsDim s 1).length := by omega
        obtain ⟨x, hx, e⟩ := h1 c _ (List.getElem?_eq_getElem hl)
        exact ⟨x, fun _ => ⟨hx, by rw [List.getElem?_eq_getElem hl, e]⟩⟩
      · exact ⟨0, fun h => absurd h hcj⟩
    choose x hx using hx
    refine leading_det x (fun c hcj => (hx c hcj).1) (fun i c hi hcj => ?_)
    have hl : i < (cellsDim s 0).length := by omega
    have e0 := h0 i _ (List.getElem?_eq_getElem hl)
    have e := b4 i c [.vertex i] [.edge (x c) (c + 1)] (by rw [List.getElem?_eq_getElem hl, e0]) (hx c hcj).2
    rw [incidence_edge] at e
    simp only [inField, e]
    push_cast
    rfl
  refine ⟨?_, hrk⟩
  have : t = 0 := a2.mpr hrk
  rw [a1, this]
  have : r = 0 := by omega
  rw [this]

/-- the hypotheses are met by the tree with three edges at a vertex -/
example : fork.length + 1 = (MGraphProps.endpoints fork).length ∧ ConnectedInput fork ∧ ((MGraph.ofEdges fork).bind (fun m => SGraph.subdivide m 1)).isSome = true :=
  ⟨by decide, fork_connected, by decide +kernel⟩

end Toppo.CubeProps
