import Verif.Proof.TwoPoints
import Verif.Props.OnePoint
set_option linter.unusedVariables false
/-!
# C156: two points on a graph
-/
namespace Toppo.CubeProps
open Toppo RawGraph Cub GraphProps EdgePath MGraphProps Toppo.SubdivideProps Toppo.Univ
variable {α : Type} [DecidableEq α]

/-- the number of pairs of disjoint edges of the subdivided graph -/
theorem pairs_of_edges (edges : List (α × α)) (hc : ConnectedInput edges) (m : MGraph α) (hm : MGraph.ofEdges edges = some m) (points : Nat) (hp : points + 1 < 2 ^ 63)
    (g : SGraph α) (hg : SGraph.subdivide m points = some g) (Ms : Finset (Finset (Nat × Nat))) (hMs : ∀ M, M ∈ Ms ↔ IsMatching g.data 2 M) :
    Ms.card + ((MGraphProps.endpoints edges).map (fun a => Nat.choose (edgeEnds edges a) 2)).sum + g.verts.length =
      Nat.choose (edges.length + g.verts.length - (MGraphProps.endpoints edges).length) 2 + (MGraphProps.endpoints edges).length := by
  obtain ⟨-, k2, -, -, -, -, hb, -⟩ := c57_subdivision edges hc m hm points hp g hg
  have hb : Built g.data := hb
  obtain ⟨Es, hEs, hcount⟩ := c155_edges edges hc m hm points hp g hg
  have h1 := pairs_count Es g.data.n (fun e he => ⟨((hEs e).mp he).1, (edge_bounds hb ((hEs e).mp he).1 ((hEs e).mp he).2).2⟩) Ms (fun M => by
    rw [hMs, Finset.mem_powersetCard]
    constructor
    · rintro ⟨a, b, c⟩
      exact ⟨⟨fun e he => (hEs e).mpr (b e he), a⟩, c⟩
    · rintro ⟨⟨a, b⟩, c⟩
      exact ⟨b, fun e he => (hEs e).mp (a he), c⟩)
  have h2 := degrees_sum edges hc m hm points hp g hg (fun d => Nat.choose d 2)
  simp only [star_card hb hEs] at h1
  simp only [Nat.choose_self, mul_one] at h2
  rw [← hcount, Nat.add_sub_cancel]
  omega

/-- **C156**, cells: the configuration complex for two points of a connected multigraph with `V` vertices and `E` edges has, with `n` the number of vertices of the subdivided graph and
`e = E + n - V`, `n` choose 2 cells of dimension 0, `e (n - 2)` of dimension 1, and in dimension 2 as many cells as `e` has pairs, less the pairs of edge ends at each vertex of the
input, less one for each of the `n - V` new vertices. -/
theorem c156_cells (edges : List (α × α)) (hc : ConnectedInput edges) (m : MGraph α) (hm : MGraph.ofEdges edges = some m) (g : SGraph α) (hg : SGraph.subdivide m 2 = some g) :
    ∃ s r2, udc m 2 = some s ∧ s.ranks[0]? = some (Nat.choose g.verts.length 2) ∧
      s.ranks[1]? = some ((edges.length + g.verts.length - (MGraphProps.endpoints edges).length) * (g.verts.length - 2)) ∧ s.ranks[2]? = some r2 ∧
      r2 + ((MGraphProps.endpoints edges).map (fun a => Nat.choose (edgeEnds edges a) 2)).sum + g.verts.length =
        Nat.choose (edges.length + g.verts.length - (MGraphProps.endpoints edges).length) 2 + (MGraphProps.endpoints edges).length := by
  obtain ⟨s, h1, h2, h3⟩ := c155_cells edges hc m hm 2 (by omega) (by omega) g hg
  obtain ⟨s', q1, q2⟩ := c135_ranks edges hc m hm 2 (by omega) (by omega) g hg
  rw [h1] at q1; cases q1
  obtain ⟨Ms, hMs, h4⟩ := q2 2 le_rfl
  refine ⟨s, Ms.card, h1, h2, by simpa using h3, by simpa using h4, pairs_of_edges edges hc m hm 2 (by omega) g hg Ms hMs⟩

/-- the arithmetic -/
theorem euler_two (V E n e m2 S c e2 : ℤ) (hc : 2 * c = n * (n - 1)) (he2 : 2 * e2 = e * (e - 1)) (he : e + V = E + n) (h : m2 + S + n = e2 + V) :
    2 * (c - e * (n - 2) + m2) = 2 * V + (E - V) * (E - V + 3) - 2 * S := by
  have : e = E + n - V := by linarith
  have h2 : m2 = e2 + V - S - n := by linarith
  subst h2 this
  linear_combination hc + he2

theorem two_choose (n : Nat) : 2 * (Nat.choose n 2 : ℤ) = n * ((n : ℤ) - 1) := by
  have := Nat.choose_two_right n
  have h : n * (n - 1) = 2 * Nat.choose n 2 := by
    rw [this]; exact (Nat.mul_div_cancel' (Nat.even_mul_pred_self n).two_dvd).symm
  rcases n with _ | n
  · simp
  · have := congrArg (Nat.cast (R := ℤ)) h
    push_cast at this ⊢
    linarith

/-- twice the alternating sum -/
theorem euler_form (edges : List (α × α)) (hc : ConnectedInput edges) (m : MGraph α) (hm : MGraph.ofEdges edges = some m) (g : SGraph α) (hg : SGraph.subdivide m 2 = some g) (r2 : Nat)
    (h : r2 + ((MGraphProps.endpoints edges).map (fun a => Nat.choose (edgeEnds edges a) 2)).sum + g.verts.length =
        Nat.choose (edges.length + g.verts.length - (MGraphProps.endpoints edges).length) 2 + (MGraphProps.endpoints edges).length) :
    2 * ((Nat.choose g.verts.length 2 : ℤ) - ((edges.length + g.verts.length - (MGraphProps.endpoints edges).length) * (g.verts.length - 2) : Nat) + r2) =
      2 * (MGraphProps.endpoints edges).length +
        ((edges.length : ℤ) - (MGraphProps.endpoints edges).length) * ((edges.length : ℤ) - (MGraphProps.endpoints edges).length + 3) -
        ((MGraphProps.endpoints edges).map (fun a => (edgeEnds edges a : ℤ) * ((edgeEnds edges a : ℤ) - 1))).sum := by
  obtain ⟨-, k2, -⟩ := c57_subdivision edges hc m hm 2 (by omega) g hg
  have hn := subdivided_size edges hc m hm 2 (by omega) g hg
  obtain ⟨Es, -, hcount⟩ := c155_edges edges hc m hm 2 (by omega) g hg
  have hsum : ((MGraphProps.endpoints edges).map (fun a => (edgeEnds edges a : ℤ) * ((edgeEnds edges a : ℤ) - 1))).sum =
      2 * ((((MGraphProps.endpoints edges).map (fun a => Nat.choose (edgeEnds edges a) 2)).sum : Nat) : ℤ) := by
    induction MGraphProps.endpoints edges with
    | nil => simp
    | cons a t ih =>
      rw [List.map_cons, List.sum_cons, ih, List.map_cons, List.sum_cons, ← two_choose]
      push_cast
      ring
  rw [hsum]
  have he : edges.length + g.verts.length - (MGraphProps.endpoints edges).length = Es.card := by omega
  rw [he] at h ⊢
  obtain ⟨n, hn'⟩ : ∃ n, g.verts.length = n + 2 := ⟨g.verts.length - 2, by omega⟩
  generalize ((MGraphProps.endpoints edges).map (fun a => Nat.choose (edgeEnds edges a) 2)).sum = S at h ⊢
  have := euler_two (MGraphProps.endpoints edges).length edges.length g.verts.length Es.card r2 S _ _ (two_choose g.verts.length) (two_choose Es.card)
    (by exact_mod_cast hcount) (by exact_mod_cast h)
  rw [← this]
  have hcast : ((Es.card * (g.verts.length - 2) : Nat) : ℤ) = (Es.card : ℤ) * ((g.verts.length : ℤ) - 2) := by
    rw [hn']; push_cast; simp
  rw [hcast]

/-- **C156**, Euler characteristic: the alternating sum of the numbers of cells for two points does not depend on the subdivision; twice it is
`2 V + b (b + 3) - Σ d (d - 1)`, with `b = E - V` and the sum over the degrees `d` of the vertices of the input, loops counted twice. -/
theorem c156_euler (edges : List (α × α)) (hc : ConnectedInput edges) (m : MGraph α) (hm : MGraph.ofEdges edges = some m) (g : SGraph α) (hg : SGraph.subdivide m 2 = some g) :
    ∃ (s : Cplx) (r0 r1 r2 : Nat), udc m 2 = some s ∧ s.ranks[0]? = some r0 ∧ s.ranks[1]? = some r1 ∧ s.ranks[2]? = some r2 ∧
      2 * ((r0 : ℤ) - r1 + r2) = 2 * (MGraphProps.endpoints edges).length +
        ((edges.length : ℤ) - (MGraphProps.endpoints edges).length) * ((edges.length : ℤ) - (MGraphProps.endpoints edges).length + 3) -
        ((MGraphProps.endpoints edges).map (fun a => (edgeEnds edges a : ℤ) * ((edgeEnds edges a : ℤ) - 1))).sum := by
  obtain ⟨s, r2, h1, h2, h3, h4, h5⟩ := c156_cells edges hc m hm g hg
  refine ⟨s, _, _, r2, h1, h2, h3, h4, ?_⟩
  exact euler_form edges hc m hm g hg r2 h5

/-- **C156**, fields: so is twice the alternating sum of what `homology()` answers for two points, over every field. -/
theorem c156_field (edges : List (α × α)) (hc : ConnectedInput edges) (m : MGraph α) (hm : MGraph.ofEdges edges = some m) (g : SGraph α) (hg : SGraph.subdivide m 2 = some g) :
    ∃ s maps, udc m 2 = some s ∧ s.boundaryMap = some maps ∧ ∀ (K : Type) [Field K] [DecidableEq K], ∃ out, FHom.homology (fieldMaps K maps) = some out ∧ out.length ≤ 3 ∧
      2 * ((((out[0]?).getD 0 : ℕ) : ℤ) - ((out[1]?).getD 0 : ℕ) + ((out[2]?).getD 0 : ℕ)) = 2 * (MGraphProps.endpoints edges).length +
        ((edges.length : ℤ) - (MGraphProps.endpoints edges).length) * ((edges.length : ℤ) - (MGraphProps.endpoints edges).length + 3) -
        ((MGraphProps.endpoints edges).map (fun a => (edgeEnds edges a : ℤ) * ((edgeEnds edges a : ℤ) - 1))).sum := by
  obtain ⟨s, maps, s1, s2, Ms, hMs, hK⟩ := c146_configurations edges hc m hm 2 (by omega) (by omega) g hg
  obtain ⟨s', q1, q2⟩ := c75_udc edges hc m hm 2 (by omega) (by omega) g hg
  rw [s1] at q1; cases q1
  have hd : s.dim ≤ 2 := by
    rcases q2.dim.2 with e | ⟨c, hcs, e⟩
    · omega
    · have hcell := (q2.count.2.2 c).mp hcs
      have := hcell.length
      obtain ⟨l1, l2⟩ := lengths c
      omega
  refine ⟨s, maps, s1, s2, fun K _ _ => ?_⟩
  obtain ⟨out, o1, o2, o3⟩ := hK K
  refine ⟨out, o1, by omega, ?_⟩
  have hp := pairs_of_edges edges hc m hm 2 (by omega) g hg (Ms 2) (hMs 2)
  obtain ⟨Es, hEs, hcount⟩ := c155_edges edges hc m hm 2 (by omega) g hg
  rw [← euler_form edges hc m hm g hg _ hp]
  have m0 : (Ms 0).card = 1 := by
    rw [show Ms 0 = {∅} from by ext M; rw [hMs, matching_zero, Finset.mem_singleton]]
    rfl
  have m1 : (Ms 1).card = Es.card := by
    classical
    rw [show Ms 1 = Es.image (fun e => {e}) from by
      ext M
      rw [hMs, matching_one, Finset.mem_image]
      constructor
      · rintro ⟨e, rfl, he⟩; exact ⟨e, (hEs e).mpr he, rfl⟩
      · rintro ⟨e, he, rfl⟩; exact ⟨e, rfl, (hEs e).mp he⟩, Finset.card_image_of_injective _ Finset.singleton_injective]
  have he : edges.length + g.verts.length - (MGraphProps.endpoints edges).length = Es.card := by omega
  have hl : ((List.range (s.dim + 1)).map (fun i => (-1 : ℤ) ^ i * ((out[i]?).getD 0 : Nat))).sum = (((out[0]?).getD 0 : ℕ) : ℤ) - ((out[1]?).getD 0 : ℕ) + ((out[2]?).getD 0 : ℕ) := by
    have hnone : ∀ i, s.dim < i → out[i]? = none := fun i hi => List.getElem?_eq_none (by omega)
    rcases (by omega : s.dim = 0 ∨ s.dim = 1 ∨ s.dim = 2) with e | e | e
    · rw [e, hnone 1 (by omega), hnone 2 (by omega)]; simp [List.range_succ]
    · rw [e, hnone 2 (by omega)]; simp [List.range_succ]; ring
    · rw [e]; simp [List.range_succ]; ring
  rw [hl] at o3
  rw [o3, he]
  simp [Finset.sum_range_succ, m0, m1]
  ring

/-- the hypotheses are met, and the formula gives -1 for the triangle with a tail -/
example : ((MGraph.ofEdges [((0 : Nat), 1), (1, 2), (2, 0), (2, 3)]).bind (fun m => udc m 2)).map (fun s => (s.dim, s.ranks)) = some (2, [28, 48, 19]) := by decide +kernel

end Toppo.CubeProps
