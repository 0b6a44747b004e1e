import Verif.Props.Morse
import Mathlib.Data.Finset.Powerset
import Mathlib.Algebra.Order.BigOperators.Group.Finset
set_option linter.unusedVariables false
/-!
# C135: numbers of cells of configuration complexes
-/
namespace Toppo.CubeProps
open Toppo RawGraph Cub GraphProps EdgePath MGraphProps Toppo.SubdivideProps

/-- a matching of size `d`: `d` edges (smaller vertex first), no two with a common vertex -/
structure IsMatching (g : RawGraph) (d : Nat) (M : Finset (Nat × Nat)) : Prop where
  card : M.card = d
  edges : ∀ e ∈ M, e.1 < e.2 ∧ Edge g e.1 e.2
  disjoint : ∀ e ∈ M, ∀ e' ∈ M, e ≠ e' → e.1 ≠ e'.1 ∧ e.1 ≠ e'.2 ∧ e.2 ≠ e'.1 ∧ e.2 ≠ e'.2

/-- the ends of the edges of a matching -/
def ends (M : Finset (Nat × Nat)) : Finset Nat := M.biUnion (fun e => {e.1, e.2})

theorem mem_ends {M : Finset (Nat × Nat)} {v : Nat} : v ∈ ends M ↔ ∃ e ∈ M, v = e.1 ∨ v = e.2 := by simp [ends]

theorem ends_card {g d M} (h : IsMatching g d M) : (ends M).card = 2 * d := by
  rw [ends, Finset.card_biUnion]
  · rw [Finset.sum_congr rfl (fun e he => Finset.card_pair (h.edges e he).1.ne), Finset.sum_const, h.card, smul_eq_mul, mul_comm]
  · intro e he e' he' hne
    have := h.disjoint e he e' he' hne
    show _root_.Disjoint ({e.1, e.2} : Finset Nat) {e'.1, e'.2}
    rw [Finset.disjoint_left]
    intro v hv hv'
    simp only [Finset.mem_insert, Finset.mem_singleton] at hv hv'
    rcases hv with rfl | rfl <;> rcases hv' with h' | h' <;> simp_all

/-- the edges of a cell -/
def edgesC (c : List Factor) : List (Nat × Nat) := c.filterMap (fun f => match f with | .edge x y => some (x, y) | .vertex _ => none)
/-- the vertices of a cell that are factors themselves -/
def restC (c : List Factor) : List Nat := c.filterMap (fun f => match f with | .edge _ _ => none | .vertex v => some v)

theorem mem_edgesC {c : List Factor} {e : Nat × Nat} : e ∈ edgesC c ↔ Factor.edge e.1 e.2 ∈ c := by
  rw [edgesC, List.mem_filterMap]
  constructor
  · rintro ⟨f, hf, h⟩
    cases f with
    | edge x y => simp at h; subst h; exact hf
    | vertex v => simp at h
  · intro h; exact ⟨_, h, rfl⟩

theorem mem_restC {c : List Factor} {v : Nat} : v ∈ restC c ↔ Factor.vertex v ∈ c := by
  rw [restC, List.mem_filterMap]
  constructor
  · rintro ⟨f, hf, h⟩
    cases f with
    | edge x y => simp at h
    | vertex w => simp at h; subst h; exact hf
  · intro h; exact ⟨_, h, rfl⟩

theorem lengths (c : List Factor) : (edgesC c).length = dimC c ∧ (edgesC c).length + (restC c).length = c.length := by
  induction c with
  | nil => simp [edgesC, restC, dimC]
  | cons f c ih =>
    obtain ⟨h1, h2⟩ := ih
    unfold edgesC restC dimC at *
    cases f with
    | edge x y => simp only [List.filterMap_cons, List.countP_cons, List.length_cons, ↓reduceIte]; omega
    | vertex v => simp only [List.filterMap_cons, List.countP_cons, List.length_cons]; simp; omega

theorem cell_nodup {g k c} (h : IsCell g k c) : c.Nodup := h.sorted.imp (fun hh e => by rw [e] at hh; exact lt_irrefl _ hh)

theorem cell_disj {g k c} (h : IsCell g k c) {f f' : Factor} (hf : f ∈ c) (hf' : f' ∈ c) (hne : f ≠ f') : ∀ v ∈ vertsOf f, v ∉ vertsOf f' := by
  haveI : Std.Symm (fun a b : Factor => ∀ v ∈ vertsOf a, v ∉ vertsOf b) := ⟨fun a b h v h1 h2 => h v h2 h1⟩
  exact h.disjoint.forall hf hf' hne

theorem edgesC_nodup {g k c} (h : IsCell g k c) : (edgesC c).Nodup := by
  refine (cell_nodup h).filterMap ?_
  intro a a' b hb hb'
  cases a <;> cases a' <;> simp at hb hb'
  subst hb; simp at hb'; simp [hb']

theorem restC_nodup {g k c} (h : IsCell g k c) : (restC c).Nodup := by
  refine (cell_nodup h).filterMap ?_
  intro a a' b hb hb'
  cases a <;> cases a' <;> simp at hb hb'
  subst hb; simp [hb']

/-- the cell of a matching and a set of vertices -/
noncomputable def cellOf (M : Finset (Nat × Nat)) (W : Finset Nat) : List Factor :=
  M.toList.map (fun e => Factor.edge e.1 e.2) ++ W.toList.map Factor.vertex

theorem mem_cellOf {M W f} : f ∈ cellOf M W ↔ match f with
    | .edge x y => (x, y) ∈ M
    | .vertex v => v ∈ W := by
  cases f <;> simp [cellOf]

theorem edge_bounds {g : RawGraph} (h : Built g) {x y : Nat} (hxy : x < y) (he : Edge g x y) : x < g.n ∧ y < g.n := by
  have := Adj.lt ((edge_iff h x y).mp he)
  exact ⟨this.1, this.2.1⟩

theorem cell_matching {g : RawGraph} {k d : Nat} {c : List Factor} (h : IsCell g k c) (hd : dimC c = d) :
    IsMatching g d (edgesC c).toFinset ∧ (restC c).toFinset.card = k - d ∧ (∀ v ∈ (restC c).toFinset, v < g.n ∧ v ∉ ends (edgesC c).toFinset) := by
  obtain ⟨l1, l2⟩ := lengths c
  refine ⟨⟨?_, ?_, ?_⟩, ?_, ?_⟩
  · rw [List.toFinset_card_of_nodup (edgesC_nodup h), l1, hd]
  · intro e he
    rw [List.mem_toFinset, mem_edgesC] at he
    exact h.factors _ he
  · intro e he e' he' hne
    rw [List.mem_toFinset, mem_edgesC] at he he'
    have := cell_disj h he he' (by simpa [Prod.ext_iff] using hne)
    simp [vertsOf] at this
    exact ⟨this.1.1, this.1.2, this.2.1, this.2.2⟩
  · rw [List.toFinset_card_of_nodup (restC_nodup h)]
    have := h.length
    omega
  · intro v hv
    rw [List.mem_toFinset, mem_restC] at hv
    refine ⟨h.factors _ hv, fun he => ?_⟩
    obtain ⟨e, he, hve⟩ := mem_ends.mp he
    rw [List.mem_toFinset, mem_edgesC] at he
    have := cell_disj h hv he (by simp) v (by simp [vertsOf])
    simp [vertsOf] at this
    omega

theorem matching_cell {g : RawGraph} {k d : Nat} {M : Finset (Nat × Nat)} {W : Finset Nat} (hM : IsMatching g d M) (hdk : d ≤ k) (hW : W.card = k - d)
    (hv : ∀ v ∈ W, v < g.n ∧ v ∉ ends M) : IsCell g k (Factor.sort (cellOf M W)) ∧ (Factor.sort (cellOf M W)).Perm (cellOf M W) := by
  refine cell_of_perm ?_ ?_ ?_
  · have := hM.card
    simp [cellOf]; omega
  · intro f hf
    rw [mem_cellOf] at hf
    cases f with
    | edge x y => exact hM.edges _ hf
    | vertex v => exact (hv v hf).1
  · rw [cellOf, List.pairwise_append]
    refine ⟨?_, ?_, ?_⟩
    · rw [List.pairwise_map]
      refine (Finset.nodup_toList M).imp_of_mem ?_
      intro a b ha hb hne
      rw [Finset.mem_toList] at ha hb
      have := hM.disjoint a ha b hb hne
      simp [vertsOf]; tauto
    · rw [List.pairwise_map]
      refine (Finset.nodup_toList W).imp ?_
      intro a b hne
      simpa [vertsOf] using hne
    · intro f hf f' hf'
      obtain ⟨e, he, rfl⟩ := List.mem_map.mp hf
      obtain ⟨w, hw, rfl⟩ := List.mem_map.mp hf'
      rw [Finset.mem_toList] at he hw
      intro v hv1 hv2
      simp [vertsOf] at hv1 hv2
      subst hv2
      exact (hv v hw).2 (mem_ends.mpr ⟨e, he, hv1⟩)

/-- the number of cells of dimension `d` for `k` points -/
theorem count_cells {g : RawGraph} (hg : Built g) {k d : Nat} (hdk : d ≤ k) {L : List (List Factor)} (hn : L.Nodup) (hL : ∀ c, c ∈ L ↔ IsCell g k c ∧ dimC c = d)
    {Ms : Finset (Finset (Nat × Nat))} (hMs : ∀ M, M ∈ Ms ↔ IsMatching g d M) : L.length = Ms.card * Nat.choose (g.n - 2 * d) (k - d) := by
  classical
  have e : L.length = (Ms.sigma (fun M => Finset.powersetCard (k - d) (Finset.range g.n \ ends M))).card := by
    rw [← List.toFinset_card_of_nodup hn]
    refine Finset.card_bij' (fun c _ => ⟨(edgesC c).toFinset, (restC c).toFinset⟩) (fun p _ => Factor.sort (cellOf p.1 p.2)) ?_ ?_ ?_ ?_
    · intro c hc
      rw [List.mem_toFinset, hL] at hc
      obtain ⟨h1, h2, h3⟩ := cell_matching hc.1 hc.2
      rw [Finset.mem_sigma, hMs, Finset.mem_powersetCard]
      refine ⟨h1, fun v hv => ?_, h2⟩
      rw [Finset.mem_sdiff, Finset.mem_range]
      exact h3 v hv
    · rintro ⟨M, W⟩ hp
      rw [Finset.mem_sigma, hMs, Finset.mem_powersetCard] at hp
      obtain ⟨h1, h2, h3⟩ := hp
      obtain ⟨c1, c2⟩ := matching_cell h1 hdk h3 (fun v hv => by simpa using h2 hv)
      rw [List.mem_toFinset, hL]
      refine ⟨c1, ?_⟩
      have e1 : (edgesC (Factor.sort (cellOf M W))).toFinset = M := by
        ext e; rw [List.mem_toFinset, mem_edgesC, c2.mem_iff, mem_cellOf]
      rw [← (lengths _).1, ← List.toFinset_card_of_nodup (edgesC_nodup c1), e1, h1.card]
    · intro c hc
      rw [List.mem_toFinset, hL] at hc
      obtain ⟨h1, h2, h3⟩ := cell_matching hc.1 hc.2
      obtain ⟨c1, c2⟩ := matching_cell h1 hdk h2 h3
      refine cell_eq_of_perm c1 hc.1 ?_
      refine (List.perm_ext_iff_of_nodup (cell_nodup c1) (cell_nodup hc.1)).mpr (fun f => ?_)
      rw [c2.mem_iff, mem_cellOf]
      cases f with
      | edge x y => simp only; rw [List.mem_toFinset, mem_edgesC]
      | vertex v => simp only; rw [List.mem_toFinset, mem_restC]
    · rintro ⟨M, W⟩ hp
      rw [Finset.mem_sigma, hMs, Finset.mem_powersetCard] at hp
      obtain ⟨h1, h2, h3⟩ := hp
      obtain ⟨c1, c2⟩ := matching_cell h1 hdk h3 (fun v hv => by simpa using h2 hv)
      have e1 : (edgesC (Factor.sort (cellOf M W))).toFinset = M := by
        ext e; rw [List.mem_toFinset, mem_edgesC, c2.mem_iff, mem_cellOf]
      have e2 : (restC (Factor.sort (cellOf M W))).toFinset = W := by
        ext v; rw [List.mem_toFinset, mem_restC, c2.mem_iff, mem_cellOf]
      simp only [e1, e2]
  rw [e, Finset.card_sigma, Finset.sum_congr rfl (g := fun _ => Nat.choose (g.n - 2 * d) (k - d)), Finset.sum_const, smul_eq_mul]
  intro M hM
  rw [hMs] at hM
  rw [Finset.card_powersetCard, Finset.card_sdiff_of_subset, Finset.card_range, ends_card hM]
  intro v hv
  obtain ⟨e, he, hve⟩ := mem_ends.mp hv
  obtain ⟨a, b⟩ := hM.edges e he
  have := edge_bounds hg a b
  rw [Finset.mem_range]
  rcases hve with rfl | rfl
  · exact this.1
  · exact this.2

/-- there are finitely many matchings -/
theorem matchings_finite {g : RawGraph} (hg : Built g) (d : Nat) : ∃ Ms : Finset (Finset (Nat × Nat)), ∀ M, M ∈ Ms ↔ IsMatching g d M := by
  classical
  refine ⟨(Finset.range g.n ×ˢ Finset.range g.n).powerset.filter (IsMatching g d), fun M => ?_⟩
  rw [Finset.mem_filter, Finset.mem_powerset]
  refine ⟨fun h => h.2, fun h => ⟨fun e he => ?_, h⟩⟩
  obtain ⟨a, b⟩ := h.edges e he
  obtain ⟨c, d⟩ := edge_bounds hg a b
  simp [c, d]

theorem count_ranks {g : RawGraph} (hg : Built g) {k : Nat} {s : Cplx} (h : CellsOK g k s) {d : Nat} (hdk : d ≤ k) {Ms : Finset (Finset (Nat × Nat))}
    (hMs : ∀ M, M ∈ Ms ↔ IsMatching g d M) : s.ranks[d]? = some (Ms.card * Nat.choose (g.n - 2 * d) (k - d)) := by
  rw [h.ranks.2 d hdk, count_cells hg hdk (L := cellsDim s d) (h.count.2.1.filter _) (fun c => ?_) hMs]
  rw [cellsDim, List.mem_filter, h.count.2.2, decide_eq_true_iff]

theorem matching_zero {g : RawGraph} (M : Finset (Nat × Nat)) : IsMatching g 0 M ↔ M = ∅ :=
  ⟨fun h => Finset.card_eq_zero.mp h.card, fun h => by subst h; exact ⟨rfl, by simp, by simp⟩⟩

theorem matching_one {g : RawGraph} (M : Finset (Nat × Nat)) : IsMatching g 1 M ↔ ∃ e, M = {e} ∧ e.1 < e.2 ∧ Edge g e.1 e.2 := by
  constructor
  · intro h
    obtain ⟨e, rfl⟩ := Finset.card_eq_one.mp h.card
    exact ⟨e, rfl, h.edges e (by simp)⟩
  · rintro ⟨e, rfl, h⟩
    exact ⟨by simp, by simpa using h, by simp⟩

section
variable {α : Type} [DecidableEq α]

/-- **C135**. The configuration complex of a connected multigraph for `points` points: the number of cells of dimension `d` it reports is the number of matchings of size `d` of the
subdivided graph times the number of ways to choose the other `points - d` points among the vertices the matching leaves free. -/
theorem c135_ranks (edges : List (α × α)) (hc : ConnectedInput edges) (m : MGraph α) (hm : MGraph.ofEdges edges = some m) (points : Nat) (hp0 : points ≠ 0)
    (hp : points + 1 < 2 ^ 63) (g : SGraph α) (hg : SGraph.subdivide m points = some g) :
    ∃ s, udc m points = some s ∧ ∀ d, d ≤ points → ∃ Ms : Finset (Finset (Nat × Nat)), (∀ M, M ∈ Ms ↔ IsMatching g.data d M) ∧
      s.ranks[d]? = some (Ms.card * Nat.choose (g.verts.length - 2 * d) (points - d)) := by
  obtain ⟨s, h1, h2⟩ := c75_udc edges hc m hm points hp0 hp g hg
  obtain ⟨-, k2, -, -, -, -, hb, -⟩ := c57_subdivision edges hc m hm points hp g hg
  refine ⟨s, h1, fun d hd => ?_⟩
  obtain ⟨Ms, hMs⟩ := matchings_finite hb d
  exact ⟨Ms, hMs, by rw [← k2]; exact count_ranks hb h2 hd hMs⟩

/-- In particular there are `n` choose `points` cells of dimension 0, with `n` the number of vertices of the subdivided graph, and the number of its edges times
`n - 2` choose `points - 1` cells of dimension 1. -/
theorem c135_low (edges : List (α × α)) (hc : ConnectedInput edges) (m : MGraph α) (hm : MGraph.ofEdges edges = some m) (points : Nat) (hp0 : points ≠ 0)
    (hp : points + 1 < 2 ^ 63) (g : SGraph α) (hg : SGraph.subdivide m points = some g) :
    ∃ s, udc m points = some s ∧ s.ranks[0]? = some (Nat.choose g.verts.length points) ∧
      ∃ Es : Finset (Nat × Nat), (∀ e, e ∈ Es ↔ e.1 < e.2 ∧ Edge g.data e.1 e.2) ∧
        s.ranks[1]? = some (Es.card * Nat.choose (g.verts.length - 2) (points - 1)) := by
  classical
  obtain ⟨s, h1, h2⟩ := c75_udc edges hc m hm points hp0 hp g hg
  obtain ⟨-, k2, -, -, -, -, hb, -⟩ := c57_subdivision edges hc m hm points hp g hg
  refine ⟨s, h1, ?_, ?_⟩
  · have := count_ranks hb h2 (d := 0) (by omega) (Ms := {∅}) (fun M => by rw [matching_zero, Finset.mem_singleton])
    rw [← k2]; simpa using this
  · let Es := (Finset.range g.data.n ×ˢ Finset.range g.data.n).filter (fun e => e.1 < e.2 ∧ Edge g.data e.1 e.2)
    have hEs : ∀ e, e ∈ Es ↔ e.1 < e.2 ∧ Edge g.data e.1 e.2 := fun e => by
      simp only [Es, Finset.mem_filter, Finset.mem_product, Finset.mem_range]
      exact ⟨fun h => h.2, fun h => ⟨edge_bounds hb h.1 h.2, h⟩⟩
    refine ⟨Es, hEs, ?_⟩
    have := count_ranks hb h2 (d := 1) (by omega) (Ms := Es.image (fun e => {e})) (fun M => by
      rw [matching_one, Finset.mem_image]
      constructor
      · rintro ⟨e, he, rfl⟩; exact ⟨e, rfl, (hEs e).mp he⟩
      · rintro ⟨e, rfl, he⟩; exact ⟨e, (hEs e).mpr he, rfl⟩)
    rw [this, Finset.card_image_of_injective _ Finset.singleton_injective, ← k2]

/-- The reported dimension is the largest size of a matching that has at most `points` edges and leaves enough vertices for the other points. -/
theorem c135_dim (edges : List (α × α)) (hc : ConnectedInput edges) (m : MGraph α) (hm : MGraph.ofEdges edges = some m) (points : Nat) (hp0 : points ≠ 0)
    (hp : points + 1 < 2 ^ 63) (g : SGraph α) (hg : SGraph.subdivide m points = some g) :
    ∃ s, udc m points = some s ∧ IsGreatest {d | d ≤ points ∧ points + d ≤ g.verts.length ∧ ∃ M, IsMatching g.data d M} s.dim := by
  obtain ⟨s, h1, h2⟩ := c75_udc edges hc m hm points hp0 hp g hg
  obtain ⟨-, k2, -, -, -, -, hb, -⟩ := c57_subdivision edges hc m hm points hp g hg
  have hsz := subdivided_size edges hc m hm points hp g hg
  rw [← k2]
  refine ⟨s, h1, ?_, ?_⟩
  · rcases h2.dim.2 with h | ⟨c, hcs, hd⟩
    · rw [h]
      exact ⟨by omega, by omega, ∅, (matching_zero _).mpr rfl⟩
    · have hcell := (h2.count.2.2 c).mp hcs
      obtain ⟨m1, m2, m3⟩ := cell_matching hcell hd
      obtain ⟨l1, l2⟩ := lengths c
      have hlen := hcell.length
      refine ⟨by omega, ?_, _, m1⟩
      have hsub : ends (edgesC c).toFinset ∪ (restC c).toFinset ⊆ Finset.range g.data.n := by
        intro v hv
        rw [Finset.mem_range]
        rcases Finset.mem_union.mp hv with hv | hv
        · obtain ⟨e, he, hve⟩ := mem_ends.mp hv
          obtain ⟨a, b⟩ := m1.edges e he
          have := edge_bounds hb a b
          rcases hve with rfl | rfl
          · exact this.1
          · exact this.2
        · exact (m3 v hv).1
      have := Finset.card_le_card hsub
      rw [Finset.card_union_of_disjoint (Finset.disjoint_right.mpr (fun v hv => (m3 v hv).2)), ends_card m1, m2, Finset.card_range] at this
      omega
  · rintro d ⟨hd1, hd2, M, hM⟩
    have hsub : ends M ⊆ Finset.range g.data.n := by
      intro v hv
      obtain ⟨e, he, hve⟩ := mem_ends.mp hv
      obtain ⟨a, b⟩ := hM.edges e he
      have := edge_bounds hb a b
      rw [Finset.mem_range]
      rcases hve with rfl | rfl
      · exact this.1
      · exact this.2
    have hcard : (Finset.range g.data.n \ ends M).card = g.data.n - 2 * d := by
      rw [Finset.card_sdiff_of_subset hsub, Finset.card_range, ends_card hM]
    obtain ⟨W, hW1, hW2⟩ := Finset.exists_subset_card_eq (s := Finset.range g.data.n \ ends M) (n := points - d) (by omega)
    obtain ⟨c1, c2⟩ := matching_cell hM hd1 hW2 (fun v hv => by simpa using hW1 hv)
    have e1 : (edgesC (Factor.sort (cellOf M W))).toFinset = M := by
      ext e; rw [List.mem_toFinset, mem_edgesC, c2.mem_iff, mem_cellOf]
    have := h2.dim.1 _ ((h2.count.2.2 _).mpr c1)
    rw [← (lengths _).1, ← List.toFinset_card_of_nodup (edgesC_nodup c1), e1, hM.card] at this
    exact this

end

/-- a case: an edge and a loop, two points. The subdivided graph has 5 vertices and 5 edges, 4 pairs of which have no common vertex: 10 = (5 choose 2), 15 = 5 * 3 and 4 cells. -/
example : ConnectedInput [((0 : Nat), 1), (1, 1)] ∧ (∃ m g, MGraph.ofEdges [((0 : Nat), 1), (1, 1)] = some m ∧ SGraph.subdivide m 2 = some g) ∧
    ((MGraph.ofEdges [((0 : Nat), 1), (1, 1)]).bind (fun m => SGraph.subdivide m 2)).map (fun g => g.verts.length) = some 5 ∧
    ((MGraph.ofEdges [((0 : Nat), 1), (1, 1)]).bind (fun m => udc m 2)).map (fun s => (s.ranks, s.dim)) = some ([10, 15, 4], 2) := by
  refine ⟨connected_of_growing 0 (by simp) (by decide), ?_, by decide +kernel, by decide +kernel⟩
  have h : ((MGraph.ofEdges [((0 : Nat), 1), (1, 1)]).bind (fun m => SGraph.subdivide m 2)).map (fun g => g.verts.length) = some 5 := by decide +kernel
  rw [Option.map_eq_some_iff] at h
  obtain ⟨g, hg, -⟩ := h
  rw [Option.bind_eq_some_iff] at hg
  obtain ⟨m, hm, hg⟩ := hg
  exact ⟨m, g, hm, hg⟩

end Toppo.CubeProps
