import Verif.Proof.OnePoint
set_option linter.unusedVariables false

/-! Pairs of disjoint edges, degrees and the subdivided graph (C156). -/
namespace Toppo.CubeProps
open Toppo RawGraph Cub GraphProps EdgePath MGraphProps Toppo.SubdivideProps

/-- the edges at a vertex -/
def star (Es : Finset (Nat × Nat)) (x : Nat) : Finset (Nat × Nat) := Es.filter (fun e => x = e.1 ∨ x = e.2)

/-- counting the pairs of edges with a common vertex -/
theorem pairs_count (Es : Finset (Nat × Nat)) (n : Nat) (h : ∀ e ∈ Es, e.1 < e.2 ∧ e.2 < n) (Ms : Finset (Finset (Nat × Nat)))
    (hMs : ∀ M, M ∈ Ms ↔ M ∈ Es.powersetCard 2 ∧ ∀ e ∈ M, ∀ e' ∈ M, e ≠ e' → e.1 ≠ e'.1 ∧ e.1 ≠ e'.2 ∧ e.2 ≠ e'.1 ∧ e.2 ≠ e'.2) :
    Ms.card + ∑ x ∈ Finset.range n, Nat.choose (star Es x).card 2 = Nat.choose Es.card 2 := by
  classical
  have hsub : Ms ⊆ Es.powersetCard 2 := fun M hM => ((hMs M).mp hM).1
  have hrest : Es.powersetCard 2 \ Ms = (Finset.range n).biUnion (fun x => (star Es x).powersetCard 2) := by
    ext M
    simp only [Finset.mem_sdiff, Finset.mem_biUnion, Finset.mem_range, hMs, Finset.mem_powersetCard, star]
    constructor
    · rintro ⟨⟨h1, h2⟩, h3⟩
      have h3 : ¬ ∀ e ∈ M, ∀ e' ∈ M, e ≠ e' → e.1 ≠ e'.1 ∧ e.1 ≠ e'.2 ∧ e.2 ≠ e'.1 ∧ e.2 ≠ e'.2 := fun hh => h3 ⟨⟨h1, h2⟩, hh⟩
      push Not at h3
      obtain ⟨e, he, e', he', hne, hx⟩ := h3
      have hM : M = {e, e'} := by
        symm
        apply Finset.eq_of_subset_of_card_le
        · intro z hz
          rcases Finset.mem_insert.mp hz with rfl | hz
          · exact he
          · rw [Finset.mem_singleton.mp hz]; exact he'
        · rw [h2, Finset.card_pair hne]
      have b1 := h e (h1 he)
      have b2 := h e' (h1 he')
      have hcom : ∃ x, (x = e.1 ∨ x = e.2) ∧ (x = e'.1 ∨ x = e'.2) := by
        by_cases q1 : e.1 = e'.1
        · exact ⟨e.1, Or.inl rfl, Or.inl q1⟩
        by_cases q2 : e.1 = e'.2
        · exact ⟨e.1, Or.inl rfl, Or.inr q2⟩
        by_cases q3 : e.2 = e'.1
        · exact ⟨e.2, Or.inr rfl, Or.inl q3⟩
        exact ⟨e.2, Or.inr rfl, Or.inr (hx q1 q2 q3)⟩
      obtain ⟨x, x1, x2⟩ := hcom
      refine ⟨x, by omega, ?_, h2⟩
      intro z hz
      rw [hM] at hz
      rw [Finset.mem_filter]
      rcases Finset.mem_insert.mp hz with rfl | hz
      · exact ⟨h1 he, x1⟩
      · rw [Finset.mem_singleton.mp hz]; exact ⟨h1 he', x2⟩
    · rintro ⟨x, hx, h1, h2⟩
      refine ⟨⟨fun z hz => (Finset.mem_filter.mp (h1 hz)).1, h2⟩, ?_⟩
      rintro ⟨-, h3⟩
      obtain ⟨e, e', hne, rfl⟩ := Finset.card_eq_two.mp h2
      have a1 := (Finset.mem_filter.mp (h1 (show e ∈ ({e, e'} : Finset _) by simp))).2
      have a2 := (Finset.mem_filter.mp (h1 (show e' ∈ ({e, e'} : Finset _) by simp))).2
      have := h3 e (by simp) e' (by simp) hne
      omega
  have hdisj : ∀ x ∈ Finset.range n, ∀ y ∈ Finset.range n, x ≠ y → Disjoint ((star Es x).powersetCard 2) ((star Es y).powersetCard 2) := by
    intro x _ y _ hxy
    rw [Finset.disjoint_left]
    intro M h1 h2
    rw [Finset.mem_powersetCard] at h1 h2
    obtain ⟨e, e', hne, rfl⟩ := Finset.card_eq_two.mp h1.2
    have a1 := Finset.mem_filter.mp (h1.1 (show e ∈ ({e, e'} : Finset _) by simp))
    have a2 := Finset.mem_filter.mp (h1.1 (show e' ∈ ({e, e'} : Finset _) by simp))
    have b1 := Finset.mem_filter.mp (h2.1 (show e ∈ ({e, e'} : Finset _) by simp))
    have b2 := Finset.mem_filter.mp (h2.1 (show e' ∈ ({e, e'} : Finset _) by simp))
    have c1 := h e a1.1
    have c2 := h e' a2.1
    apply hne
    ext <;> omega
  have hcard : (Es.powersetCard 2 \ Ms).card = ∑ x ∈ Finset.range n, Nat.choose (star Es x).card 2 := by
    rw [hrest, Finset.card_biUnion hdisj]
    exact Finset.sum_congr rfl (fun x _ => Finset.card_powersetCard 2 _)
  rw [← hcard, ← Finset.card_powersetCard, add_comm]
  exact Finset.card_sdiff_add_card_eq_card hsub

open Classical in
/-- the neighbours of a vertex -/
noncomputable def nbrs (g : RawGraph) (x : Nat) : Finset Nat := (Finset.range g.n).filter (fun y => Edge g x y)

theorem edge_symm {g : RawGraph} {x y : Nat} : Edge g x y ↔ Edge g y x := by
  unfold Edge
  rw [min_comm, max_comm]

theorem edge_ne {g : RawGraph} {x y : Nat} (h : Edge g x y) : x ≠ y := by
  rintro rfl
  unfold Edge RawGraph.contains RawGraph.rawIdx at h
  simp at h

theorem edge_lt {g : RawGraph} (hb : Built g) {x y : Nat} (h : Edge g x y) : x < g.n ∧ y < g.n := by
  have := edge_ne h
  rcases Nat.lt_or_ge x y with q | q
  · exact edge_bounds hb q h
  · exact (edge_bounds hb (by omega) (edge_symm.mp h)).symm

theorem star_card {g : RawGraph} (hb : Built g) {Es : Finset (Nat × Nat)} (hEs : ∀ e, e ∈ Es ↔ e.1 < e.2 ∧ Edge g e.1 e.2) (x : Nat) : (star Es x).card = (nbrs g x).card := by
  classical
  refine Finset.card_bij' (fun e _ => if x = e.1 then e.2 else e.1) (fun y _ => (min x y, max x y)) ?_ ?_ ?_ ?_
  · rintro ⟨a, b⟩ he
    simp only [star, Finset.mem_filter, hEs] at he
    obtain ⟨⟨h1, h2⟩, h3⟩ := he
    have := edge_lt hb h2
    simp only [nbrs, Finset.mem_filter, Finset.mem_range]
    split
    · next q => subst q; exact ⟨this.2, h2⟩
    · next q =>
      rcases h3 with h3 | rfl
      · exact absurd h3 q
      · exact ⟨this.1, edge_symm.mp h2⟩
  · intro y hy
    simp only [nbrs, Finset.mem_filter, Finset.mem_range] at hy
    have := edge_ne hy.2
    simp only [star, Finset.mem_filter, hEs]
    rcases Nat.lt_or_ge x y with q | q
    · rw [min_eq_left q.le, max_eq_right q.le]; exact ⟨⟨q, hy.2⟩, Or.inl rfl⟩
    · rw [min_eq_right q, max_eq_left q]; exact ⟨⟨by omega, edge_symm.mp hy.2⟩, Or.inr rfl⟩
  · rintro ⟨a, b⟩ he
    simp only [star, Finset.mem_filter, hEs] at he
    obtain ⟨⟨h1, h2⟩, h3⟩ := he
    simp only
    split
    · next q => subst q; rw [min_eq_left h1.le, max_eq_right h1.le]
    · next q =>
      rcases h3 with h3 | rfl
      · exact absurd h3 q
      · rw [min_eq_right h1.le, max_eq_left h1.le]
  · intro y hy
    simp only [nbrs, Finset.mem_filter, Finset.mem_range] at hy
    have := edge_ne hy.2
    simp only
    split <;> omega

theorem degree_nbrs {g : RawGraph} (hb : Built g) {x : Nat} (hx : x < g.n) : g.degreeOf x = some (nbrs g x).card := by
  classical
  obtain ⟨l, h1, h2, h3, h4⟩ := (c52_adjacent_vertices hb x).1 hx
  rw [h4]
  congr 1
  have hnd : l.Nodup := h2.imp (fun h => by omega)
  rw [← List.toFinset_card_of_nodup hnd]
  congr 1
  ext y
  rw [List.mem_toFinset, h3]
  simp only [nbrs, Finset.mem_filter, Finset.mem_range]
  exact ⟨fun h => ⟨(edge_lt hb h).2, h⟩, fun h => h.2⟩

open Classical in
/-- a sum over the vertices depends only on the labels and on which labels are joined -/
theorem sum_labels {β : Type} (A : List β) (hA : A.Nodup) (S : Finset β) (hS : ∀ u, u ∈ S ↔ u ∈ A) (R : β → β → Prop) {g : RawGraph} (hn : g.n = A.length)
    (hE : ∀ x y, Edge g x y ↔ ∃ u v, A[x]? = some u ∧ A[y]? = some v ∧ R u v) (F : Nat → Nat) :
    ∑ x ∈ Finset.range g.n, F (nbrs g x).card = ∑ u ∈ S, F (S.filter (fun v => R u v)).card := by
  have hidx : ∀ u ∈ A, A[A.idxOf u]? = some u := fun u hu => by
    have := List.idxOf_lt_length_of_mem hu
    rw [List.getElem?_eq_getElem this, List.getElem_idxOf]
  have hedge : ∀ x y (hx : x < A.length) (hy : y < A.length), Edge g x y ↔ R A[x] A[y] := by
    intro x y hx hy
    rw [hE, List.getElem?_eq_getElem hx, List.getElem?_eq_getElem hy]
    constructor
    · rintro ⟨u, v, e1, e2, h⟩
      rw [Option.some.inj e1, Option.some.inj e2]; exact h
    · intro h; exact ⟨_, _, rfl, rfl, h⟩
  refine Finset.sum_bij (fun x hx => A[x]'(by rw [← hn]; exact Finset.mem_range.mp hx)) ?_ ?_ ?_ ?_
  · intro x hx; rw [hS]; exact List.getElem_mem _
  · intro x hx y hy e; exact (List.Nodup.getElem_inj_iff hA).mp e
  · intro u hu
    rw [hS] at hu
    exact ⟨A.idxOf u, by rw [Finset.mem_range, hn]; exact List.idxOf_lt_length_of_mem hu, List.getElem_idxOf _⟩
  · intro x hx
    have hx' : x < A.length := by rw [← hn]; exact Finset.mem_range.mp hx
    congr 1
    refine Finset.card_bij (fun y hy => A[y]'(by rw [← hn]; exact Finset.mem_range.mp (Finset.mem_filter.mp hy).1)) ?_ ?_ ?_
    · intro y hy
      have hy' := Finset.mem_filter.mp hy
      have hyl : y < A.length := by rw [← hn]; exact Finset.mem_range.mp hy'.1
      rw [Finset.mem_filter, hS]
      exact ⟨List.getElem_mem _, (hedge x y hx' hyl).mp hy'.2⟩
    · intro y hy z hz e; exact (List.Nodup.getElem_inj_iff hA).mp e
    · intro v hv
      rw [Finset.mem_filter, hS] at hv
      have hl := List.idxOf_lt_length_of_mem hv.1
      refine ⟨A.idxOf v, ?_, List.getElem_idxOf _⟩
      unfold nbrs
      rw [Finset.mem_filter, Finset.mem_range, hn]
      refine ⟨hl, (hedge x _ hx' hl).mpr ?_⟩
      rw [List.getElem_idxOf]; exact hv.2

variable {α : Type} [DecidableEq α]

/-- summing over the vertices of the subdivided graph something that depends on their degrees -/
theorem degrees_sum (edges : List (α × α)) (hc : ConnectedInput edges) (m : MGraph α) (hm : MGraph.ofEdges edges = some m) (points : Nat)
    (hp : points + 1 < 2 ^ 63) (g : SGraph α) (hg : SGraph.subdivide m points = some g) (F : Nat → Nat) :
    ∑ x ∈ Finset.range g.data.n, F (nbrs g.data x).card + (MGraphProps.endpoints edges).length * F 2 =
      ((MGraphProps.endpoints edges).map (fun a => F (edgeEnds edges a))).sum + g.verts.length * F 2 := by
  classical
  obtain ⟨k1, k2, -, k4, k5, k6, k7, -⟩ := c57_subdivision edges hc m hm points hp g hg
  obtain ⟨lab, V, g0, hV, hlab, p1, p2, p3, p4, p5⟩ := preTree_spec edges hc.1 m hm points hp
  have hn2 : 2 ≤ max points 2 := by omega
  have hn3 : max points 2 + 1 < 2 ^ 63 := by omega
  obtain ⟨i1, i2, i3⟩ := next_iff edges hn2 hn3 lab V hV hlab
  have hinj : ∀ i j, i < V → j < V → lab i = lab j → i = j := by
    intro i j hi hj h
    have h1 := hlab i hi
    rw [h] at h1
    exact Subdiv.getElem?_inj_of_nodup (endpoints_nodup edges) h1 (hlab j hj)
  have idx : ∀ a, a ∈ MGraphProps.endpoints edges → ∃ i, i < V ∧ lab i = a := by
    intro a ha
    obtain ⟨i, hi, e⟩ := List.getElem_of_mem ha
    have := hlab i (by omega)
    rw [List.getElem?_eq_getElem hi, e] at this
    exact ⟨i, by omega, (Option.some.inj this).symm⟩
  have hpre : Pre lab (max points 2) V (fun i j => joining edges (lab i) (lab j)) g0 := ⟨hn2, hn3, hinj, p2, p3, p4⟩
  have hb0 : Built g0.data := built_iff.mpr p2.wf
  have hends := ends_eq edges V lab hinj (fun e he =>
    ⟨idx _ (mem_endpoints.mpr ⟨e, he, Or.inl rfl⟩), idx _ (mem_endpoints.mpr ⟨e, he, Or.inr rfl⟩)⟩)
  -- the labels are those of the graph before the tree was chosen
  have hE0 : ∀ x y, Edge g0.data x y ↔ ∃ u v, g0.verts[x]? = some u ∧ g0.verts[y]? = some v ∧ (Consecutive edges (max points 2) u v ∨ Consecutive edges (max points 2) v u) := by
    intro x y
    rw [edge_iff hb0, p2.adj]
    simp only [i2]
  have hmem : ∀ v, v ∈ g.verts ↔ v ∈ g0.verts := by
    intro v
    constructor
    · intro hv
      obtain ⟨a, b, k, l, h1, h2, h3⟩ := (k5 v).mp hv
      obtain ⟨s, hs, rfl, rfl, rfl⟩ := (i1 _ _ _).mp h1
      obtain ⟨q1, q2⟩ := i3 s hs
      rw [q1] at h2
      rw [(q2 l h2 v).mp h3]
      exact hpre.pt_mem' hs h2
    · intro hv
      obtain ⟨x, hx, rfl⟩ := List.getElem_of_mem hv
      rw [← p3] at hx
      rcases hpre.cases' hx with h | ⟨s, hs, l, h1, h2, h3⟩
      · -- an essential vertex is the end of a strand
        have he := hpre.ess h
        have hxl : x < g0.verts.length := by rw [← p3]; exact hx
        rw [List.getElem?_eq_getElem hxl] at he
        rw [Option.some.inj he]
        obtain ⟨e, hee, hor⟩ := mem_endpoints.mp (List.mem_of_getElem? (hlab x h))
        have hpos : 0 < joining edges e.1 e.2 := List.countP_pos_iff.mpr ⟨e, hee, by simp⟩
        have hpos' : 0 < joining edges e.2 e.1 := List.countP_pos_iff.mpr ⟨e, hee, by simp⟩
        refine (k5 _).mpr ?_
        rcases le_total ((MGraphProps.endpoints edges).idxOf e.1) ((MGraphProps.endpoints edges).idxOf e.2) with hle | hle
        · rcases hor with h | h
          · exact ⟨e.1, e.2, 0, 0, ⟨hle, hpos⟩, by omega, Or.inl ⟨rfl, by rw [h]⟩⟩
          · exact ⟨e.1, e.2, 0, _, ⟨hle, hpos⟩, le_refl _, Or.inr (Or.inl ⟨rfl, by rw [h]⟩)⟩
        · rcases hor with h | h
          · exact ⟨e.2, e.1, 0, _, ⟨hle, hpos'⟩, le_refl _, Or.inr (Or.inl ⟨rfl, by rw [h]⟩)⟩
          · exact ⟨e.2, e.1, 0, 0, ⟨hle, hpos'⟩, by omega, Or.inl ⟨rfl, by rw [h]⟩⟩
      · have hxl : x < g0.verts.length := by rw [← p3]; exact hx
        unfold Pre.At at h3
        rw [List.getElem?_eq_getElem hxl] at h3
        rw [Option.some.inj h3]
        obtain ⟨q1, q2⟩ := i3 s hs
        exact (k5 _).mpr ⟨_, _, _, l, (i1 _ _ _).mpr ⟨s, hs, rfl, rfl, rfl⟩, by rw [q1]; omega, (q2 l (by omega) _).mpr rfl⟩
  have hlen : g0.data.n = g.data.n := by
    rw [p3, k2, ← List.toFinset_card_of_nodup k1, ← List.toFinset_card_of_nodup p4]
    congr 1
    ext v
    rw [List.mem_toFinset, List.mem_toFinset, hmem]
  rw [sum_labels g.verts k1 g0.verts.toFinset (fun u => by rw [List.mem_toFinset, hmem]) _ k2 k6 F,
    ← sum_labels g0.verts p4 g0.verts.toFinset (fun u => List.mem_toFinset) _ p3 hE0 F, ← k2, ← hlen, ← hV]
  have hle : V ≤ g0.data.n := hpre.V_le
  have hdeg : ∀ x, x < g0.data.n → F (nbrs g0.data x).card = if x < V then F (edgeEnds edges (lab x)) else F 2 := by
    intro x hx
    have hd := degree_nbrs hb0 hx
    split
    · next q =>
      rw [hpre.degree_ess q, hends x q] at hd
      rw [← Option.some.inj hd]
    · next q =>
      rcases hpre.cases' hx with h | ⟨s, hs, l, h1, h2, h3⟩
      · exact absurd h q
      · rw [hpre.degree_inner hs h1 h2 h3] at hd
        rw [← Option.some.inj hd]
  rw [Finset.sum_congr rfl (fun x hx => hdeg x (Finset.mem_range.mp hx))]
  obtain ⟨r, hr⟩ := Nat.exists_eq_add_of_le hle
  rw [hr, Finset.sum_range_add]
  have s1 : ∑ x ∈ Finset.range V, (if x < V then F (edgeEnds edges (lab x)) else F 2) = ((MGraphProps.endpoints edges).map (fun a => F (edgeEnds edges a))).sum := by
    rw [Finset.sum_congr rfl (fun x hx => if_pos (Finset.mem_range.mp hx))]
    have : (MGraphProps.endpoints edges).map (fun a => F (edgeEnds edges a)) = (List.range V).map (fun i => F (edgeEnds edges (lab i))) := by
      apply List.ext_getElem?
      intro i
      rw [List.getElem?_map, List.getElem?_map]
      by_cases hi : i < V
      · rw [hlab i hi, List.getElem?_range hi]; rfl
      · rw [List.getElem?_eq_none (by omega), List.getElem?_eq_none (by simpa using hi)]; rfl
    rw [this, Finset.sum_range, ← List.sum_ofFn, List.ofFn_eq_map, ← List.map_coe_finRange_eq_range, List.map_map]; rfl
  have s2 : ∑ x ∈ Finset.range r, (if V + x < V then F (edgeEnds edges (lab (V + x))) else F 2) = r * F 2 := by
    rw [Finset.sum_congr rfl (fun x _ => if_neg (show ¬ V + x < V by omega)), Finset.sum_const, Finset.card_range, smul_eq_mul]
  rw [s1, s2]
  ring

end Toppo.CubeProps
