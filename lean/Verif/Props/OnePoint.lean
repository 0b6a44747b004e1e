import Verif.Proof.OnePoint
import Verif.Proof.SimpRank
import Verif.Props.TreeHom
import Verif.Props.FieldEuler
import Mathlib.LinearAlgebra.FreeModule.PID
set_option linter.unusedVariables false
/-!
# C155: subdividing keeps the Euler characteristic, and one point on a graph sees the graph
-/
namespace Toppo.CubeProps
open Toppo RawGraph Cub GraphProps EdgePath MGraphProps Toppo.SubdivideProps Toppo.Univ Module
variable {α : Type} [DecidableEq α]

/-- **C155**, the subdivided graph, for any number of points: it has as many edges more than the input as it has vertices more. -/
theorem c155_edges (edges : List (α × α)) (hc : ConnectedInput edges) (m : MGraph α) (hm : MGraph.ofEdges edges = some m) (points : Nat)
    (hp : points + 1 < 2 ^ 63) (g : SGraph α) (hg : SGraph.subdivide m points = some g) :
    ∃ Es : Finset (Nat × Nat), (∀ e, e ∈ Es ↔ e.1 < e.2 ∧ Edge g.data e.1 e.2) ∧
      Es.card + (MGraphProps.endpoints edges).length = edges.length + g.verts.length := by
  classical
  obtain ⟨-, -, -, -, -, -, hb, -⟩ := c57_subdivision edges hc m hm points hp g hg
  have hb : Built g.data := hb
  let Es := (Finset.range g.data.n ×ˢ Finset.range g.data.n).filter (fun e => e.1 < e.2 ∧ Edge g.data e.1 e.2)
  have hEs : ∀ e, e ∈ Es ↔ e.1 < e.2 ∧ Edge g.data e.1 e.2 := fun e => by
    simp only [Es, Finset.mem_filter, Finset.mem_product, Finset.mem_range]
    exact ⟨fun h => h.2, fun h => ⟨edge_bounds hb h.1 h.2, h⟩⟩
  exact ⟨Es, hEs, subdivided_edges edges hc m hm points hp g hg Es hEs⟩

/-- **C155**, cells: the configuration complex of a connected multigraph with `V` vertices and `E` edges has, with `n` the number of vertices of the subdivided graph,
`n` choose `points` cells of dimension 0 and `(E + n - V)` times `n - 2` choose `points - 1` cells of dimension 1. -/
theorem c155_cells (edges : List (α × α)) (hc : ConnectedInput edges) (m : MGraph α) (hm : MGraph.ofEdges edges = some m) (points : Nat) (hp0 : points ≠ 0)
    (hp : points + 1 < 2 ^ 63) (g : SGraph α) (hg : SGraph.subdivide m points = some g) :
    ∃ s, udc m points = some s ∧ s.ranks[0]? = some (Nat.choose g.verts.length points) ∧
      s.ranks[1]? = some ((edges.length + g.verts.length - (MGraphProps.endpoints edges).length) * Nat.choose (g.verts.length - 2) (points - 1)) := by
  obtain ⟨s, h1, h2, Es, h3, h4⟩ := c135_low edges hc m hm points hp0 hp g hg
  have := subdivided_edges edges hc m hm points hp g hg Es h3
  exact ⟨s, h1, h2, by rw [h4, ← this, Nat.add_sub_cancel]⟩

theorem one_dim {edges : List (α × α)} (hc : ConnectedInput edges) {m : MGraph α} (hm : MGraph.ofEdges edges = some m) {g : SGraph α} (hg : SGraph.subdivide m 1 = some g)
    {s : Cplx} (hs : udc m 1 = some s) (ok : CellsOK g.data 1 s) :
    s.dim = 1 ∧ (cellsDim s 0).length = g.verts.length ∧ (cellsDim s 1).length + (MGraphProps.endpoints edges).length = edges.length + g.verts.length := by
  obtain ⟨s', q1, q2, Es, q3, q4⟩ := c135_low edges hc m hm 1 (by omega) (by omega) g hg
  rw [hs] at q1; cases q1
  have hE := subdivided_edges edges hc m hm 1 (by omega) g hg Es q3
  have r0 := ok.ranks.2 0 (by omega)
  have r1 := ok.ranks.2 1 (by omega)
  rw [q2] at r0
  rw [q4] at r1
  have r0 := Option.some.inj r0
  have r1 := Option.some.inj r1
  have h4 := (c57_subdivision edges hc m hm 1 (by omega) g hg).2.2.2.1
  have hpos : 0 < edges.length := List.length_pos_iff.mpr hc.1
  simp only [Nat.choose_one_right, Nat.sub_self, Nat.choose_zero_right, mul_one] at r0 r1
  have hle : (MGraphProps.endpoints edges).length ≤ g.verts.length := by omega
  refine ⟨?_, r0.symm, by omega⟩
  have h1 : s.dim ≤ 1 := by
    rcases ok.dim.2 with e | ⟨c, c1, c2⟩
    · omega
    · have hcell := (ok.count.2.2 c).mp c1
      have := hcell.length
      obtain ⟨l1, l2⟩ := lengths c
      omega
  obtain ⟨c, hcm⟩ := List.exists_mem_of_length_pos (show 0 < (cellsDim s 1).length by omega)
  rw [cellsDim, List.mem_filter, decide_eq_true_iff] at hcm
  have := ok.dim.1 c hcm.1
  omega

/-- **C155**, one point: for a connected multigraph with `V` vertices and `E` edges, the homology of the configuration complex for one point is that of the graph: `ℤ` in degree 0,
`ℤ^(E - V + 1)` in degree 1, nothing above. -/
theorem c155_one_point (edges : List (α × α)) (hc : ConnectedInput edges) (m : MGraph α) (hm : MGraph.ofEdges edges = some m) (g : SGraph α) (hg : SGraph.subdivide m 1 = some g) :
    ∃ s maps r, udc m 1 = some s ∧ s.boundaryMap = some maps ∧ r + (MGraphProps.endpoints edges).length = edges.length + 1 ∧
      HomologyIs maps 0 (Fin 1 → ℤ) ∧ HomologyIs maps 1 (Fin r → ℤ) ∧ ∀ d, 2 ≤ d → HomologyIs maps d (Fin 0 → ℤ) := by
  obtain ⟨s, maps, s1, s2, s3, s4⟩ := udc_maps edges hc m hm 1 (by omega) (by omega) g hg
  obtain ⟨s', maps', t1, t2, t3⟩ := c78_components edges hc m hm 1 (by omega) (by omega) g hg
  rw [s1] at t1; cases t1
  rw [s2] at t2; cases t2
  obtain ⟨hd, n0, n1⟩ := one_dim hc hm hg s1 s3
  obtain ⟨x, hx⟩ := cx_of s3 s4
  obtain ⟨b0, b1, b2, b3, b4⟩ := s4.bottom
  obtain ⟨c0, c1, c2, c3, c4⟩ := s4.entries 0 (by omega)
  have ha : c0.a = (Hom.upper maps 0).2 := by unfold Hom.upper; rw [c1]
  have hnone : ∀ d, 2 ≤ d → maps[d]? = none := fun d hd' => List.getElem?_eq_none (by rw [s4.length]; omega)
  -- degree 0
  obtain ⟨b, hb, ⟨E0⟩⟩ | ⟨hb, -⟩ := t3
  swap
  · rw [b1] at hb; cases hb
  rw [b1] at hb; cases hb
  rw [hx 0, b3] at E0
  set f := (Hom.upper maps 0).2 with hf
  have hZ : Hom.Z b0.n (cellsDim s 0).length b0.a = ⊤ := by
    unfold Hom.Z
    rw [LinearMap.ker_eq_top]
    have : Smith.mat b0.n (cellsDim s 0).length b0.a = 0 := by
      ext i j
      exact b4 i j
    rw [this]
    exact Matrix.mulVecLin_zero
  have e0 : finrank ℤ (Hom.HGrp b0.n (cellsDim s 0).length (cellsDim s 1).length b0.a f) = 1 := by
    rw [E0.toIntLinearEquiv.finrank_eq]; simp
  have e1 : finrank ℤ (Hom.HGrp b0.n (cellsDim s 0).length (cellsDim s 1).length b0.a f) + finrank ℤ (Hom.Bd (cellsDim s 0).length (cellsDim s 1).length f) = g.verts.length := by
    rw [Simp.finrank_quot (by rw [hZ]; exact le_top), hZ, finrank_top]
    simp [n0]
  -- degree 1
  have e2 : finrank ℤ (Hom.Bd (cellsDim s 0).length (cellsDim s 1).length f) + finrank ℤ (Hom.Z (cellsDim s 0).length (cellsDim s 1).length f) = (cellsDim s 1).length := by
    have := Submodule.finrank_quotient_add_finrank (LinearMap.ker (Smith.mat (cellsDim s 0).length (cellsDim s 1).length f).mulVecLin)
    rw [(Smith.mat (cellsDim s 0).length (cellsDim s 1).length f).mulVecLin.quotKerEquivRange.finrank_eq] at this
    rw [Module.finrank_fin_fun] at this
    exact this
  refine ⟨s, maps, finrank ℤ (Hom.Z (cellsDim s 0).length (cellsDim s 1).length f), s1, s2, by omega, Or.inl ⟨b0, b1, ?_⟩, Or.inl ⟨c0, c1, ?_⟩, fun d hd' => Or.inr ⟨hnone d hd', inferInstance⟩⟩
  · rw [hx 0, b3]; exact ⟨E0⟩
  · have hu : Hom.upper maps 1 = (0, fun _ _ => 0) := by unfold Hom.upper; rw [hnone 2 le_rfl]
    rw [hu, c2, c3, ha]
    have hbot : (Hom.Bd (cellsDim s 1).length 0 (fun _ _ => 0)).submoduleOf (Hom.Z (cellsDim s 0).length (cellsDim s 1).length f) = ⊥ := by
      have : Hom.Bd (cellsDim s 1).length 0 (fun _ _ => 0) = ⊥ := by
        unfold Hom.Bd
        rw [LinearMap.range_eq_bot]
        ext v i
        exact absurd v.2 (by omega)
      rw [this]
      simp [Submodule.submoduleOf]
    exact ⟨((Submodule.quotEquivOfEqBot _ hbot).toAddEquiv).trans ((finBasis ℤ (Hom.Z (cellsDim s 0).length (cellsDim s 1).length f)).equivFun).toAddEquiv⟩

/-- **C155**, one point, with coefficients in a field: `homology()` answers with two numbers, whose difference is the Euler characteristic of the graph. -/
theorem c155_field (edges : List (α × α)) (hc : ConnectedInput edges) (m : MGraph α) (hm : MGraph.ofEdges edges = some m) (g : SGraph α) (hg : SGraph.subdivide m 1 = some g) :
    ∃ s maps, udc m 1 = some s ∧ s.boundaryMap = some maps ∧ ∀ (K : Type) [Field K] [DecidableEq K], ∃ x y, FHom.homology (fieldMaps K maps) = some [x, y] ∧
      x + edges.length = y + (MGraphProps.endpoints edges).length := by
  obtain ⟨s, maps, s1, s2, s3, s4⟩ := udc_maps edges hc m hm 1 (by omega) (by omega) g hg
  obtain ⟨hd, n0, n1⟩ := one_dim hc hm hg s1 s3
  obtain ⟨b0, b1, b2, b3, b4⟩ := s4.bottom
  obtain ⟨c0, c1, c2, c3, c4⟩ := s4.entries 0 (by omega)
  refine ⟨s, maps, s1, s2, fun K _ _ => ?_⟩
  obtain ⟨out, a1, a2, a3⟩ := FHom.c146_chain (field_chain_of s4 K) (fun b hb i j _ _ => by
    simp only [fieldMaps, List.getElem?_map, Option.map_eq_some_iff] at hb
    obtain ⟨b', hb', rfl⟩ := hb
    rw [b1] at hb'; cases hb'
    simp [inField, b4])
  have hl : (fieldMaps K maps).length = 2 := by simp [fieldMaps, s4.length, hd]
  rw [hl] at a2 a3
  obtain ⟨x, y, rfl⟩ := List.length_eq_two.mp a2
  refine ⟨x, y, a1, ?_⟩
  have m0 : ((fieldMaps K maps)[0]?).map (·.m) = some (cellsDim s 0).length := by simp [fieldMaps, b1, b3]
  have m1 : ((fieldMaps K maps)[1]?).map (·.m) = some (cellsDim s 1).length := by simp [fieldMaps, c1, c3]
  simp only [List.range_succ, List.range_zero, List.nil_append, List.map_append, List.map_cons, List.map_nil, List.sum_append, List.sum_cons, List.sum_nil, m0, m1, Option.getD_some] at a3
  simp at a3
  omega

/-- the listed cells for one point -/
theorem one_listed {g : RawGraph} (h : TreeGraph g) (h2 : 2 ≤ g.n) (upper : Option Nat) :
    ∃ s, Morse.ofGraph g 1 upper = some s ∧ ∀ c, c ∈ mlist s ↔ c = [.vertex 0] ∨ ∃ x y, c = [.edge x y] ∧ x < y ∧ Edge g x y ∧ y ≠ x + 1 := by
  obtain ⟨es, s, e1, e2, e3, s1, s2⟩ := morse_done h h2 (k := 1) (by omega) (Or.inl (by omega)) upper
  refine ⟨s, s1, fun c => ?_⟩
  rw [mlist_eq s2]
  have : Morse.mcells g (g.vertexIter ++ es) upper 1 = ((g.vertexIter ++ es).filter (fun f => decide (f ∈ Morse.start (g.vertexIter ++ es)))).map (fun f => [f]) := by
    unfold Morse.mcells Morse.menum
    rw [if_pos rfl, Morse.mconts_nil]
    rfl
  rw [this]
  simp only [List.mem_map, List.mem_filter, decide_eq_true_iff]
  constructor
  · rintro ⟨f, ⟨hf, hs⟩, rfl⟩
    rcases (Morse.mem_start e2).mp hs with rfl | ⟨x, y, rfl, hm, hy⟩
    · exact Or.inl rfl
    · obtain ⟨a, b⟩ : x < y ∧ Edge g x y := (e3 _).mp hm
      exact Or.inr ⟨x, y, rfl, a, b, hy⟩
  · rintro (rfl | ⟨x, y, rfl, a, b, hy⟩)
    · have h0 : FactorOf g (.vertex 0) := show 0 < g.n by omega
      exact ⟨_, ⟨(e3 _).mpr h0, (Morse.mem_start e2).mpr (Or.inl rfl)⟩, rfl⟩
    · have h0 : FactorOf g (.edge x y) := ⟨a, b⟩
      exact ⟨_, ⟨(e3 _).mpr h0, (Morse.mem_start e2).mpr (Or.inr ⟨x, y, rfl, (e3 _).mpr h0, hy⟩)⟩, rfl⟩

/-- **C155**, one point, the discrete Morse complex: the computed homology is `ℤ` in degree 0 and, in degree 1, free with one generator for each edge of the subdivided graph that does
not join consecutively numbered vertices. That is the homology of the configuration complex (`c155_one_point`) exactly if all consecutively numbered vertices are joined. -/
theorem c155_morse [LinearOrder (List Factor)] (edges : List (α × α)) (hc : ConnectedInput edges) (m : MGraph α) (hm : MGraph.ofEdges edges = some m) (g : SGraph α)
    (hg : SGraph.subdivide m 1 = some g) (upper : Option Nat) :
    ∃ (s : Cplx) (L : Finset (Nat × Nat)), Morse.new m 1 upper = some s ∧ (∀ e, e ∈ L ↔ e.1 < e.2 ∧ Edge g.data e.1 e.2 ∧ e.2 ≠ e.1 + 1) ∧
      (L.card + (MGraphProps.endpoints edges).length = edges.length + 1 ↔ ∀ x, x + 1 < g.verts.length → Edge g.data x (x + 1)) ∧
      ∀ fuel, g.verts.length < fuel → ∃ maps f0 res, Morse.boundaryMap g.data fuel s = some maps ∧ (∀ fuel', f0 ≤ fuel' → Hom.new fuel' maps none = some res) ∧
        AnswerIs res 0 (Fin 1 → ℤ) ∧ AnswerIs res 1 (Fin L.card → ℤ) ∧ ∀ d, 2 ≤ d → AnswerIs res d (Fin 0 → ℤ) := by
  classical
  obtain ⟨-, k2, -⟩ := c57_subdivision edges hc m hm 1 (by omega) g hg
  obtain ⟨hT, -⟩ := subdivide_tree edges hc m hm 1 (by omega) g hg
  have hn := subdivided_size edges hc m hm 1 (by omega) g hg
  obtain ⟨s, t1, t2⟩ := one_listed hT (by omega) upper
  have s1 : Morse.new m 1 upper = some s := by unfold Morse.new; rw [hg]; exact t1
  obtain ⟨s', q1, q2, -⟩ := c76_cells_partial edges hc m hm 1 (by omega) (by omega) g hg upper
  rw [s1] at q1; cases q1
  obtain ⟨Es, hEs, hcount⟩ := c155_edges edges hc m hm 1 (by omega) g hg
  have hdim : ∀ c ∈ mlist s, dimC c ≤ 1 := by
    intro c hcm
    rcases (t2 c).mp hcm with rfl | ⟨x, y, rfl, -⟩ <;> simp [dimC_eq, Factor.isEdge]
  let L := Es.filter (fun e => e.2 ≠ e.1 + 1)
  have hL : ∀ e, e ∈ L ↔ e.1 < e.2 ∧ Edge g.data e.1 e.2 ∧ e.2 ≠ e.1 + 1 := fun e => by
    simp only [L, Finset.mem_filter, hEs]; tauto
  have hlen : (mlistDim s 1).length = L.card := by
    have hnd : (mlistDim s 1).Nodup := q2.nodup.1.filter _
    rw [← List.toFinset_card_of_nodup hnd]
    have : (mlistDim s 1).toFinset = L.image (fun e => [Factor.edge e.1 e.2]) := by
      ext c
      rw [List.mem_toFinset, mlistDim, List.mem_filter, t2, decide_eq_true_iff, Finset.mem_image]
      constructor
      · rintro ⟨rfl | ⟨x, y, rfl, a, b, d⟩, h1⟩
        · simp [dimC_eq, Factor.isEdge] at h1
        · exact ⟨(x, y), (hL _).mpr ⟨a, b, d⟩, rfl⟩
      · rintro ⟨e, he, rfl⟩
        obtain ⟨a, b, d⟩ := (hL _).mp he
        exact ⟨Or.inr ⟨_, _, rfl, a, b, d⟩, by simp [dimC_eq, Factor.isEdge]⟩
    rw [this, Finset.card_image_of_injective]
    rintro ⟨a, b⟩ ⟨a', b'⟩ e
    simpa using e
  refine ⟨s, L, s1, hL, ?_, fun fuel hf => ?_⟩
  · -- the edges between consecutive vertices
    have hsplit : (Es.filter (fun e => e.2 = e.1 + 1)).card + L.card = Es.card := by
      have := Finset.card_filter_add_card_filter_not (s := Es) (fun e : Nat × Nat => e.2 = e.1 + 1)
      exact this
    have hcons : (Es.filter (fun e => e.2 = e.1 + 1)).card = ((Finset.range (g.verts.length - 1)).filter (fun x => Edge g.data x (x + 1))).card := by
      rw [← Finset.card_image_of_injective (f := fun x : Nat => (x, x + 1)) _ (fun a b e => (Prod.mk.inj e).1)]
      congr 1
      ext ⟨x, y⟩
      simp only [Finset.mem_filter, Finset.mem_image, Finset.mem_range, hEs, Prod.mk.injEq]
      constructor
      · rintro ⟨⟨a, b⟩, rfl⟩
        have := edge_bounds hT.built a b
        exact ⟨x, ⟨by omega, b⟩, rfl, rfl⟩
      · rintro ⟨x, ⟨a, b⟩, rfl, rfl⟩
        exact ⟨⟨by omega, b⟩, rfl⟩
    have hle : ((Finset.range (g.verts.length - 1)).filter (fun x => Edge g.data x (x + 1))).card ≤ g.verts.length - 1 := by
      have := Finset.card_filter_le (Finset.range (g.verts.length - 1)) (fun x => Edge g.data x (x + 1))
      simpa using this
    have hiff : ((Finset.range (g.verts.length - 1)).filter (fun x => Edge g.data x (x + 1))).card = g.verts.length - 1 ↔ ∀ x, x + 1 < g.verts.length → Edge g.data x (x + 1) := by
      have := Finset.card_filter_eq_iff (s := Finset.range (g.verts.length - 1)) (p := fun x => Edge g.data x (x + 1))
      rw [Finset.card_range] at this
      rw [this]
      simp only [Finset.mem_range]
      exact ⟨fun h x hx => h x (by omega), fun h x hx => h x (by omega)⟩
    rw [← hiff]
    omega
  · obtain ⟨maps, f0, res, r1, r2, r3, r4, r5⟩ := c76_homology_partial edges hc m hm 1 (by omega) (by omega) g hg upper s s1 (Or.inr hdim) fuel (by omega)
    have hd1 : s.dim ≤ 1 := by
      rcases q2.dim.2 with e | ⟨c, c1, c2⟩
      · omega
      · have := hdim c c1; omega
    refine ⟨maps, f0, res, r1, r2, ?_, ?_, fun d hd => Or.inr ⟨List.getElem?_eq_none (by omega), inferInstance⟩⟩
    · obtain ⟨o, o1, -, o3⟩ := r4
      exact Or.inl ⟨o, o1, o3⟩
    · by_cases hd : s.dim = 1
      · obtain ⟨o, o1, -, o3⟩ := r5 hd
        rw [← hlen]
        exact Or.inl ⟨o, o1, o3⟩
      · right
        refine ⟨List.getElem?_eq_none (by omega), ?_⟩
        have : mlistDim s 1 = [] := by
          rw [List.eq_nil_iff_forall_not_mem]
          intro c hc
          obtain ⟨h1, h2⟩ := List.mem_filter.mp hc
          have := q2.dim.1 c h1
          rw [decide_eq_true_iff] at h2
          omega
        rw [← hlen, this]
        exact (inferInstance : Subsingleton (Fin 0 → ℤ))

/-- So the answer is wrong for the tree with three edges: there the vertices 4 and 5 of the subdivided graph are not joined. -/
example : ((MGraph.ofEdges fork).bind (fun m => SGraph.subdivide m 1)).map (fun g => (g.verts.length, (List.range 6).map (fun x => g.data.contains x (x + 1)))) =
    some (7, [some true, some true, some true, some true, some false, some true]) := by decide +kernel

/-- the hypotheses are met: a triangle with a tail, four vertices and four edges; the complex for one point has eight vertices and eight edges -/
example : ((MGraph.ofEdges [((0 : Nat), 1), (1, 2), (2, 0), (2, 3)]).bind (fun m => udc m 1)).map (fun s => (s.dim, s.ranks)) = some (1, [8, 8]) := by decide +kernel

end Toppo.CubeProps
