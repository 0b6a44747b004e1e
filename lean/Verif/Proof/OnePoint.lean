import Verif.Proof.SubdivideRoot
import Verif.Props.SubdivideRoot
import Verif.Props.CubeCount
import Mathlib.Data.Sym.Sym2
set_option linter.unusedVariables false

/-! Counting the edges of the subdivided graph (C155). -/
namespace Toppo.SubdivideProps
open Toppo RawGraph SGraph MGraphProps GraphProps Subdiv
variable {α : Type} [DecidableEq α]

/-- no strand has length two with equal ends -/
theorem Pre.not_ess {lab : Nat → α} {n V : Nat} {c : Nat → Nat → Nat} {g : SGraph α} (h : Pre lab n V c g) {s : Strand} {l : Nat} {a : α} (h1 : 1 ≤ l) (h2 : l ≤ mid n s) :
    pt lab n s l ≠ .essential a := by
  intro e
  unfold pt at e
  rw [if_neg (by omega), if_neg (by omega)] at e
  cases e

theorem pt_ess_cases {lab : Nat → α} {n : Nat} {s : Strand} {l : Nat} (hl : l ≤ mid n s + 1) : (1 ≤ l ∧ l ≤ mid n s) ∨ (l = 0 ∧ pt lab n s l = .essential (lab s.1)) ∨
    (l = mid n s + 1 ∧ pt lab n s l = .essential (lab s.2.1)) := by
  by_cases h0 : l = 0
  · subst h0; right; left; exact ⟨rfl, by simp [pt]⟩
  · by_cases h1 : l = mid n s + 1
    · subst h1; right; right; exact ⟨rfl, by simp [pt]⟩
    · left; omega

/-- a piece of a strand determines the strand and its place -/
theorem Pre.piece_inj {lab : Nat → α} {n V : Nat} {c : Nat → Nat → Nat} {g : SGraph α} (h : Pre lab n V c g) {s t : Strand} (hs : s ∈ allStrands V c) (ht : t ∈ allStrands V c)
    {l l' : Nat} (hl : l ≤ mid n s) (hl' : l' ≤ mid n t) (e : s(pt lab n s l, pt lab n s (l + 1)) = s(pt lab n t l', pt lab n t (l' + 1))) : s = t ∧ l = l' := by
  have hp := h.mid_pos s
  have hst : s = t := by
    rw [Sym2.eq_iff] at e
    by_cases q : 1 ≤ l
    · rcases e with ⟨a, -⟩ | ⟨a, -⟩
      · exact (h.pt_inj hs ht q hl (by omega) a).1
      · exact (h.pt_inj hs ht q hl (by omega) a).1
    · rcases e with ⟨-, a⟩ | ⟨-, a⟩
      · exact (h.pt_inj hs ht (by omega) (by omega) (by omega) a).1
      · exact (h.pt_inj hs ht (by omega) (by omega) (by omega) a).1
  subst hst
  refine ⟨rfl, ?_⟩
  -- two different places that share the pair
  have key : ∀ l, l + 1 ≤ mid n s → pt lab n s l ≠ pt lab n s (l + 2) := by
    intro l hl a
    rcases pt_ess_cases (lab := lab) (n := n) (s := s) (l := l) (by omega) with q | ⟨q, q'⟩ | ⟨q, -⟩
    · have := (h.pt_inj hs hs q.1 q.2 (by omega) a).2
      omega
    · rcases pt_ess_cases (lab := lab) (n := n) (s := s) (l := l + 2) (by omega) with r | ⟨r, -⟩ | ⟨r, r'⟩
      · rw [q'] at a
        exact h.not_ess r.1 r.2 a.symm
      · omega
      · rw [q', r'] at a
        have hm := mem_allStrands.mp hs
        have := h.inj _ _ (by omega) hm.2.1 (SVertex.essential.inj a)
        have := h.mid_loop this
        omega
    · omega
  rw [Sym2.eq_iff] at e
  have main : ∀ l l', l ≤ mid n s → l' ≤ mid n s → (pt lab n s l = pt lab n s l' ∧ pt lab n s (l + 1) = pt lab n s (l' + 1)) ∨
      (pt lab n s l = pt lab n s (l' + 1) ∧ pt lab n s (l + 1) = pt lab n s l') → l = l' := by
    intro l l' hl hl' e
    rcases e with ⟨a, b⟩ | ⟨a, b⟩
    · by_cases q : 1 ≤ l
      · exact (h.pt_inj hs hs q hl (by omega) a).2
      · have := (h.pt_inj hs hs (show 1 ≤ l + 1 by omega) (by omega) (by omega) b).2
        omega
    · by_cases q : 1 ≤ l
      · have := (h.pt_inj hs hs q hl (by omega) a).2
        subst this
        exact absurd b.symm (key l' (by omega))
      · have := (h.pt_inj hs hs (show 1 ≤ l + 1 by omega) (by omega) (by omega) b).2
        subst this
        exact absurd a (key l (by omega))
  exact main l l' hl hl' e

/-- the number of strands -/
theorem strands_length (edges : List (α × α)) (V : Nat) (lab : Nat → α) (hinj : ∀ i j, i < V → j < V → lab i = lab j → i = j)
    (hsurj : ∀ e ∈ edges, (∃ i, i < V ∧ lab i = e.1) ∧ ∃ j, j < V ∧ lab j = e.2) :
    (allStrands V (fun i j => joining edges (lab i) (lab j))).length = edges.length := by
  have h := total_mid edges 1 V lab hinj hsurj
  have h1 : (allStrands V (fun i j => joining edges (lab i) (lab j))).map (mid 1) = (allStrands V (fun i j => joining edges (lab i) (lab j))).map (fun _ => 1) := by
    apply List.map_congr_left
    intro s _
    unfold mid
    split <;> rfl
  rw [h1] at h
  simp only [List.map_const', List.sum_replicate, smul_eq_mul, mul_one] at h
  rw [h]
  unfold loops
  rw [List.length_eq_countP_add_countP (fun e : α × α => decide (e.1 ≠ e.2)) (l := edges)]
  simp

/-- the number of edges of the subdivided graph -/
theorem subdivided_edges (edges : List (α × α)) (hc : ConnectedInput edges) (m : MGraph α) (hm : MGraph.ofEdges edges = some m) (points : Nat)
    (hp : points + 1 < 2 ^ 63) (g : SGraph α) (hg : SGraph.subdivide m points = some g) (Es : Finset (Nat × Nat)) (hEs : ∀ e, e ∈ Es ↔ e.1 < e.2 ∧ Edge g.data e.1 e.2) :
    Es.card + (MGraphProps.endpoints edges).length = edges.length + g.verts.length := by
  classical
  obtain ⟨k1, k2, -, -, -, k6, k7, -⟩ := c57_subdivision edges hc m hm points hp g hg
  have k7 : Built g.data := k7
  obtain ⟨lab, V, g0, hV, hlab, p1, p2, p3, p4, p5⟩ := preTree_spec edges hc.1 m hm points hp
  have hn2 : 2 ≤ max points 2 := by omega
  have hn3 : max points 2 + 1 < 2 ^ 63 := by omega
  obtain ⟨i1, i2, i3⟩ := next_iff edges hn2 hn3 lab V hV hlab
  have hinj : ∀ i j, i < V → j < V → lab i = lab j → i = j := by
    intro i j hi hj h
    have h1 := hlab i hi
    rw [h] at h1
    exact getElem?_inj_of_nodup (endpoints_nodup edges) h1 (hlab j hj)
  have idx : ∀ a, a ∈ MGraphProps.endpoints edges → ∃ i, i < V ∧ lab i = a := by
    intro a ha
    obtain ⟨i, hi, e⟩ := List.getElem_of_mem ha
    have := hlab i (by omega)
    rw [List.getElem?_eq_getElem hi, e] at this
    exact ⟨i, by omega, (Option.some.inj this).symm⟩
  have hsurj : ∀ e ∈ edges, (∃ i, i < V ∧ lab i = e.1) ∧ ∃ j, j < V ∧ lab j = e.2 := fun e he =>
    ⟨idx _ (mem_endpoints.mpr ⟨e, he, Or.inl rfl⟩), idx _ (mem_endpoints.mpr ⟨e, he, Or.inr rfl⟩)⟩
  have hpre : Pre lab (max points 2) V (fun i j => joining edges (lab i) (lab j)) g0 := ⟨hn2, hn3, hinj, p2, p3, p4⟩
  set S := allStrands V (fun i j => joining edges (lab i) (lab j)) with hS
  have hSn : S.Nodup := allStrands_nodup V _
  -- the pieces
  let P : Finset (Sigma fun _ : Strand => Nat) := S.toFinset.sigma (fun s => Finset.range (mid (max points 2) s + 1))
  let φ : (Sigma fun _ : Strand => Nat) → Sym2 (SVertex α) := fun q => s(pt lab (max points 2) q.1 q.2, pt lab (max points 2) q.1 (q.2 + 1))
  have hφ : Set.InjOn φ P := by
    rintro ⟨s, l⟩ h1 ⟨t, l'⟩ h2 e
    simp only [P, Finset.coe_sigma, Set.mem_sigma_iff, Finset.mem_coe, List.mem_toFinset, Finset.mem_range] at h1 h2
    obtain ⟨rfl, rfl⟩ := hpre.piece_inj h1.1 h2.1 (Nat.lt_succ_iff.mp (Set.mem_Iio.mp (by simpa using h1.2))) (Nat.lt_succ_iff.mp (Set.mem_Iio.mp (by simpa using h2.2))) e
    rfl
  -- the edges
  have hmemv : ∀ u v, Next lab (max points 2) S u v → ∃ (x y : Nat), g.verts[x]? = some u ∧ g.verts[y]? = some v := by
    rintro u v ⟨s, hs, l, hl, rfl, rfl⟩
    have q := i3 s hs
    have hst : IsStrand edges (lab s.1) (lab s.2.1) s.2.2 := (i1 _ _ _).mpr ⟨s, hs, rfl, rfl, rfl⟩
    have hv := (c57_subdivision edges hc m hm points hp g hg).2.2.2.2.1
    have e1 := (hv (pt lab (max points 2) s l)).mpr ⟨_, _, _, l, hst, by rw [q.1]; omega, (q.2 l (by omega) _).mpr rfl⟩
    have e2 := (hv (pt lab (max points 2) s (l + 1))).mpr ⟨_, _, _, l + 1, hst, by rw [q.1]; omega, (q.2 (l + 1) (by omega) _).mpr rfl⟩
    obtain ⟨x, hx, ex⟩ := List.getElem_of_mem e1
    obtain ⟨y, hy, ey⟩ := List.getElem_of_mem e2
    exact ⟨x, y, by rw [List.getElem?_eq_getElem hx, ex], by rw [List.getElem?_eq_getElem hy, ey]⟩
  let ψ : Nat × Nat → Sym2 (Option (SVertex α)) := fun e => s(g.verts[e.1]?, g.verts[e.2]?)
  have hψ : Set.InjOn ψ Es := by
    rintro ⟨x, y⟩ h1 ⟨x', y'⟩ h2 e
    rw [Finset.mem_coe, hEs] at h1 h2
    have b1 := CubeProps.edge_bounds k7 h1.1 h1.2
    have b2 := CubeProps.edge_bounds k7 h2.1 h2.2
    have inj : ∀ a b, a < g.data.n → b < g.data.n → g.verts[a]? = g.verts[b]? → a = b := by
      intro a b ha hb e
      rw [k2] at ha hb
      rw [List.getElem?_eq_getElem ha, List.getElem?_eq_getElem hb] at e
      exact (List.Nodup.getElem_inj_iff k1).mp (Option.some.inj e)
    simp only [ψ, Sym2.eq_iff] at e
    simp only at h1 h2 b1 b2
    rcases e with ⟨a, b⟩ | ⟨a, b⟩
    · rw [inj _ _ b1.1 b2.1 a, inj _ _ b1.2 b2.2 b]
    · have := inj _ _ b1.1 b2.2 a
      have := inj _ _ b1.2 b2.1 b
      omega
  have himg : Es.image ψ = (P.image φ).image (Sym2.map some) := by
    ext z
    simp only [Finset.mem_image, exists_exists_and_eq_and]
    constructor
    · rintro ⟨⟨x, y⟩, he, rfl⟩
      obtain ⟨u, v, hu, hv, hor⟩ := (k6 x y).mp ((hEs _).mp he).2
      rw [← i2, ← i2] at hor
      rcases hor with ⟨s, hs, l, hl, rfl, rfl⟩ | ⟨s, hs, l, hl, rfl, rfl⟩
      · refine ⟨⟨s, l⟩, ?_, ?_⟩
        · simp only [P, Finset.mem_sigma, List.mem_toFinset, Finset.mem_range]
          exact ⟨hs, by omega⟩
        · simp only [φ, ψ, Sym2.map_mk, hu, hv]
      · refine ⟨⟨s, l⟩, ?_, ?_⟩
        · simp only [P, Finset.mem_sigma, List.mem_toFinset, Finset.mem_range]
          exact ⟨hs, by omega⟩
        · simp only [φ, ψ, Sym2.map_mk, hu, hv]
          exact Sym2.eq_swap
    · rintro ⟨⟨s, l⟩, hq, rfl⟩
      simp only [P, Finset.mem_sigma, List.mem_toFinset, Finset.mem_range] at hq
      have hN : Next lab (max points 2) S (pt lab (max points 2) s l) (pt lab (max points 2) s (l + 1)) := ⟨s, hq.1, l, by omega, rfl, rfl⟩
      obtain ⟨x, y, hx, hy⟩ := hmemv _ _ hN
      have hxy : Edge g.data x y := (k6 x y).mpr ⟨_, _, hx, hy, Or.inl ((i2 _ _).mp hN)⟩
      have hyx : Edge g.data y x := (k6 y x).mpr ⟨_, _, hy, hx, Or.inr ((i2 _ _).mp hN)⟩
      rcases lt_trichotomy x y with h | h | h
      · exact ⟨(x, y), (hEs _).mpr ⟨h, hxy⟩, by simp only [φ, ψ, Sym2.map_mk, hx, hy]⟩
      · exfalso
        subst h
        unfold Edge RawGraph.contains RawGraph.rawIdx at hxy
        simp at hxy
      · exact ⟨(y, x), (hEs _).mpr ⟨h, hyx⟩, by simp only [φ, ψ, Sym2.map_mk, hx, hy]; exact Sym2.eq_swap⟩
  have hcard : Es.card = P.card := by
    rw [← Finset.card_image_of_injOn hψ, himg, Finset.card_image_of_injective _ (Sym2.map.injective (Option.some_injective _)), Finset.card_image_of_injOn hφ]
  have hP : P.card = (S.map (mid (max points 2))).sum + S.length := by
    simp only [P, Finset.card_sigma, Finset.card_range]
    rw [List.sum_toFinset _ hSn, List.sum_map_add]
    simp
  have hlen := strands_length edges V lab hinj hsurj
  have htot := total_mid edges (max points 2) V lab hinj hsurj
  have h4 := (c57_subdivision edges hc m hm points hp g hg).2.2.2.1
  rw [hcard, hP, hlen, htot, h4]
  unfold loops
  omega

end Toppo.SubdivideProps
