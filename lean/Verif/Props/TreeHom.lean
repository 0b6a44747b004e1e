import Verif.Props.MorseTree
import Verif.Proof.TreeH1
set_option linter.unusedVariables false

/-
C78: the homology of configuration spaces of trees in degrees 0 and 1, and what the discrete Morse complex says about it.
-/
namespace Toppo.CubeProps
open Toppo RawGraph Cub GraphProps EdgePath MGraphProps Toppo.SubdivideProps

/-! ### Specification -/

/-- The homology in degree `d` of a chain complex, given by its boundary maps (from degree 0 up), is the group `A`: cycles modulo boundaries; trivial above the top degree. -/
def HomologyIs {B : Type} (maps : List (Hom.BMap B)) (d : Nat) (A : Type) [AddCommGroup A] : Prop :=
  (∃ b, maps[d]? = some b ∧ Nonempty (Hom.HGrp b.n b.m (Hom.upper maps d).1 b.a (Hom.upper maps d).2 ≃+ A)) ∨ (maps[d]? = none ∧ Subsingleton A)

/-- The computed homology in degree `d` is the group `A`; trivial if there is no entry. -/
def AnswerIs {B : Type} (res : List (Hom.Out B)) (d : Nat) (A : Type) [AddCommGroup A] : Prop :=
  (∃ o, res[d]? = some o ∧ Nonempty (ModProps.Grp o.module ≃+ A)) ∨ (res[d]? = none ∧ Subsingleton A)

/-! ### Proofs -/

/-- the lists of cells and the boundary maps of a configuration complex -/
theorem cx_of {g : RawGraph} {k : Nat} {s : Cplx} (hs : CellsOK g k s) {maps : List (Hom.BMap (List Factor))} (hb : BoundaryOK s maps) :
    Cx g k (cellsDim s 0) (cellsDim s 1) (cellsDim s 2) (Hom.upper maps 0).2 (Hom.upper maps 1).2 ∧ ∀ d, (Hom.upper maps d).1 = (cellsDim s (d + 1)).length := by
  have hmem : ∀ d c, c ∈ cellsDim s d ↔ IsCell g k c ∧ dimC c = d := by
    intro d c
    unfold cellsDim
    rw [List.mem_filter, decide_eq_true_iff, hs.count.2.2]
  have hemp : ∀ d, s.dim ≤ d → cellsDim s (d + 1) = [] ∧ maps[d + 1]? = none := by
    intro d hd
    refine ⟨?_, List.getElem?_eq_none (by rw [hb.length]; omega)⟩
    rw [List.eq_nil_iff_forall_not_mem]
    intro c hc
    obtain ⟨h1, h2⟩ := List.mem_filter.mp hc
    have := hs.dim.1 c h1
    rw [decide_eq_true_iff] at h2
    omega
  have hent : ∀ d, (Hom.upper maps d).1 = (cellsDim s (d + 1)).length ∧
      ∀ (i : Fin (cellsDim s d).length) (j : Fin (cellsDim s (d + 1)).length), (Hom.upper maps d).2 i j = incidence (cellsDim s (d + 1))[j] (cellsDim s d)[i] := by
    intro d
    by_cases hd : d < s.dim
    · obtain ⟨b, b1, b2, b3, b4⟩ := hb.entries d hd
      unfold Hom.upper
      rw [b1]
      exact ⟨b3, fun i j => b4 i j _ _ (List.getElem?_eq_getElem i.2) (List.getElem?_eq_getElem j.2)⟩
    · obtain ⟨e1, e2⟩ := hemp d (by omega)
      unfold Hom.upper
      rw [e2]
      refine ⟨by rw [e1]; rfl, fun i j => ?_⟩
      exact absurd (lt_of_lt_of_eq j.2 (congrArg List.length e1)) (by simp)
  exact ⟨⟨hmem 0, hmem 1, hmem 2, hs.count.2.1.filter _, hs.count.2.1.filter _, (hent 0).2, (hent 1).2⟩, fun d => (hent d).1⟩

variable {α : Type} [DecidableEq α]

/-- a tree has a vertex that is the end of exactly one edge, which is not a loop -/
theorem tree_leaf (edges : List (α × α)) (ht : TreeInput edges) : ∃ a, edges.countP (fun e => decide (e.1 = a ∨ e.2 = a)) = 1 ∧ (a, a) ∉ edges := by
  obtain ⟨⟨hne, hconn⟩, hcount⟩ := ht
  have hnd : (MGraphProps.endpoints edges).Nodup := endpoints_nodup edges
  -- counting ends
  have hsum : ∀ es : List (α × α), ((MGraphProps.endpoints edges).map (fun a => es.countP (fun e => decide (e.1 = a ∨ e.2 = a)))).sum ≤ 2 * es.length := by
    intro es
    induction es with
    | nil => simp
    | cons e es ih =>
      have h1 : ((MGraphProps.endpoints edges).map (fun a => (e :: es).countP (fun e => decide (e.1 = a ∨ e.2 = a)))).sum =
          ((MGraphProps.endpoints edges).map (fun a => es.countP (fun e => decide (e.1 = a ∨ e.2 = a)))).sum +
          ((MGraphProps.endpoints edges).map (fun a => if e.1 = a ∨ e.2 = a then 1 else 0)).sum := by
        rw [← List.sum_map_add]
        congr 1
        apply List.map_congr_left
        intro a _
        rw [List.countP_cons]
        simp
      have h2 : ∀ L : List α, L.Nodup → (L.map (fun a => if e.1 = a ∨ e.2 = a then 1 else 0)).sum ≤ 2 := by
        intro L hL
        have h3 : ∀ L : List α, (L.map (fun a => if e.1 = a ∨ e.2 = a then 1 else 0)).sum ≤ L.count e.1 + L.count e.2 := by
          intro L
          induction L with
          | nil => simp
          | cons a L ih =>
            rw [List.map_cons, List.sum_cons, List.count_cons, List.count_cons]
            have : (if e.1 = a ∨ e.2 = a then 1 else 0) ≤ (if a == e.1 then 1 else 0) + (if a == e.2 then 1 else 0) := by
              simp only [beq_iff_eq]
              by_cases g1 : e.1 = a
              · rw [if_pos (Or.inl g1), if_pos g1.symm]; omega
              · by_cases g2 : e.2 = a
                · rw [if_pos (Or.inr g2), if_pos g2.symm]; omega
                · rw [if_neg (by tauto)]; omega
            omega
        have h4 := List.nodup_iff_count_le_one.mp hL e.1
        have h5 := List.nodup_iff_count_le_one.mp hL e.2
        have := h3 L
        omega
      have := h2 _ hnd
      rw [h1, List.length_cons]
      omega
  -- one vertex has a single edge
  have hex : ∃ a ∈ MGraphProps.endpoints edges, edges.countP (fun e => decide (e.1 = a ∨ e.2 = a)) ≤ 1 := by
    by_contra hcon
    push Not at hcon
    have h1 : ∀ L : List α, (∀ a ∈ L, 1 < edges.countP (fun e => decide (e.1 = a ∨ e.2 = a))) → 2 * L.length ≤ (L.map (fun a => edges.countP (fun e => decide (e.1 = a ∨ e.2 = a)))).sum := by
      intro L
      induction L with
      | nil => simp
      | cons a L ih =>
        intro h
        have := h a (by simp)
        have := ih (fun b hb => h b (by simp [hb]))
        rw [List.map_cons, List.sum_cons, List.length_cons]
        omega
    have := h1 _ hcon
    have := hsum edges
    omega
  obtain ⟨a, a1, a2⟩ := hex
  have a3 : 0 < edges.countP (fun e => decide (e.1 = a ∨ e.2 = a)) := by
    obtain ⟨e, he, hea⟩ := mem_endpoints.mp a1
    exact List.countP_pos_iff.mpr ⟨e, he, by rcases hea with h | h <;> simp [h]⟩
  refine ⟨a, by omega, ?_⟩
  intro hloop
  -- the loop would be the only edge at its end
  have honly : ∀ e ∈ edges, e.1 = a ∨ e.2 = a → e = (a, a) := by
    intro e he hea
    by_contra hne'
    have hsub : [e, (a, a)].Subperm (edges.filter (fun e => decide (e.1 = a ∨ e.2 = a))) := by
      refine List.subperm_of_subset (by simp [hne']) ?_
      intro z hz
      rw [List.mem_filter]
      rcases List.mem_cons.mp hz with rfl | hz
      · exact ⟨he, by simpa using hea⟩
      · rw [List.mem_singleton] at hz
        subst hz
        exact ⟨hloop, by simp⟩
    have := hsub.length_le
    rw [← List.countP_eq_length_filter] at this
    simp at this
    simp at a2
    omega
  have hreach : ∀ b, Relation.ReflTransGen (fun x y => 0 < joining edges x y) a b → b = a := by
    intro b h
    induction h with
    | refl => rfl
    | @tail c d _ h2 ih =>
      subst ih
      unfold joining at h2
      obtain ⟨e, he, hed⟩ := List.countP_pos_iff.mp h2
      rw [decide_eq_true_iff] at hed
      rcases hed with h | h
      · have := honly e he (Or.inl h.1)
        rw [← h.2, this]
      · have := honly e he (Or.inr h.2)
        rw [← h.1, this]
  have hlen : (MGraphProps.endpoints edges).length ≤ 1 := by
    have hsub : (MGraphProps.endpoints edges).Subperm [a] := by
      refine hnd.subperm ?_
      intro b hb
      rw [List.mem_singleton]
      exact hreach b (hconn a b a1 hb)
    simpa using hsub.length_le
  have : 0 < edges.length := List.length_pos_iff.mpr hne
  omega

/-- subdividing a tree succeeds -/
theorem tree_subdivide (edges : List (α × α)) (ht : TreeInput edges) (m : MGraph α) (hm : MGraph.ofEdges edges = some m) (points : Nat) (hp : points + 1 < 2 ^ 63) :
    ∃ g, SGraph.subdivide m points = some g := by
  obtain ⟨a, h1, h2⟩ := tree_leaf edges ht
  exact c57_leaf edges ht.1 m hm points hp a h1 h2

/-- the configuration complex with its boundary maps -/
theorem udc_maps (edges : List (α × α)) (hc : ConnectedInput edges) (m : MGraph α) (hm : MGraph.ofEdges edges = some m) (points : Nat) (hp0 : points ≠ 0)
    (hp : points + 1 < 2 ^ 63) (g : SGraph α) (hg : SGraph.subdivide m points = some g) :
    ∃ s maps, udc m points = some s ∧ s.boundaryMap = some maps ∧ CellsOK g.data points s ∧ BoundaryOK s maps := by
  obtain ⟨s, s1, s2⟩ := c75_udc edges hc m hm points hp0 hp g hg
  obtain ⟨s', maps, t1, t2, t3⟩ := c58_boundary_map_partial edges hc m hm points hp0 hp g hg
  rw [s1] at t1
  injection t1 with t1
  subst t1
  exact ⟨s, maps, s1, t2, s2, t3⟩

/-- **C78**, degree 0: the configuration complex of a connected multigraph is connected. -/
theorem c78_components (edges : List (α × α)) (hc : ConnectedInput edges) (m : MGraph α) (hm : MGraph.ofEdges edges = some m) (points : Nat) (hp0 : points ≠ 0)
    (hp : points + 1 < 2 ^ 63) (g : SGraph α) (hg : SGraph.subdivide m points = some g) :
    ∃ s maps, udc m points = some s ∧ s.boundaryMap = some maps ∧ HomologyIs maps 0 (Fin 1 → ℤ) := by
  obtain ⟨s, maps, s1, s2, s3, s4⟩ := udc_maps edges hc m hm points hp0 hp g hg
  obtain ⟨hT, hS⟩ := subdivide_tree edges hc m hm points hp g hg
  have hn := subdivided_size edges hc m hm points hp g hg
  refine ⟨s, maps, s1, s2, Or.inl ?_⟩
  obtain ⟨x, hx⟩ := cx_of s3 s4
  obtain ⟨b, b1, b2, b3, b4⟩ := s4.bottom
  refine ⟨b, b1, ?_⟩
  rw [hx 0, b3]
  exact x.h0 hT (fun v w hv => hS v w (by omega)) (by omega) b4

/-- **C78**, degree 1, trees: the homology group of the configuration complex is free, with one generator for each critical cell of dimension 1. -/
theorem c78_tree (edges : List (α × α)) (ht : TreeInput edges) (m : MGraph α) (hm : MGraph.ofEdges edges = some m) (points : Nat) (hp2 : 2 ≤ points)
    (hp : points + 1 < 2 ^ 63) (g : SGraph α) (hg : SGraph.subdivide m points = some g) :
    ∃ s maps, udc m points = some s ∧ s.boundaryMap = some maps ∧ ∃ crit : List (List Factor), crit.Nodup ∧
      (∀ c, c ∈ crit ↔ IsCell g.data points c ∧ property g.data c = some .critical ∧ dimC c = 1) ∧ HomologyIs maps 1 (Fin crit.length → ℤ) := by
  classical
  obtain ⟨s, maps, s1, s2, s3, s4⟩ := udc_maps edges ht.1 m hm points (by omega) hp g hg
  obtain ⟨x, hx⟩ := cx_of s3 s4
  have hcm : ∀ c, c ∈ (cellsDim s 1).filter (fun c => decide (property g.data c = some .critical)) ↔ IsCell g.data points c ∧ property g.data c = some .critical ∧ dimC c = 1 := by
    intro c
    rw [List.mem_filter, x.m1, decide_eq_true_iff]
    tauto
  refine ⟨s, maps, s1, s2, (cellsDim s 1).filter (fun c => decide (property g.data c = some .critical)), x.n1.filter _, hcm, ?_⟩
  by_cases hd : s.dim = 0
  · right
    refine ⟨List.getElem?_eq_none (by rw [s4.length]; omega), ?_⟩
    have : cellsDim s 1 = [] := by
      rw [List.eq_nil_iff_forall_not_mem]
      intro c hc
      obtain ⟨h1, h2⟩ := List.mem_filter.mp hc
      have := s3.dim.1 c h1
      rw [decide_eq_true_iff] at h2
      omega
    rw [this]
    exact (inferInstance : Subsingleton (Fin 0 → ℤ))
  · left
    obtain ⟨b, b1, b2, b3, b4⟩ := s4.entries 0 (by omega)
    refine ⟨b, b1, ?_⟩
    have ha : b.a = (Hom.upper maps 0).2 := by
      unfold Hom.upper
      rw [b1]
    rw [hx 1, b2, b3, ha]
    exact x.h1 (tree_sub edges ht m hm points hp2 hp g hg) _ (x.n1.filter _) hcm

/-- **C78**: for a tree and at least two points, the integral homology computed from the discrete Morse complex with bound 1 is, in degrees 0 and 1, the homology of the
configuration complex. -/
theorem c78_morse_homology [LinearOrder (List Factor)] (edges : List (α × α)) (ht : TreeInput edges) (m : MGraph α) (hm : MGraph.ofEdges edges = some m) (points : Nat)
    (hp2 : 2 ≤ points) (hp : points + 1 < 2 ^ 63) :
    ∃ g s, SGraph.subdivide m points = some g ∧ Morse.new m points (some 1) = some s ∧ ∀ fuel, points * g.data.n < fuel →
    ∃ maps f0 res, Morse.boundaryMap g.data fuel s = some maps ∧ (∀ fuel', f0 ≤ fuel' → Hom.new fuel' maps none = some res) ∧
    ∃ s' maps', udc m points = some s' ∧ s'.boundaryMap = some maps' ∧
      (HomologyIs maps' 0 (Fin 1 → ℤ) ∧ AnswerIs res 0 (Fin 1 → ℤ)) ∧ ∃ r, HomologyIs maps' 1 (Fin r → ℤ) ∧ AnswerIs res 1 (Fin r → ℤ) := by
  obtain ⟨g, hg⟩ := tree_subdivide edges ht m hm points hp
  obtain ⟨s, s1, -⟩ := c77_listed_partial edges ht m hm points hp2 hp g hg (some 1) (by simp)
  obtain ⟨-, l2, -⟩ := c77_low_partial edges ht m hm points hp2 hp g hg (some 1) (by simp) s s1
  obtain ⟨l3, l4⟩ := l2 1 (by omega) (by rintro e he; injection he with he; omega)
  refine ⟨g, s, hg, s1, ?_⟩
  intro fuel hf
  obtain ⟨maps, f0, res, r1, r2, r3, r4, r5⟩ := c76_homology_partial edges ht.1 m hm points (by omega) hp g hg (some 1) s s1 (Or.inl rfl) fuel hf
  obtain ⟨s', maps', t1, t2, crit, t3, t4, t5⟩ := c78_tree edges ht m hm points hp2 hp g hg
  obtain ⟨s'', maps'', q1, q2, q3⟩ := c78_components edges ht.1 m hm points (by omega) hp g hg
  rw [t1] at q1
  injection q1 with q1
  subst q1
  rw [t2] at q2
  injection q2 with q2
  subst q2
  refine ⟨maps, f0, res, r1, r2, s', maps', t1, t2, ⟨q3, ?_⟩, crit.length, t5, ?_⟩
  · obtain ⟨o, o1, -, o3⟩ := r4
    exact Or.inl ⟨o, o1, o3⟩
  · have hperm : crit.length = (mlistDim s 1).length :=
      ((List.perm_ext_iff_of_nodup t3 l3).mpr (fun c => by rw [t4, l4])).length_eq
    obtain ⟨s2, u1, u2, -⟩ := c76_cells_partial edges ht.1 m hm points (by omega) hp g hg (some 1)
    rw [s1] at u1
    injection u1 with u1
    subst u1
    by_cases hd : s.dim = 1
    · obtain ⟨o, o1, -, o3⟩ := r5 hd
      rw [hperm]
      exact Or.inl ⟨o, o1, o3⟩
    · have hle : s.dim ≤ 1 := by
        rcases u2.dim.2 with e | ⟨c, c1, c2⟩
        · omega
        · have := u2.bounded 1 rfl (by omega) c c1
          omega
      right
      refine ⟨List.getElem?_eq_none (by rw [r3]; omega), ?_⟩
      have : mlistDim s 1 = [] := by
        rw [List.eq_nil_iff_forall_not_mem]
        intro c hc
        obtain ⟨h1, h2⟩ := List.mem_filter.mp hc
        have := u2.dim.1 c h1
        rw [decide_eq_true_iff] at h2
        omega
      rw [hperm, this]
      exact (inferInstance : Subsingleton (Fin 0 → ℤ))

/-- the hypotheses are met: a tree with two branch points and two points on it; its configuration complex has cells in dimensions 0, 1 and 2 -/
example : TreeInput comb ∧ ((MGraph.ofEdges comb).bind (fun m => udc m 2)).map (fun s => (s.dim, s.ranks)) = some (2, [105, 182, 75]) :=
  ⟨comb_tree, by decide +kernel⟩

end Toppo.CubeProps
