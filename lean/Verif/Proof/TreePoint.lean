import Verif.Props.FieldComponents
import Mathlib.LinearAlgebra.Matrix.ToLinearEquiv
set_option linter.unusedVariables false

/-! The boundary matrix for one point on a tree (C158). -/
namespace Toppo.CubeProps
open Toppo RawGraph Cub GraphProps EdgePath MGraphProps Toppo.SubdivideProps Toppo.Univ Module

/-- an increasing list that just fits into an interval -/
theorem fits {l : List Nat} (h : l.Pairwise (· < ·)) : ∀ a, (∀ x ∈ l, a ≤ x ∧ x < a + l.length) → ∀ (i : Nat) x, l[i]? = some x → x = a + i := by
  induction l with
  | nil => intro a _ i x hx; simp at hx
  | cons y t ih =>
    intro a hb i x hx
    rw [List.pairwise_cons] at h
    have hy := hb y (by simp)
    have it := ih h.2 (a + 1) (fun z hz => by
      have h1 := h.1 z hz
      have h2 := hb z (by simp [hz])
      rw [List.length_cons] at h2
      omega)
    cases i with
    | succ i => have := it i x (by simpa using hx); omega
    | zero =>
      simp only [List.getElem?_cons_zero, Option.some.injEq] at hx
      subst hx
      cases t with
      | nil => simp at hy; omega
      | cons z t =>
        have h1 := h.1 z (by simp)
        have h2 := it 0 z rfl
        omega

/-- the number of a vertex, or the larger end of an edge -/
def top : Factor → Nat
  | .vertex v => v
  | .edge _ y => y

def topC (c : List Factor) : Nat := top (c.headD (.vertex 0))

theorem pairAt_mono {a b : Nat} (h : a < b) : (pairAt a).2 ≤ (pairAt b).2 := by
  by_contra hh
  have h1 := (pairAt_lt b (pairAt a).2).mp (by omega)
  have h2 := mt (pairAt_lt a (pairAt a).2).mpr (by omega)
  omega

theorem pool_sorted {g : RawGraph} (h : Built g) (h2 : 2 ≤ g.n) {pool : List Factor} (hp : g.factorIter = some pool) :
    pool.Pairwise (fun f f' => f.isEdge = f'.isEdge → top f ≤ top f') := by
  unfold factorIter at hp
  rw [edgeIter_spec (built_iff.mp h) h2, Option.map_some, Option.some.injEq] at hp
  rw [← hp, List.pairwise_append]
  refine ⟨?_, ?_, ?_⟩
  · unfold vertexIter
    rw [List.pairwise_map]
    exact List.pairwise_lt_range.imp (fun h _ => h.le)
  · have e : Factor.edge 0 1 = edgeAt 0 := rfl
    rw [e, ← List.map_cons, List.pairwise_map]
    have : (0 :: (List.range' 1 (tri g.n - 1)).filter (fun m => decide (RawGraph.E g (pairAt m).1 (pairAt m).2))).Pairwise (· < ·) := by
      rw [List.pairwise_cons]
      refine ⟨fun x hx => ?_, (List.pairwise_lt_range' ).filter _⟩
      have := (List.mem_filter.mp hx).1
      rw [List.mem_range'_1] at this
      omega
    refine List.Pairwise.imp ?_ this
    intro a b h _
    exact pairAt_mono h
  · intro a ha b hb e
    unfold vertexIter at ha
    obtain ⟨v, -, rfl⟩ := List.mem_map.mp ha
    rcases List.mem_cons.mp hb with rfl | hb
    · simp [Factor.isEdge] at e
    · obtain ⟨k, -, rfl⟩ := List.mem_map.mp hb
      simp [edgeAt, Factor.isEdge] at e

/-- the leading square of the incidence matrix of a tree in which every vertex is numbered after its parent -/
theorem leading_det {K : Type} [Field K] {A : Nat → Nat → K} {j : Nat} (x : Nat → Nat) (hx : ∀ c, c < j → x c ≤ c)
    (hA : ∀ i c, i < j → c < j → A i c = (if i = x c then 1 else 0) - (if i = c + 1 then 1 else 0)) : (LinAlg.mat j j A).det ≠ 0 := by
  intro h0
  obtain ⟨v, hv, h⟩ := Matrix.exists_vecMul_eq_zero_iff.mpr h0
  let w : Nat → K := fun i => if h : i < j then v ⟨i, h⟩ else 0
  have hw : ∀ i : Fin j, w i = v i := fun i => dif_pos i.2
  have step : ∀ c, c < j → w (c + 1) = w (x c) := by
    intro c hc
    have e := congrFun h ⟨c, hc⟩
    simp only [Matrix.vecMul, dotProduct, Pi.zero_apply] at e
    have e2 : ∑ i ∈ Finset.range j, w i * ((if i = x c then (1 : K) else 0) - (if i = c + 1 then (1 : K) else 0)) = 0 := by
      rw [Finset.sum_range]
      refine Eq.trans (Finset.sum_congr rfl (fun i _ => ?_)) e
      rw [hw i, ← hA i c i.2 hc]; rfl
    have hxc := hx c hc
    simp only [mul_sub, mul_ite, mul_one, mul_zero, Finset.sum_sub_distrib, Finset.sum_ite_eq', Finset.mem_range] at e2
    rw [if_pos (by omega)] at e2
    split at e2
    · exact (sub_eq_zero.mp e2).symm
    · next q =>
      rw [sub_zero] at e2
      rw [e2]
      exact dif_neg q
  have all : ∀ i, i ≤ j → w i = w 0 := by
    intro i
    induction i using Nat.strong_induction_on with
    | _ i ih =>
      intro hi
      cases i with
      | zero => rfl
      | succ c =>
        have hxc := hx c (by omega)
        rw [step c (by omega)]
        exact ih (x c) (by omega) (by omega)
  have hj : w j = 0 := dif_neg (by omega)
  apply hv
  funext i
  rw [← hw i, all i (by omega), ← all j le_rfl, hj]; rfl

variable {α : Type} [DecidableEq α]

/-- the cells for one point on a tree: the vertices in order, and the edges in the order of their larger ends -/
theorem tree_cells (edges : List (α × α)) (hc : ConnectedInput edges) (m : MGraph α) (hm : MGraph.ofEdges edges = some m) (ht : edges.length + 1 = (MGraphProps.endpoints edges).length)
    (g : SGraph α) (hg : SGraph.subdivide m 1 = some g) :
    ∃ s maps, udc m 1 = some s ∧ s.boundaryMap = some maps ∧ CellsOK g.data 1 s ∧ BoundaryOK s maps ∧ s.dim = 1 ∧ (cellsDim s 0).length = g.data.n ∧ (cellsDim s 1).length + 1 = g.data.n ∧
      (∀ (i : Nat) c, (cellsDim s 0)[i]? = some c → c = [.vertex i]) ∧
      (∀ (j : Nat) c, (cellsDim s 1)[j]? = some c → ∃ x, x ≤ j ∧ c = [.edge x (j + 1)]) := by
  classical
  obtain ⟨-, k2, -⟩ := c57_subdivision edges hc m hm 1 (by omega) g hg
  obtain ⟨hT, -⟩ := subdivide_tree edges hc m hm 1 (by omega) g hg
  have hn := subdivided_size edges hc m hm 1 (by omega) g hg
  have hn : 2 ≤ g.data.n := by omega
  obtain ⟨s, maps, s1, s2, s3, s4⟩ := udc_maps edges hc m hm 1 (by omega) (by omega) g hg
  obtain ⟨hd, n0, n1⟩ := one_dim hc hm hg s1 s3
  obtain ⟨pool, p1, p2, p3⟩ := pool_spec hT.built hn (edge01 hT hn)
  obtain ⟨s', q1, q2⟩ := ofGraph_spec p1 p2.nodup p2.range hn 0 (by omega)
  have : s' = s := by
    unfold udc at s1
    rw [hg] at s1
    have e : some s' = some s := q1.symm.trans s1
    exact Option.some.inj e
  subst this
  have hext : ext g.data.n pool 1 [] = (pool.filter (keepB (g.data.n - 0))).map (fun f => [f]) := by
    show (conts g.data.n pool [] 0).flatMap (fun f => ext g.data.n pool 0 ([] ++ [f])) = _
    rw [conts_nil]
    show (pool.filter (keepB (g.data.n - 0))).flatMap (fun f => [[] ++ [f]]) = _
    simp only [List.nil_append]
    induction pool.filter (keepB (g.data.n - 0)) with
    | nil => rfl
    | cons a t ih => simp [List.flatMap_cons, ih]
  have hcells : ∀ d, cellsDim s' d = ((pool.filter (keepB (g.data.n - 0))).map (fun f => [f])).filter (fun c => decide (dm c = d)) := fun d => by
    rw [cellsDim_eq q2, ← hext]; rfl
  have hform : ∀ d, ∀ c ∈ cellsDim s' d, ∃ f, c = [f] ∧ FactorOf g.data f ∧ dimC [f] = d := by
    intro d c hcm
    rw [hcells, List.mem_filter, decide_eq_true_iff, ← dimC_eq] at hcm
    obtain ⟨h1, h2⟩ := hcm
    obtain ⟨f, hf, rfl⟩ := List.mem_map.mp h1
    exact ⟨f, rfl, (p3 f).mp (List.mem_filter.mp hf).1, h2⟩
  have hsort : ∀ d, (cellsDim s' d).Pairwise (fun c c' => topC c ≤ topC c') := by
    intro d
    have h1 : ((pool.filter (keepB (g.data.n - 0))).map (fun f => [f])).Pairwise (fun c c' : List Factor => (c.headD (.vertex 0)).isEdge = (c'.headD (.vertex 0)).isEdge → topC c ≤ topC c') := by
      rw [List.pairwise_map]
      exact ((pool_sorted hT.built hn p1).filter _).imp (fun h e => h e)
    have h2 := h1.filter (fun c => decide (dm c = d))
    rw [← hcells] at h2
    refine h2.imp_of_mem (fun {a b} ha hb h => h ?_)
    obtain ⟨f, rfl, -, e1⟩ := hform d a ha
    obtain ⟨f', rfl, -, e2⟩ := hform d b hb
    cases f <;> cases f' <;> simp_all [dimC, Factor.isEdge]
    all_goals omega
  have hnd : ∀ d, (cellsDim s' d).Nodup := by
    intro d
    rw [hcells]
    exact ((p2.nodup.filter _).map (fun a b e => (List.cons.inj e).1)).filter _
  have hstrict : ∀ d, (∀ c ∈ cellsDim s' d, ∀ c' ∈ cellsDim s' d, topC c = topC c' → c = c') → ((cellsDim s' d).map topC).Pairwise (· < ·) := by
    intro d hinj
    rw [List.pairwise_map]
    refine ((hsort d).and (hnd d)).imp_of_mem (fun {a b} ha hb h => ?_)
    exact lt_of_le_of_ne h.1 (fun e => h.2 (hinj a ha b hb e))
  -- a tree has one edge below every vertex
  obtain ⟨Es, hEs, hcount⟩ := c155_edges edges hc m hm 1 (by omega) g hg
  have himg : (Es.image Prod.snd).card = Es.card := by
    apply le_antisymm Finset.card_image_le
    have hsub : Finset.Ico 1 g.data.n ⊆ Es.image Prod.snd := by
      intro y hy
      rw [Finset.mem_Ico] at hy
      obtain ⟨x, hx, -⟩ := hT.dfs.parent y (by omega) hy.2
      exact Finset.mem_image.mpr ⟨(x, y), (hEs _).mpr ⟨hx.1, (hT.dfs.sub (v := ⟨x, by have := hx.1; omega⟩) (w := ⟨y, hy.2⟩) (Or.inl hx)).2⟩, rfl⟩
    have := Finset.card_le_card hsub
    rw [Nat.card_Ico] at this
    omega
  have hinj := Finset.injOn_of_card_image_eq himg
  refine ⟨s', maps, s1, s2, s3, s4, hd, by omega, by omega, ?_, ?_⟩
  · intro i c hci
    obtain ⟨f, rfl, h1, h2⟩ := hform 0 c (List.mem_of_getElem? hci)
    have hst := hstrict 0 (by
      intro c hc c' hc' e
      obtain ⟨f, rfl, -, e1⟩ := hform 0 c hc
      obtain ⟨f', rfl, -, e2⟩ := hform 0 c' hc'
      cases f <;> cases f' <;> simp_all [dimC, topC, top])
    have := fits hst 0 (by
      intro x hx
      obtain ⟨c, hc, rfl⟩ := List.mem_map.mp hx
      obtain ⟨f, rfl, a1, a2⟩ := hform 0 c hc
      rw [List.length_map]
      cases f with
      | vertex v =>
        have a1 : v < g.data.n := a1
        show 0 ≤ v ∧ v < 0 + _
        omega
      | edge x y => simp [dimC] at a2) i (topC [f]) (by rw [List.getElem?_map, hci]; rfl)
    cases f with
    | vertex v =>
      have e : v = 0 + i := this
      rw [e, Nat.zero_add]
    | edge x y => simp [dimC] at h2
  · intro j c hcj
    obtain ⟨f, rfl, h1, h2⟩ := hform 1 c (List.mem_of_getElem? hcj)
    have hst := hstrict 1 (by
      intro c hc c' hc' e
      obtain ⟨f, rfl, a1, e1⟩ := hform 1 c hc
      obtain ⟨f', rfl, a1', e2⟩ := hform 1 c' hc'
      cases f with
      | vertex v => simp [dimC] at e1
      | edge x y =>
        cases f' with
        | vertex v => simp [dimC] at e2
        | edge x' y' =>
          have e : y = y' := e
          have := hinj (show (x, y) ∈ (Es : Set (Nat × Nat)) from (hEs (x, y)).mpr a1) (show (x', y') ∈ (Es : Set (Nat × Nat)) from (hEs (x', y')).mpr a1') e
          cases this; rfl)
    have := fits hst 1 (by
      intro x hx
      obtain ⟨c, hc, rfl⟩ := List.mem_map.mp hx
      obtain ⟨f, rfl, a1, a2⟩ := hform 1 c hc
      rw [List.length_map]
      cases f with
      | vertex v => simp [dimC] at a2
      | edge x y =>
        have := edge_bounds hT.built a1.1 a1.2
        have a3 : x < y := a1.1
        show 1 ≤ y ∧ y < 1 + _
        omega) j (topC [f]) (by rw [List.getElem?_map, hcj]; rfl)
    cases f with
    | vertex v => simp [dimC] at h2
    | edge x y =>
      have e : y = 1 + j := this
      have a3 : x < y := h1.1
      exact ⟨x, by omega, by rw [e, Nat.add_comm]⟩

end Toppo.CubeProps
