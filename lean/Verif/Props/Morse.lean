import Verif.Props.Homology
import Verif.Proof.MorseSound
set_option linter.unusedVariables false

/-
C76: the discrete Morse complex of the unordered configuration space.
-/
namespace Toppo.CubeProps
open Toppo RawGraph Cub GraphProps EdgePath MGraphProps Toppo.SubdivideProps

/-! ### Specification -/

/-- the cells listed by the complex -/
def mlist (s : Cplx) : List (List Factor) := s.final.filterMap (Morse.cellAt s)

/-- those of dimension `d` -/
def mlistDim (s : Cplx) (d : Nat) : List (List Factor) := (mlist s).filter (fun c => decide (dimC c = d))

/-- the base configuration: the first `k` vertices -/
def base (k : Nat) : List Factor := (List.range k).map Factor.vertex

/-- What is claimed of the complex for a graph, a number of points and a bound on the dimension (`none`: no bound). -/
structure MorseOK (g : RawGraph) (k : Nat) (upper : Option Nat) (s : Cplx) : Prop where
  /-- every listed index gives a cell of the configuration complex -/
  listed : ∀ i ∈ s.final, ∃ c, Morse.cellAt s i = some c ∧ IsCell g k c
  /-- no cell is listed twice -/
  nodup : (mlist s).Nodup ∧ s.final.Nodup ∧ (mlist s).length = s.final.length
  /-- a listed cell is found at its index -/
  lookup : ∀ c, c ∈ mlist s → ∃ i ∈ s.final, s.indexOf c = some i ∧ Morse.cellAt s i = some c
  /-- the numbers of cells by dimension, and the cells of one dimension -/
  ranks : s.ranks.length = k + 1 ∧ ∀ d, d ≤ k → s.ranks[d]? = some (mlistDim s d).length
  ofDim : ∀ d, Morse.cellsOfDim s d = some (mlistDim s d)
  /-- the dimension is the largest of a listed cell -/
  dim : (∀ c ∈ mlist s, dimC c ≤ s.dim) ∧ (s.dim = 0 ∨ ∃ c ∈ mlist s, dimC c = s.dim)
  /-- the bound on the dimension is respected, if it is not zero -/
  bounded : ∀ d, upper = some d → 0 < d → ∀ c ∈ mlist s, dimC c ≤ d
  /-- the only cell of dimension 0 is the base configuration, and it is critical -/
  zero : k ≤ g.n → mlistDim s 0 = [base k] ∧ property g (base k) = some .critical

/-! ### The cells -/

theorem mlist_eq {g : RawGraph} {pool : List Factor} {k : Nat} {cs : List (List Factor)} {s : Cplx} (h : Morse.MDone g pool k cs s) : mlist s = cs := by
  unfold mlist
  have key : ∀ (F : List Nat) (C : List (List Factor)), List.Forall₂ (PathAt s.data) F C → F.filterMap (Morse.cellAt s) = C := by
    intro F C hFC
    induction hFC with
    | nil => rfl
    | @cons i c F C hp hFC ih =>
      have : Morse.cellAt s i = some c := by
        unfold Morse.cellAt
        rw [show up s.data (i + 1) i = some c.reverse from hp]
        simp
      rw [List.filterMap_cons, this]
      simp only
      rw [ih]
  exact key _ _ h.final

theorem cellAt_path {s : Cplx} {i : Nat} {c : List Factor} (h : PathAt s.data i c) : Morse.cellAt s i = some c := by
  unfold Morse.cellAt
  rw [show up s.data (i + 1) i = some c.reverse from h]
  simp

theorem cellsOfDim_eq {s : Cplx} {F : List Nat} {C : List (List Factor)} (h : List.Forall₂ (PathAt s.data) F C) (d : Nat) :
    F.foldrM (fun i acc => do
      let e ← dimOf s.data (i + 1) i
      if e = d then (Morse.cellAt s i).map (· :: acc) else some acc) [] = some (C.filter (fun c => decide (dimC c = d))) := by
  induction h with
  | nil => rfl
  | @cons i c F C hp hFC ih =>
    rw [List.foldrM_cons, ih]
    simp only [Option.bind_eq_bind, Option.bind_some]
    rw [hp.dim]
    simp only [Option.bind_some]
    rw [List.filter_cons, cellAt_path hp, dimC_eq]
    unfold dm
    split
    · rename_i e; simp [e]
    · rename_i e; simp [e]

theorem vpool {g : RawGraph} {pool es : List Factor} (hpe : pool = g.vertexIter ++ es) (hp : Pool g.n pool) : Morse.VPool g.n pool es := by
  have hn := hp.nodup
  rw [hpe, List.nodup_append] at hn
  refine ⟨by rw [hpe, c53_vertex_iter], ?_⟩
  intro f hf
  cases f with
  | edge x y => rfl
  | vertex v =>
    exfalso
    refine hn.2.2 (.vertex v) ?_ (.vertex v) hf rfl
    rw [c53_vertex_iter, List.mem_map]
    exact ⟨v, List.mem_range.mpr (hp.range (.vertex v) (by rw [hpe]; exact List.mem_append_right _ hf)), rfl⟩

theorem base_isCell {g : RawGraph} {k : Nat} (hk : k ≤ g.n) : IsCell g k (base k) := by
  have hv := (valid_iff _).mp (Morse.baseC_valid k)
  refine ⟨by simp [base], ?_, hv.1, hv.2⟩
  intro f hf
  obtain ⟨v, hv, rfl⟩ := List.mem_map.mp hf
  have := List.mem_range.mp hv
  show v < g.n
  omega

theorem base_critical {g : RawGraph} (h : TreeGraph g) {k : Nat} (hk : k ≤ g.n) : property g (base k) = some .critical := by
  obtain ⟨m, m1, m2, -⟩ := c60_property h (base_isCell hk)
  rw [m1, m2.mpr]
  intro f hf
  obtain ⟨v, hv, rfl⟩ := List.mem_map.mp hf
  have hv := List.mem_range.mp hv
  rintro ⟨p, hp, hc⟩
  refine hc ⟨.vertex p, List.mem_map.mpr ⟨p, List.mem_range.mpr ?_, rfl⟩, by simp [vertsOf]⟩
  have := hp.1
  omega

theorem morseOK_of_done {g : RawGraph} (h : TreeGraph g) {pool es : List Factor} (hpe : pool = g.vertexIter ++ es) (hp : Pool g.n pool) (hm : ∀ f, f ∈ pool ↔ FactorOf g f)
    {k : Nat} {upper : Option Nat} {s : Cplx} (hs : Morse.MDone g pool (k + 1) (Morse.mcells g pool upper (k + 1)) s) : MorseOK g (k + 1) upper s := by
  obtain ⟨cs, hcs⟩ : ∃ cs, cs = Morse.mcells g pool upper (k + 1) := ⟨_, rfl⟩
  rw [← hcs] at hs
  have hl := mlist_eq hs
  have hnd : cs.Nodup := by rw [hcs]; exact Morse.menum_nodup hp.nodup _ _ _
  have hcell : ∀ c ∈ cs, IsCell g (k + 1) c := by
    intro c hc
    rw [hcs] at hc
    obtain ⟨h1, h2⟩ := Morse.menum_valid _ _ _ _ (by simp [Valid]) (by simp) hc
    have h3 := (Morse.menum_prefix _ _ _ _ hc).2
    obtain ⟨v1, v2⟩ := (valid_iff _).mp h1
    exact ⟨by simpa using h3, fun f hf => (hm f).mp (h2 f hf), v1, v2⟩
  have hlen := hs.final.length_eq
  have hdimL : mlistDim s = fun d => cs.filter (fun c => decide (dimC c = d)) := by
    funext d; unfold mlistDim; rw [hl]
  have hget : ∀ i ∈ s.final, ∃ c ∈ cs, PathAt s.data i c := by
    intro i hi
    obtain ⟨a, ha, rfl⟩ := List.mem_iff_getElem.mp hi
    exact ⟨_, List.getElem_mem (by omega), hs.final.get ha (by omega)⟩
  refine ⟨?_, ⟨by rw [hl]; exact hnd, ?_, by rw [hl]; exact hlen.symm⟩, ?_, ⟨hs.rlen, ?_⟩, ?_, ⟨?_, ?_⟩, ?_, ?_⟩
  · intro i hi
    obtain ⟨c, h1, h2⟩ := hget i hi
    exact ⟨c, cellAt_path h2, hcell c h1⟩
  · rw [List.nodup_iff_injective_get] at hnd ⊢
    intro a b e
    have h1 := hs.final.get a.2 (by have := a.2; omega)
    have h2 := hs.final.get b.2 (by have := b.2; omega)
    have e' : s.final.get a = s.final.get b := e
    rw [e'] at h1
    have := hnd (a₁ := ⟨a.1, by have := a.2; omega⟩) (a₂ := ⟨b.1, by have := b.2; omega⟩) (h1.unique h2)
    ext; simpa using this
  · intro c hc
    rw [hl] at hc
    obtain ⟨a, ha, rfl⟩ := List.mem_iff_getElem.mp hc
    have hpa := hs.final.get (by omega : a < s.final.length) ha
    exact ⟨_, List.getElem_mem (by omega), (hs.inv.indexOf _ _).mpr hpa, cellAt_path hpa⟩
  · intro d hd
    have h1 := hs.ranks d
    have hdl : d < s.ranks.length := by rw [hs.rlen]; omega
    rw [List.getD_eq_getElem?_getD, List.getElem?_eq_getElem hdl, Option.getD_some] at h1
    rw [List.getElem?_eq_getElem hdl, h1, hdimL, List.countP_eq_length_filter]
    simp only [dimC_eq]
  · intro d
    rw [hdimL]
    exact cellsOfDim_eq hs.final d
  · rw [hl]
    intro c hc
    rw [dimC_eq, hs.dim]
    exact (dim_foldl cs 0).1 c hc
  · rw [hl]
    rcases (dim_foldl cs 0).2.2 with e | ⟨c, h1, h2⟩
    · left; rw [hs.dim, e]
    · right; exact ⟨c, h1, by rw [dimC_eq, h2, hs.dim]⟩
  · rintro d rfl hd c hc
    rw [hl, hcs] at hc
    rw [dimC_eq]
    exact Morse.menum_dim _ _ _ _ (by simp) (fun _ => hd) hc
  · intro hk
    refine ⟨?_, base_critical h hk⟩
    obtain ⟨cs', h1, h2⟩ := Morse.mcells_base (g := g) (vpool hpe hp) (upper := upper) hk
    rw [← hcs] at h1
    rw [hdimL, h1]
    show List.filter _ (base (k + 1) :: cs') = _
    rw [List.filter_cons, if_pos, List.filter_eq_nil_iff.mpr]
    · intro c hc
      have := h2 c hc
      rw [decide_eq_true_iff, dimC_eq]
      unfold dm; omega
    · rw [decide_eq_true_iff]
      unfold base dimC
      rw [List.countP_eq_zero]
      intro f hf
      obtain ⟨v, -, rfl⟩ := List.mem_map.mp hf
      simp

/-- the factors of a graph with a chosen tree -/
theorem tree_pool {g : RawGraph} (h : TreeGraph g) (h2 : 2 ≤ g.n) : ∃ es, g.edgeIter = some es ∧ Pool g.n (g.vertexIter ++ es) ∧ ∀ f, f ∈ g.vertexIter ++ es ↔ FactorOf g f := by
  obtain ⟨pool, p1, p2, p3⟩ := pool_spec h.built h2 (edge01 h h2)
  unfold factorIter at p1
  cases he : g.edgeIter with
  | none => rw [he] at p1; cases p1
  | some es =>
    rw [he] at p1
    have : pool = g.vertexIter ++ es := (Option.some.inj p1).symm
    subst this
    exact ⟨es, rfl, p2, p3⟩

/-- A graph is large enough for `k` points if it has `2k-3` vertices, or if `k-1` vertices of it precede the first branching. -/
def Large (g : RawGraph) (k : Nat) : Prop :=
  2 * k ≤ g.n + 3 ∨ (k ≤ g.n + 1 ∧ ∀ x y, x < y → y + 1 < k → Edge g x y → y = x + 1)

theorem morse_done {g : RawGraph} (h : TreeGraph g) (h2 : 2 ≤ g.n) {k : Nat} (hk : k ≠ 0) (hl : Large g k) (upper : Option Nat) :
    ∃ es s, g.edgeIter = some es ∧ Pool g.n (g.vertexIter ++ es) ∧ (∀ f, f ∈ g.vertexIter ++ es ↔ FactorOf g f) ∧ Morse.ofGraph g k upper = some s ∧
      Morse.MDone g (g.vertexIter ++ es) k (Morse.mcells g (g.vertexIter ++ es) upper k) s := by
  obtain ⟨es, e1, e2, e3⟩ := tree_pool h h2
  obtain ⟨k, rfl⟩ : ∃ r, k = r + 1 := ⟨k - 1, by omega⟩
  have hroom : Morse.Room g (g.vertexIter ++ es) (k + 1) := by
    rcases hl with hl | ⟨hl, hs⟩
    · exact Morse.room_of_size hl
    · exact Morse.room_of_stem (fun f hf => (e3 f).mp hf) hs hl
  obtain ⟨s, s1, s2⟩ := Morse.ofGraph_spec h e1 rfl e2 h2 (upper := upper) hroom
  exact ⟨es, s, e1, e2, e3, s1, s2⟩

/-- **C76**, for any graph numbered along a depth-first tree that is large enough: the construction does not panic and lists cells of the configuration
complex, each at most once; lookup, the lists by dimension and their lengths agree; the bound on the dimension is respected unless it is zero; the only cell of
dimension 0 is the base configuration.  (Which cells of positive dimension are listed is not claimed: see the counterexamples.) -/
theorem c76_cells_of_graph_partial {g : RawGraph} (h : TreeGraph g) (h2 : 2 ≤ g.n) {k : Nat} (hk : k ≠ 0) (hl : Large g k) (upper : Option Nat) :
    ∃ s, Morse.ofGraph g k upper = some s ∧ MorseOK g k upper s := by
  obtain ⟨es, s, e1, e2, e3, s1, s2⟩ := morse_done h h2 hk hl upper
  obtain ⟨k, rfl⟩ : ∃ r, k = r + 1 := ⟨k - 1, by omega⟩
  exact ⟨s, s1, morseOK_of_done h rfl e2 e3 s2⟩

variable {α : Type} [DecidableEq α]

/-- a graph subdivided for the number of points is large enough -/
theorem subdivided_large (edges : List (α × α)) (hc : ConnectedInput edges) (m : MGraph α) (hm : MGraph.ofEdges edges = some m) (points : Nat)
    (hp : points + 1 < 2 ^ 63) (g : SGraph α) (hg : SGraph.subdivide m points = some g) : Large g.data points := by
  right
  have h1 := subdivided_size edges hc m hm points hp g hg
  have h2 := subdivide_stem_edges edges hc m hm points hp g hg
  exact ⟨by omega, fun x y hxy hy => h2 x y hxy (by omega)⟩

/-- **C76**: the same for the complex of a connected multigraph and a positive number of points. -/
theorem c76_cells_partial (edges : List (α × α)) (hc : ConnectedInput edges) (m : MGraph α) (hm : MGraph.ofEdges edges = some m) (points : Nat) (hp0 : points ≠ 0)
    (hp : points + 1 < 2 ^ 63) (g : SGraph α) (hg : SGraph.subdivide m points = some g) (upper : Option Nat) :
    ∃ s, Morse.new m points upper = some s ∧ MorseOK g.data points upper s ∧ mlistDim s 0 = [base points] := by
  obtain ⟨hT, -⟩ := subdivide_tree edges hc m hm points hp g hg
  have hn := subdivided_size edges hc m hm points hp g hg
  obtain ⟨s, s1, s2⟩ := c76_cells_of_graph_partial hT (by omega) hp0 (subdivided_large edges hc m hm points hp g hg) upper
  refine ⟨s, ?_, s2, (s2.zero (by omega)).1⟩
  unfold Morse.new
  rw [hg]; exact s1

/-! ### The boundary maps -/

theorem ordSum_le {g : RawGraph} {k : Nat} {c : List Factor} (hg : Built g) (hc : IsCell g k c) : ordSum c ≤ k * g.n := by
  rw [← hc.length]
  have : ∀ l : List Factor, (∀ f ∈ l, FactorOf g f) → ordSum l ≤ l.length * g.n := by
    intro l hl
    induction l with
    | nil => simp [ordSum]
    | cons f l ih =>
      rw [ordSum_cons, List.length_cons, Nat.add_mul]
      have h1 := ih (fun f hf => hl f (by simp [hf]))
      have h2 : firstOf f ≤ g.n := by
        have := hl f (by simp)
        cases f with
        | vertex v => exact Nat.le_of_lt this
        | edge x y => exact Nat.le_of_lt ((edge_iff hg _ _).mp this.2).lt.1
      omega
  exact this c hc.factors

theorem ccmp_self (c : List Factor) : ccmp c c = some .eq := by
  induction c with
  | nil => rfl
  | cons f c ih => simp [ccmp, Factor.pcmp, ih]

theorem sumC_cancel (c : List Factor) : sumC [[(1, c)], [(-1, c)]] = some [] := by
  simp [sumC, sortC, advanceC, insRevC, ccmp_self, sumLoopC, mergeByC]

theorem one_edge {c : List Factor} (h : dimC c = 1) : ∃ (vs ws : List Nat) (x y : Nat), c = vs.map Factor.vertex ++ .edge x y :: ws.map Factor.vertex := by
  induction c with
  | nil => simp [dimC] at h
  | cons f c ih =>
    cases f with
    | vertex v =>
      rw [dimC_cons_vertex] at h
      obtain ⟨vs, ws, x, y, rfl⟩ := ih h
      exact ⟨v :: vs, ws, x, y, rfl⟩
    | edge x y =>
      rw [dimC_cons_edge] at h
      obtain ⟨ws, rfl⟩ := no_edges (c := c) (by rw [dimC_eq] at h; unfold dm at h; omega)
      exact ⟨[], ws, x, y, rfl⟩

/-- the boundary of a cell with one edge is zero: both ends flow to the base configuration -/
theorem boundaryOf_one {g : RawGraph} (h : TreeGraph g) {k : Nat} (hs : Stem g k) {s : Cplx} {i : Nat} {c : List Factor} (hp : PathAt s.data i c) (hc : IsCell g k c) (hd : dimC c = 1)
    {fuel : Nat} (hf : k * g.n < fuel) : Morse.boundaryOf g fuel s i = some [] := by
  obtain ⟨vs, ws, x, y, rfl⟩ := one_edge hd
  obtain ⟨b1, b2, e1, e2, e3, e4, e5, -⟩ := c58_get_boundary_edge_partial h.built hc
  have hdim : ∀ v, dimC (vs.map Factor.vertex ++ .vertex v :: ws.map Factor.vertex) = 0 := by
    intro v
    unfold dimC
    rw [List.countP_eq_zero]
    intro f hf
    simp at hf
    rcases hf with ⟨a, -, rfl⟩ | rfl | ⟨a, -, rfl⟩ <;> simp
  obtain ⟨c1, f1, -, -, -, f2⟩ := c60_flow_zero h e4 (by rw [dimC_perm e2]; exact hdim x)
  obtain ⟨c2, g1, -, -, -, g2⟩ := c60_flow_zero h e5 (by rw [dimC_perm e3]; exact hdim y)
  have o1 := ordSum_le h.built e4
  have o2 := ordSum_le h.built e5
  unfold Morse.boundaryOf
  rw [cellAt_path hp]
  simp only [Option.bind_eq_bind, Option.bind_some]
  rw [e1]
  simp only [Option.bind_some, List.mapM_cons, List.mapM_nil, f1 fuel (by omega), g1 fuel (by omega), f2 hs, g2 hs, Option.map_some, Option.bind_eq_bind]
  have : ∀ b : List Factor, (do let vs ← some [smulC [((1 : Int), b)] 1, smulC [(1, b)] (-1)]; let v ← sumC vs; sumC (v.map (fun ic => smulC [(1, Factor.sort ic.2)] ic.1))) = some [] := by
    intro b
    show (sumC [smulC [((1 : Int), b)] 1, smulC [(1, b)] (-1)]).bind _ = _
    have : [smulC [((1 : Int), b)] 1, smulC [(1, b)] (-1)] = [[(1, b)], [(-1, b)]] := by simp [smulC]
    rw [this, sumC_cancel]
    rfl
  exact this _

theorem fill_spec {g : RawGraph} (h : TreeGraph g) {k : Nat} (hs : Stem g k) {s : Cplx} (num : List Nat) {fuel : Nat} (hf : k * g.n < fuel) {F : List Nat} {C : List (List Factor)}
    (hFC : List.Forall₂ (PathAt s.data) F C) (hC : ∀ c ∈ C, IsCell g k c ∧ dimC c ≤ 1) (maps : List Cplx.IMat) (bases : List (List (List Factor)))
    (hb : ∀ c ∈ C, dimC c < bases.length) :
    ∃ bases', Morse.fill g fuel s num F maps bases = some (maps, bases') ∧ bases'.length = bases.length ∧ bases'[0]? = bases[0]? ∧
      ∀ l, bases[1]? = some l → bases'[1]? = some (l ++ C.filter (fun c => decide (dimC c = 1))) := by
  induction hFC generalizing bases with
  | nil => exact ⟨bases, rfl, rfl, rfl, by simp⟩
  | @cons i c F C hp hFC ih =>
    obtain ⟨hc, hd⟩ := hC c (by simp)
    have hdim : dimOf s.data (i + 1) i = some (dimC c) := by rw [hp.dim, dimC_eq]
    by_cases h0 : dimC c = 0
    · obtain ⟨b', k1, k2, k3, k4⟩ := ih (fun c hc => hC c (by simp [hc])) bases (fun c hc => hb c (by simp [hc]))
      refine ⟨b', ?_, k2, k3, ?_⟩
      · unfold Morse.fill
        rw [hdim]
        simp only [Option.bind_eq_bind, Option.bind_some]
        rw [if_pos h0]; exact k1
      · intro l hl
        rw [k4 l hl, List.filter_cons, if_neg (by rw [decide_eq_true_iff]; omega)]
    · have h1 : dimC c = 1 := by omega
      have hbl := hb c (by simp)
      rw [h1] at hbl
      obtain ⟨l0, hl0⟩ : ∃ l, bases[1]? = some l := ⟨_, List.getElem?_eq_getElem hbl⟩
      obtain ⟨b', k1, k2, k3, k4⟩ := ih (fun c hc => hC c (by simp [hc])) (bases.set 1 (l0 ++ [c])) (fun c hc => by rw [List.length_set]; exact hb c (by simp [hc]))
      refine ⟨b', ?_, by rw [k2, List.length_set], by rw [k3, List.getElem?_set]; simp, ?_⟩
      · unfold Morse.fill
        rw [hdim]
        simp only [Option.bind_eq_bind, Option.bind_some]
        rw [if_neg h0, boundaryOf_one h hs hp hc h1 hf]
        simp only [Option.bind_some, Morse.fillCol, cellAt_path hp, h1, hl0]
        exact k1
      · intro l hl
        rw [hl0] at hl
        injection hl with hl
        subst hl
        rw [k4 (l0 ++ [c]) (by rw [List.getElem?_set]; simp [hbl]), List.filter_cons, if_pos (by rw [decide_eq_true_iff]; exact h1)]
        simp

/-- What the boundary maps are if no listed cell has two edges: zero maps, and with the cells of dimension 0 and 1 as bases. -/
structure ZeroMaps (s : Cplx) (k : Nat) (maps : List (Hom.BMap (List Factor))) : Prop where
  length : maps.length = s.dim + 1 ∧ s.dim ≤ 1
  bottom : ∃ b, maps[0]? = some b ∧ b.n = 1 ∧ b.m = 1 ∧ b.basis = [base k]
  top : s.dim = 1 → ∃ b, maps[1]? = some b ∧ b.n = 1 ∧ b.m = (mlistDim s 1).length ∧ b.basis = mlistDim s 1
  zero : ∀ b ∈ maps, ∀ i j, b.a i j = 0

theorem zeroMaps_of_done {g : RawGraph} (h : TreeGraph g) {k : Nat} (hk : k ≠ 0) (hs : Stem g k) {upper : Option Nat} {pool : List Factor} {cs : List (List Factor)} {s : Cplx}
    (hd : Morse.MDone g pool k cs s) (hok : MorseOK g k upper s) (hkn : k ≤ g.n) (h1 : ∀ c ∈ mlist s, dimC c ≤ 1) {fuel : Nat} (hf : k * g.n < fuel) :
    ∃ maps, Morse.boundaryMap g fuel s = some maps ∧ ZeroMaps s k maps := by
  have hl := mlist_eq hd
  have hcell : ∀ c ∈ cs, IsCell g k c ∧ dimC c ≤ 1 := by
    intro c hc
    refine ⟨?_, h1 c (by rw [hl]; exact hc)⟩
    obtain ⟨i, hi, -, h3⟩ := hok.lookup c (by rw [hl]; exact hc)
    obtain ⟨c', h4, h5⟩ := hok.listed i hi
    rw [h3] at h4; injection h4 with h4
    rw [h4]; exact h5
  have hdim1 : s.dim ≤ 1 := by
    rcases hok.dim.2 with e | ⟨c, h2, h3⟩
    · omega
    · have := h1 c h2; omega
  obtain ⟨num, n1, -, -⟩ := number_spec s.final cs hd.final hok.nodup.2.1 (List.replicate s.data.length 0) (List.replicate (s.dim + 1) 0)
    (by
      intro i hi
      obtain ⟨a, ha, rfl⟩ := List.mem_iff_getElem.mp hi
      have := (hd.final.get ha (by have := hd.final.length_eq; omega)).lt
      simpa using this)
    (by intro c hc; simp only [List.length_replicate]; rw [hd.dim]; have := (dim_foldl cs 0).1 c hc; omega)
  obtain ⟨z1, z2⟩ := hok.zero hkn
  have hr0 : s.ranks[0]? = some 1 := by rw [hok.ranks.2 0 (by omega), z1]; rfl
  have hzero : ∃ i c, Morse.zeroCell s s.final = some i ∧ PathAt s.data i c ∧ c ∈ cs ∧ dimC c = 0 := by
    have hne : ∃ c ∈ cs, dimC c = 0 := by
      have : base k ∈ mlistDim s 0 := by rw [z1]; simp
      unfold mlistDim at this
      rw [List.mem_filter, decide_eq_true_iff, hl] at this
      exact ⟨_, this⟩
    have key : ∀ (F : List Nat) (C : List (List Factor)), List.Forall₂ (PathAt s.data) F C → (∃ c ∈ C, dimC c = 0) →
        ∃ i c, Morse.zeroCell s F = some i ∧ PathAt s.data i c ∧ c ∈ C ∧ dimC c = 0 := by
      intro F C hFC
      induction hFC with
      | nil => rintro ⟨c, hc, -⟩; cases hc
      | @cons i c F C hp hFC ih =>
        rintro ⟨c', hc', h0⟩
        have hdim : dimOf s.data (i + 1) i = some (dimC c) := by rw [hp.dim, dimC_eq]
        unfold Morse.zeroCell
        rw [hdim]
        simp only [Option.bind_eq_bind, Option.bind_some]
        by_cases hc0 : dimC c = 0
        · rw [if_pos hc0]; exact ⟨i, c, rfl, hp, by simp, hc0⟩
        · rw [if_neg hc0]
          obtain ⟨i', c'', a1, a2, a3, a4⟩ := ih (by
            rcases List.mem_cons.mp hc' with rfl | hc'
            · exact absurd h0 hc0
            · exact ⟨c', hc', h0⟩)
          exact ⟨i', c'', a1, a2, by simp [a3], a4⟩
    exact key _ _ hd.final hne
  obtain ⟨zi, zc, y1, y2, y3, y4⟩ := hzero
  have hzc : zc = base k := by
    have : zc ∈ mlistDim s 0 := by
      unfold mlistDim
      rw [List.mem_filter, decide_eq_true_iff, hl]; exact ⟨y3, y4⟩
    rw [z1] at this; simpa using this
  subst hzc
  have hbl : ∀ c ∈ cs, dimC c < ((List.replicate (s.dim + 1) []).set 0 [base k] : List (List (List Factor))).length := by
    intro c hc
    rw [List.length_set, List.length_replicate]
    have := hok.dim.1 c (by rw [hl]; exact hc)
    omega
  unfold Morse.boundaryMap
  rw [n1]
  simp only [Option.bind_eq_bind, Option.bind_some]
  rcases Nat.lt_or_ge 0 s.dim with hpos | hz
  · have hd1 : s.dim = 1 := by omega
    have hk1 : s.ranks[1]? = some (mlistDim s 1).length := hok.ranks.2 1 (by omega)
    have hr1 : 0 < (mlistDim s 1).length := by
      rcases hok.dim.2 with e | ⟨c, h2, h3⟩
      · omega
      · exact List.length_pos_of_mem (a := c) (by unfold mlistDim; rw [List.mem_filter, decide_eq_true_iff]; exact ⟨h2, by omega⟩)
    have hzs : s.zeros = some [⟨1, 1, fun _ _ => 0⟩, ⟨1, (mlistDim s 1).length, fun _ _ => 0⟩] := by
      unfold Cplx.zeros
      rw [hr0]
      simp only [Option.bind_eq_bind, Option.bind_some, hd1]
      simp [Cplx.zeroMat, hr0, hk1, hr1]
    rw [hzs]
    simp only [Option.bind_some, y1, cellAt_path y2]
    obtain ⟨b', k1, k2, k3, k4⟩ := fill_spec h hs num hf hd.final hcell [⟨1, 1, fun _ _ => 0⟩, ⟨1, (mlistDim s 1).length, fun _ _ => 0⟩] ((List.replicate (s.dim + 1) []).set 0 [base k]) hbl
    rw [k1]
    simp only [Option.bind_some]
    have hk4 := k4 [] (by rw [hd1]; rfl)
    rw [List.nil_append] at hk4
    have hfl : cs.filter (fun c => decide (dimC c = 1)) = mlistDim s 1 := by unfold mlistDim; rw [hl]
    rw [hfl] at hk4
    have hb' : b' = [[base k], mlistDim s 1] := by
      rw [hd1] at k2 k3
      match b', k2, k3, hk4 with
      | [x, y], _, k3, hk4 =>
        simp at k3 hk4
        rw [k3, hk4]
    subst hb'
    refine ⟨_, by rw [if_pos (by simp)], ?_⟩
    refine ⟨⟨by simp [hd1], hdim1⟩, ⟨_, rfl, rfl, rfl, rfl⟩, fun _ => ⟨_, rfl, rfl, rfl, rfl⟩, ?_⟩
    intro b hb i j
    simp at hb
    rcases hb with rfl | rfl <;> rfl
  · have hd0 : s.dim = 0 := by omega
    have hzs : s.zeros = some [⟨1, 1, fun _ _ => 0⟩] := by
      unfold Cplx.zeros
      rw [hr0]
      simp only [Option.bind_eq_bind, Option.bind_some, hd0]
      simp [Cplx.zeroMat]
    rw [hzs]
    simp only [Option.bind_some, y1, cellAt_path y2]
    obtain ⟨b', k1, k2, k3, -⟩ := fill_spec h hs num hf hd.final hcell [⟨1, 1, fun _ _ => 0⟩] ((List.replicate (s.dim + 1) []).set 0 [base k]) hbl
    rw [k1]
    simp only [Option.bind_some]
    have hb' : b' = [[base k]] := by
      rw [hd0] at k2 k3
      match b', k2, k3 with
      | [x], _, k3 =>
        simp at k3
        rw [k3]
    subst hb'
    refine ⟨_, by rw [if_pos (by simp)], ?_⟩
    refine ⟨⟨by simp [hd0], hdim1⟩, ⟨_, rfl, rfl, rfl, rfl⟩, fun e => by omega, ?_⟩
    intro b hb i j
    simp at hb
    rw [hb]

/-- the fill loop fails at a cell with two edges -/
theorem fill_none {g : RawGraph} {k : Nat} {s : Cplx} (num : List Nat) {fuel : Nat} {F : List Nat} {C : List (List Factor)}
    (hFC : List.Forall₂ (PathAt s.data) F C) (hC : ∀ c ∈ C, IsCell g k c) (h2 : ∃ c ∈ C, 2 ≤ dimC c) (maps : List Cplx.IMat) (bases : List (List (List Factor))) :
    Morse.fill g fuel s num F maps bases = none := by
  induction hFC generalizing maps bases with
  | nil => obtain ⟨c, hc, -⟩ := h2; cases hc
  | @cons i c F C hp hFC ih =>
    have hdim : dimOf s.data (i + 1) i = some (dimC c) := by rw [hp.dim, dimC_eq]
    have hrest : ¬ 2 ≤ dimC c → ∃ c ∈ C, 2 ≤ dimC c := by
      intro hn
      obtain ⟨c', hc', h'⟩ := h2
      rcases List.mem_cons.mp hc' with rfl | hc'
      · exact absurd h' hn
      · exact ⟨c', hc', h'⟩
    unfold Morse.fill
    rw [hdim]
    simp only [Option.bind_eq_bind, Option.bind_some]
    by_cases h0 : dimC c = 0
    · rw [if_pos h0]
      exact ih (fun c hc => hC c (by simp [hc])) (hrest (by omega)) maps bases
    · rw [if_neg h0]
      by_cases hc2 : 2 ≤ dimC c
      · have : Morse.boundaryOf g fuel s i = none := by
          unfold Morse.boundaryOf
          rw [cellAt_path hp]
          simp only [Option.bind_eq_bind, Option.bind_some]
          rw [c58_get_boundary_false (hC c (by simp)) hc2]
          rfl
        rw [this]; rfl
      · cases Morse.boundaryOf g fuel s i with
        | none => rfl
        | some b =>
          simp only [Option.bind_some]
          cases Morse.fillCol s num (dimC c) i b maps with
          | none => rfl
          | some maps =>
            simp only [Option.bind_some, cellAt_path hp]
            cases bases[dimC c]? with
            | none => rfl
            | some l =>
              simp only [Option.bind_some]
              exact ih (fun c hc => hC c (by simp [hc])) (hrest hc2) _ _

/-- **C76**, the boundary maps, counterexample: if a cell with two or more edges is listed, `boundary_map` panics. -/
theorem c76_boundary_map_false (edges : List (α × α)) (hc : ConnectedInput edges) (m : MGraph α) (hm : MGraph.ofEdges edges = some m) (points : Nat) (hp0 : points ≠ 0)
    (hp : points + 1 < 2 ^ 63) (g : SGraph α) (hg : SGraph.subdivide m points = some g) (upper : Option Nat) (s : Cplx) (hs : Morse.new m points upper = some s)
    (h2 : ∃ c ∈ mlist s, 2 ≤ dimC c) (fuel : Nat) : Morse.boundaryMap g.data fuel s = none := by
  obtain ⟨hT, -⟩ := subdivide_tree edges hc m hm points hp g hg
  have hn := subdivided_size edges hc m hm points hp g hg
  obtain ⟨es, s', e1, e2, e3, s1, s2⟩ := morse_done hT (by omega) hp0 (subdivided_large edges hc m hm points hp g hg) upper
  have : s' = s := by
    unfold Morse.new at hs
    rw [hg] at hs
    have hs : Morse.ofGraph g.data points upper = some s := hs
    rw [s1] at hs; exact Option.some.inj hs
  subst this
  obtain ⟨k, rfl⟩ : ∃ r, points = r + 1 := ⟨points - 1, by omega⟩
  have hok := morseOK_of_done hT rfl e2 e3 s2
  have hl := mlist_eq s2
  rw [hl] at h2
  have hcell : ∀ c ∈ Morse.mcells g.data (g.data.vertexIter ++ es) upper (k + 1), IsCell g.data (k + 1) c := by
    intro c hc'
    obtain ⟨i, hi, -, h3⟩ := hok.lookup c (by rw [hl]; exact hc')
    obtain ⟨c', h4, h5⟩ := hok.listed i hi
    rw [h3] at h4; injection h4 with h4
    rw [h4]; exact h5
  unfold Morse.boundaryMap
  cases Cplx.number s'.data s'.final (List.replicate s'.data.length 0) (List.replicate (s'.dim + 1) 0) with
  | none => rfl
  | some num =>
    simp only [Option.bind_eq_bind, Option.bind_some]
    cases s'.zeros with
    | none => rfl
    | some maps =>
      simp only [Option.bind_some]
      cases Morse.zeroCell s' s'.final with
      | none => rfl
      | some z =>
        simp only [Option.bind_some]
        cases Morse.cellAt s' z with
        | none => rfl
        | some c0 =>
          simp only [Option.bind_some]
          rw [fill_none num s2.final hcell h2]
          rfl

/-- **C76**, the boundary maps: if no listed cell has two edges, in particular if the bound on the dimension is 1, `boundary_map` returns zero maps with the listed
cells of dimension 0 and 1 as bases.  The recursion depth of the flow is at most the number of points times the number of vertices. -/
theorem c76_boundary_map_partial (edges : List (α × α)) (hc : ConnectedInput edges) (m : MGraph α) (hm : MGraph.ofEdges edges = some m) (points : Nat) (hp0 : points ≠ 0)
    (hp : points + 1 < 2 ^ 63) (g : SGraph α) (hg : SGraph.subdivide m points = some g) (upper : Option Nat) (s : Cplx) (hs : Morse.new m points upper = some s)
    (h1 : upper = some 1 ∨ ∀ c ∈ mlist s, dimC c ≤ 1) (fuel : Nat) (hf : points * g.data.n < fuel) :
    ∃ maps, Morse.boundaryMap g.data fuel s = some maps ∧ ZeroMaps s points maps := by
  obtain ⟨hT, hS⟩ := subdivide_tree edges hc m hm points hp g hg
  have hn := subdivided_size edges hc m hm points hp g hg
  obtain ⟨es, s', e1, e2, e3, s1, s2⟩ := morse_done hT (by omega) hp0 (subdivided_large edges hc m hm points hp g hg) upper
  have : s' = s := by
    unfold Morse.new at hs
    rw [hg] at hs
    have hs : Morse.ofGraph g.data points upper = some s := hs
    rw [s1] at hs; exact Option.some.inj hs
  subst this
  obtain ⟨k, rfl⟩ : ∃ r, points = r + 1 := ⟨points - 1, by omega⟩
  have hok := morseOK_of_done hT rfl e2 e3 s2
  refine zeroMaps_of_done hT (by omega) (fun x y hx => hS x y (by omega)) s2 hok (by omega) ?_ hf
  rcases h1 with h1 | h1
  · exact hok.bounded 1 h1 (by omega)
  · exact h1

/-! ### Homology -/

theorem rk_zero {n m : Nat} {f : Smith.M} (h : ∀ i j, f i j = 0) : Hom.rk n m f = 0 := by
  unfold Hom.rk
  have : (Smith.mat n m f).map (Int.castRingHom ℚ) = 0 := by
    ext i j
    simp [Smith.mat, h]
  rw [this, Matrix.rank_zero]

theorem hgrp_zero {n m l : Nat} {f g : Smith.M} (hf : ∀ i j, f i j = 0) (hg : ∀ i j, g i j = 0) : Nonempty (Hom.HGrp n m l f g ≃+ (Fin m → ℤ)) := by
  have e1 : Smith.mat n m f = 0 := by ext i j; simp [Smith.mat, hf]
  have e2 : Smith.mat m l g = 0 := by ext i j; simp [Smith.mat, hg]
  have z : Hom.Z n m f = ⊤ := by
    unfold Hom.Z; rw [e1]; simp
  have b : (Hom.Bd m l g).submoduleOf (Hom.Z n m f) = ⊥ := by
    have : Hom.Bd m l g = ⊥ := by unfold Hom.Bd; rw [e2]; simp
    rw [this]; simp [Submodule.submoduleOf]
  exact ⟨((Submodule.quotEquivOfEqBot _ b).trans ((LinearEquiv.ofEq _ _ z).trans Submodule.topEquiv)).toAddEquiv⟩

theorem zero_chain {s : Cplx} {k : Nat} (hnd : (mlist s).Nodup) (hdim : s.dim = 0 ∨ ∃ c ∈ mlist s, dimC c = s.dim) {maps : List (Hom.BMap (List Factor))} (h : ZeroMaps s k maps) :
    Hom.ChainCplx maps := by
  obtain ⟨⟨h1, h2⟩, ⟨b, b1, b2, b3, b4⟩, h4, h5⟩ := h
  have hcases : maps = [b] ∧ s.dim = 0 ∨ ∃ t, maps = [b, t] ∧ s.dim = 1 ∧ t.n = 1 ∧ t.m = (mlistDim s 1).length ∧ t.basis = mlistDim s 1 := by
    rcases Nat.lt_or_ge 0 s.dim with hd | hd
    · right
      have hd : s.dim = 1 := by omega
      obtain ⟨t, t1, t2, t3, t4⟩ := h4 hd
      rw [hd] at h1
      match maps, h1, b1, t1 with
      | [x, y], _, b1, t1 =>
        simp at b1 t1; subst b1; subst t1
        exact ⟨_, rfl, hd, t2, t3, t4⟩
    · left
      have hd : s.dim = 0 := by omega
      rw [hd] at h1
      match maps, h1, b1 with
      | [x], _, b1 => simp at b1; subst b1; exact ⟨rfl, hd⟩
  rcases hcases with ⟨rfl, hd⟩ | ⟨t, rfl, hd, t2, t3, t4⟩
  · refine ⟨by simp, ?_, ?_, ?_⟩
    · intro x hx
      simp at hx; subst hx
      exact ⟨by omega, by omega, by rw [b4, b3]; rfl, by rw [b4]; simp⟩
    · intro i x c _ e; simp at e
    · intro i x c _ e; simp at e
  · have hpos : 0 < (mlistDim s 1).length := by
      rcases hdim with e | ⟨c, h2, h3⟩
      · omega
      · exact List.length_pos_of_mem (a := c) (by unfold mlistDim; rw [List.mem_filter, decide_eq_true_iff]; exact ⟨h2, by omega⟩)
    refine ⟨by simp, ?_, ?_, ?_⟩
    · intro x hx
      simp at hx
      rcases hx with rfl | rfl
      · exact ⟨by omega, by omega, by rw [b4, b3]; rfl, by rw [b4]; simp⟩
      · exact ⟨by omega, by omega, by rw [t4, t3], by rw [t4]; exact hnd.filter _⟩
    · intro i x c e1 e2
      match i with
      | 0 => simp at e1 e2; subst e1; subst e2; omega
      | i + 1 => simp at e2
    · intro i x c e1 e2
      match i with
      | 0 =>
        simp at e1 e2; subst e1; subst e2
        ext i j
        simp [Matrix.mul_apply, Smith.mat, h5 b (by simp)]
      | i + 1 => simp at e2

/-- **C76**, homology: if the bound on the dimension is 1 (or no listed cell has two edges), the integral homology computed from the complex of a connected
multigraph is the free group of rank 1 in dimension 0 and, in dimension 1, the free group with one generator for each listed cell of dimension 1. -/
theorem c76_homology_partial [LinearOrder (List Factor)] (edges : List (α × α)) (hc : ConnectedInput edges) (m : MGraph α) (hm : MGraph.ofEdges edges = some m) (points : Nat)
    (hp0 : points ≠ 0) (hp : points + 1 < 2 ^ 63) (g : SGraph α) (hg : SGraph.subdivide m points = some g) (upper : Option Nat) (s : Cplx)
    (hs : Morse.new m points upper = some s) (h1 : upper = some 1 ∨ ∀ c ∈ mlist s, dimC c ≤ 1) (fuel : Nat) (hf : points * g.data.n < fuel) :
    ∃ maps f0 res, Morse.boundaryMap g.data fuel s = some maps ∧ (∀ fuel, f0 ≤ fuel → Hom.new fuel maps none = some res) ∧ res.length = s.dim + 1 ∧
      (∃ o, res[0]? = some o ∧ o.module.freeRank = 1 ∧ Nonempty (ModProps.Grp o.module ≃+ (Fin 1 → ℤ))) ∧
      (s.dim = 1 → ∃ o, res[1]? = some o ∧ o.module.freeRank = (mlistDim s 1).length ∧ Nonempty (ModProps.Grp o.module ≃+ (Fin (mlistDim s 1).length → ℤ))) := by
  obtain ⟨maps, m1, m2⟩ := c76_boundary_map_partial edges hc m hm points hp0 hp g hg upper s hs h1 fuel hf
  obtain ⟨s', q1, q2, -⟩ := c76_cells_partial edges hc m hm points hp0 hp g hg upper
  rw [hs] at q1
  obtain rfl := Option.some.inj q1
  have hch := zero_chain q2.nodup.1 q2.dim.2 m2
  obtain ⟨f0, res, r1, r2, r3, r4, -, -⟩ := Hom.c44_homology hch none
  have hz : ∀ i, ∀ a b, (Hom.upper maps i).2 a b = 0 := by
    intro i a b
    unfold Hom.upper
    cases e : maps[i + 1]? with
    | none => rfl
    | some c => exact m2.zero c (List.mem_of_getElem? e) a b
  have hlen : res.length = s.dim + 1 := by
    by_contra hne
    have hl := m2.length.1
    have hlt : res.length < maps.length := by omega
    have hm' := List.getElem?_eq_getElem hlt
    have hss := r3 res.length _ hm' (le_refl _) (by simp)
    obtain ⟨e⟩ := hgrp_zero (n := maps[res.length].n) (m := maps[res.length].m) (l := (Hom.upper maps res.length).1) (f := maps[res.length].a) (g := (Hom.upper maps res.length).2)
      (m2.zero _ (List.getElem_mem hlt)) (hz _)
    have hpos := (hch.sizes _ (List.getElem_mem hlt)).2.1
    have := e.symm.injective.subsingleton
    have h01 : (fun _ => 0 : Fin maps[res.length].m → ℤ) = fun _ => 1 := Subsingleton.elim _ _
    have := congrFun h01 ⟨0, hpos⟩
    simp at this
  have key : ∀ (i : Nat) (b : Hom.BMap (List Factor)), maps[i]? = some b → ∃ o : Hom.Out (List Factor), res[i]? = some o ∧ o.module.freeRank = b.m ∧ Nonempty (ModProps.Grp o.module ≃+ (Fin b.m → ℤ)) := by
    intro i b hb
    have hi : i < maps.length := by
      by_contra hh
      rw [List.getElem?_eq_none (by omega)] at hb; cases hb
    have hl := m2.length.1
    have ho := List.getElem?_eq_getElem (show i < res.length by omega)
    have hcor := r2 i b _ hb ho
    have hb0 := m2.zero b (List.mem_of_getElem? hb)
    refine ⟨_, ho, ?_, ?_⟩
    · have := hcor.freeRank
      rw [rk_zero hb0, rk_zero (hz i)] at this
      omega
    · obtain ⟨e1⟩ := hcor.iso
      obtain ⟨e2⟩ := hgrp_zero (n := b.n) (m := b.m) (l := (Hom.upper maps i).1) hb0 (hz i)
      exact ⟨e1.symm.trans e2⟩
  refine ⟨maps, f0, res, m1, r1, hlen, ?_, ?_⟩
  · obtain ⟨b, b1, -, b3, -⟩ := m2.bottom
    obtain ⟨o, o1, o2, o3⟩ := key 0 b b1
    rw [b3] at o2 o3
    exact ⟨o, o1, o2, o3⟩
  · intro hd
    obtain ⟨b, b1, -, b3, -⟩ := m2.top hd
    obtain ⟨o, o1, o2, o3⟩ := key 1 b b1
    rw [b3] at o2 o3
    exact ⟨o, o1, o2, o3⟩

/-! ### Counterexamples -/

/-- the list is the pure enumeration -/
theorem mlist_enum {g : RawGraph} (h : TreeGraph g) (h2 : 2 ≤ g.n) {k : Nat} (hk : k ≠ 0) (hl : Large g k) (upper : Option Nat) :
    ∃ s, Morse.ofGraph g k upper = some s ∧ ∀ es, g.edgeIter = some es → mlist s = Morse.mcells g (g.vertexIter ++ es) upper k := by
  obtain ⟨es, s, e1, e2, e3, s1, s2⟩ := morse_done h h2 hk hl upper
  refine ⟨s, s1, fun es' he => ?_⟩
  rw [e1] at he; injection he with he
  subst he
  exact mlist_eq s2

/-- test on the listed cells of a graph -/
def onCells (g : RawGraph) (k : Nat) (upper : Option Nat) (p : List (List Factor) → Bool) : Bool :=
  match g.edgeIter with
  | none => false
  | some es => p (Morse.mcells g (g.vertexIter ++ es) upper k)

theorem onCells_spec {g : RawGraph} (h : TreeGraph g) (h2 : 2 ≤ g.n) {k : Nat} (hk : k ≠ 0) (hl : Large g k) {upper : Option Nat} {p : List (List Factor) → Bool}
    (hp : onCells g k upper p = true) : ∃ s, Morse.ofGraph g k upper = some s ∧ p (mlist s) = true := by
  obtain ⟨s, s1, s2⟩ := mlist_enum h h2 hk hl upper
  unfold onCells at hp
  cases he : g.edgeIter with
  | none => rw [he] at hp; cases hp
  | some es =>
    rw [he] at hp
    exact ⟨s, s1, by rw [s2 es he]; exact hp⟩

/-- every edge starts at a vertex already met -/
def growing {α : Type} [DecidableEq α] (seen : List α) : List (α × α) → Bool
  | [] => true
  | e :: t => decide (e.1 ∈ seen) && growing (e.2 :: seen) t

/-- a list of edges in which every edge starts at the root or at the end of an earlier edge is a connected graph -/
theorem connected_of_growing (r : α) {edges : List (α × α)} (h0 : edges ≠ []) (h : growing [r] edges = true) : ConnectedInput edges := by
  have hs : ∀ x y, 0 < joining edges x y → 0 < joining edges y x := by
    intro x y hxy
    have : joining edges x y = joining edges y x := by
      unfold joining
      apply List.countP_congr
      intro z _
      rw [decide_eq_true_iff, decide_eq_true_iff, or_comm]
    rw [← this]; exact hxy
  have hsym : ∀ a b, Relation.ReflTransGen (fun x y => 0 < joining edges x y) a b → Relation.ReflTransGen (fun x y => 0 < joining edges x y) b a := by
    intro a b h
    induction h with
    | refl => exact .refl
    | tail _ h ih => exact ih.head (hs _ _ h)
  have key : ∀ (t : List (α × α)) (seen : List α), (∀ e ∈ t, e ∈ edges) → (∀ a ∈ seen, Relation.ReflTransGen (fun x y => 0 < joining edges x y) r a) →
      growing seen t = true → ∀ e ∈ t, Relation.ReflTransGen (fun x y => 0 < joining edges x y) r e.1 ∧ Relation.ReflTransGen (fun x y => 0 < joining edges x y) r e.2 := by
    intro t
    induction t with
    | nil => intro _ _ _ _ e he; cases he
    | cons f t ih =>
      intro seen h1 h2 h3
      simp only [growing, Bool.and_eq_true, decide_eq_true_iff] at h3
      have r1 := h2 _ h3.1
      have r2 : Relation.ReflTransGen (fun x y => 0 < joining edges x y) r f.2 := by
        refine r1.tail ?_
        exact List.countP_pos_iff.mpr ⟨f, h1 f (by simp), by simp⟩
      intro e he
      rcases List.mem_cons.mp he with rfl | he
      · exact ⟨r1, r2⟩
      · refine ih (f.2 :: seen) (fun e he => h1 e (by simp [he])) ?_ h3.2 e he
        intro a ha
        rcases List.mem_cons.mp ha with rfl | ha
        · exact r2
        · exact h2 a ha
  have hall : ∀ a ∈ MGraphProps.endpoints edges, Relation.ReflTransGen (fun x y => 0 < joining edges x y) r a := by
    intro a ha
    simp only [MGraphProps.endpoints, List.mem_reverse, List.mem_dedup, List.mem_flatMap, List.mem_cons, List.not_mem_nil, or_false] at ha
    obtain ⟨e, he, ha⟩ := ha
    have := key edges [r] (fun _ h => h) (by simp [Relation.ReflTransGen.refl]) h e he
    rcases ha with rfl | rfl
    · exact this.1
    · exact this.2
  exact ⟨h0, fun a b ha hb => (hsym _ _ (hall a ha)).trans (hall b hb)⟩

/-- a test on the graph and on the listed cells, for a complex made with `UdnMorseCplx::new` -/
theorem onNew {edges : List (α × α)} (hc : ConnectedInput edges) {k : Nat} (hk : k ≠ 0) (hk2 : k + 1 < 2 ^ 63) {upper : Option Nat} {p : RawGraph → List (List Factor) → Bool}
    (h : ((MGraph.ofEdges edges).bind (fun m => SGraph.subdivide m k)).map (fun g => onCells g.data k upper (p g.data)) = some true) :
    ∃ m g s, MGraph.ofEdges edges = some m ∧ SGraph.subdivide m k = some g ∧ Morse.new m k upper = some s ∧ p g.data (mlist s) = true := by
  cases hm : MGraph.ofEdges edges with
  | none => rw [hm] at h; cases h
  | some m =>
    rw [hm, Option.bind_some] at h
    cases hg : SGraph.subdivide m k with
    | none => rw [hg] at h; cases h
    | some g =>
      rw [hg, Option.map_some, Option.some.injEq] at h
      obtain ⟨hT, -⟩ := subdivide_tree edges hc m hm k hk2 g hg
      have hn := subdivided_size edges hc m hm k hk2 g hg
      obtain ⟨s, s1, s2⟩ := onCells_spec hT (by omega) hk (subdivided_large edges hc m hm k hk2 g hg) h
      refine ⟨m, g, s, rfl, hg, ?_, s2⟩
      unfold Morse.new
      rw [hg]; exact s1

/-- an edge `0-1`, three edges between `1` and `2`, an edge `1-3` -/
def brokenCycles : List (Nat × Nat) := [(0, 1), (1, 2), (1, 2), (1, 2), (1, 3)]

/-- **C76**, the listed cells of positive dimension need not be critical: with three points on this graph the cell `{[4,6], 5, 7}` is listed, although
`7` can move to `2`. -/
theorem c76_extra_false : ∃ edges : List (Nat × Nat), ConnectedInput edges ∧ ∃ m g s c, MGraph.ofEdges edges = some m ∧ SGraph.subdivide m 3 = some g ∧
    Morse.new m 3 (some 1) = some s ∧ c ∈ mlist s ∧ dimC c = 1 ∧ IsRedundant g.data c := by
  have hc : ConnectedInput brokenCycles := connected_of_growing 0 (by decide) (by decide)
  obtain ⟨m, g, s, h1, h2, h3, h4⟩ := onNew (upper := some 1) (p := fun g l => decide ([Factor.edge 4 6, .vertex 5, .vertex 7] ∈ l) &&
    (property g [.edge 4 6, .vertex 5, .vertex 7] == some (.redundant 2))) hc (k := 3) (by omega) (by omega) (by decide +kernel)
  simp only [Bool.and_eq_true, beq_iff_eq, decide_eq_true_iff] at h4
  exact ⟨_, hc, m, g, s, _, h1, h2, h3, h4.1, rfl, 2, h4.2⟩

/-- an edge `0-1`, four edges between `1` and `2`, an edge `2-3`, a loop at `3` -/
def twoCycles : List (Nat × Nat) := [(0, 1), (1, 2), (1, 2), (1, 2), (1, 2), (2, 3), (3, 3)]

/-- **C76**, not all critical cells are listed: with three points on this graph `{[4,12], [6,9], 11}` is critical and not listed. -/
theorem c76_missing_false : ∃ edges : List (Nat × Nat), ConnectedInput edges ∧ ∃ m g s c, MGraph.ofEdges edges = some m ∧ SGraph.subdivide m 3 = some g ∧
    Morse.new m 3 none = some s ∧ IsCell g.data 3 c ∧ property g.data c = some .critical ∧ c ∉ mlist s := by
  have hc : ConnectedInput twoCycles := connected_of_growing 0 (by decide) (by decide)
  obtain ⟨m, g, s, h1, h2, h3, h4⟩ := onNew (upper := none) (p := fun g l => decide ([Factor.edge 4 12, .edge 6 9, .vertex 11] ∉ l) &&
    ((property g [.edge 4 12, .edge 6 9, .vertex 11] == some .critical) && cellB g 3 [.edge 4 12, .edge 6 9, .vertex 11])) hc (k := 3) (by omega) (by omega) (by decide +kernel)
  simp only [Bool.and_eq_true, beq_iff_eq, decide_eq_true_iff] at h4
  exact ⟨_, hc, m, g, s, _, h1, h2, h3, isCell_of_cellB h4.2.2, h4.2.1, h4.1⟩

/-- the tree with three edges at `1` -/
def fork : List (Nat × Nat) := [(0, 1), (1, 2), (1, 3)]

theorem fork_connected : ConnectedInput fork := connected_of_growing 0 (by decide) (by decide)

/-- **C76**, the bound 0 on the dimension is not respected: the first factor of a cell is chosen without looking at it. -/
theorem c76_upper_zero_false : ∃ edges : List (Nat × Nat), ConnectedInput edges ∧ ∃ m g s c, MGraph.ofEdges edges = some m ∧ SGraph.subdivide m 2 = some g ∧
    Morse.new m 2 (some 0) = some s ∧ c ∈ mlist s ∧ dimC c = 1 := by
  obtain ⟨m, g, s, h1, h2, h3, h4⟩ := onNew (upper := some 0) (p := fun g l => decide ([Factor.edge 2 5, .vertex 3] ∈ l)) fork_connected (k := 2) (by omega) (by omega) (by decide +kernel)
  simp only [decide_eq_true_iff] at h4
  exact ⟨_, fork_connected, m, g, s, _, h1, h2, h3, h4, rfl⟩

/-- **C76**, one point: a collapsible edge of the tree is listed. -/
theorem c76_one_point_false : ∃ edges : List (Nat × Nat), ConnectedInput edges ∧ ∃ m g s c, MGraph.ofEdges edges = some m ∧ SGraph.subdivide m 1 = some g ∧
    Morse.new m 1 none = some s ∧ c ∈ mlist s ∧ IsCollapsible g.data c := by
  obtain ⟨m, g, s, h1, h2, h3, h4⟩ := onNew (upper := none) (p := fun g l => decide ([Factor.edge 2 5] ∈ l) &&
    (property g [.edge 2 5] == some (.collapsible 0))) fork_connected (k := 1) (by omega) (by omega) (by decide +kernel)
  simp only [Bool.and_eq_true, beq_iff_eq, decide_eq_true_iff] at h4
  exact ⟨_, fork_connected, m, g, s, _, h1, h2, h3, h4.1, 0, h4.2⟩

/-- A case meeting the hypotheses of the theorems above: an edge with a loop at its end, three points.  (`ConnectedInput` for it is the example in
Props/Subdivide.lean.)  Its complex lists the base configuration and three cells of dimension 1. -/
example : ((MGraph.ofEdges [((0 : Nat), 1), (1, 1)]).bind (fun m => SGraph.subdivide m 3)).map (fun g => decide (g.data.n = 6) &&
    onCells g.data 3 none (fun l => decide (l = [[.vertex 0, .vertex 1, .vertex 2], [.vertex 0, .vertex 1, .edge 2 5], [.vertex 0, .edge 2 5, .vertex 3],
      [.edge 2 5, .vertex 3, .vertex 4]]))) = some true := by
  decide +kernel

end Toppo.CubeProps
