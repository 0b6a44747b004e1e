import Verif.Proof.CubeBMap
import Verif.Proof.CubeChain
import Verif.Proof.Stem
import Mathlib.Algebra.BigOperators.Fin
set_option linter.unusedVariables false

/-
C75: the cells of the discretised unordered configuration space.  C58: its boundary maps.
-/
namespace Toppo.CubeProps
open Toppo RawGraph Cub GraphProps EdgePath MGraphProps Toppo.SubdivideProps

/-! ### Specification -/

/-- the vertices of a factor -/
def vertsOf : Factor → List Nat
  | .vertex v => [v]
  | .edge x y => [x, y]

/-- the first vertex of a factor -/
def firstOf : Factor → Nat
  | .vertex v => v
  | .edge x _ => x

/-- a factor is a vertex of the graph, or an edge with its smaller vertex first -/
def FactorOf (g : RawGraph) : Factor → Prop
  | .vertex v => v < g.n
  | .edge x y => x < y ∧ Edge g x y

/-- A cell for `k` points: `k` vertices and edges of the graph, no two with a common vertex, listed by their first vertices. -/
structure IsCell (g : RawGraph) (k : Nat) (c : List Factor) : Prop where
  length : c.length = k
  factors : ∀ f ∈ c, FactorOf g f
  disjoint : c.Pairwise (fun a b => ∀ v ∈ vertsOf a, v ∉ vertsOf b)
  sorted : c.Pairwise (fun a b => firstOf a < firstOf b)

/-- the dimension of a cell: its number of edges -/
def dimC (c : List Factor) : Nat := c.countP (fun f => match f with | .edge _ _ => true | .vertex _ => false)

/-- the cells listed by a complex -/
def cells (s : Cplx) : List (List Factor) := s.final.filterMap s.cellAt

/-- those of dimension `d` -/
def cellsDim (s : Cplx) (d : Nat) : List (List Factor) := (cells s).filter (fun c => decide (dimC c = d))

/-- The incidence number of a cell `c` and a cell `e` of one dimension less: for every edge of `c`, with alternating signs, one for its first
end minus one for its second end, if replacing the edge by that end gives `e`. -/
def incidence (c e : List Factor) : ℤ :=
  ((List.range c.length).map (fun t => match c[t]? with
    | some (.edge x y) => (-1) ^ dimC (c.take t) *
        ((if (c.set t (.vertex x)).Perm e then 1 else 0) - (if (c.set t (.vertex y)).Perm e then 1 else 0))
    | _ => 0)).sum

/-! ### Relating it to the model -/

theorem dimC_eq (c : List Factor) : dimC c = dm c := by
  unfold dimC dm
  congr 1

theorem disj_iff (a b : Factor) : (∀ v ∈ vertsOf a, v ∉ vertsOf b) ↔ a.disjoint b = true := by
  cases a <;> cases b <;> simp [vertsOf, Factor.disjoint] <;> tauto

theorem first_eq (f : Factor) : firstOf f = f.order := by cases f <;> rfl

theorem valid_iff (c : List Factor) : Valid c ↔ c.Pairwise (fun a b => ∀ v ∈ vertsOf a, v ∉ vertsOf b) ∧ c.Pairwise (fun a b => firstOf a < firstOf b) := by
  unfold Valid
  rw [← List.pairwise_and_iff]
  simp only [disj_iff, first_eq]
  rfl

/-- the factors of a graph -/
theorem pool_spec {g : RawGraph} (h : Built g) (h2 : 2 ≤ g.n) (h01 : Edge g 0 1) : ∃ pool, g.factorIter = some pool ∧ Pool g.n pool ∧ ∀ f, f ∈ pool ↔ FactorOf g f := by
  obtain ⟨l, h1, hn, h3, h4⟩ := c53_edge_iter_partial h (fun _ => h01)
  have hmem : ∀ f, f ∈ g.vertexIter ++ l ↔ FactorOf g f := by
    intro f
    rw [List.mem_append, c53_vertex_iter]
    cases f with
    | vertex v => simp [FactorOf, h4]
    | edge x y => rw [h3]; simp [FactorOf]
  refine ⟨g.vertexIter ++ l, by unfold factorIter; rw [h1]; rfl, ⟨?_, ?_, ?_⟩, hmem⟩
  · rw [List.nodup_append]
    refine ⟨?_, hn, ?_⟩
    · rw [c53_vertex_iter]
      exact List.nodup_range.map (fun a b e => by injection e)
    · intro a ha b hb e
      subst e
      rw [c53_vertex_iter] at ha
      obtain ⟨v, -, rfl⟩ := List.mem_map.mp ha
      exact h4 v hb
  · intro f hf
    have := (hmem f).mp hf
    cases f with
    | vertex v => exact this
    | edge x y => exact ⟨this.1, ((edge_iff h _ _).mp this.2).lt.2.1⟩
  · intro v hv
    exact (hmem _).mpr hv

theorem isCell_iff {g : RawGraph} {pool : List Factor} (hp : Pool g.n pool) (hm : ∀ f, f ∈ pool ↔ FactorOf g f) (k : Nat) (c : List Factor) :
    c ∈ ext g.n pool k [] ↔ IsCell g k c := by
  rw [mem_cells hp, valid_iff]
  constructor
  · rintro ⟨h1, ⟨h2, h3⟩, h4⟩; exact ⟨h1, fun f hf => (hm f).mp (h4 f hf), h2, h3⟩
  · rintro ⟨h1, h2, h3, h4⟩; exact ⟨h1, ⟨h3, h4⟩, fun f hf => (hm f).mpr (h2 f hf)⟩

theorem cells_eq {n : Nat} {pool : List Factor} {k : Nat} {s : Cplx} (h : Done n pool k s) : cells s = ext n pool k [] := by
  unfold cells
  have key : ∀ (F : List Nat) (C : List (List Factor)), List.Forall₂ (PathAt s.data) F C → (∀ i ∈ F, i ∈ s.final) → F.filterMap s.cellAt = C := by
    intro F C hFC
    induction hFC with
    | nil => intro _; rfl
    | @cons i c F C hp hFC ih =>
      intro hF
      have : s.cellAt i = some c := by
        unfold Cplx.cellAt
        rw [if_pos (hF i (by simp)), show up s.data (i + 1) i = some c.reverse from hp]
        simp
      rw [List.filterMap_cons, this]
      simp only
      rw [ih (fun i hi => hF i (by simp [hi]))]
  exact key _ _ h.final (fun _ hi => hi)

theorem cellsDim_eq {n : Nat} {pool : List Factor} {k : Nat} {s : Cplx} (h : Done n pool k s) (d : Nat) : cellsDim s d = ofDim (ext n pool k []) d := by
  unfold cellsDim ofDim
  rw [cells_eq h]
  simp only [dimC_eq]

theorem incidence_eq (c e : List Factor) : bsum (fun f => if f.Perm e then 1 else 0) (faces c) = incidence c e := by
  have key : ∀ (fs pre : List Factor) (sign : Bool), c = pre ++ fs → sg sign = (-1) ^ dimC pre →
      bsum (fun f => if f.Perm e then 1 else 0) (Cplx.facesFrom c pre.length sign fs) =
      ((List.range' pre.length fs.length).map (fun t => match c[t]? with
        | some (.edge x y) => (-1) ^ dimC (c.take t) *
            ((if (c.set t (.vertex x)).Perm e then (1 : ℤ) else 0) - (if (c.set t (.vertex y)).Perm e then 1 else 0))
        | _ => 0)).sum := by
    intro fs
    induction fs with
    | nil => intro pre sign _ _; simp [Cplx.facesFrom, bsum]
    | cons f fs ih =>
      intro pre sign hc hs
      have hget : c[pre.length]? = some f := by rw [hc]; simp
      have htake : c.take pre.length = pre := by rw [hc]; simp
      rw [List.length_cons, List.range'_succ, List.map_cons, List.sum_cons, hget, htake]
      cases f with
      | vertex v =>
        have := ih (pre ++ [.vertex v]) sign (by simpa using hc) (by rw [hs]; simp [dimC])
        simp only [List.length_append, List.length_singleton] at this
        simp only [Cplx.facesFrom, zero_add]
        exact this
      | edge x y =>
        have := ih (pre ++ [.edge x y]) (!sign) (by simpa using hc) (by rw [sg_not, hs]; simp [dimC, List.countP_append, pow_succ])
        simp only [List.length_append, List.length_singleton] at this
        rw [← this]
        simp only [Cplx.facesFrom]
        rw [← hs]
        have hb : ∀ (s : Bool) (f : List Factor) L, bsum (fun f => if f.Perm e then 1 else 0) ((s, f) :: L) = sg s * (if f.Perm e then 1 else 0) + bsum (fun f => if f.Perm e then 1 else 0) L := by
          intro s f L; simp [bsum]
        rw [hb, hb, sg_not]
        ring
  have := key c [] true rfl (by simp [sg, dimC])
  rw [show faces c = Cplx.facesFrom c ([] : List Factor).length true c from rfl, this]
  unfold incidence
  rw [List.range_eq_range']
  rfl

/-! ### C75 -/

/-- What is claimed of the complex for a graph and a number of points. -/
structure CellsOK (g : RawGraph) (k : Nat) (s : Cplx) : Prop where
  /-- every listed cell can be retrieved and is one -/
  listed : ∀ i ∈ s.final, ∃ c, s.cellAt i = some c ∧ IsCell g k c
  /-- every cell is listed exactly once -/
  complete : ∀ c, IsCell g k c → ∃! i, i ∈ s.final ∧ s.cellAt i = some c
  /-- the number of cells -/
  count : s.nCells = (cells s).length ∧ (cells s).Nodup ∧ ∀ c, c ∈ cells s ↔ IsCell g k c
  /-- membership -/
  contains : ∀ c, c.length = k → (s.contains c = true ↔ IsCell g k c)
  /-- numbers of cells by dimension -/
  ranks : s.ranks.length = k + 1 ∧ ∀ d, d ≤ k → s.ranks[d]? = some (cellsDim s d).length
  /-- the dimension is the largest of a cell -/
  dim : (∀ c ∈ cells s, dimC c ≤ s.dim) ∧ (s.dim = 0 ∨ ∃ c ∈ cells s, dimC c = s.dim)

theorem cellsOK_of_done {g : RawGraph} {pool : List Factor} (hp : Pool g.n pool) (hm : ∀ f, f ∈ pool ↔ FactorOf g f) {k : Nat} (hk : k ≠ 0) {s : Cplx} (h : Done g.n pool k s) : CellsOK g k s := by
  have hmem := isCell_iff hp hm k
  have hce := cells_eq h
  have hat : ∀ i c, i ∈ s.final → PathAt s.data i c → s.cellAt i = some c := by
    intro i c hi hc
    unfold Cplx.cellAt
    rw [if_pos hi, show up s.data (i + 1) i = some c.reverse from hc]
    simp
  refine ⟨?_, ?_, ⟨?_, ?_, ?_⟩, ?_, ⟨h.rlen, ?_⟩, ?_, ?_⟩
  · intro i hi
    obtain ⟨c, h1, h2⟩ := h.path hi
    exact ⟨c, hat i c hi h2, (hmem c).mp h1⟩
  · intro c hc
    obtain ⟨b1, b2, b3⟩ := h.br ((hmem c).mpr hc)
    refine ⟨_, ⟨b3, hat _ c b3 b2⟩, ?_⟩
    rintro j ⟨j1, j2⟩
    obtain ⟨c', h1, h2⟩ := h.path j1
    rw [hat j c' j1 h2] at j2
    injection j2 with j2
    subst j2
    have := (h.inv.indexOf c' j).mpr h2
    rw [b1] at this
    exact (Option.some.inj this).symm
  · rw [hce]
    exact h.final.length_eq
  · rw [hce]; exact ext_nodup hp.nodup k []
  · intro c; rw [hce]; exact hmem c
  · intro c hl
    unfold Cplx.contains
    rw [Option.isSome_iff_exists]
    constructor
    · rintro ⟨i, hi⟩
      have := h.inv.valid i c ((h.inv.indexOf c i).mp hi)
      refine (hmem c).mp ((mem_cells hp k c).mpr ⟨hl, this.1, ?_⟩)
      rw [← h.pool_eq]; exact this.2
    · intro hc
      exact ⟨_, (h.br ((hmem c).mpr hc)).1⟩
  · intro d hd
    rw [cellsDim_eq h]; exact ranks_eq h d hd
  · rw [hce]
    intro c hc
    rw [dimC_eq, h.dim]
    exact (dim_foldl (ext g.n pool k []) 0).1 c hc
  · rw [hce]
    rcases (dim_foldl (ext g.n pool k []) 0).2.2 with e | ⟨c, h1, h2⟩
    · left; rw [h.dim, e]
    · right; exact ⟨c, h1, by rw [dimC_eq, h2, h.dim]⟩

/-- a graph with a chosen maximal tree and two vertices has the edge `0 1` -/
theorem edge01 {g : RawGraph} (h : TreeGraph g) (h2 : 2 ≤ g.n) : Edge g 0 1 := by
  obtain ⟨p, hp, -⟩ := h.dfs.parent 1 (by omega) (by omega)
  have : p = 0 := by have := hp.1; omega
  subst this
  exact h.dfs.sub (v := ⟨0, by omega⟩) (w := ⟨1, by omega⟩) (Or.inl hp) |>.2

/-- the complex over any graph with the edge `0 1` -/
theorem ofGraph_done {g : RawGraph} (h : Built g) (h2 : 2 ≤ g.n) (h01 : Edge g 0 1) {k : Nat} (hk : k ≠ 0) (hkn : k ≤ g.n + 1) :
    ∃ s pool, ofGraph g k = some s ∧ Pool g.n pool ∧ (∀ f, f ∈ pool ↔ FactorOf g f) ∧ Done g.n pool k s := by
  obtain ⟨pool, p1, p2, p3⟩ := pool_spec h h2 h01
  obtain ⟨r, rfl⟩ : ∃ r, k = r + 1 := ⟨k - 1, by omega⟩
  obtain ⟨s, s1, s2⟩ := ofGraph_spec p1 p2.nodup p2.range h2 r (by omega)
  exact ⟨s, pool, s1, p2, p3, s2⟩

variable {α : Type} [DecidableEq α]

/-- the subdivided graph is large enough -/
theorem subdivided_size (edges : List (α × α)) (hc : ConnectedInput edges) (m : MGraph α) (hm : MGraph.ofEdges edges = some m) (points : Nat)
    (hp : points + 1 < 2 ^ 63) (g : SGraph α) (hg : SGraph.subdivide m points = some g) : max points 2 ≤ g.data.n := by
  obtain ⟨k1, k2, -, k4, k5, -⟩ := c57_subdivision edges hc m hm points hp g hg
  rw [k2, k4]
  obtain ⟨e, he⟩ := List.exists_mem_of_ne_nil _ hc.1
  by_cases hl : e.1 = e.2
  · have h1 : 0 < edges.countP (fun e => decide (e.1 = e.2)) := List.countP_pos_iff.mpr ⟨e, he, by simp [hl]⟩
    have := Nat.le_mul_of_pos_left (max points 2) h1
    omega
  · have h1 : 0 < edges.countP (fun e => decide (e.1 ≠ e.2)) := List.countP_pos_iff.mpr ⟨e, he, by simp [hl]⟩
    have h2 := Nat.le_mul_of_pos_left (max (max points 2 - 2) 1) h1
    have h3 : 2 ≤ (MGraphProps.endpoints edges).length := by
      have hs : [e.1, e.2].Nodup := by simpa using hl
      have := (hs.subperm (l₂ := MGraphProps.endpoints edges) (by
        intro v hv
        simp only [List.mem_cons, List.not_mem_nil, or_false] at hv
        exact mem_endpoints.mpr ⟨e, he, hv⟩)).length_le
      simpa using this
    omega

/-- **C75**: the complex of any graph with the edge `0 1` (which every graph with a chosen maximal tree has). -/
theorem c75_cells_of_graph {g : RawGraph} (h : Built g) (h2 : 2 ≤ g.n) (h01 : Edge g 0 1) (k : Nat) (hk : k ≠ 0) (hkn : k ≤ g.n + 1) :
    ∃ s, ofGraph g k = some s ∧ CellsOK g k s := by
  obtain ⟨s, pool, s1, s2, s3, s4⟩ := ofGraph_done h h2 h01 hk hkn
  exact ⟨s, s1, cellsOK_of_done s2 s3 hk s4⟩

theorem udc_done (edges : List (α × α)) (hc : ConnectedInput edges) (m : MGraph α) (hm : MGraph.ofEdges edges = some m) (points : Nat) (hp0 : points ≠ 0)
    (hp : points + 1 < 2 ^ 63) (g : SGraph α) (hg : SGraph.subdivide m points = some g) :
    ∃ s pool, udc m points = some s ∧ Pool g.data.n pool ∧ (∀ f, f ∈ pool ↔ FactorOf g.data f) ∧ Done g.data.n pool points s := by
  obtain ⟨hT, -⟩ := subdivide_tree edges hc m hm points hp g hg
  have hn := subdivided_size edges hc m hm points hp g hg
  obtain ⟨s, pool, s1, s2⟩ := ofGraph_done hT.built (by omega) (edge01 hT (by omega)) hp0 (by omega)
  refine ⟨s, pool, ?_, s2⟩
  unfold udc
  rw [hg]; exact s1

/-- **C75**: the configuration complex of a connected multigraph and a positive number of points: it lists exactly the cells of the subdivided
graph, each once; lookup and the numbers of cells by dimension agree with that. -/
theorem c75_udc (edges : List (α × α)) (hc : ConnectedInput edges) (m : MGraph α) (hm : MGraph.ofEdges edges = some m) (points : Nat) (hp0 : points ≠ 0)
    (hp : points + 1 < 2 ^ 63) (g : SGraph α) (hg : SGraph.subdivide m points = some g) :
    ∃ s, udc m points = some s ∧ CellsOK g.data points s := by
  obtain ⟨s, pool, s1, s2, s3, s4⟩ := udc_done edges hc m hm points hp0 hp g hg
  exact ⟨s, s1, cellsOK_of_done s2 s3 hp0 s4⟩

/-- C75, outside the domain: for zero points the construction panics. -/
theorem c75_zero_points_panics (m : MGraph α) : udc m 0 = none := by
  unfold udc
  cases SGraph.subdivide m 0 with
  | none => rfl
  | some g =>
    simp only [Option.bind_eq_bind, Option.bind_some]
    unfold ofGraph
    split
    · rfl
    · simp [csub]

/-! ### C58 -/

/-- What is claimed of the boundary maps: a zero map with one row, and for every dimension the matrix of incidence numbers; consecutive maps fit
and compose to zero. -/
structure BoundaryOK (s : Cplx) (maps : List (Hom.BMap (List Factor))) : Prop where
  length : maps.length = s.dim + 1
  bottom : ∃ b, maps[0]? = some b ∧ b.n = 1 ∧ b.m = (cellsDim s 0).length ∧ ∀ i j, b.a i j = 0
  entries : ∀ d, d < s.dim → ∃ b, maps[d + 1]? = some b ∧ b.n = (cellsDim s d).length ∧ b.m = (cellsDim s (d + 1)).length ∧
    ∀ (i j : Nat) e c, (cellsDim s d)[i]? = some e → (cellsDim s (d + 1))[j]? = some c → b.a i j = incidence c e
  nonempty : ∀ b ∈ maps, 0 < b.n ∧ 0 < b.m
  square : ∀ (d : Nat) b b', maps[d]? = some b → maps[d + 1]? = some b' → b'.n = b.m ∧
    ∀ i j, i < b.n → j < b'.m → ((List.range b.m).map (fun k => b.a i k * b'.a k j)).sum = 0

theorem map_range_getElem {β : Type} (l : List β) (F : Nat → ℤ) (G : β → ℤ) (h : ∀ k z, l[k]? = some z → F k = G z) : ((List.range l.length).map F).sum = (l.map G).sum := by
  congr 1
  apply List.ext_getElem?
  intro k
  rw [List.getElem?_map, List.getElem?_map]
  by_cases hk : k < l.length
  · rw [List.getElem?_range hk, List.getElem?_eq_getElem hk]
    simp only [Option.map_some]
    rw [h k l[k] (List.getElem?_eq_getElem hk)]
  · rw [List.getElem?_eq_none_iff.mpr (by simpa using hk), List.getElem?_eq_none_iff.mpr (by omega)]
    rfl

theorem boundaryOK_of_done {g : RawGraph} {pool : List Factor} (hp : Pool g.n pool) {k : Nat} (hk : k ≤ g.n) {s : Cplx} (h : Done g.n pool k s) :
    ∃ maps, s.boundaryMap = some maps ∧ BoundaryOK s maps ∧ ∀ b ∈ maps, b.basis = [] := by
  obtain ⟨maps, m1, m2, m3, m4, m5⟩ := boundaryMap_spec hp hk h
  have he : ∀ d, cellsDim s d = ofDim (ext g.n pool k []) d := cellsDim_eq h
  have hpos := fun d hd => ofDim_ne hp hk h d hd
  simp only [incidence_eq, ← he] at m4 m5 hpos
  refine ⟨maps, m1, ⟨m2, m4, m5, ?_, ?_⟩, m3⟩
  · intro b hb
    obtain ⟨d, hd⟩ := List.mem_iff_getElem?.mp hb
    have hdl := (List.getElem?_eq_some_iff.mp hd).1
    cases d with
    | zero =>
      obtain ⟨b', b1, b2, b3, -⟩ := m4
      rw [hd] at b1
      injection b1 with b1
      subst b1
      exact ⟨by omega, by rw [b3]; exact hpos 0 (by omega)⟩
    | succ d =>
      obtain ⟨b', b1, b2, b3, -⟩ := m5 d (by omega)
      rw [hd] at b1
      injection b1 with b1
      subst b1
      exact ⟨by rw [b2]; exact hpos d (by omega), by rw [b3]; exact hpos (d + 1) (by omega)⟩
  · intro d b b' hb hb'
    have hdl := (List.getElem?_eq_some_iff.mp hb').1
    obtain ⟨x', x1, x2, x3, x4⟩ := m5 d (by omega)
    rw [hb'] at x1
    injection x1 with x1
    subst x1
    cases d with
    | zero =>
      obtain ⟨y, y1, y2, y3, y4⟩ := m4
      rw [hb] at y1
      injection y1 with y1
      subst y1
      refine ⟨by rw [x2, y3], ?_⟩
      intro i j hi hj
      apply List.sum_eq_zero
      intro z hz
      obtain ⟨t, -, rfl⟩ := List.mem_map.mp hz
      rw [y4]; ring
    | succ d =>
      obtain ⟨y, y1, y2, y3, y4⟩ := m5 d (by omega)
      rw [hb] at y1
      injection y1 with y1
      subst y1
      refine ⟨by rw [x2, y3], ?_⟩
      intro i j hi hj
      rw [y2] at hi
      rw [x3] at hj
      have hc := List.getElem?_eq_getElem hj
      have hee := List.getElem?_eq_getElem hi
      rw [y3, map_range_getElem (cellsDim s (d + 1)) _ (fun z => incidence z (cellsDim s d)[i] * incidence (cellsDim s (d + 2))[j] z)]
      · have := incidence_zero hp (k := k) d (c := (cellsDim s (d + 2))[j]) (e := (cellsDim s d)[i]) (by rw [← he]; exact List.getElem_mem hj)
        simp only [incidence_eq, ← he] at this
        exact this
      · intro t z hz
        rw [y4 i t _ z hee hz, x4 t j z _ hz hc]

/-- **C58**, the complex: `boundary_map` is computed for every connected multigraph and positive number of points; its matrices are the matrices of
incidence numbers of the cells, and the boundary of the boundary is zero.  `_partial`: the lists of cells it returns beside the matrices are not as they
should be (see `c58_homology_panics_false`), and `get_boundary` of a single cube panics (see `c58_get_boundary_false`). -/
theorem c58_boundary_map_partial (edges : List (α × α)) (hc : ConnectedInput edges) (m : MGraph α) (hm : MGraph.ofEdges edges = some m) (points : Nat) (hp0 : points ≠ 0)
    (hp : points + 1 < 2 ^ 63) (g : SGraph α) (hg : SGraph.subdivide m points = some g) :
    ∃ s maps, udc m points = some s ∧ s.boundaryMap = some maps ∧ BoundaryOK s maps := by
  obtain ⟨s, pool, s1, s2, s3, s4⟩ := udc_done edges hc m hm points hp0 hp g hg
  have hn := subdivided_size edges hc m hm points hp g hg
  obtain ⟨maps, m1, m2, -⟩ := boundaryOK_of_done s2 (by omega) s4
  exact ⟨s, maps, s1, m1, m2⟩

/-- C58 for any graph with the edge `0 1` and at least as many vertices as points. -/
theorem c58_boundary_map_of_graph_partial {g : RawGraph} (h : Built g) (h2 : 2 ≤ g.n) (h01 : Edge g 0 1) (k : Nat) (hk : k ≠ 0) (hkn : k ≤ g.n) :
    ∃ s maps, ofGraph g k = some s ∧ s.boundaryMap = some maps ∧ BoundaryOK s maps := by
  obtain ⟨s, pool, s1, s2, s3, s4⟩ := ofGraph_done h h2 h01 hk (by omega)
  obtain ⟨maps, m1, m2, -⟩ := boundaryOK_of_done s2 hkn s4
  exact ⟨s, maps, s1, m1, m2⟩

theorem run_none {B : Type} [LinearOrder B] (fuel : Nat) (init : Hom.Hi) (l : List (Hom.BMap B)) (hl : l ≠ []) (h : ∀ b ∈ l, b.basis = [] ∧ 0 < b.m) : Hom.run fuel init l = none := by
  induction l with
  | nil => exact absurd rfl hl
  | cons b rest ih =>
    have hstep : ∀ hi, Hom.step fuel hi b = none := by
      intro hi
      obtain ⟨h1, h2⟩ := h b (by simp)
      unfold Hom.step
      cases Smith.snf fuel b.n b.m b.a with
      | none => rfl
      | some st =>
        simp only [Option.bind_eq_bind, Option.bind_some]
        split
        · rfl
        · split
          · rfl
          · have : Hom.changeBasis b.m st.q b.basis = none := by
              unfold Hom.changeBasis
              rw [if_pos (by rw [h1]; simp; omega)]
            rw [this]; rfl
    unfold Hom.run
    cases Hom.run fuel init rest with
    | none => rfl
    | some o => simp only [Option.bind_eq_bind, Option.bind_some, hstep]; rfl

/-- C58, counterexample: the lists of cells that go with the boundary matrices are all empty, so that computing the integral homology of a
configuration complex always panics. -/
theorem c58_homology_panics_false [LinearOrder (List Factor)] (edges : List (α × α)) (hc : ConnectedInput edges) (m : MGraph α) (hm : MGraph.ofEdges edges = some m)
    (points : Nat) (hp0 : points ≠ 0) (hp : points + 1 < 2 ^ 63) (g : SGraph α) (hg : SGraph.subdivide m points = some g) :
    ∃ s maps, udc m points = some s ∧ s.boundaryMap = some maps ∧ (∀ b ∈ maps, b.basis = []) ∧ ∀ fuel maxDim, Hom.new fuel maps maxDim = none := by
  obtain ⟨s, pool, s1, s2, s3, s4⟩ := udc_done edges hc m hm points hp0 hp g hg
  have hn := subdivided_size edges hc m hm points hp g hg
  obtain ⟨maps, m1, m2, m3⟩ := boundaryOK_of_done s2 (by omega) s4
  refine ⟨s, maps, s1, m1, m3, ?_⟩
  intro fuel maxDim
  unfold Hom.new
  cases maps.getLast? with
  | none => rfl
  | some last =>
    simp only [Option.bind_eq_bind, Option.bind_some]
    rw [run_none]
    · rfl
    · intro e
      have := m2.length
      rw [e] at this; simp at this
    · intro b hb
      exact ⟨m3 b hb, (m2.nonempty b hb).2⟩

/-- **C58**, a single cube without edges: the boundary is zero. -/
theorem c58_get_boundary_vertices {g : RawGraph} {k : Nat} {c : List Factor} (hc : IsCell g k c) (h : dimC c = 0) : getBoundary c = some [] := by
  rw [dimC_eq] at h
  exact getBoundary_zero h

/-- **C58**, a single cube with one edge: the boundary is the cube with the first end of the edge minus the one with its second end, both of them cells. -/
theorem c58_get_boundary_edge_partial {g : RawGraph} (hg : Built g) {k : Nat} {vs ws : List Nat} {x y : Nat}
    (hc : IsCell g k (vs.map Factor.vertex ++ .edge x y :: ws.map Factor.vertex)) :
    ∃ b1 b2, getBoundary (vs.map Factor.vertex ++ .edge x y :: ws.map Factor.vertex) = some [(1, b1), (-1, b2)] ∧
      b1.Perm (vs.map Factor.vertex ++ .vertex x :: ws.map Factor.vertex) ∧ b2.Perm (vs.map Factor.vertex ++ .vertex y :: ws.map Factor.vertex) ∧
      IsCell g k b1 ∧ IsCell g k b2 ∧ b1 ≠ b2 := by
  obtain ⟨h1, h2⟩ : x < y ∧ Edge g x y := hc.factors (.edge x y) (by simp)
  have hv := (valid_iff _).mpr ⟨hc.disjoint, hc.sorted⟩
  have hcell : ∀ v, v = x ∨ v = y → IsCell g k (Factor.sort (vs.map Factor.vertex ++ .vertex v :: ws.map Factor.vertex)) := by
    intro v hv'
    have hd := face_disjoint hv.disjoint hv'
    have hv2 := (valid_iff _).mp (sort_valid hd)
    refine ⟨?_, ?_, hv2.1, hv2.2⟩
    · rw [(sort_perm _).length_eq, ← hc.length]; simp
    · intro f hf
      rw [(sort_perm _).mem_iff] at hf
      rcases List.mem_append.mp hf with hf | hf
      · exact hc.factors f (List.mem_append_left _ hf)
      · rcases List.mem_cons.mp hf with rfl | hf
        · have := ((edge_iff hg _ _).mp h2).lt
          show v < g.n
          rcases hv' with rfl | rfl
          · exact this.1
          · exact this.2.1
        · exact hc.factors f (List.mem_append_right _ (by simp only [List.mem_cons]; exact Or.inr hf))
  exact ⟨_, _, getBoundary_one hv h1, sort_perm _, sort_perm _, hcell x (Or.inl rfl), hcell y (Or.inr rfl), ccmp_ne (ccmp_faces hv h1)⟩

/-- C58, counterexample: the boundary of a single cube with two or more edges is never computed; the comparison of its faces panics. -/
theorem c58_get_boundary_false {g : RawGraph} {k : Nat} {c : List Factor} (hc : IsCell g k c) (h : 2 ≤ dimC c) : getBoundary c = none := by
  rw [dimC_eq] at h
  exact getBoundary_two ((valid_iff _).mpr ⟨hc.disjoint, hc.sorted⟩) (fun x y hxy => (hc.factors _ hxy).1) h

/-- Example of `udc`: an edge with a loop at its end, two points (`ConnectedInput` for this list is an example in Props/Subdivide.lean). -/
example : ((MGraph.ofEdges [((0 : Nat), 1), (1, 1)]).bind (fun m => udc m 2)).map (fun s => (s.ranks, s.dim, s.nCells)) = some ([10, 15, 4], 2, 29) := by
  decide +kernel

/-- The repository's own instance (cubical.rs:318-325): the subdivided star with three edges, three points. -/
example : ((run 7 [.add 0 1, .add 1 2, .add 2 3, .add 3 4, .add 2 5, .add 5 6]).bind (fun g => ofGraph g 3)).map (fun s => (s.ranks, s.dim, s.nCells)) =
    some ([35, 60, 27, 4], 3, 126) := by
  decide +kernel

/-- An example of an incidence number. -/
example : incidence [.edge 0 1, .edge 2 4, .vertex 3] [.edge 0 1, .vertex 3, .vertex 4] = 1 ∧
    incidence [.edge 0 1, .edge 2 4, .vertex 3] [.vertex 0, .edge 2 4, .vertex 3] = 1 ∧
    getBoundary [.edge 6 9, .vertex 7, .vertex 10] = some [(1, [.vertex 6, .vertex 7, .vertex 10]), (-1, [.vertex 7, .vertex 9, .vertex 10])] ∧
    getBoundary [.edge 0 8, .vertex 1, .edge 6 9, .vertex 7] = none := by
  decide +kernel

end Toppo.CubeProps
