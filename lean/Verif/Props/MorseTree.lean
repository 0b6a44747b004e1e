import Verif.Props.Morse
import Verif.Proof.MorseTree
set_option linter.unusedVariables false

/-
C77: the cells of the discrete Morse complex of a tree.
-/
namespace Toppo.CubeProps
open Toppo RawGraph Cub GraphProps EdgePath MGraphProps Toppo.SubdivideProps

/-! ### Specification -/

/-- a tree: connected, with one vertex more than edges -/
def TreeInput {α : Type} [DecidableEq α] (edges : List (α × α)) : Prop := ConnectedInput edges ∧ edges.length + 1 = (MGraphProps.endpoints edges).length

/-- the number of edges of `P` with no vertex of `P` strictly between their ends -/
def openCount (P : List Factor) : Nat :=
  P.countP (fun f => match f with
    | .edge x y => P.all (fun o => match o with | .vertex z => !(decide (x < z) && decide (z < y)) | .edge _ _ => true)
    | .vertex _ => false)

/-- The cells that the enumeration misses: some edge is followed by exactly `d - 1` factors, where `d` is the number of edges before it with no vertex between
their ends among the factors before it. -/
def Missed (c : List Factor) : Prop := ∃ P x y Q, c = P ++ Factor.edge x y :: Q ∧ Q.length + 1 = openCount P

/-- A cell that should be in the complex: critical, and its dimension within the bound. -/
def Wanted (g : RawGraph) (k : Nat) (upper : Option Nat) (c : List Factor) : Prop :=
  IsCell g k c ∧ property g c = some .critical ∧ ∀ d, upper = some d → dimC c ≤ d

/-! ### Proofs -/

theorem missed_iff (c : List Factor) : Missed c ↔ Morse.Skipped c := by
  unfold Missed Morse.Skipped
  have : ∀ P, openCount P = Morse.openEdges P := by
    intro P
    unfold openCount Morse.openEdges
    congr 1
    funext f
    cases f with
    | vertex v => rfl
    | edge x y =>
      simp only
      congr 1
      funext o
      cases o <;> rfl
  simp only [this]

theorem critical_iff {g : RawGraph} (h : TreeGraph g) {k : Nat} {c : List Factor} (hc : IsCell g k c) : property g c = some .critical ↔ ∀ f ∈ c, ¬ Elig g c f := by
  obtain ⟨m, m1, m2, -⟩ := c60_property h hc
  rw [m1, ← m2]
  exact ⟨fun e => Option.some.inj e, fun e => by rw [e]⟩

/-- the listed cells, for a graph with the properties of a subdivided tree -/
theorem listed_of_graph {g : RawGraph} {k : Nat} (h : Morse.SubTree g k) (hl : Large g k) {upper : Option Nat} (hu : upper ≠ some 0) :
    ∃ s, Morse.ofGraph g k upper = some s ∧ ∀ c, c ∈ mlist s ↔ Wanted g k upper c ∧ ¬ Missed c := by
  have h2 := h.two
  have hsz := h.size
  obtain ⟨es, s, e1, e2, e3, s1, s2⟩ := morse_done h.tree (by omega) (by omega) hl upper
  obtain ⟨s', q1, q2⟩ := c76_cells_of_graph_partial h.tree (by omega) (k := k) (by omega) hl upper
  rw [s1] at q1
  injection q1 with q1
  subst q1
  refine ⟨s, s1, fun c => ?_⟩
  have hcell : c ∈ mlist s → IsCell g k c := by
    intro hc
    obtain ⟨i, i1, -, i2⟩ := q2.lookup c hc
    obtain ⟨c', c1, c2⟩ := q2.listed i i1
    rw [i2] at c1
    injection c1 with c1
    rw [c1]; exact c2
  have hgoes := Morse.mcells_goes h e2 (fun f hf => (e3 f).mp hf) (upper := upper) c
  have hml := mlist_eq s2
  constructor
  · intro hc
    have hcc := hcell hc
    rw [hml, hgoes] at hc
    obtain ⟨g1, g2⟩ := Morse.goes_sound h e2 (fun f hf => (e3 f).mp hf) hc.1 hc.2
    refine ⟨⟨hcc, (critical_iff h.tree hcc).mpr g1, ?_⟩, by rwa [missed_iff]⟩
    intro d hd
    refine q2.bounded d hd ?_ c (by rw [hml, hgoes]; exact hc)
    rcases Nat.eq_zero_or_pos d with rfl | h0
    · exact absurd hd hu
    · exact h0
  · rintro ⟨⟨w1, w2, w3⟩, w4⟩
    rw [hml, hgoes]
    refine ⟨w1.length, ?_⟩
    refine Morse.goes_complete h e2 e3 w1.factors ((valid_iff c).mpr ⟨w1.disjoint, w1.sorted⟩) w1.length ((critical_iff h.tree w1).mp w2) (by rwa [← missed_iff]) ?_
    intro d hd
    have := w3 d hd
    rw [dimC_eq] at this
    exact this

variable {α : Type} [DecidableEq α]

theorem tree_sub (edges : List (α × α)) (ht : TreeInput edges) (m : MGraph α) (hm : MGraph.ofEdges edges = some m) (points : Nat) (hp2 : 2 ≤ points)
    (hp : points + 1 < 2 ^ 63) (g : SGraph α) (hg : SGraph.subdivide m points = some g) : Morse.SubTree g.data points := by
  obtain ⟨hc, hn⟩ := ht
  obtain ⟨hT, hS⟩ := subdivide_tree edges hc m hm points hp g hg
  have hmax : max points 2 = points := by omega
  rw [hmax] at hS
  have hsz := subdivided_size edges hc m hm points hp g hg
  refine ⟨hT, subdivide_all_tree edges hc hn m hm points hp g hg, hS, by omega, hp2, ?_⟩
  intro x s y h1 h2 h3 i hi
  exact subdivide_spaced edges hc hn m hm points hp g hg h1 h2 h3 i (by omega)

/-- **C77**, exactly which cells are listed: for a tree, at least two points and a bound on the dimension that is not zero (or none), the complex lists the
critical cells within the bound that are not `Missed`.  (Missing for the full property: the `Missed` cells, see `c77_missing_false`.) -/
theorem c77_listed_partial (edges : List (α × α)) (ht : TreeInput edges) (m : MGraph α) (hm : MGraph.ofEdges edges = some m) (points : Nat) (hp2 : 2 ≤ points)
    (hp : points + 1 < 2 ^ 63) (g : SGraph α) (hg : SGraph.subdivide m points = some g) (upper : Option Nat) (hu : upper ≠ some 0) :
    ∃ s, Morse.new m points upper = some s ∧ ∀ c, c ∈ mlist s ↔ Wanted g.data points upper c ∧ ¬ Missed c := by
  obtain ⟨s, s1, s2⟩ := listed_of_graph (tree_sub edges ht m hm points hp2 hp g hg) (subdivided_large edges ht.1 m hm points hp g hg) hu
  refine ⟨s, ?_, s2⟩
  unfold Morse.new
  rw [hg]; exact s1

/-- a critical cell with at most two edges is not missed -/
theorem low_not_missed {g : RawGraph} {k : Nat} (h : Morse.SubTree g k) {c : List Factor} (hc : IsCell g k c) (hcr : property g c = some .critical) (h2 : dimC c ≤ 2) : ¬ Missed c := by
  rw [missed_iff]
  rw [dimC_eq] at h2
  exact Morse.not_skipped h hc.factors ((valid_iff c).mpr ⟨hc.disjoint, hc.sorted⟩) ((critical_iff h.tree hc).mp hcr) h2

/-- **C77**, up to dimension 2: the cells of dimension `d ≤ 2` are all the critical cells of that dimension, each once, if `d` is within the bound.  With a bound of 1 or
2 the list is exactly the critical cells within the bound. -/
theorem c77_low_partial (edges : List (α × α)) (ht : TreeInput edges) (m : MGraph α) (hm : MGraph.ofEdges edges = some m) (points : Nat) (hp2 : 2 ≤ points)
    (hp : points + 1 < 2 ^ 63) (g : SGraph α) (hg : SGraph.subdivide m points = some g) (upper : Option Nat) (hu : upper ≠ some 0) (s : Cplx)
    (hs : Morse.new m points upper = some s) :
    (∀ c ∈ mlist s, property g.data c = some .critical) ∧
    (∀ d, d ≤ 2 → (∀ e, upper = some e → d ≤ e) → (mlistDim s d).Nodup ∧ ∀ c, c ∈ mlistDim s d ↔ IsCell g.data points c ∧ property g.data c = some .critical ∧ dimC c = d) ∧
    (upper = some 1 ∨ upper = some 2 → ∀ c, c ∈ mlist s ↔ Wanted g.data points upper c) := by
  have hsub := tree_sub edges ht m hm points hp2 hp g hg
  obtain ⟨s', s1, s2⟩ := c77_listed_partial edges ht m hm points hp2 hp g hg upper hu
  obtain ⟨s'', t1, t2, -⟩ := c76_cells_partial edges ht.1 m hm points (by omega) hp g hg upper
  rw [hs] at s1 t1
  injection s1 with s1
  injection t1 with t1
  subst s1
  subst t1
  refine ⟨fun c hc => ((s2 c).mp hc).1.2.1, ?_, ?_⟩
  · intro d hd hde
    refine ⟨t2.nodup.1.filter _, fun c => ?_⟩
    unfold mlistDim
    rw [List.mem_filter, decide_eq_true_iff, s2]
    constructor
    · rintro ⟨⟨⟨w1, w2, -⟩, -⟩, h3⟩
      exact ⟨w1, w2, h3⟩
    · rintro ⟨w1, w2, rfl⟩
      exact ⟨⟨⟨w1, w2, hde⟩, low_not_missed hsub w1 w2 hd⟩, rfl⟩
  · intro hup c
    rw [s2]
    refine ⟨fun h => h.1, fun h => ⟨h, low_not_missed hsub h.1 h.2.1 ?_⟩⟩
    rcases hup with rfl | rfl
    · have := h.2.2 1 rfl; omega
    · exact h.2.2 2 rfl

/-- **C77**, the homology in degree 1 that the complex of a tree with bound 1 gives: it is free on the critical cells of dimension 1. -/
theorem c77_homology_partial [LinearOrder (List Factor)] (edges : List (α × α)) (ht : TreeInput edges) (m : MGraph α) (hm : MGraph.ofEdges edges = some m) (points : Nat)
    (hp2 : 2 ≤ points) (hp : points + 1 < 2 ^ 63) (g : SGraph α) (hg : SGraph.subdivide m points = some g) (fuel : Nat) (hf : points * g.data.n < fuel) :
    ∃ s maps f0 res, Morse.new m points (some 1) = some s ∧ Morse.boundaryMap g.data fuel s = some maps ∧ (∀ fuel, f0 ≤ fuel → Hom.new fuel maps none = some res) ∧
      (s.dim = 1 → ∃ (crit : List (List Factor)) (o : _), crit.Nodup ∧ (∀ c, c ∈ crit ↔ IsCell g.data points c ∧ property g.data c = some .critical ∧ dimC c = 1) ∧
        res[1]? = some o ∧ o.module.freeRank = crit.length ∧ Nonempty (ModProps.Grp o.module ≃+ (Fin crit.length → ℤ))) ∧
      (s.dim = 0 → ∀ c, IsCell g.data points c → property g.data c = some .critical → dimC c ≠ 1) := by
  obtain ⟨s, s1, -⟩ := c77_listed_partial edges ht m hm points hp2 hp g hg (some 1) (by simp)
  obtain ⟨-, l2, -⟩ := c77_low_partial edges ht m hm points hp2 hp g hg (some 1) (by simp) s s1
  obtain ⟨l3, l4⟩ := l2 1 (by omega) (by rintro e he; injection he with he; omega)
  obtain ⟨maps, f0, res, r1, r2, -, -, r3⟩ := c76_homology_partial edges ht.1 m hm points (by omega) hp g hg (some 1) s s1 (Or.inl rfl) fuel hf
  refine ⟨s, maps, f0, res, s1, r1, r2, ?_, ?_⟩
  · intro hd
    obtain ⟨o, o1, o2, o3⟩ := r3 hd
    exact ⟨mlistDim s 1, o, l3, l4, o1, o2, o3⟩
  · intro hd c c1 c2 c3
    have hm' := (l4 c).mpr ⟨c1, c2, c3⟩
    obtain ⟨s'', t1, t2, -⟩ := c76_cells_partial edges ht.1 m hm points (by omega) hp g hg (some 1)
    rw [s1] at t1
    injection t1 with t1
    subst t1
    have := t2.dim.1 c (List.mem_filter.mp hm').1
    omega

/-! ### Counterexample and examples -/

/-- a path `0-1-2-3-4` with the leaves `5`, `6`, `7` at `1`, `2`, `3` -/
def comb : List (Nat × Nat) := [(0, 1), (1, 2), (2, 3), (3, 4), (1, 5), (2, 6), (3, 7)]

theorem comb_tree : TreeInput comb := by
  have e : MGraphProps.endpoints comb = [0, 1, 2, 3, 4, 5, 6, 7] := by decide
  refine ⟨⟨by simp [comb], ?_⟩, by rw [e]; rfl⟩
  have hsym : ∀ a b, Relation.ReflTransGen (fun x y => 0 < joining comb x y) a b → Relation.ReflTransGen (fun x y => 0 < joining comb x y) b a := by
    have hs : ∀ x y, 0 < joining comb x y → 0 < joining comb y x := by
      intro x y hxy
      have : joining comb x y = joining comb y x := by
        unfold joining
        apply List.countP_congr
        intro z _
        rw [decide_eq_true_iff, decide_eq_true_iff, or_comm]
      rw [← this]; exact hxy
    intro a b h
    induction h with
    | refl => exact .refl
    | tail _ h ih => exact ih.head (hs _ _ h)
  have h1 : Relation.ReflTransGen (fun x y => 0 < joining comb x y) 0 1 := .single (by decide)
  have h2 := h1.tail (c := 2) (by decide)
  have h3 := h2.tail (c := 3) (by decide)
  have hall : ∀ a ∈ MGraphProps.endpoints comb, Relation.ReflTransGen (fun x y => 0 < joining comb x y) 0 a := by
    intro a ha
    rw [e] at ha
    simp only [List.mem_cons, List.not_mem_nil, or_false] at ha
    rcases ha with rfl | rfl | rfl | rfl | rfl | rfl | rfl | rfl
    · exact .refl
    · exact h1
    · exact h2
    · exact h3
    · exact h3.tail (by decide)
    · exact h1.tail (by decide)
    · exact h2.tail (by decide)
    · exact h3.tail (by decide)
  intro a b ha hb
  exact (hsym _ _ (hall a ha)).trans (hall b hb)

/-- **C77**, in dimension 3 critical cells can be missing: four points on the tree `comb`, with three forks.  (A vertex pays for three edges at once, and `expand` assumes that
it pays for one.) -/
theorem c77_missing_false : ∃ (m : MGraph Nat) (g : SGraph Nat) (s : Cplx) (c : List Factor), TreeInput comb ∧ MGraph.ofEdges comb = some m ∧ SGraph.subdivide m 4 = some g ∧
    Morse.new m 4 none = some s ∧ Wanted g.data 4 none c ∧ dimC c = 3 ∧ c ∉ mlist s := by
  have h1 : ((MGraph.ofEdges comb).bind (fun m => SGraph.subdivide m 4)).map (fun g =>
      (property g.data [.edge 3 19, .edge 6 16, .edge 9 13, .vertex 10] == some .critical) && cellB g.data 4 [.edge 3 19, .edge 6 16, .edge 9 13, .vertex 10]) = some true := by
    decide +kernel
  cases hm : MGraph.ofEdges comb with
  | none => rw [hm] at h1; cases h1
  | some m =>
    rw [hm, Option.bind_some] at h1
    cases hg : SGraph.subdivide m 4 with
    | none => rw [hg] at h1; cases h1
    | some g =>
      rw [hg] at h1
      simp only [Option.map_some, Option.some.injEq, Bool.and_eq_true, beq_iff_eq] at h1
      obtain ⟨s, s1, s2⟩ := c77_listed_partial comb comb_tree m hm 4 (by omega) (by omega) g hg none (by simp)
      refine ⟨m, g, s, _, comb_tree, rfl, hg, s1, ⟨isCell_of_cellB h1.2, h1.1, by simp⟩, rfl, ?_⟩
      intro hc
      refine ((s2 _).mp hc).2 ⟨[.edge 3 19, .edge 6 16], 9, 13, [.vertex 10], rfl, by decide⟩

/-- The hypotheses of the theorems are met by `comb` (see `comb_tree`); for two points its complex with bound 1 has the base configuration and three critical cells, one
for each fork. -/
example : ((MGraph.ofEdges comb).bind (fun m => SGraph.subdivide m 2)).map (fun g =>
    onCells g.data 2 (some 1) (fun l => decide (l.length = 4 ∧ l.all (fun c => property g.data c == some .critical)))) = some true := by
  decide +kernel

/-- a critical cell of dimension 2 is listed for four points -/
example : ((MGraph.ofEdges comb).bind (fun m => SGraph.subdivide m 4)).map (fun g =>
    onCells g.data 4 (some 2) (fun l => decide ([Factor.edge 6 16, .vertex 7, .edge 9 13, .vertex 10] ∈ l) &&
      (property g.data [Factor.edge 6 16, .vertex 7, .edge 9 13, .vertex 10] == some .critical))) = some true := by
  decide +kernel

end Toppo.CubeProps
