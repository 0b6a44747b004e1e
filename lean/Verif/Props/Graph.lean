import Verif.Proof.GraphTree
import Verif.Props.Permutation
import Mathlib.Combinatorics.SimpleGraph.Acyclic
import Mathlib.Combinatorics.SimpleGraph.Finite
set_option linter.unusedVariables false

/-!
# C49-C53: `RawSimpleGraph`

The specification side uses plain functions on pairs of vertices and Mathlib's `SimpleGraph`.
-/
namespace Toppo.GraphProps
open Toppo RawGraph

/-- The updates of a graph. -/
inductive Op where
  | add (i j : Nat)
  | remove (i j : Nat)
deriving DecidableEq

/-- One update on the modelled code. -/
def apply (g : RawGraph) : Op → Option RawGraph
  | .add i j => g.addEdge i j
  | .remove i j => g.removeEdge i j

/-- A history: `new(n)` and then the updates. -/
def run (n : Nat) (ops : List Op) : Option RawGraph := do
  let g ← RawGraph.new n
  ops.foldlM apply g

/-- the pair an update is about -/
def Op.pair : Op → Nat × Nat
  | .add i j => (i, j)
  | .remove i j => (i, j)

/-- the last update about `(i,j)` is an `add` -/
def LastAdded (ops : List Op) (i j : Nat) : Prop :=
  ∃ pre post, ops = pre ++ Op.add i j :: post ∧ Op.remove i j ∉ post

/-- Every graph a user can hold: made by `new`, `add_edge`, `remove_edge` and the public flag
`is_maximal_tree_chosen`.  (The other operations give nothing new: `built_iff`.) -/
inductive Built : RawGraph → Prop
  | new {n g} : RawGraph.new n = some g → Built g
  | add {g g' i j} : Built g → g.addEdge i j = some g' → Built g'
  | remove {g g' i j} : Built g → g.removeEdge i j = some g' → Built g'
  | flag {g} (b : Bool) : Built g → Built { g with treeChosen := b }

/-- `a` and `b` are joined by an edge, as the public `contains` (called with the smaller index first) reports it. -/
def Edge (g : RawGraph) (a b : Nat) : Prop := g.contains (min a b) (max a b) = some true

theorem Built.wf {g} (h : Built g) : WF g := by
  induction h with
  | @new n g h =>
    have := new_spec n
    split at this
    · obtain ⟨g', h1, h2, _⟩ := this; rw [h] at h1; injection h1 with h1; exact h1 ▸ h2
    · rw [h] at this; cases this
  | @add g g' i j _ h ih =>
    have := addEdge_spec ih i j
    split at this
    · obtain ⟨g1, h1, h2, _⟩ := this; rw [h] at h1; injection h1 with h1; exact h1 ▸ h2
    · rw [h] at this; cases this
  | @remove g g' i j _ h ih =>
    have := removeEdge_spec ih i j
    split at this
    · obtain ⟨g1, h1, h2, _⟩ := this; rw [h] at h1; injection h1 with h1; exact h1 ▸ h2
    · rw [h] at this; cases this
  | flag b _ ih => exact ⟨ih.inv, ih.len, ih.pos⟩

theorem Built.addEdges : ∀ (l : List (Nat × Nat)) {g g'}, Built g → g.addEdges l = some g' → Built g'
  | [], g, g', h, e => by simp [RawGraph.addEdges] at e; exact e ▸ h
  | x :: xs, g, g', h, e => by
    simp only [RawGraph.addEdges] at e
    cases h1 : g.addEdge x.1 x.2 with
    | none => simp [h1] at e
    | some g1 => rw [h1] at e; exact Built.addEdges xs (h.add h1) e

theorem built_iff {g} : Built g ↔ WF g := by
  refine ⟨Built.wf, fun h => ?_⟩
  have hn := new_spec g.n
  rw [if_pos h.pos] at hn
  obtain ⟨g0, a1, a2, a3, a4, a5⟩ := hn
  let l := ((List.range g.n).flatMap (fun j => (List.range j).map (fun i => (i, j)))).filter (fun e => decide (E g e.1 e.2))
  have hl : ∀ e ∈ l, E g e.1 e.2 := fun e he => by simpa using (List.mem_filter.mp he).2
  obtain ⟨g1, b1, b2, b3, b4, b5⟩ := addEdges_spec l a2 (fun e he => by rw [a3]; exact ⟨(hl e he).1, (hl e he).2.1⟩)
  have hb := (Built.addEdges l (.new a1) b1).flag g.treeChosen
  have e : { g1 with treeChosen := g.treeChosen } = g := by
    have hw : WF { g1 with treeChosen := g.treeChosen } := ⟨b2.inv, b2.len, b2.pos⟩
    apply ext_wf hw h (b3.trans a3) rfl
    intro i j
    have : E { g1 with treeChosen := g.treeChosen } i j ↔ E g1 i j := Iff.rfl
    rw [this, b5]
    constructor
    · rintro (h | h)
      · exact absurd h (a5 i j)
      · exact hl _ h
    · intro hE
      right
      refine List.mem_filter.mpr ⟨?_, by simpa using hE⟩
      rw [List.mem_flatMap]
      exact ⟨j, by simpa using hE.2.1, by simpa using hE.1⟩
  exact e ▸ hb

theorem edge_iff {g} (h : Built g) (a b : Nat) : Edge g a b ↔ Adj g a b := by
  unfold Edge
  rw [contains_eq h.wf]
  rcases Nat.lt_trichotomy a b with hlt | rfl | hlt
  · rw [Nat.min_eq_left hlt.le, Nat.max_eq_right hlt.le, adj_of_lt hlt]
    by_cases hb : b < g.n
    · simp [hlt, hb]
    · simp [hb]; exact fun he => hb he.2.1
  · simp [not_adj_self]
  · rw [Nat.min_eq_right hlt.le, Nat.max_eq_left hlt.le, adj_comm, adj_of_lt hlt]
    by_cases hb : a < g.n
    · simp [hlt, hb]
    · simp [hb]; exact fun he => hb he.2.1

theorem Edge.comm {g a b} : Edge g a b ↔ Edge g b a := by unfold Edge; rw [min_comm, max_comm]

/-! ## C49 -/

theorem lastAdded_snoc (ops : List Op) (o : Op) (i j : Nat) :
    LastAdded (ops ++ [o]) i j ↔ o = .add i j ∨ (LastAdded ops i j ∧ o ≠ .remove i j) := by
  constructor
  · rintro ⟨pre, post, h1, h2⟩
    rcases List.eq_nil_or_concat post with rfl | ⟨post', x, rfl⟩
    · left
      have := (List.append_inj' h1 rfl).2
      simpa using this
    · right
      have h3 : ops ++ [o] = (pre ++ Op.add i j :: post') ++ [x] := by rw [h1]; simp
      have h4 := List.append_inj' h3 rfl
      have h5 : o = x := by simpa using h4.2
      subst h5
      refine ⟨⟨pre, post', h4.1, fun hm => h2 (by simp [hm])⟩, fun e => h2 (by simp [e])⟩
  · rintro (rfl | ⟨⟨pre, post, h1, h2⟩, h3⟩)
    · exact ⟨ops, [], by simp, by simp⟩
    · exact ⟨pre, post ++ [o], by simp [h1], by simp [h2]; exact fun e => h3 e.symm⟩

theorem run_spec (n : Nat) (hn : 0 < n) (ops : List Op) :
    if ∀ o ∈ ops, o.pair.1 < o.pair.2 ∧ o.pair.2 < n then
      ∃ g, run n ops = some g ∧ WF g ∧ g.n = n ∧ g.treeChosen = false ∧ ∀ i j, E g i j ↔ LastAdded ops i j
    else run n ops = none := by
  induction ops using List.reverseRecOn with
  | nil =>
    have := new_spec n
    rw [if_pos hn] at this
    obtain ⟨g, h1, h2, h3, h4, h5⟩ := this
    simp only [List.not_mem_nil, false_imp_iff, implies_true, if_true]
    refine ⟨g, by simp [run, h1], h2, h3, h4, ?_⟩
    intro i j
    simp [h5, LastAdded]
  | append_singleton ops o ih =>
    have hrun : run n (ops ++ [o]) = (run n ops).bind (fun g => apply g o) := by
      unfold run
      cases RawGraph.new n with
      | none => rfl
      | some g0 =>
        simp only [Option.bind_eq_bind, Option.bind_some, List.foldlM_append, List.foldlM_cons, List.foldlM_nil]
        cases List.foldlM apply g0 ops with
        | none => rfl
        | some g1 => simp
    rw [hrun]
    by_cases hall : ∀ o ∈ ops, o.pair.1 < o.pair.2 ∧ o.pair.2 < n
    · rw [if_pos hall] at ih
      obtain ⟨g, h1, h2, h3, h4, h5⟩ := ih
      rw [h1]
      simp only [Option.bind_some]
      by_cases ho : o.pair.1 < o.pair.2 ∧ o.pair.2 < n
      · rw [if_pos (by
          intro x hx
          rcases List.mem_append.mp hx with h | h
          · exact hall x h
          · have : x = o := by simpa using h
            exact this ▸ ho)]
        cases o with
        | add i j =>
          have := addEdge_spec h2 i j
          rw [if_pos (by rw [h3]; exact ho)] at this
          obtain ⟨g', k1, k2, k3, k4, k5⟩ := this
          refine ⟨g', k1, k2, k3.trans h3, k4.trans h4, ?_⟩
          intro a b
          rw [k5, lastAdded_snoc, h5]
          simp only [Op.add.injEq, ne_eq, reduceCtorEq, not_false_eq_true, and_true]
          rw [or_comm, eq_comm (a := i), eq_comm (a := j)]
        | remove i j =>
          have := removeEdge_spec h2 i j
          rw [if_pos (by rw [h3]; exact ho)] at this
          obtain ⟨g', k1, k2, k3, k4, k5⟩ := this
          refine ⟨g', k1, k2, k3.trans h3, k4.trans h4, ?_⟩
          intro a b
          rw [k5, lastAdded_snoc, h5]
          simp only [reduceCtorEq, false_or, ne_eq, Op.remove.injEq]
          rw [eq_comm (a := i), eq_comm (a := j)]
      · rw [if_neg (fun h => ho (h o (by simp)))]
        cases o with
        | add i j =>
          have := addEdge_spec h2 i j
          rw [if_neg (by rw [h3]; exact ho)] at this
          exact this
        | remove i j =>
          have := removeEdge_spec h2 i j
          rw [if_neg (by rw [h3]; exact ho)] at this
          exact this
    · rw [if_neg hall] at ih
      rw [if_neg (fun h => hall (fun o ho => h o (by simp [ho]))), ih]
      rfl

theorem card_edges {g} (h : WF g) :
    g.nEdges = ((Finset.range g.n ×ˢ Finset.range g.n).filter (fun e => E g e.1 e.2)).card := by
  unfold nEdges
  rw [h.inv.card]
  symm
  apply Finset.card_bij (fun e _ => tri e.2 + e.1)
  · intro e he
    simp only [Finset.mem_filter] at he
    exact he.2.2.2
  · intro e he f hf heq
    simp only [Finset.mem_filter] at he hf
    obtain ⟨h1, h2⟩ := tri_inj he.2.1 hf.2.1 heq
    exact Prod.ext h1 h2
  · intro x hx
    have hxl : x < tri g.n := by rw [← h.len]; exact ((BinaryPool.mem_members _ _).mp hx).1
    have : ∀ n, x < tri n → ∃ j, j < n ∧ ∃ i, i < j ∧ x = tri j + i := by
      intro n
      induction n with
      | zero => intro h; simp [tri] at h
      | succ n ih =>
        intro h
        rw [tri_succ] at h
        by_cases h2 : x < tri n
        · obtain ⟨j, h3, h4⟩ := ih h2; exact ⟨j, by omega, h4⟩
        · exact ⟨n, by omega, x - tri n, by omega, by omega⟩
    obtain ⟨j, hj, i, hi, rfl⟩ := this _ hxl
    refine ⟨(i, j), ?_, rfl⟩
    simp only [Finset.mem_filter, Finset.mem_product, Finset.mem_range]
    exact ⟨⟨by omega, hj⟩, hi, hj, hx⟩

/-- C49: a history of `add_edge`/`remove_edge` calls on `new(n)` succeeds exactly when there is a vertex and all calls
have `i < j < n`; then `contains(i,j)` is true exactly for the pairs whose last update was an `add_edge`, it panics exactly
for pairs that are not `i < j < n`, and `n_edges` counts these pairs. -/
theorem c49_graph_refines_edge_set (n : Nat) (ops : List Op) :
    ((∃ g, run n ops = some g) ↔ 0 < n ∧ ∀ o ∈ ops, o.pair.1 < o.pair.2 ∧ o.pair.2 < n) ∧
    ∀ g, run n ops = some g → g.n = n ∧
      (∀ i j, (∃ b, g.contains i j = some b) ↔ i < j ∧ j < n) ∧
      (∀ i j, g.contains i j = some true ↔ LastAdded ops i j) ∧
      (∀ S : Finset (Nat × Nat), (∀ e, e ∈ S ↔ LastAdded ops e.1 e.2) → g.nEdges = S.card) := by
  by_cases hn : 0 < n
  · have hr := run_spec n hn ops
    by_cases hall : ∀ o ∈ ops, o.pair.1 < o.pair.2 ∧ o.pair.2 < n
    · rw [if_pos hall] at hr
      obtain ⟨g, h1, h2, h3, h4, h5⟩ := hr
      refine ⟨⟨fun _ => ⟨hn, hall⟩, fun _ => ⟨g, h1⟩⟩, ?_⟩
      intro g' hg'
      rw [h1] at hg'; injection hg' with hg'; subst hg'
      refine ⟨h3, ?_, ?_, ?_⟩
      · intro i j; rw [contains_eq h2, h3]
        by_cases hc : i < j ∧ j < n
        · simp [hc]
        · simp only [if_neg hc]; simp [hc]
      · intro i j; rw [contains_eq h2, ← h5]
        by_cases hc : i < j ∧ j < g.n
        · simp [hc]
        · simp only [if_neg hc]; simp; exact fun he => hc ⟨he.1, he.2.1⟩
      · intro S hS
        rw [card_edges h2]
        congr 1
        ext e
        rw [hS, ← h5]
        simp only [Finset.mem_filter, Finset.mem_product, Finset.mem_range]
        exact ⟨fun h => h.2, fun h => ⟨⟨by have := h.1; have := h.2.1; omega, h.2.1⟩, h⟩⟩
    · rw [if_neg hall] at hr
      rw [hr]
      exact ⟨⟨fun h => by simp at h, fun h => absurd h.2 hall⟩, fun g h => by simp at h⟩
  · have : n = 0 := by omega
    subst this
    have hr : run 0 ops = none := by simp [run, RawGraph.new, csub]
    rw [hr]
    exact ⟨⟨fun h => by simp at h, fun h => by simp at h⟩, fun g h => by simp at h⟩

/-- C49: equality of graphs is equality of the represented data: vertex count, tree flag and edges. -/
theorem c49_eq_iff {g k} (hg : Built g) (hk : Built k) :
    g = k ↔ g.n = k.n ∧ g.treeChosen = k.treeChosen ∧ ∀ i j, g.contains i j = some true ↔ k.contains i j = some true := by
  constructor
  · rintro rfl; exact ⟨rfl, rfl, fun _ _ => Iff.rfl⟩
  · rintro ⟨h1, h2, h3⟩
    apply ext_wf hg.wf hk.wf h1 h2
    intro i j
    have key : ∀ {g}, Built g → (g.contains i j = some true ↔ E g i j) := by
      intro g hg
      rw [contains_eq hg.wf]
      by_cases hc : i < j ∧ j < g.n
      · simp [hc]
      · simp only [if_neg hc]; simp; exact fun he => hc ⟨he.1, he.2.1⟩
    rw [← key hg, ← key hk, h3]

/-- C49 instance: a history with an overwritten pair. -/
example : (run 5 [.add 0 1, .add 1 4, .remove 0 1, .add 2 3]).map
    (fun g => (g.contains 0 1, g.contains 1 4, g.contains 2 3, g.nEdges)) =
    some (some false, some true, some true, 2) := by decide +kernel

/-! ## C50 -/

/-- the graph as a Mathlib graph on `Fin n` -/
def toSimple (g : RawGraph) : SimpleGraph (Fin g.n) where
  Adj a b := a ≠ b ∧ Edge g a b
  symm := ⟨fun a b h => ⟨h.1.symm, Edge.comm.mp h.2⟩⟩
  loopless := ⟨fun a h => h.1 rfl⟩

theorem toSimple_adj {g} (h : Built g) (a b : Fin g.n) : (toSimple g).Adj a b ↔ Adj g a b := by
  show a ≠ b ∧ Edge g a b ↔ _
  rw [edge_iff h]
  constructor
  · exact fun h => h.2
  · intro ha; exact ⟨fun e => ha.lt.2.2 (by rw [e]), ha⟩

theorem reachable_iff {g} (h : Built g) (a b : Fin g.n) : (toSimple g).Reachable a b ↔ Reach g a b := by
  rw [SimpleGraph.reachable_iff_reflTransGen]
  constructor
  · intro hr
    induction hr with
    | refl => exact .refl
    | tail _ hbc ih => exact .tail ih ((toSimple_adj h _ _).mp hbc)
  · intro hr
    have : ∀ x y, Reach g x y → ∀ (hx : x < g.n), ∃ hy : y < g.n,
        Relation.ReflTransGen (toSimple g).Adj ⟨x, hx⟩ ⟨y, hy⟩ := by
      intro x y hxy
      induction hxy with
      | refl => intro hx; exact ⟨hx, .refl⟩
      | tail _ hbc ih =>
        intro hx
        obtain ⟨hy, h2⟩ := ih hx
        exact ⟨hbc.lt.2.1, h2.tail ((toSimple_adj h _ _).mpr hbc)⟩
    obtain ⟨_, h2⟩ := this a b hr a.2
    exact h2

theorem connected_iff {g} (h : Built g) : (toSimple g).Connected ↔ Conn g := by
  have hp := h.wf.pos
  constructor
  · intro hc x hx
    exact (reachable_iff h ⟨0, hp⟩ ⟨x, hx⟩).mp (hc.preconnected _ _)
  · intro hc
    haveI : Nonempty (Fin g.n) := ⟨⟨0, hp⟩⟩
    exact ⟨fun a b => (reachable_iff h a b).mpr (hc.all a.2 b.2)⟩

/-- C50 (partial: graphs with at least two vertices): `is_connected` never panics, always terminates, and is true exactly
for connected graphs. -/
theorem c50_is_connected_partial {g} (h : Built g) (h2 : 2 ≤ g.n) :
    ∃ b, g.isConnected = some b ∧ (b = true ↔ (toSimple g).Connected) := by
  obtain ⟨b, h1, h3⟩ := isConnected_spec h.wf h2
  exact ⟨b, h1, by rw [h3, connected_iff h]; rfl⟩

/-- C50 is false for one vertex: the graph is connected but `is_connected` says no. -/
theorem c50_single_vertex_false : ∀ g, RawGraph.new 1 = some g →
    (toSimple g).Connected ∧ g.isConnected = some false := by
  intro g hg
  have hb : Built g := .new hg
  have e : g = ⟨BinaryPool.new 0, 1, false⟩ := by
    have : RawGraph.new 1 = some ⟨BinaryPool.new 0, 1, false⟩ := by decide
    rw [this] at hg; injection hg with hg; exact hg.symm
  refine ⟨?_, ?_⟩
  · rw [connected_iff hb]
    intro x hx
    rw [e] at hx
    have : x = 0 := by simp at hx; omega
    rw [this]
  · rw [e]; decide +kernel

/-- C50 instances: a connected and a disconnected graph with four vertices. -/
example : (run 4 [.add 0 2, .add 1 2, .add 1 3]).bind isConnected = some true ∧
    (run 4 [.add 0 2, .add 1 3]).bind isConnected = some false := by decide +kernel

/-! ## C51 -/

open Permutation in
theorem swapFn_eq_swap (i j x : Nat) : swapFn i j x = Equiv.swap i j x := by
  unfold swapFn; rw [Equiv.swap_apply_def]

/-- C51: `swap(i,j)` renames the vertices by the transposition of `i` and `j`; it panics exactly unless `i < j < n`. -/
theorem c51_swap {g} (h : Built g) (i j : Nat) :
    (i < j ∧ j < g.n → ∃ g', g.swap i j = some g' ∧ Built g' ∧ g'.n = g.n ∧ g'.treeChosen = g.treeChosen ∧
      ∀ a b, Edge g' (Equiv.swap i j a) (Equiv.swap i j b) ↔ Edge g a b) ∧
    (¬ (i < j ∧ j < g.n) → g.swap i j = none) := by
  refine ⟨?_, fun hn => swap_none hn⟩
  rintro ⟨h1, h2⟩
  obtain ⟨g', k1, k2, k3, k4, k5⟩ := swap_spec h.wf h1 h2
  have hb := built_iff.mpr k2
  refine ⟨g', k1, hb, k3, k4, ?_⟩
  intro a b
  rw [edge_iff hb, edge_iff h, k5, swapFn_eq_swap, swapFn_eq_swap, Equiv.swap_apply_self, Equiv.swap_apply_self]

/-- C51: the action of a permutation that moves only vertices of the graph gives the graph whose edges are the images of
the edges. -/
theorem c51_action {g} (h : Built g) {p} (hp : Permutation.Built p) (hb : ∀ x, g.n ≤ x → Permutation.map p x = x) :
    ∃ g', g.actionBy p = some g' ∧ Built g' ∧ g'.n = g.n ∧ g'.treeChosen = g.treeChosen ∧
      ∀ a b, Edge g' (Permutation.map p a) (Permutation.map p b) ↔ Edge g a b := by
  obtain ⟨g', k1, k2, k3, k4, k5⟩ := actionBy_spec h.wf hp.valid (by
    intro x hx; by_contra hc; exact hx (hb x (by omega)))
  have hb' := built_iff.mpr k2
  exact ⟨g', k1, hb', k3, k4, fun a b => by rw [edge_iff hb', edge_iff h, k5]⟩

/-- C51: acting by `p` and then by `q` is acting by `q * p`. -/
theorem c51_action_compose {g} (h : Built g) {p q} (hp : Permutation.Built p) (hq : Permutation.Built q)
    (hbp : ∀ x, g.n ≤ x → Permutation.map p x = x) (hbq : ∀ x, g.n ≤ x → Permutation.map q x = x) :
    ∃ k, (do let u ← g.actionBy p; u.actionBy q) = some k ∧ (do let r ← Permutation.mul q p; g.actionBy r) = some k := by
  obtain ⟨u, h1, h2, h3, h4, h5⟩ := c51_action h hp hbp
  obtain ⟨w, k1, k2, k3, k4, k5⟩ := c51_action h2 hq (by rw [h3]; exact hbq)
  obtain ⟨r, l1, l2⟩ := Permutation.c16_mul_is_composition hq hp
  have hr : Permutation.Built r := .mul hq hp l1
  obtain ⟨w', m1, m2, m3, m4, m5⟩ := c51_action h hr (fun x hx => by rw [l2, hbp x hx, hbq x hx])
  have e : w' = w := by
    apply ext_wf m2.wf k2.wf (by rw [m3, k3, h3]) (by rw [m4, k4, h4])
    have key : ∀ a b, Adj w' a b ↔ Adj w a b := by
      intro a b
      obtain ⟨x, ex⟩ := (Permutation.c16_map_bijective hr).1.2 a
      obtain ⟨y, ey⟩ := (Permutation.c16_map_bijective hr).1.2 b
      rw [← edge_iff m2, ← edge_iff k2, ← ex, ← ey, m5, l2, l2, k5, h5]
    intro i j
    by_cases hij : i < j
    · rw [← adj_of_lt hij, ← adj_of_lt hij, key]
    · exact ⟨fun he => absurd he.1 hij, fun he => absurd he.1 hij⟩
  refine ⟨w, ?_, ?_⟩
  · rw [h1]; exact k1
  · rw [l1, ← e]; exact m1

/-- C51 instance: a 3-cycle acting on a path. -/
example : (do
    let g ← run 4 [.add 0 1, .add 1 2]
    let c ← Cycle.mk [0, 2, 3]
    let g' ← g.actionBy [c]
    return (g'.contains 1 2, g'.contains 1 3, g'.nEdges)) = some (some true, some true, 2) := by decide +kernel

/-! ## C52 -/

/-- C52: the neighbour iterator of a vertex yields exactly its neighbours, in increasing order (so once each);
`degree_of` counts them; both panic for an index that is not a vertex. -/
theorem c52_adjacent_vertices {g} (h : Built g) (v : Nat) :
    (v < g.n → ∃ l, g.adj v = some l ∧ l.Pairwise (· < ·) ∧ (∀ x, x ∈ l ↔ Edge g v x) ∧ g.degreeOf v = some l.length) ∧
    (g.n ≤ v → g.adj v = none ∧ g.degreeOf v = none) := by
  constructor
  · intro hv
    refine ⟨_, adj_eq h.wf hv, ?_, ?_, ?_⟩
    · exact List.Pairwise.filter _ List.pairwise_lt_range
    · intro x
      simp only [List.mem_filter, List.mem_range, decide_eq_true_eq]
      rw [edge_iff h]
      exact ⟨fun h => h.2, fun h => ⟨h.lt.2.1, h⟩⟩
    · simp [degreeOf, adj_eq h.wf hv]; omega
  · intro hv
    exact ⟨adj_none h.wf hv, by simp [degreeOf, hv]⟩

/-- C52: `degree_of` is the degree in the sense of graph theory. -/
theorem c52_degree_simple {g} (h : Built g) (v : Fin g.n) [Fintype ((toSimple g).neighborSet v)] :
    g.degreeOf v = some ((toSimple g).degree v) := by
  obtain ⟨l, h1, h2, h3, h4⟩ := (c52_adjacent_vertices h v).1 v.2
  rw [h4]
  congr 1
  unfold SimpleGraph.degree
  have hnd : l.Nodup := h2.imp (fun h => by omega)
  rw [← List.toFinset_card_of_nodup hnd]
  symm
  apply Finset.card_bij (fun (x : Fin g.n) _ => x.val)
  · intro x hx
    rw [SimpleGraph.mem_neighborFinset] at hx
    rw [List.mem_toFinset, h3]
    exact hx.2
  · intro x _ y _ e; exact Fin.ext e
  · intro x hx
    rw [List.mem_toFinset, h3] at hx
    have ha := (edge_iff h _ _).mp hx
    refine ⟨⟨x, ha.lt.2.1⟩, ?_, rfl⟩
    rw [SimpleGraph.mem_neighborFinset, toSimple_adj h]
    exact ha

/-- C52: `remove_edges_adjacent_to(v)` removes exactly the edges at `v`. -/
theorem c52_remove_adjacent {g} (h : Built g) {v : Nat} (hv : v < g.n) :
    ∃ g', g.removeAdjacent v = some g' ∧ Built g' ∧ g'.n = g.n ∧
      ∀ a b, Edge g' a b ↔ Edge g a b ∧ a ≠ v ∧ b ≠ v := by
  obtain ⟨g', k1, k2, k3, k4, k5⟩ := removeAdjacent_spec h.wf hv
  have hb := built_iff.mpr k2
  refine ⟨g', k1, hb, k3, ?_⟩
  intro a b
  rw [edge_iff hb, edge_iff h]
  unfold Adj
  rw [k5, k5]
  constructor
  · rintro (⟨a1, a2, a3⟩ | ⟨a1, a2, a3⟩)
    · exact ⟨Or.inl a1, a2, a3⟩
    · exact ⟨Or.inr a1, a3, a2⟩
  · rintro ⟨a1 | a1, a2, a3⟩
    · exact Or.inl ⟨a1, a2, a3⟩
    · exact Or.inr ⟨a1, a3, a2⟩

/-- C52 instance. -/
example : (do
    let g ← run 4 [.add 0 1, .add 1 2, .add 1 3, .add 0 3]
    let l ← g.adj 1
    let k ← g.removeAdjacent 1
    return (l, g.degreeOf 1, k.nEdges, k.contains 0 3)) = some ([0, 2, 3], some 3, 1, some true) := by decide +kernel

/-! ## C53 -/

theorem mem_edgeAt {k : Nat} {f : Factor} : edgeAt k = f ↔ f = .edge (pairAt k).1 (pairAt k).2 := by
  unfold edgeAt; exact eq_comm

theorem edgeIter_mem {g} (h : Built g) (h2 : 2 ≤ g.n) : ∃ l, g.edgeIter = some (.edge 0 1 :: l) ∧ l.Nodup ∧
    Factor.edge 0 1 ∉ l ∧ (∀ x y, (x, y) ≠ (0, 1) → (Factor.edge x y ∈ l ↔ x < y ∧ Edge g x y)) ∧
    (∀ v, Factor.vertex v ∉ l) := by
  refine ⟨_, edgeIter_spec h.wf h2, ?_, ?_, ?_, ?_⟩
  · apply List.Nodup.map_on
    · intro a _ b _ e
      unfold edgeAt at e
      injection e with e1 e2
      have ha := (pairAt_spec a).2
      have hb := (pairAt_spec b).2
      rw [e1, e2] at ha; omega
    · exact (List.nodup_range').filter _
  · intro hm
    obtain ⟨k, hk, e⟩ := List.mem_map.mp hm
    have hk1 := (List.mem_range'_1.mp (List.mem_filter.mp hk).1).1
    unfold edgeAt at e
    injection e with e1 e2
    have := (pairAt_spec k).2
    rw [e1, e2] at this
    have t : tri 1 = 0 := by decide
    omega
  · intro x y hne
    constructor
    · intro hm
      obtain ⟨k, hk, e⟩ := List.mem_map.mp hm
      have hE : E g (pairAt k).1 (pairAt k).2 := by simpa using (List.mem_filter.mp hk).2
      unfold edgeAt at e
      injection e with e1 e2
      rw [e1, e2] at hE
      exact ⟨hE.1, (edge_iff h _ _).mpr (Or.inl hE)⟩
    · rintro ⟨hxy, he⟩
      have hE := (adj_of_lt hxy).mp ((edge_iff h _ _).mp he)
      have hp := pairAt_of hxy
      refine List.mem_map.mpr ⟨tri y + (y - 1 - x), List.mem_filter.mpr ⟨?_, ?_⟩, ?_⟩
      · rw [List.mem_range'_1]
        have hlt : tri y + (y - 1 - x) < tri g.n := (idx_lt_iff (by omega)).mpr hE.2.1
        have hpos : 1 ≤ tri y + (y - 1 - x) := by
          by_contra hc
          have h0 : tri y + (y - 1 - x) = 0 := by omega
          rw [h0] at hp
          apply hne
          rw [← hp]; rfl
        omega
      · rw [hp]; simpa using hE
      · unfold edgeAt; rw [hp]
  · intro v hm
    obtain ⟨k, hk, e⟩ := List.mem_map.mp hm
    cases e

/-- C53 (partial: graphs that contain the edge `0 1`, and graphs with fewer than two vertices; `edge_iter` never checks
the pair it starts from, see `c53_phantom_edge_false`): `edge_iter` terminates, and yields every edge exactly once, with the smaller
vertex first, and nothing else. -/
theorem c53_edge_iter_partial {g} (h : Built g) (h01 : 2 ≤ g.n → Edge g 0 1) :
    ∃ l, g.edgeIter = some l ∧ l.Nodup ∧ (∀ x y, Factor.edge x y ∈ l ↔ x < y ∧ Edge g x y) ∧ (∀ v, Factor.vertex v ∉ l) := by
  by_cases h2 : 2 ≤ g.n
  · obtain ⟨l, h1, h3, h4, h5, h6⟩ := edgeIter_mem h h2
    refine ⟨_, h1, List.nodup_cons.mpr ⟨h4, h3⟩, ?_, ?_⟩
    · intro x y
      by_cases hxy : (x, y) = (0, 1)
      · injection hxy with e1 e2; subst e1; subst e2
        simp [h01 h2]
      · rw [List.mem_cons, h5 x y hxy]
        constructor
        · rintro (e | e)
          · injection e with e1 e2; subst e1; subst e2; exact absurd rfl hxy
          · exact e
        · exact Or.inr
    · intro v; simp [h6]
  · refine ⟨[], by simp [edgeIter, edgeDrain]; omega, by simp, ?_, by simp⟩
    intro x y
    simp only [List.not_mem_nil, false_iff, not_and]
    intro hxy he
    have := ((edge_iff h _ _).mp he).lt
    omega

/-- C53 is false as stated: on every graph with at least two vertices and without the edge `0 1`, `edge_iter` yields this
missing edge (first), besides the edges of the graph. -/
theorem c53_phantom_edge_false {g} (h : Built g) (h2 : 2 ≤ g.n) (h01 : ¬ Edge g 0 1) :
    ∃ l, g.edgeIter = some (.edge 0 1 :: l) ∧ l.Nodup ∧ (∀ x y, Factor.edge x y ∈ l ↔ x < y ∧ Edge g x y) := by
  obtain ⟨l, h1, h3, h4, h5, h6⟩ := edgeIter_mem h h2
  refine ⟨l, h1, h3, ?_⟩
  intro x y
  by_cases hxy : (x, y) = (0, 1)
  · injection hxy with e1 e2; subst e1; subst e2
    simp [h4, h01]
  · exact h5 x y hxy

/-- C53: `vertex_iter` yields each vertex once, in order. -/
theorem c53_vertex_iter (g : RawGraph) : g.vertexIter = (List.range g.n).map Factor.vertex := rfl

/-- C53 instances: with and without the edge `0 1`. -/
example : (run 4 [.add 0 1, .add 0 2, .add 1 2, .add 2 3]).bind edgeIter =
    some [.edge 0 1, .edge 1 2, .edge 0 2, .edge 2 3] ∧
  (run 4 [.add 1 2]).bind edgeIter = some [.edge 0 1, .edge 1 2] := by decide +kernel

end Toppo.GraphProps
