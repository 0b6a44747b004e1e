import Verif.Proof.MaxTree
import Verif.Props.Graph
set_option linter.unusedVariables false

/-!
# C55: `choose_maximal_tree`

The specification uses Mathlib's `SimpleGraph`: `toSimple g` is the graph and `treeOf g` the subgraph of the pairs for
which the public `maximal_tree_contains` answers yes.
-/
namespace Toppo.GraphProps
open Toppo RawGraph Normal

/-- `x` is the parent of `y`: the smaller end of the tree edge `[x,y]`, as `maximal_tree_contains` reports it. -/
def Parent (g : RawGraph) (x y : Nat) : Prop := x < y ∧ g.treeContains x y = some true

/-- the maximal tree as a graph on `Fin n` -/
def treeOf (g : RawGraph) : SimpleGraph (Fin g.n) where
  Adj a b := Parent g a b ∨ Parent g b a
  symm := ⟨fun a b h => h.symm⟩
  loopless := ⟨fun a h => by rcases h with h | h <;> exact absurd h.1 (lt_irrefl _)⟩

/-- A vertex the function may choose as the root: a leaf, or a vertex of degree at least 3 without which the rest of the graph is
still connected. -/
def GoodRoot (g : RawGraph) (v : Fin g.n) : Prop :=
  Nat.card ((toSimple g).neighborSet v) = 1 ∨
    (3 ≤ Nat.card ((toSimple g).neighborSet v) ∧ ((toSimple g).induce {x | x ≠ v}).Preconnected)

/-- The branch of `i` at its child `c` (the vertices from `c` to the next child of `i`) has an edge to a vertex before `i`;
cutting the graph at `i` does not separate this branch from the root. -/
def BranchMeetsRoot (g : RawGraph) (i c : Nat) : Prop :=
  ∃ k, k < i ∧ ∃ l, Relation.ReflTransGen (Parent g) c l ∧ Edge g k l

/-- What a chosen maximal tree is. -/
structure IsDfsTree (g : RawGraph) : Prop where
  /-- the tree is a spanning tree of the graph -/
  sub : treeOf g ≤ toSimple g
  tree : (treeOf g).IsTree
  /-- every vertex except `0` has exactly one smaller neighbour in the tree -/
  parent : ∀ y, 0 < y → y < g.n → ∃! x, Parent g x y
  /-- `0` is the root: every vertex is a descendant of `0` -/
  root : ∀ y, y < g.n → Relation.ReflTransGen (Parent g) 0 y
  /-- depth first: the two ends of every edge of the graph are ancestor and descendant -/
  normal : ∀ x y, x < y → Edge g x y → Relation.ReflTransGen (Parent g) x y
  /-- descendants of a vertex have consecutive numbers: everything between `x` and a descendant is a descendant -/
  consecutive : ∀ x y m, Relation.ReflTransGen (Parent g) x y → x ≤ m → m ≤ y → Relation.ReflTransGen (Parent g) x m

theorem par_iff {g} (h : Built g) (ht : g.treeChosen = true) {x y : Nat} (hy : y < g.n) :
    Par (Adj g) x y ↔ Parent g x y := by
  constructor
  · intro hp
    obtain ⟨b, h1, h2⟩ := treeContains_spec h.wf ht hp.1 hy
    exact ⟨hp.1, by rw [h1, h2.mpr hp]⟩
  · rintro ⟨h1, h2⟩
    obtain ⟨b, h3, h4⟩ := treeContains_spec h.wf ht h1 hy
    rw [h2] at h3; injection h3 with h3
    exact h4.mp h3.symm

theorem parent_lt {g} (h : Built g) {x y : Nat} (hp : Parent g x y) : y < g.n := by
  obtain ⟨h1, h2⟩ := hp
  by_contra hc
  unfold treeContains at h2
  have : g.contains x y = none := by rw [contains_eq h.wf, if_neg (by omega)]
  cases ht : g.treeChosen with
  | false => simp [ht] at h2
  | true => simp [ht, this] at h2

theorem par_iff' {g} (h : Built g) (ht : g.treeChosen = true) {x y : Nat} : Par (Adj g) x y ↔ Parent g x y := by
  by_cases hy : y < g.n
  · exact par_iff h ht hy
  · exact ⟨fun hp => absurd hp.2.1.lt.2.1 hy, fun hp => absurd (parent_lt h hp) hy⟩

theorem anc_iff {g} (h : Built g) (ht : g.treeChosen = true) {x y : Nat} :
    Anc (Adj g) x y ↔ Relation.ReflTransGen (Parent g) x y :=
  ⟨Relation.ReflTransGen.mono (fun _ _ => (par_iff' h ht).mp) _ _, Relation.ReflTransGen.mono (fun _ _ => (par_iff' h ht).mpr) _ _⟩

/-- in a depth-first numbering everything between `x` and a descendant of `x` is a descendant of `x` -/
theorem upto_between {A : Nat → Nat → Prop} {n : Nat} (hu : Upto A n) {x y} (ha : Anc A x y) : y < n → ∀ m, x ≤ m → m ≤ y → Anc A x m := by
  induction ha with
  | refl => intro _ m h1 h2; have : m = x := by omega
            subst this; exact .refl
  | @tail b c hb hc ih =>
    intro hcn m h1 h2
    have hbc := hc.1
    by_cases hm : m ≤ b
    · exact ih (by omega) m h1 hm
    · by_cases hmc : m = c
      · subst hmc; exact hb.tail hc
      · exact hb.trans (hu.between b m c (by omega) (by omega) (by omega) hc.2.1)

theorem isDfsTree_of_upto {g} (h : Built g) (ht : g.treeChosen = true) (hu : Upto (Adj g) g.n) : IsDfsTree g := by
  have hpos := h.wf.pos
  have hpar : ∀ y, 0 < y → y < g.n → ∃! x, Parent g x y := by
    intro y h0 hy
    obtain ⟨x, hx⟩ := hu.1 y h0 hy
    exact ⟨x, (par_iff' h ht).mp hx, fun z hz => ((par_iff' h ht).mpr hz).unique hx⟩
  have hroot : ∀ y, y < g.n → Relation.ReflTransGen (Parent g) 0 y := fun y hy => (anc_iff h ht).mp (hu.root hy)
  have hconn : (treeOf g).Connected := by
    have : Nonempty (Fin g.n) := ⟨⟨0, hpos⟩⟩
    have key : ∀ y (hy : y < g.n), (treeOf g).Reachable ⟨0, hpos⟩ ⟨y, hy⟩ := by
      intro y hy
      have hr := hroot y hy
      induction hr with
      | refl => exact SimpleGraph.Reachable.refl _
      | @tail b c hb hc ih =>
        have hbn : b < g.n := lt_trans hc.1 hy
        have hadj : (treeOf g).Adj ⟨b, hbn⟩ ⟨c, hy⟩ := Or.inl hc
        exact (ih hbn).trans hadj.reachable
    exact ⟨fun a b => (key a a.2).symm.trans (key b b.2)⟩
  refine ⟨?_, ?_, hpar, hroot, ?_, ?_⟩
  · intro a b hab
    rw [toSimple_adj h]
    rcases hab with hab | hab
    · exact ((par_iff' h ht).mpr hab).2.1
    · exact adj_comm.mp ((par_iff' h ht).mpr hab).2.1
  · rw [SimpleGraph.isTree_iff_connected_and_card]
    refine ⟨hconn, ?_⟩
    choose! f hf1 hf2 using hpar
    have hfn : ∀ y, 0 < y → y < g.n → f y < g.n := fun y h0 hy => lt_trans (hf1 y h0 hy).1 hy
    let F : {y : Fin g.n // y.val ≠ 0} → (treeOf g).edgeSet := fun y =>
      ⟨s(⟨f y.1.1, hfn _ (Nat.pos_of_ne_zero y.2) y.1.2⟩, y.1), Or.inl (hf1 _ (Nat.pos_of_ne_zero y.2) y.1.2)⟩
    have hbij : Function.Bijective F := by
      constructor
      · rintro ⟨a, ha⟩ ⟨b, hb⟩ e
        have e' := congrArg Subtype.val e
        simp only [F] at e'
        rw [Sym2.eq_iff] at e'
        rcases e' with ⟨_, e2⟩ | ⟨e1, e2⟩
        · exact Subtype.ext e2
        · have k1 := (hf1 a.1 (Nat.pos_of_ne_zero ha) a.2).1
          have k2 := (hf1 b.1 (Nat.pos_of_ne_zero hb) b.2).1
          have e1' := congrArg Fin.val e1
          have e2' := congrArg Fin.val e2
          simp only at e1' e2'
          omega
      · rintro ⟨e, he⟩
        induction e using Sym2.ind with
        | _ a b =>
          rcases he with he | he
          · have hb0 : b.val ≠ 0 := Nat.ne_of_gt (Nat.lt_of_le_of_lt (Nat.zero_le _) he.1)
            refine ⟨⟨b, hb0⟩, Subtype.ext ?_⟩
            simp only [F]
            rw [Sym2.eq_iff]
            left
            exact ⟨Fin.ext (hf2 b.1 (Nat.pos_of_ne_zero hb0) b.2 a.1 he).symm, rfl⟩
          · have ha0 : a.val ≠ 0 := Nat.ne_of_gt (Nat.lt_of_le_of_lt (Nat.zero_le _) he.1)
            refine ⟨⟨a, ha0⟩, Subtype.ext ?_⟩
            simp only [F]
            rw [Sym2.eq_iff]
            right
            exact ⟨Fin.ext (hf2 a.1 (Nat.pos_of_ne_zero ha0) a.2 b.1 he).symm, rfl⟩
    rw [← Nat.card_eq_of_bijective F hbij]
    have : Nat.card {y : Fin g.n // y.val ≠ 0} + 1 = g.n := by
      rw [Nat.card_eq_fintype_card]
      have e1 : Fintype.card {y : Fin g.n // y.val ≠ 0} = (Finset.univ.filter (fun y : Fin g.n => y.val ≠ 0)).card := Fintype.card_subtype _
      have e2 : (Finset.univ.filter (fun y : Fin g.n => y.val ≠ 0)) = Finset.univ.erase (⟨0, hpos⟩ : Fin g.n) := by
        ext y
        simp [Fin.ext_iff]
      rw [e1, e2, Finset.card_erase_of_mem (Finset.mem_univ _), Finset.card_univ, Fintype.card_fin]
      omega
    rw [this]; simp
  · intro x y hxy he
    rw [edge_iff h] at he
    exact (anc_iff h ht).mp (hu.anc hxy he.lt.2.1 he)
  · intro x y m ha h1 h2
    rcases Nat.lt_or_ge y g.n with hy | hy
    · exact (anc_iff h ht).mp (upto_between hu ((anc_iff h ht).mpr ha) hy m h1 h2)
    · have hxy : x = y := by
        rcases Relation.ReflTransGen.cases_tail ha with h | ⟨z, _, hz⟩
        · exact h.symm
        · exact absurd (parent_lt h hz) (by omega)
      have : m = x := by omega
      subst this; exact .refl

theorem degree_card {g} (h : Built g) (v : Fin g.n) : g.degreeOf v = some (Nat.card ((toSimple g).neighborSet v)) := by
  classical
  rw [c52_degree_simple h v, Nat.card_eq_fintype_card, SimpleGraph.card_neighborSet_eq_degree]

theorem nonCut_iff {g} (h : Built g) (v : Fin g.n) : NonCut g v ↔ ((toSimple g).induce {x | x ≠ v}).Preconnected := by
  constructor
  · intro hn a b
    rw [SimpleGraph.reachable_iff_reflTransGen]
    have hne : ∀ (c : {x : Fin g.n | x ≠ v}), c.1.1 ≠ v.1 := fun c e => c.2 (Fin.ext e)
    have key : ∀ y, Relation.ReflTransGen (fun x y => Adj g x y ∧ x ≠ v.1 ∧ y ≠ v.1) a.1.1 y →
        ∃ (hy : y < g.n) (hv : (⟨y, hy⟩ : Fin g.n) ≠ v),
          Relation.ReflTransGen ((toSimple g).induce {x | x ≠ v}).Adj a ⟨⟨y, hy⟩, hv⟩ := by
      intro y hr
      induction hr with
      | refl => exact ⟨a.1.2, a.2, .refl⟩
      | @tail y z _ hyz ih =>
        obtain ⟨hy, hv, ih⟩ := ih
        refine ⟨hyz.1.lt.2.1, fun e => hyz.2.2 (by rw [← e]), ih.tail ?_⟩
        rw [SimpleGraph.comap_adj]
        exact (toSimple_adj h _ _).mpr hyz.1
    obtain ⟨_, _, hr⟩ := key b.1.1 (hn a.1.1 b.1.1 a.1.2 b.1.2 (hne a) (hne b))
    exact hr
  · intro hp a b ha hb hav hbv
    have ha' : (⟨a, ha⟩ : Fin g.n) ≠ v := fun e => hav (by rw [← e])
    have hb' : (⟨b, hb⟩ : Fin g.n) ≠ v := fun e => hbv (by rw [← e])
    have hr := hp ⟨⟨a, ha⟩, ha'⟩ ⟨⟨b, hb⟩, hb'⟩
    rw [SimpleGraph.reachable_iff_reflTransGen] at hr
    have key : ∀ y, Relation.ReflTransGen ((toSimple g).induce {x | x ≠ v}).Adj ⟨⟨a, ha⟩, ha'⟩ y →
        Relation.ReflTransGen (fun x y => Adj g x y ∧ x ≠ v.1 ∧ y ≠ v.1) a y.1.1 := by
      intro y hr
      induction hr with
      | refl => exact .refl
      | @tail y z _ hyz ih =>
        rw [SimpleGraph.comap_adj] at hyz
        exact ih.tail ⟨(toSimple_adj h _ _).mp hyz, fun e => y.2 (Fin.ext e), fun e => z.2 (Fin.ext e)⟩
    exact key _ hr

theorem good_iff {g} (h : Built g) (v : Nat) : Good g v ↔ ∃ hv : v < g.n, GoodRoot g ⟨v, hv⟩ := by
  constructor
  · rintro ⟨hv, hd⟩
    refine ⟨hv, ?_⟩
    have := degree_card h ⟨v, hv⟩
    simp only at this
    rw [this] at hd
    rcases hd with hd | ⟨⟨d, h3, hd⟩, hn⟩
    · exact Or.inl (Option.some.inj hd)
    · exact Or.inr ⟨by rw [Option.some.inj hd]; exact h3, (nonCut_iff h ⟨v, hv⟩).mp hn⟩
  · rintro ⟨hv, hd⟩
    refine ⟨hv, ?_⟩
    have := degree_card h ⟨v, hv⟩
    simp only at this
    rw [this]
    rcases hd with hd | ⟨h3, hn⟩
    · exact Or.inl (by rw [hd])
    · exact Or.inr ⟨⟨_, h3, rfl⟩, (nonCut_iff h ⟨v, hv⟩).mpr hn⟩

/-- C55: what the depth-first step alone does on every connected graph.  It succeeds, `0` stays the root, the vertices are
renamed by the returned permutation and (once the flag is set) the numbering is that of a depth-first tree. -/
theorem c55_depth_first {g} (h : Built g) (hc : (toSimple g).Connected) :
    ∃ g' p, g.chooseDfs = some (g', p) ∧ Built g' ∧ g'.n = g.n ∧ Permutation.map p 0 = 0 ∧
      Set.BijOn (Permutation.map p) (Set.Iio g.n) (Set.Iio g.n) ∧
      (∀ a b, Edge g' (Permutation.map p a) (Permutation.map p b) ↔ Edge g a b) ∧
      IsDfsTree { g' with treeChosen := true } := by
  obtain ⟨g', p, h1, h2, h3, h4⟩ := chooseDfs_spec h.wf ((connected_iff h).mp hc)
  have hb := built_iff.mpr h2.wf
  refine ⟨g', p, h1, hb, h2.n, h3, ?_, ?_, isDfsTree_of_upto (hb.flag true) rfl h4⟩
  · refine ⟨fun x hx => map_lt h2.valid h2.bound hx, ?_, fun y hy => ?_⟩
    · exact h2.valid.injective.injOn
    · obtain ⟨x, hx, e⟩ := map_surj h2.valid h2.bound hy
      exact ⟨x, hx, e⟩
  · intro a b; rw [edge_iff hb, edge_iff h, h2.adj]

/-- the relation between a graph and the same graph with the vertices renamed by `p` -/
structure Renamed (g g' : RawGraph) (p : Permutation) : Prop where
  size : g'.n = g.n
  bij : Set.BijOn (Permutation.map p) (Set.Iio g.n) (Set.Iio g.n)
  fix : ∀ x, g.n ≤ x → Permutation.map p x = x
  edge : ∀ a b, Edge g' (Permutation.map p a) (Permutation.map p b) ↔ Edge g a b

/-- the branches at `i` whose removal of `i` leaves connected to the root come last -/
def BranchOrder (g : RawGraph) (i : Nat) : Prop :=
  ∀ c c', Parent g i c → Parent g i c' → c < c' → BranchMeetsRoot g i c → BranchMeetsRoot g i c'

/-- the same, except that the last branch of `i` is exempt when there are vertices after the descendants of `i` -/
def WeakBranchOrder (g : RawGraph) (i : Nat) : Prop :=
  ∀ c c', Parent g i c → Parent g i c' → c < c' → BranchMeetsRoot g i c → BranchMeetsRoot g i c' ∨
    ((∀ c'', Parent g i c'' → c'' ≤ c') ∧ ∃ m, c' < m ∧ m < g.n ∧ ¬ Relation.ReflTransGen (Parent g) i m)

theorem anc_parent_le {g} {i c c' : Nat} (hc : Parent g i c) (hc' : Parent g i c')
    (hu : ∀ x, Parent g x c' → x = i) (ha : Relation.ReflTransGen (Parent g) c c') : c = c' := by
  rcases Relation.ReflTransGen.cases_tail ha with h | ⟨z, hz, hzc⟩
  · exact h.symm
  · have := hu z hzc
    subst this
    have hle : c ≤ z := by
      clear hzc hu hc' hc ha
      induction hz with
      | refl => exact le_refl _
      | tail _ h ih => exact le_trans ih h.1.le
    exact absurd hc.1 (by omega)

theorem weak_of_sorted {g} (h : Built g) (ht : g.treeChosen = true) (hd : IsDfsTree g) {i : Nat} (hs : SortedAt (Adj g) i) :
    WeakBranchOrder g i := by
  intro c c' hc hc' hlt ⟨k, hk, l, hl, he⟩
  have huniq : ∀ {y} x, Parent g i y → Parent g x y → x = i := by
    intro y x h1 h2
    exact ((par_iff' h ht).mpr h2).unique ((par_iff' h ht).mpr h1)
  have hcl : c ≤ l := Anc.le ((anc_iff h ht).mpr hl)
  have hsep : Sep (Adj g) i c := by
    refine ⟨k, hk, l, hcl, ?_, (edge_iff h _ _).mp he⟩
    intro c'' hp hcc
    by_contra hle
    have hp' := (par_iff' h ht).mp hp
    have := hd.consecutive c l c'' hl (by omega) (by omega)
    have := anc_parent_le hc hp' (fun x hx => huniq x hp' hx) this
    omega
  obtain ⟨k', hk', l', hl1, hl2, ha⟩ := hs c c' ((par_iff' h ht).mpr hc) ((par_iff' h ht).mpr hc') hlt hsep
  by_cases hdl : Relation.ReflTransGen (Parent g) i l'
  · left
    rcases Relation.ReflTransGen.cases_head hdl with e | ⟨d, hid, hdl'⟩
    · have := hc'.1; omega
    · have hdle : d ≤ l' := Anc.le ((anc_iff h ht).mpr hdl')
      have : d = c' := by
        rcases Nat.lt_trichotomy d c' with h1 | h1 | h1
        · have := hd.consecutive d l' c' hdl' (by omega) (by omega)
          exact anc_parent_le hid hc' (fun x hx => huniq x hc' hx) this
        · exact h1
        · have := hl2 d ((par_iff' h ht).mpr hid) h1
          omega
      subst this
      exact ⟨k', hk', l', hdl', (edge_iff h _ _).mpr ha⟩
  · right
    refine ⟨?_, l', ?_, ha.lt.2.1, hdl⟩
    · intro c'' hp
      by_contra hgt
      have := hl2 c'' ((par_iff' h ht).mpr hp) (by omega)
      have h1 := hc'.1
      exact hdl (hd.consecutive i c'' l' (.single hp) (by omega) (by omega))
    · rcases Nat.lt_or_ge c' l' with h1 | h1
      · exact h1
      · have : l' = c' := by omega
        subst this
        exact absurd (.single hc') hdl

/-- C55 (partial: a suitable root must exist, and the last branch is exempt in `WeakBranchOrder`): on every connected graph
`choose_maximal_tree` succeeds exactly if there is a leaf or an essential vertex that does not cut the graph.  The returned
permutation is a renaming of the vertices that carries the old graph to the new one and such a vertex to `0`, and the graph is
then numbered along a depth-first spanning tree. -/
theorem c55_choose_maximal_tree_partial {g} (h : Built g) (hc : (toSimple g).Connected) :
    ((∃ v, GoodRoot g v) → ∃ v g' p, GoodRoot g v ∧ g.chooseMaximalTree = some (g', p) ∧ Built g' ∧ g'.treeChosen = true ∧
      Renamed g g' p ∧ Permutation.map p v = 0 ∧ IsDfsTree g' ∧ ∀ i, WeakBranchOrder g' i) ∧
    ((¬ ∃ v, GoodRoot g v) → g.chooseMaximalTree = none) := by
  rcases chooseMaximalTree_spec h.wf ((connected_iff h).mp hc) with
    ⟨v, g', p, k1, k2, k3, k4, k5, k6, k7, k8, k9, k10, k11⟩ | ⟨hno, he⟩
  · obtain ⟨hv, hgood⟩ := (good_iff h v).mp k1
    have hb := built_iff.mpr k5
    have hdfs := isDfsTree_of_upto hb k3 k10
    refine ⟨fun _ => ⟨⟨v, hv⟩, g', p, hgood, k2, hb, k3, ⟨k4, ⟨?_, k6.injective.injOn, ?_⟩, k7, ?_⟩, k9, hdfs, fun i =>
      weak_of_sorted hb k3 hdfs (k11 i)⟩, fun hn => absurd ⟨_, hgood⟩ hn⟩
    · exact fun x hx => map_lt k6 k7 hx
    · intro y hy
      obtain ⟨x, hx, e⟩ := map_surj k6 k7 hy
      exact ⟨x, hx, e⟩
    · intro a b; rw [edge_iff hb, edge_iff h, k8]
  · refine ⟨?_, fun _ => he⟩
    rintro ⟨v, hv⟩
    exact absurd ((good_iff h v.1).mpr ⟨v.2, hv⟩) (hno v.1)

/-- The graph of the counterexample: a triangle `1 2 3` with three hairs. -/
def hairy : List Op := [.add 0 1, .add 1 2, .add 2 3, .add 1 3, .add 2 4, .add 1 5]

theorem hairy_run : ∃ g g' p, run 6 hairy = some g ∧ g.chooseMaximalTree = some (g', p) ∧
    g'.contains 1 3 = some true ∧ g'.contains 0 4 = some false ∧ g'.contains 1 4 = some false ∧
    g'.treeContains 2 3 = some true ∧ g'.treeContains 2 4 = some true ∧ g'.treeContains 4 5 = some false ∧ g'.n = 6 := by
  have hs : ((run 6 hairy).bind fun g => g.chooseMaximalTree.map fun r => ([r.1.contains 1 3, r.1.contains 0 4, r.1.contains 1 4,
      r.1.treeContains 2 3, r.1.treeContains 2 4, r.1.treeContains 4 5], r.1.n)) =
      some ([some true, some false, some false, some true, some true, some false], 6) := by decide +kernel
  cases h1 : run 6 hairy with
  | none => simp [h1] at hs
  | some g =>
    cases h2 : g.chooseMaximalTree with
    | none => simp [h1, h2] at hs
    | some r => exact ⟨g, r.1, r.2, rfl, h2, by simpa [h1, h2, and_assoc] using hs⟩

/-- C55 is false about the order of the branches: the last branch of a vertex is taken to extend to the last vertex of the
graph, so it is counted as meeting the root whenever vertices follow, and it is never moved.  At vertex `2` of this graph the
branch `3` meets the root (edge `1 3`), the later branch `4` does not. -/
theorem c55_branch_order_false : ∃ g g' p, Built g ∧ (toSimple g).Connected ∧ g.chooseMaximalTree = some (g', p) ∧ ¬ BranchOrder g' 2 := by
  obtain ⟨g, g', p, h1, h2, k1, k2, k3, k4, k5, k6, k7⟩ := hairy_run
  have hrs := run_spec 6 (by omega) hairy
  rw [if_pos (by decide)] at hrs
  obtain ⟨g0, r1, r2, r3, r4, r5⟩ := hrs
  rw [h1] at r1; injection r1 with r1; subst r1
  have hb := built_iff.mpr r2
  have hcon : g.isConnected = some true := by
    have : (run 6 hairy).bind isConnected = some true := by decide +kernel
    rw [h1] at this; exact this
  have hc : (toSimple g).Connected := by
    obtain ⟨b, e1, e2⟩ := c50_is_connected_partial hb (by omega)
    rw [hcon] at e1; injection e1 with e1; exact e2.mp e1.symm
  have hb' : Built g' := by
    obtain ⟨q1, q2⟩ := c55_choose_maximal_tree_partial hb hc
    by_cases hg : ∃ v, GoodRoot g v
    · obtain ⟨v, g1, p1, _, w1, w2, _⟩ := q1 hg
      rw [h2] at w1; injection w1 with w1; injection w1 with w1 _; exact w1 ▸ w2
    · rw [q2 hg] at h2; cases h2
  refine ⟨g, g', p, hb, hc, h2, fun hbo => ?_⟩
  obtain ⟨k, hk, l, hl, he⟩ := hbo 3 4 ⟨by omega, k4⟩ ⟨by omega, k5⟩ (by omega)
    ⟨1, by omega, 3, .refl, by unfold Edge; exact k1⟩
  have hl4 : l = 4 := by
    rcases Relation.ReflTransGen.cases_head hl with e | ⟨d, hd, _⟩
    · exact e.symm
    · have := parent_lt hb' hd
      have h4 := hd.1
      have : d = 5 := by omega
      subst this
      rw [hd.2] at k6; cases k6
  subst hl4
  unfold Edge at he
  have : k = 0 ∨ k = 1 := by omega
  rcases this with rfl | rfl
  · simp at he; rw [he] at k2; cases k2
  · simp at he; rw [he] at k3; cases k3

/-- C55 is false about success: on a cycle there is no suitable root, and the function panics. -/
theorem c55_cycle_panics_false : ∃ g, Built g ∧ (toSimple g).Connected ∧ g.chooseMaximalTree = none := by
  have hrs := run_spec 4 (by omega) [.add 0 1, .add 1 2, .add 2 3, .add 0 3]
  rw [if_pos (by decide)] at hrs
  obtain ⟨g, r1, r2, r3, r4, r5⟩ := hrs
  have hb := built_iff.mpr r2
  have h1 : (run 4 [.add 0 1, .add 1 2, .add 2 3, .add 0 3]).bind isConnected = some true := by decide +kernel
  have h2 : ((run 4 [.add 0 1, .add 1 2, .add 2 3, .add 0 3]).map fun g => g.chooseMaximalTree.isSome) = some false := by decide +kernel
  rw [r1] at h1 h2
  refine ⟨g, hb, ?_, ?_⟩
  · obtain ⟨b, e1, e2⟩ := c50_is_connected_partial hb (by omega)
    have h1' : g.isConnected = some true := h1
    rw [h1'] at e1; injection e1 with e1; exact e2.mp e1.symm
  · simpa using h2

/-- C55 instance: this graph has a suitable root and the tree is chosen. -/
example : (do
    let g ← run 6 hairy
    let (g', _) ← g.chooseMaximalTree
    return (g'.treeChosen, g'.treeContains 0 1, g'.treeContains 1 2, g'.treeContains 2 3, g'.treeContains 1 3)) =
    some (true, some true, some true, some true, some false) := by decide +kernel

end Toppo.GraphProps
