import Verif.Proof.EdgeFlow
set_option linter.unusedVariables false

/-
C54: edge paths of configurations.  `TreeGraph g` (Proof/EdgeFlow.lean): a graph built by the public operations, with a chosen maximal tree as
described by `IsDfsTree`.  `Parent g x y`: `[x, y]` is a tree edge and `x < y`.  `Blocked g c`: with every vertex, the configuration contains its
parent.  `Stem g k`: the tree does not branch at the vertices `0, …, k-2`.  `Walk`, `Red`, `Eqv`: see Props/EdgePath.lean.
-/
namespace Toppo.EdgePath
open Toppo RawGraph GraphProps

theorem Red.subset {u v : List Move} (h : Red u v) : v ⊆ u := by
  induction h with
  | refl u => exact fun _ h => h
  | trans _ _ i1 i2 => exact fun _ h => i1 (i2 h)
  | swap u s t v h => intro x hx; simp only [List.mem_append, List.mem_cons] at hx ⊢; tauto
  | cancel u s v => intro x hx; simp only [List.mem_append, List.mem_cons] at hx ⊢; tauto

/-- **C54**, paths to and from the base point (partial: the configuration reached is the base configuration only if the tree does not branch
before the `k`-th vertex, see `c54_branching_false`): for every configuration of distinct vertices, both directions are computed without panic.
The path to the base point moves particles along tree edges, each to an unoccupied parent, until every particle is at the root or blocked by
another particle, and the path from the base point goes back. -/
theorem c54_base_partial {g : RawGraph} (h : TreeGraph g) (c : List Nat) (hc : ∀ v ∈ c, v < g.n) (hn : c.Nodup) :
    ∃ b p r, getEdgePathBase g (c.map Factor.vertex) true = some p ∧ getEdgePathBase g (c.map Factor.vertex) false = some r ∧
      Walk c p.flatten b ∧ Walk b r.flatten c ∧
      (∀ s ∈ p.flatten, Parent g s.2 s.1) ∧ (∀ s ∈ r.flatten, Parent g s.1 s.2) ∧
      (∀ L ∈ p ++ r, L.Pairwise Disj) ∧
      Blocked g b ∧ (Stem g c.length → b.Perm (List.range c.length)) := by
  obtain ⟨b, w, k1, k2, k3, k4, k5, k6⟩ := recc_spec h (c.sum + 1) c hc (by omega)
  obtain ⟨p, hp⟩ := reduce_down (w := w) (fun s hs => (k3 s hs).1)
  obtain ⟨r, hr, -⟩ := (c59_inverse p).2.2 _ hp
  obtain ⟨p1, -, p3, -⟩ := c59_reduce hp
  rw [flatten_single] at p1
  have hrev := hr
  unfold inverse at hrev
  obtain ⟨r1, -, r3, -⟩ := c59_reduce hrev
  rw [flatten_rev] at r1
  have hall : (c.map Factor.vertex).all Factor.isVertex = true := by
    rw [List.all_map, List.all_eq_true]; intro x _; rfl
  have hvs : (c.map Factor.vertex).filterMap Factor.vertexOf = c := by
    rw [List.filterMap_map]
    exact List.filterMap_some
  have hwp := k2.red p1
  refine ⟨b, p, r, ?_, ?_, hwp, (hwp.revWord hn).red r1, ?_, ?_, ?_, k4, ?_⟩
  · unfold getEdgePathBase
    rw [if_pos hall, hvs]
    simp only [(k1 []).1, List.nil_append, hp, if_true]
  · unfold getEdgePathBase
    rw [if_pos hall, hvs]
    simp only [(k1 []).1, List.nil_append, hp, hr]
    simp
  · exact fun s hs => k3 s (p1.subset hs)
  · intro s hs
    have := r1.subset hs
    obtain ⟨t, ht, rfl⟩ := List.mem_map.mp (List.mem_reverse.mp this)
    exact k3 t (p1.subset ht)
  · intro L hL
    rcases List.mem_append.mp hL with hL | hL
    · exact p3 L hL
    · exact r3 L hL
  · intro hs
    have := blocked_base h (c := b) (by rw [k2.length]; exact hs) k5 (k2.nodup hn) k4
    rwa [k2.length] at this

theorem edge_word {g : RawGraph} (h : TreeGraph g) (l1 l2 : List Nat) (x y : Nat) (hc : ∀ v ∈ l1 ++ x :: y :: l2, v < g.n)
    (hn : (l1 ++ x :: y :: l2).Nodup) :
    ∃ s t w1 w2 q, getEdgePath g (l1.map Factor.vertex ++ Factor.edge x y :: l2.map Factor.vertex) = some q ∧
      Walk s w1 (l1 ++ y :: l2) ∧ (∀ m ∈ w1, Parent g m.1 m.2) ∧ Walk (l1 ++ x :: l2) w2 t ∧ (∀ m ∈ w2, Parent g m.2 m.1) ∧
      Red (w1 ++ (y, x) :: w2) q.flatten ∧ (∀ L ∈ q, L.Pairwise Disj) ∧ Walk s (w1 ++ (y, x) :: w2) t ∧
      Blocked g s ∧ Blocked g t ∧ s.Nodup ∧ t.Nodup ∧ (∀ v ∈ s, v < g.n) ∧ (∀ v ∈ t, v < g.n) := by
  have hsub1 : ∀ v ∈ l1 ++ y :: l2, v ∈ l1 ++ x :: y :: l2 := by intro v hv; simp only [List.mem_append, List.mem_cons] at hv ⊢; tauto
  have hsub2 : ∀ v ∈ l1 ++ x :: l2, v ∈ l1 ++ x :: y :: l2 := by intro v hv; simp only [List.mem_append, List.mem_cons] at hv ⊢; tauto
  have hn1 : (l1 ++ y :: l2).Nodup := hn.sublist (List.Sublist.append_left (List.sublist_cons_self x _) l1)
  have hn2 : (l1 ++ x :: l2).Nodup := hn.sublist (List.Sublist.append_left ((List.sublist_cons_self y l2).cons₂ x) l1)
  obtain ⟨s, u1, a1, a2, a3, a4, a5, a6⟩ := recc_spec h ((l1 ++ y :: l2).sum + 1) _ (fun v hv => hc v (hsub1 v hv)) (by omega)
  obtain ⟨t, w2, b1, b2, b3, b4, b5, b6⟩ := recc_spec h ((l1 ++ x :: l2).sum + 1) _ (fun v hv => hc v (hsub2 v hv)) (by omega)
  have hw1 : Walk s (revWord u1) (l1 ++ y :: l2) := a2.revWord hn1
  have hx : x ∉ l1 ++ y :: l2 := by
    have := List.nodup_middle.mp hn
    exact (List.nodup_cons.mp this).1
  have hmid : ∀ {v z}, Walk (l1 ++ x :: l2) v z → Walk (l1 ++ y :: l2) ((y, x) :: v) z := by
    intro v z hv
    refine .cons l1.length ?_ hx ?_
    · simp
    · rw [List.set_append_right _ _ le_rfl, Nat.sub_self]; exact hv
  have hall : Walk s (revWord u1 ++ (y, x) :: w2) t := hw1.append (hmid b2)
  have hnp : reduce ((revWord u1 ++ (y, x) :: w2).map (fun e => [e])) ≠ none := by
    rw [Ne, reduce_none, flatten_single]
    rintro ⟨p, z, e, hp, hz, he⟩
    rcases List.append_eq_append_iff.mp e with ⟨u, e1, e2⟩ | ⟨u, e1, e2⟩
    · cases u with
      | nil =>
        rw [List.append_nil] at e1
        subst e1
        have hne : u1 ≠ [] := by
          rintro rfl; exact hp rfl
        have h1 := drop_down (fun m hm => (a3 m hm).1) hne
        have h2 := drop_eqv he
        rw [drop_rev] at h2
        simp only [drop, List.map_nil, List.sum_nil] at h1 h2
        omega
      | cons m u =>
        rw [List.cons_append] at e2
        injection e2 with e2 e3
        subst e2
        obtain ⟨d, d1, d2⟩ := (e3 ▸ b2).split
        have hy : Walk s p d := by rw [e1]; exact hw1.append (hmid d1)
        have := walk_trivial hy he
        subst this
        cases z with
        | nil => exact hz rfl
        | cons m z => exact b6 u m z d e3 d1 hn2 a4
    · have hne : revWord p ≠ [] := by
        intro hh; apply hp
        have := congrArg revWord hh
        rwa [revWord_revWord] at this
      have e4 : u1 = revWord u ++ revWord p := by rw [← revWord_append, ← e1, revWord_revWord]
      have h1 := drop_down (fun m hm => (a3 m (by rw [e4]; exact List.mem_append_right _ hm)).1) hne
      have h2 := drop_eqv he
      rw [drop_rev] at h1
      rw [h2] at h1
      simp [drop] at h1
  obtain ⟨q, hq⟩ := Option.ne_none_iff_exists'.mp hnp
  obtain ⟨q1, -, q3, -⟩ := c59_reduce hq
  rw [flatten_single] at q1
  refine ⟨s, t, revWord u1, w2, q, ?_, hw1, ?_, b2, b3, q1, q3, hall, a4, b4, a2.nodup hn1, b2.nodup hn2, a5, b5⟩
  · have e1 : (l1.map Factor.vertex ++ Factor.edge x y :: l2.map Factor.vertex).map startOf = l1 ++ y :: l2 := by
      simp [startOf, Function.comp_def]
    have e2 : (l1.map Factor.vertex ++ Factor.edge x y :: l2.map Factor.vertex).map endOf = l1 ++ x :: l2 := by
      simp [endOf, Function.comp_def]
    have e3 : ((l1.map Factor.vertex ++ Factor.edge x y :: l2.map Factor.vertex).find? Factor.isEdge).bind Factor.edgeOf = some (x, y) := by
      have : (l1.map Factor.vertex).find? Factor.isEdge = none := by
        rw [List.find?_eq_none]; intro f hf
        obtain ⟨v, -, rfl⟩ := List.mem_map.mp hf
        simp [Factor.isEdge]
      rw [List.find?_append, this, List.find?_cons_of_pos (by rfl)]
      rfl
    unfold getEdgePath
    simp only [e1, e2, e3, (a1 _).2, (b1 _).1]
    rw [show revWord u1 ++ [(y, x)] ++ w2 = revWord u1 ++ (y, x) :: w2 from by simp]
    exact hq
  · intro m hm
    obtain ⟨k, hk, rfl⟩ := List.mem_map.mp (List.mem_reverse.mp hm)
    exact a3 k hk

/-- **C54**, the path of a cube with one edge (partial: closed only if the tree does not branch before the `k`-th vertex): for every cube with one
edge `[x, y]` and vertices `l1`, `l2`, all distinct, the path is computed without panic.  It is a reduced form of: tree edges leading away from the
root to the configuration with `y`, then the motion from `y` to `x`, then tree edges towards the root.  It is a walk of the particles, and if
the tree does not branch before the `k`-th vertex it leads from the base configuration to the base configuration. -/
theorem c54_edge_partial {g : RawGraph} (h : TreeGraph g) (l1 l2 : List Nat) (x y : Nat) (hc : ∀ v ∈ l1 ++ x :: y :: l2, v < g.n)
    (hn : (l1 ++ x :: y :: l2).Nodup) :
    ∃ q s t w1 w2, getEdgePath g (l1.map Factor.vertex ++ Factor.edge x y :: l2.map Factor.vertex) = some q ∧
      Eqv q.flatten (w1 ++ (y, x) :: w2) ∧ Walk s w1 (l1 ++ y :: l2) ∧ Walk (l1 ++ x :: l2) w2 t ∧
      (∀ m ∈ w1, Parent g m.1 m.2) ∧ (∀ m ∈ w2, Parent g m.2 m.1) ∧
      Walk s q.flatten t ∧ (∀ L ∈ q, L.Pairwise Disj) ∧ Blocked g s ∧ Blocked g t ∧
      (Stem g (l1.length + l2.length + 1) → s.Perm (List.range (l1.length + l2.length + 1)) ∧ t.Perm (List.range (l1.length + l2.length + 1))) := by
  obtain ⟨s, t, w1, w2, q, a1, a2, a3, a4, a5, a6, a7, a8, a9, a10, a11, a12, a13, a14⟩ := edge_word h l1 l2 x y hc hn
  have ls : s.length = l1.length + l2.length + 1 := by have := a2.length; simp at this; omega
  have lt : t.length = l1.length + l2.length + 1 := by have := a4.length; simp at this; omega
  refine ⟨q, s, t, w1, w2, a1, a6.eqv.symm, a2, a4, a3, a5, a8.red a6, a7, a9, a10, fun hs => ⟨?_, ?_⟩⟩
  · have := blocked_base h (c := s) (by rw [ls]; exact hs) a13 a11 a9
    rwa [ls] at this
  · have := blocked_base h (c := t) (by rw [lt]; exact hs) a14 a12 a10
    rwa [lt] at this

/-- **C54**, the permutation of the path of a cube with one edge exists when the tree does not branch before the `k`-th vertex, and is the
permutation of the base configuration the particles undergo. -/
theorem c54_permutation {g : RawGraph} (h : TreeGraph g) (l1 l2 : List Nat) (x y : Nat) (hc : ∀ v ∈ l1 ++ x :: y :: l2, v < g.n)
    (hn : (l1 ++ x :: y :: l2).Nodup) (hs : Stem g (l1.length + l2.length + 1)) :
    ∃ q s t σ, getEdgePath g (l1.map Factor.vertex ++ Factor.edge x y :: l2.map Factor.vertex) = some q ∧ Walk s q.flatten t ∧
      s.Perm (List.range (l1.length + l2.length + 1)) ∧ evaluate (l1.length + l2.length + 1) q = some σ ∧
      σ.Perm (List.range (l1.length + l2.length + 1)) ∧ s.map (fun i => σ.getD i 0) = t := by
  obtain ⟨q, s, t, w1, w2, a1, a2, a3, a4, a5, a6, a7, a8, a9, a10, a11⟩ := c54_edge_partial h l1 l2 x y hc hn
  obtain ⟨b1, b2⟩ := a11 hs
  obtain ⟨k, hk⟩ : ∃ k, k = l1.length + l2.length + 1 := ⟨_, rfl⟩
  rw [← hk] at b1 b2 ⊢
  have hnd : s.Nodup := b1.nodup_iff.mpr List.nodup_range
  have hlen : s.length = k := by simpa using b1.length_eq
  have hlt : t.length = k := by simpa using b2.length_eq
  have hmem : ∀ i, i < k → i ∈ s := fun i hi => b1.mem_iff.mpr (List.mem_range.mpr hi)
  obtain ⟨π, hπ⟩ : ∃ π, π = (List.range k).map (fun i => s.idxOf i) := ⟨_, rfl⟩
  have hperm : π.Perm (List.range s.length) := by
    rw [hπ, List.perm_ext_iff_of_nodup ?_ List.nodup_range]
    · intro a
      rw [List.mem_map, List.mem_range]
      constructor
      · rintro ⟨i, hi, rfl⟩
        exact List.idxOf_lt_length_of_mem (hmem i (List.mem_range.mp hi))
      · intro ha
        exact ⟨s[a], b1.mem_iff.mp (List.getElem_mem ha), List.Nodup.idxOf_getElem hnd a ha⟩
    · refine List.Nodup.map_on ?_ List.nodup_range
      intro a ha b hb e
      exact (List.idxOf_inj (hmem a (List.mem_range.mp ha))).mp e
  have hw := a7.rename hperm
  have e1 : π.map (s.getD · 0) = List.range k := by
    rw [hπ, List.map_map]
    refine (List.map_congr_left ?_).trans (List.map_id _)
    intro i hi
    have hi := hmem i (List.mem_range.mp hi)
    show s.getD (s.idxOf i) 0 = i
    rw [List.getD_eq_getElem _ _ (List.idxOf_lt_length_of_mem hi), List.getElem_idxOf]
  rw [e1] at hw
  have e2 : s.map (fun i => (π.map (t.getD · 0)).getD i 0) = t := by
    apply List.ext_getElem (by simp [hlen, hlt])
    intro i h1 h2
    rw [List.length_map] at h1
    have hsi : s[i] < k := List.mem_range.mp (b1.mem_iff.mp (List.getElem_mem h1))
    have hπl : π.length = k := by rw [hπ]; simp
    have hπi : ∀ j (hj : j < π.length), π[j] = s.idxOf j := by subst hπ; intro j hj; simp
    rw [List.getElem_map, List.getD_eq_getElem _ _ (lt_of_lt_of_eq hsi (by rw [List.length_map, hπl])), List.getElem_map, hπi,
      List.Nodup.idxOf_getElem hnd i h1, List.getD_eq_getElem _ _ h2]
  refine ⟨q, s, t, _, a1, a7, b1, (c73_evaluate hw).1 a8, ?_, e2⟩
  have e3 : (π.map (t.getD · 0)).Perm ((List.range s.length).map (t.getD · 0)) := hperm.map _
  have e4 : (List.range s.length).map (t.getD · 0) = t := by
    apply List.ext_getElem (by simp [hlen, hlt])
    intro i h1 h2
    rw [List.getElem_map, List.getElem_range, List.getD_eq_getElem _ _ h2]
  rw [e4] at e3
  exact e3.trans b2

/-- every graph on which `choose_maximal_tree` succeeds gives a `TreeGraph` -/
theorem treeGraph_of_choose {g g' : RawGraph} {p : Permutation} (h : Built g) (hc : (toSimple g).Connected)
    (he : g.chooseMaximalTree = some (g', p)) : TreeGraph g' := by
  obtain ⟨q1, q2⟩ := c55_choose_maximal_tree_partial h hc
  by_cases hg : ∃ v, GoodRoot g v
  · obtain ⟨v, g'', p', k1, k2, k3, k4, k5, k6, k7, k8⟩ := q1 hg
    rw [he] at k2
    injection k2 with k2
    injection k2 with k2 k2'
    subst k2
    exact ⟨k3, k4, k7⟩
  · rw [q2 hg] at he; cases he

/-- the graph built by adding edges, a maximal tree being chosen -/
def treed (n : Nat) (ops : List Op) : Option RawGraph := (GraphProps.run n ops).bind (fun g => g.chooseMaximalTree.map Prod.fst)

theorem treeGraph_of_treed {n : Nat} {ops : List Op} {g : RawGraph} (hn : 2 ≤ n) (hok : ∀ o ∈ ops, o.pair.1 < o.pair.2 ∧ o.pair.2 < n)
    (hcon : (GraphProps.run n ops).bind isConnected = some true) (h : treed n ops = some g) : TreeGraph g := by
  have hrs := run_spec n (by omega) ops
  rw [if_pos (by simpa using hok)] at hrs
  obtain ⟨g0, r1, r2, r3, -⟩ := hrs
  unfold treed at h
  rw [r1] at h hcon
  simp only [Option.bind_some, Option.map_eq_some_iff] at h
  obtain ⟨⟨g1, p⟩, h1, h2⟩ := h
  subst h2
  have hb := built_iff.mpr r2
  refine treeGraph_of_choose hb ?_ h1
  obtain ⟨b, e1, e2⟩ := c50_is_connected_partial hb (by omega)
  have hcon : g0.isConnected = some true := hcon
  rw [hcon] at e1; injection e1 with e1; exact e2.mp e1.symm

/-- **C54**, "lead to the base configuration" is false without the condition on the tree: on the star with three arms, root `0` and centre `1`,
the configuration `{0, 1, 3}` is not moved. -/
theorem c54_branching_false : ∃ g, TreeGraph g ∧ getEdgePathBase g [.vertex 0, .vertex 1, .vertex 3] true = some [[]] := by
  have h1 : (treed 4 [.add 0 1, .add 1 2, .add 1 3]).bind (fun g => getEdgePathBase g [.vertex 0, .vertex 1, .vertex 3] true) = some [[]] := by
    decide +kernel
  cases ht : treed 4 [.add 0 1, .add 1 2, .add 1 3] with
  | none => rw [ht] at h1; cases h1
  | some g =>
    rw [ht] at h1
    exact ⟨g, treeGraph_of_treed (by omega) (by decide) (by decide +kernel) ht, h1⟩

/-- the hypotheses of **C54** are met, and the paths are not trivial: two particles on the star with three arms are exchanged -/
example : ∃ g, TreeGraph g ∧ Stem g 2 ∧ g.n = 4 ∧ getEdgePathBase g [.vertex 2, .vertex 3] true = some [[(2, 1)], [(1, 0)], [(3, 1)]] ∧
    getEdgePath g [.edge 1 3, .vertex 2] = some [[(1, 3)], [(0, 1)], [(1, 2)], [(3, 1)], [(1, 0)], [(2, 1)]] ∧
    (getEdgePath g [.edge 1 3, .vertex 2]).bind (evaluate 2) = some [1, 0] := by
  have h1 : (treed 4 [.add 0 1, .add 1 2, .add 1 3]).map (fun g => (g.n, g.treeContains 0 2, g.treeContains 0 3)) =
      some (4, some false, some false) := by decide +kernel
  have h2 : (treed 4 [.add 0 1, .add 1 2, .add 1 3]).map (fun g => getEdgePathBase g [.vertex 2, .vertex 3] true) =
      some (some [[(2, 1)], [(1, 0)], [(3, 1)]]) := by decide +kernel
  have h3 : (treed 4 [.add 0 1, .add 1 2, .add 1 3]).map (fun g => getEdgePath g [.edge 1 3, .vertex 2]) =
      some (some [[(1, 3)], [(0, 1)], [(1, 2)], [(3, 1)], [(1, 0)], [(2, 1)]]) := by decide +kernel
  cases ht : treed 4 [.add 0 1, .add 1 2, .add 1 3] with
  | none => rw [ht] at h1; cases h1
  | some g =>
    rw [ht] at h1 h2 h3
    simp only [Option.map_some, Option.some.injEq, Prod.mk.injEq] at h1 h2 h3
    obtain ⟨k1, k2, k3⟩ := h1
    have hT := treeGraph_of_treed (by omega) (by decide) (by decide +kernel) ht
    refine ⟨g, hT, ?_, k1, h2, h3, by rw [h3]; decide +kernel⟩
    intro x y hx hp
    obtain rfl : x = 0 := by omega
    have h0 := hp.1
    have hy := parent_lt hT.built hp
    rw [k1] at hy
    have : y = 1 ∨ y = 2 ∨ y = 3 := by omega
    rcases this with rfl | rfl | rfl
    · rfl
    · rw [hp.2] at k2; cases k2
    · rw [hp.2] at k3; cases k3

end Toppo.EdgePath
