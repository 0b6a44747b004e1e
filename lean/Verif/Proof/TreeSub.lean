import Verif.Proof.Stem
set_option linter.unusedVariables false
/-! In a tree subdivided for `n` marked points the first `n - 2` vertices after a branching have exactly one child each. -/
namespace Toppo.EdgePath
open Toppo RawGraph GraphProps SGraph SubdivideProps MGraphProps Subdiv

theorem desc_le {g : RawGraph} {a b : Nat} (h : Relation.ReflTransGen (Parent g) a b) : a ≤ b := by
  induction h with
  | refl => exact le_rfl
  | tail _ hp ih => have := hp.1; omega

/-- the first child of a vertex follows it -/
theorem first_child {g : RawGraph} (h : TreeGraph g) {x y : Nat} (hp : Parent g x y) : Parent g x (x + 1) := by
  have hlt := hp.1
  have := h.dfs.consecutive x y (x + 1) (.single hp) (by omega) (by omega)
  rcases Relation.ReflTransGen.cases_tail this with e | ⟨z, hz, hzy⟩
  · omega
  · have h1 := desc_le hz
    have h2 := hzy.1
    obtain rfl : z = x := by omega
    exact hzy

/-- a vertex between a vertex and its child has its children before that child -/
theorem nested {g : RawGraph} (h : TreeGraph g) {x y x' y' : Nat} (h1 : Parent g x y) (h2 : Parent g x' y') (hx : x < x') (hy : x' < y) : y' < y := by
  by_contra hh
  have := h.dfs.consecutive x' y' y (.single h2) (by omega) (by omega)
  rcases Relation.ReflTransGen.cases_tail this with e | ⟨z, hz, hzy⟩
  · omega
  · have h3 := desc_le hz
    have := Parent.unique h hzy h1
    omega

variable {α : Type} [DecidableEq α]

theorem point_exists {n : Nat} (hn : 2 ≤ n) (hn' : n + 1 < 2 ^ 63) (a b : α) (k l : Nat) (hl : l ≤ innerCount n a b + 1) : ∃ v, IsPoint n a b k l v := by
  have hd : 0 < (if a = b then n + 1 else n - 1) := by split <;> omega
  by_cases z0 : l = 0
  · exact ⟨_, Or.inl ⟨z0, rfl⟩⟩
  · by_cases z1 : l = innerCount n a b + 1
    · exact ⟨_, Or.inr (Or.inl ⟨z1, rfl⟩)⟩
    · have hin : innerCount n a b ≤ n := by unfold innerCount; split <;> omega
      obtain ⟨c1, c2⟩ := frac_val (l := l) hd (by omega) (by split <;> omega)
      refine ⟨_, Or.inr (Or.inr ⟨by omega, by omega, frac l (if a = b then n + 1 else n - 1), rfl, c1, ?_⟩)⟩
      rw [c2]
      split
      · push_cast; rfl
      · rw [Nat.cast_sub (by omega)]; push_cast; rfl

/-- distinct points of a strand, if they are two steps apart -/
theorem point_two {n : Nat} (hn : 2 ≤ n) {a b : α} {k j : Nat} {r : Bool} {u : SVertex α} (hj : j + 1 ≤ innerCount n a b) (h1 : OPoint n a b k r j u) (h2 : OPoint n a b k r (j + 2) u) : False := by
  unfold OPoint at h1 h2
  by_cases hj0 : 1 ≤ j
  · have := (point_inj hn h1 (by split <;> omega) (by split <;> omega) h2).2.2.2
    split at this <;> omega
  · by_cases hj1 : j + 2 ≤ innerCount n a b
    · have := (point_inj hn h2 (by split <;> omega) (by split <;> omega) h1).2.2.2
      split at this <;> omega
    · have e0 : j = 0 := by omega
      have e1 : innerCount n a b = 1 := by omega
      subst e0
      have e : a = b := by
        cases r with
        | false =>
          simp only [Bool.false_eq_true, if_false, e1] at h1 h2
          rcases h1 with ⟨-, f⟩ | ⟨f, -⟩ | ⟨f, -⟩
          · rcases h2 with ⟨f', -⟩ | ⟨-, f'⟩ | ⟨-, f', -⟩
            · omega
            · rw [f] at f'; injection f'
            · omega
          · omega
          · omega
        | true =>
          simp only [if_true, e1] at h1 h2
          rcases h2 with ⟨-, f⟩ | ⟨f, -⟩ | ⟨f, -⟩
          · rcases h1 with ⟨f', -⟩ | ⟨-, f'⟩ | ⟨-, f', -⟩
            · omega
            · rw [f] at f'; injection f'
            · omega
          · omega
          · omega
      have : innerCount n a b = n := by unfold innerCount; rw [if_pos e]
      omega

/-- the vertex has exactly one child, the next vertex -/
def Straight (g : RawGraph) (v : Nat) : Prop := ∀ z, Parent g v z ↔ z = v + 1

theorem spaced_of_points {edges : List (α × α)} {n : Nat} (hn : 2 ≤ n) (hn' : n + 1 < 2 ^ 63) {g : SGraph α} (hT : TreeGraph g.data) (hroot : RootOK g.data 0)
    (hnd : g.verts.Nodup) (hlen : g.data.n = g.verts.length)
    (hmem : ∀ v, v ∈ g.verts ↔ ∃ a b k l, IsStrand edges a b k ∧ l ≤ innerCount n a b + 1 ∧ IsPoint n a b k l v)
    (hadj : ∀ x y, Edge g.data x y ↔ ∃ u v, g.verts[x]? = some u ∧ g.verts[y]? = some v ∧ (Consecutive edges n u v ∨ Consecutive edges n v u))
    (hall : ∀ x y, x < y → Edge g.data x y → Parent g.data x y) {x s y : Nat} (hs : Parent g.data x s) (hy : Parent g.data x y) (hys : y ≠ s) :
    ∀ i, i + 2 < n → Straight g.data (s + i) := by
  have hpa : ∀ {x z}, Parent g.data x z → Edge g.data x z := fun hp => (edge_iff hT.built _ _).mpr ((par_iff' hT.built hT.chosen).mpr hp).2.1
  have hsymm : ∀ {x z}, Edge g.data x z → Edge g.data z x := by
    intro x z h
    rw [hadj] at h ⊢
    obtain ⟨u, v, h1, h2, h3⟩ := h
    exact ⟨v, u, h2, h1, h3.symm⟩
  have hx0 : 0 < x := by
    by_contra hh
    obtain rfl : x = 0 := by omega
    exact hys ((root_child hT hroot hy).trans (root_child hT hroot hs).symm)
  have hxn : x < g.data.n := by have := parent_lt hT.built hs; have := hs.1; omega
  obtain ⟨p, hp, -⟩ := hT.dfs.parent x hx0 hxn
  obtain ⟨u, v1, g0, g1, g2⟩ := (hadj _ _).mp (hpa hs)
  have same : ∀ {i i' : Nat} {w w' : SVertex α} {a b : α} {k l'}, g.verts[i]? = some w → g.verts[i']? = some w' → IsPoint n a b k l' w → IsPoint n a b k l' w' → i = i' := by
    intro i i' w w' a b k l' f1 f2 f3 f4
    rw [point_eq f3 f4] at f1
    exact getElem?_inj_of_nodup hnd f1 f2
  -- a branching vertex is an end of the strands
  have hend : ∀ {a b : α} {k l : Nat}, IsPoint n a b k l u → 1 ≤ l → l ≤ innerCount n a b → False := by
    intro a b k l hpt h1 h2
    have hO : OPoint n a b k false l u := by unfold OPoint; simpa using hpt
    have key : ∀ z, Edge g.data x z → ∃ v, g.verts[z]? = some v ∧ (IsPoint n a b k (l - 1) v ∨ IsPoint n a b k (l + 1) v) := by
      intro z hz
      rw [hadj] at hz
      obtain ⟨u', v, f1, f2, f3⟩ := hz
      rw [g0] at f1; injection f1 with f1; subst f1
      refine ⟨v, f2, ?_⟩
      have := nbr hn hO h1 h2 f3
      unfold OPoint at this
      simpa using this
    obtain ⟨vx, x1, x2⟩ := key s (hpa hs)
    obtain ⟨vy, y1, y2⟩ := key y (hpa hy)
    obtain ⟨vz, z1, z2⟩ := key p (hsymm (hpa hp))
    have d1 := hs.1
    have d2 := hy.1
    have d3 := hp.1
    rcases x2 with x2 | x2 <;> rcases y2 with y2 | y2 <;> rcases z2 with z2 | z2
    · exact hys (same y1 x1 y2 x2)
    · exact hys (same y1 x1 y2 x2)
    · have := same x1 z1 x2 z2; omega
    · have := same y1 z1 y2 z2; omega
    · have := same y1 z1 y2 z2; omega
    · have := same x1 z1 x2 z2; omega
    · exact hys (same y1 x1 y2 x2)
    · exact hys (same y1 x1 y2 x2)
  obtain ⟨a, b, k, r, hst, o0, o1⟩ : ∃ a b k r, IsStrand edges a b k ∧ OPoint n a b k r 0 u ∧ OPoint n a b k r 1 v1 := by
    rcases g2 with ⟨a, b, k, l, s1, s2, s3, s4⟩ | ⟨a, b, k, l, s1, s2, s3, s4⟩
    · have hl : l = 0 := by
        by_contra hl
        exact hend s3 (by omega) s2
      subst hl
      exact ⟨a, b, k, false, s1, by unfold OPoint; simpa using s3, by unfold OPoint; simpa using s4⟩
    · have hl : l = innerCount n a b := by
        by_contra hl
        exact hend s4 (by omega) (by omega)
      subst hl
      exact ⟨a, b, k, true, s1, by unfold OPoint; simpa using s4, by unfold OPoint; simpa using s3⟩
  have hin : n - 2 ≤ innerCount n a b := by unfold innerCount; split <;> omega
  have hin1 : 1 ≤ innerCount n a b := by unfold innerCount; split <;> omega
  have step : ∀ j q v : Nat, j + 1 ≤ innerCount n a b → Parent g.data q v → (∃ vv, g.verts[v]? = some vv ∧ OPoint n a b k r (j + 1) vv) → (∃ ww, g.verts[q]? = some ww ∧ OPoint n a b k r j ww) →
      Straight g.data v ∧ ∃ vv, g.verts[v + 1]? = some vv ∧ OPoint n a b k r (j + 2) vv := by
    rintro j q v hj hqv ⟨vv, v1, v2⟩ ⟨ww, w1, w2⟩
    obtain ⟨v', hv'⟩ : ∃ v', OPoint n a b k r (j + 2) v' := by
      unfold OPoint
      exact point_exists hn hn' a b k _ (by split <;> omega)
    obtain ⟨z0, hz0⟩ : ∃ z0 : Nat, g.verts[z0]? = some v' := by
      apply List.mem_iff_getElem?.mp
      exact (hmem v').mpr ⟨a, b, k, _, hst, by split <;> omega, hv'⟩
    have hez : Edge g.data v z0 := by
      rw [hadj]
      refine ⟨vv, v', v1, hz0, ?_⟩
      unfold OPoint at v2 hv'
      cases r with
      | false =>
        left
        refine ⟨a, b, k, j + 1, hst, by omega, by simpa using v2, by simpa using hv'⟩
      | true =>
        right
        refine ⟨a, b, k, innerCount n a b + 1 - (j + 2), hst, by omega, by simpa using hv', ?_⟩
        simp only [if_true] at v2
        have : innerCount n a b + 1 - (j + 2) + 1 = innerCount n a b + 1 - (j + 1) := by omega
        rw [this]; exact v2
    have hzq : z0 ≠ q := by
      rintro rfl
      rw [w1] at hz0; injection hz0 with hz0
      subst hz0
      exact point_two hn hj w2 hv'
    have hlt := ((edge_iff hT.built _ _).mp hez).lt
    have hpz : Parent g.data v z0 := by
      rcases Nat.lt_trichotomy z0 v with h | h | h
      · exact absurd (Parent.unique hT (hall _ _ h (hsymm hez)) hqv) hzq
      · omega
      · exact hall _ _ h hez
    have huniq : ∀ z, Parent g.data v z → z = z0 := by
      intro z hz
      obtain ⟨u', zz, f1, f2, f3⟩ := (hadj _ _).mp (hpa hz)
      rw [v1] at f1; injection f1 with f1; subst f1
      rcases nbr hn v2 (by omega) (by omega) f3 with f4 | f4
      · exfalso
        have : z = q := same f2 w1 (by unfold OPoint at f4; exact f4) (by unfold OPoint at w2; simpa using w2)
        have := hz.1
        have := hqv.1
        omega
      · exact same f2 hz0 (by unfold OPoint at f4; exact f4) (by unfold OPoint at hv'; exact hv')
    have h1 := huniq _ (first_child hT hpz)
    refine ⟨fun z => ⟨fun hz => (huniq z hz).trans h1.symm, fun hz => by rw [hz, h1]; exact hpz⟩, v', by rw [h1]; exact hz0, hv'⟩
  have claim : ∀ i, i + 1 ≤ innerCount n a b → Straight g.data (s + i) ∧ ∃ vv, g.verts[s + i + 1]? = some vv ∧ OPoint n a b k r (i + 2) vv := by
    intro i
    induction i using Nat.strong_induction_on with
    | _ i ih =>
      intro hi
      match i, ih, hi with
      | 0, _, hi => exact step 0 x s hi hs ⟨v1, g1, o1⟩ ⟨u, g0, o0⟩
      | i + 1, ih, hi =>
        obtain ⟨a1, a2⟩ := ih i (by omega) (by omega)
        refine step (i + 1) (s + i) (s + (i + 1)) hi ((a1 _).mpr rfl) a2 ?_
        match i, ih, a1, a2 with
        | 0, _, _, _ => exact ⟨v1, g1, o1⟩
        | i + 1, ih, _, _ => exact (ih i (by omega) (by omega)).2
  intro i hi
  exact (claim i (by omega)).1

theorem strand_count (edges : List (α × α)) (V : Nat) (lab : Nat → α) (hinj : ∀ i j, i < V → j < V → lab i = lab j → i = j)
    (hsurj : ∀ e ∈ edges, (∃ i, i < V ∧ lab i = e.1) ∧ ∃ j, j < V ∧ lab j = e.2) :
    (allStrands V (fun i j => joining edges (lab i) (lab j))).length = edges.length := by
  have h := total_mid edges 1 V lab hinj hsurj
  have h1 : (allStrands V (fun i j => joining edges (lab i) (lab j))).map (mid 1) = (allStrands V (fun i j => joining edges (lab i) (lab j))).map (fun _ => 1) := by
    apply List.map_congr_left
    intro s _
    unfold mid; split <;> rfl
  rw [h1, List.map_const', List.sum_replicate] at h
  simp only [smul_eq_mul, mul_one] at h
  rw [h]
  unfold loops
  clear h h1 hsurj
  induction edges with
  | nil => rfl
  | cons e es ih =>
    rw [List.countP_cons, List.countP_cons, List.length_cons]
    simp only [decide_eq_true_eq] at ih ⊢
    by_cases he : e.1 = e.2
    · simp [he]; simp at ih; omega
    · simp [he]; simp at ih; omega

/-- Subdividing a tree (a connected graph with one vertex more than edges) gives a tree. -/
theorem subdivide_all_tree (edges : List (α × α)) (hc : ConnectedInput edges) (htree : edges.length + 1 = (MGraphProps.endpoints edges).length) (m : MGraph α)
    (hm : MGraph.ofEdges edges = some m) (points : Nat) (hp : points + 1 < 2 ^ 63) (g : SGraph α) (hg : SGraph.subdivide m points = some g) :
    ∀ x y, x < y → Edge g.data x y → Parent g.data x y := by
  classical
  obtain ⟨k1, k2, -, k4, k5, k6, k7, k8, k9, k10⟩ := c57_subdivision edges hc m hm points hp g hg
  obtain ⟨lab, V, g0, hV, hlab, -, -, -, -, -⟩ := preTree_spec edges hc.1 m hm points hp
  have hn2 : 2 ≤ max points 2 := by omega
  have hn3 : max points 2 + 1 < 2 ^ 63 := by omega
  obtain ⟨i1, i2, i3⟩ := next_iff edges hn2 hn3 lab V hV hlab
  have hT : TreeGraph g.data := ⟨k7, k8, k10⟩
  have hnd : (MGraphProps.endpoints edges).Nodup := endpoints_nodup edges
  have hinj : ∀ i j, i < V → j < V → lab i = lab j → i = j := by
    intro i j hi hj h
    have h1 := hlab i hi
    rw [h] at h1
    exact getElem?_inj_of_nodup hnd h1 (hlab j hj)
  have hsurj : ∀ e ∈ edges, (∃ i, i < V ∧ lab i = e.1) ∧ ∃ j, j < V ∧ lab j = e.2 := by
    have key : ∀ a ∈ MGraphProps.endpoints edges, ∃ i, i < V ∧ lab i = a := by
      intro a ha
      obtain ⟨i, hi, e⟩ := List.getElem_of_mem ha
      have := hlab i (by omega)
      rw [List.getElem?_eq_getElem hi, e] at this
      exact ⟨i, by omega, (Option.some.inj this).symm⟩
    intro e he
    exact ⟨key _ (mem_endpoints.mpr ⟨e, he, Or.inl rfl⟩), key _ (mem_endpoints.mpr ⟨e, he, Or.inr rfl⟩)⟩
  set n := max points 2 with hn
  set SS := allStrands V (fun i j => joining edges (lab i) (lab j)) with hSS
  have hcount := strand_count edges V lab hinj hsurj
  rw [← hSS] at hcount
  have htot := total_mid edges n V lab hinj hsurj
  rw [← hSS] at htot
  let φ : SVertex α → SVertex α → Nat × Nat := fun u v => (min (g.verts.idxOf u) (g.verts.idxOf v), max (g.verts.idxOf u) (g.verts.idxOf v))
  let L : List (Nat × Nat) := SS.flatMap (fun s => (List.range (mid n s + 1)).map (fun l => φ (pt lab n s l) (pt lab n s (l + 1))))
  have hL : L.length + 1 = g.data.n := by
    have : L.length = (SS.map (mid n)).sum + SS.length := by
      show (SS.flatMap _).length = _
      rw [List.length_flatMap]
      clear htot hcount
      clear_value SS
      clear hSS i1 i2 i3
      induction SS with
      | nil => rfl
      | cons s SS ih =>
        rw [List.map_cons, List.sum_cons, List.map_cons, List.sum_cons, List.length_cons, ih, List.length_map, List.length_range]
        omega
    rw [this, htot, hcount, k2, k4]
    unfold loops
    omega
  have hidx : ∀ {x : Nat} {u : SVertex α}, g.verts[x]? = some u → g.verts.idxOf u = x := by
    intro x u hx
    obtain ⟨hlt, e⟩ := List.getElem?_eq_some_iff.mp hx
    rw [← e]
    exact List.Nodup.idxOf_getElem k1 x hlt
  have hE : ∀ x y, x < y → Edge g.data x y → (x, y) ∈ L := by
    intro x y hxy he
    obtain ⟨u, v, h1, h2, h3⟩ := (k6 x y).mp he
    rw [← i2, ← i2] at h3
    have : ∀ u v, Next lab n SS u v → φ u v ∈ L := by
      rintro u v ⟨s, hs, l, hl, rfl, rfl⟩
      exact List.mem_flatMap.mpr ⟨s, hs, List.mem_map.mpr ⟨l, List.mem_range.mpr (by omega), rfl⟩⟩
    have e1 : φ u v = (x, y) := by
      show (min _ _, max _ _) = _
      rw [hidx h1, hidx h2, min_eq_left hxy.le, max_eq_right hxy.le]
    have e2 : φ v u = (x, y) := by
      show (min _ _, max _ _) = _
      rw [hidx h1, hidx h2, min_eq_right hxy.le, max_eq_left hxy.le]
    rcases h3 with h3 | h3
    · rw [← e1]; exact this _ _ h3
    · rw [← e2]; exact this _ _ h3
  -- the edges and those of the tree
  let E : Finset (Nat × Nat) := L.toFinset.filter (fun e => e.1 < e.2 ∧ Edge g.data e.1 e.2)
  have hcard : E.card ≤ g.data.n - 1 := by
    have h1 : E.card ≤ L.toFinset.card := Finset.card_filter_le _ _
    have h2 := List.toFinset_card_le L
    omega
  choose! par hpar _ using (fun y (h : 0 < y ∧ y < g.data.n) => k10.parent y h.1 h.2)
  let P : Finset (Nat × Nat) := (Finset.Ico 1 g.data.n).image (fun y => (par y, y))
  have hPc : P.card = g.data.n - 1 := by
    show (Finset.image _ _).card = _
    rw [Finset.card_image_of_injective]
    · simp
    · intro a b e
      exact (Prod.mk.injEq _ _ _ _ ▸ e : par a = par b ∧ a = b).2
  have hpa : ∀ {x z}, Parent g.data x z → Edge g.data x z := fun hp => (edge_iff hT.built _ _).mpr ((par_iff' hT.built hT.chosen).mpr hp).2.1
  have hsub : P ⊆ E := by
    intro e he
    obtain ⟨y, hy, rfl⟩ := Finset.mem_image.mp he
    rw [Finset.mem_Ico] at hy
    have hp := hpar y ⟨by omega, hy.2⟩
    rw [Finset.mem_filter, List.mem_toFinset]
    exact ⟨hE _ _ hp.1 (hpa hp), hp.1, hpa hp⟩
  have heq : P = E := Finset.eq_of_subset_of_card_le hsub (by omega)
  intro x y hxy he
  have hmem : (x, y) ∈ P := by
    rw [heq, Finset.mem_filter, List.mem_toFinset]
    exact ⟨hE x y hxy he, hxy, he⟩
  obtain ⟨y', hy', e⟩ := Finset.mem_image.mp hmem
  rw [Finset.mem_Ico] at hy'
  simp only [Prod.mk.injEq] at e
  obtain ⟨rfl, rfl⟩ := e
  exact hpar y' ⟨by omega, hy'.2⟩

/-- In a subdivided tree the first `points - 2` vertices after a branching have one child each. -/
theorem subdivide_spaced (edges : List (α × α)) (hc : ConnectedInput edges) (htree : edges.length + 1 = (MGraphProps.endpoints edges).length) (m : MGraph α)
    (hm : MGraph.ofEdges edges = some m) (points : Nat) (hp : points + 1 < 2 ^ 63) (g : SGraph α) (hg : SGraph.subdivide m points = some g) {x s y : Nat}
    (hs : Parent g.data x s) (hy : Parent g.data x y) (hys : y ≠ s) : ∀ i, i + 2 < max points 2 → Straight g.data (s + i) := by
  obtain ⟨k1, k2, -, -, k5, k6, k7, k8, k9, k10⟩ := c57_subdivision edges hc m hm points hp g hg
  exact spaced_of_points (by omega) (by omega) ⟨k7, k8, k10⟩ (subdivide_root edges hc m hm points hp g hg) k1 k2 k5 k6
    (subdivide_all_tree edges hc htree m hm points hp g hg) hs hy hys

end Toppo.EdgePath
