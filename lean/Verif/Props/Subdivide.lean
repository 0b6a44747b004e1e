import Verif.Proof.Subdivide
set_option linter.unusedVariables false

/-!
# C57: `SimpleGraph::subdivided_graph_from`

The input is given by the list of edges the `Graph` was built from.  A strand `(a, b, k)` is the edge number `k` of those joining
`a` and `b`, named from the vertex that was mentioned first.  Its points are numbered `0, 1, .., inner + 1`, the first and the last
being the essential vertices `a` and `b`.
-/
namespace Toppo.SubdivideProps
open Toppo RawGraph SGraph MGraphProps GraphProps Subdiv
variable {α : Type} [DecidableEq α]

/-- number of input edges joining `a` and `b` -/
def joining (edges : List (α × α)) (a b : α) : Nat :=
  edges.countP (fun e => decide ((e.1 = a ∧ e.2 = b) ∨ (e.1 = b ∧ e.2 = a)))

/-- a connected graph with at least one edge -/
def ConnectedInput (edges : List (α × α)) : Prop :=
  edges ≠ [] ∧ ∀ a b, a ∈ MGraphProps.endpoints edges → b ∈ MGraphProps.endpoints edges → Relation.ReflTransGen (fun x y => 0 < joining edges x y) a b

def IsStrand (edges : List (α × α)) (a b : α) (k : Nat) : Prop :=
  (MGraphProps.endpoints edges).idxOf a ≤ (MGraphProps.endpoints edges).idxOf b ∧ k < joining edges a b

/-- how many inner vertices an edge gets for `n` marked points -/
def innerCount (n : Nat) (a b : α) : Nat := if a = b then n else max (n - 2) 1

/-- `v` is the point number `l` of the strand -/
def IsPoint (n : Nat) (a b : α) (k l : Nat) (v : SVertex α) : Prop :=
  (l = 0 ∧ v = .essential a) ∨ (l = innerCount n a b + 1 ∧ v = .essential b) ∨
  (1 ≤ l ∧ l ≤ innerCount n a b ∧ ∃ q, v = .redundant a b k q ∧ RationalProps.Canonical q ∧
    RationalProps.val q = (l : ℚ) / (if a = b then (n : ℚ) + 1 else (n : ℚ) - 1))

/-- `u` and `v` are consecutive points of one strand -/
def Consecutive (edges : List (α × α)) (n : Nat) (u v : SVertex α) : Prop :=
  ∃ a b k l, IsStrand edges a b k ∧ l ≤ innerCount n a b ∧ IsPoint n a b k l u ∧ IsPoint n a b k (l + 1) v

/-! ### proofs -/

theorem isPoint_iff (lab : Nat → α) {n : Nat} (hn : 2 ≤ n) (hn' : n + 1 < 2 ^ 63) (s : Strand) (heq : lab s.1 = lab s.2.1 ↔ s.1 = s.2.1)
    (l : Nat) (hl : l ≤ mid n s + 1) (v : SVertex α) : IsPoint n (lab s.1) (lab s.2.1) s.2.2 l v ↔ v = pt lab n s l := by
  have hmid : innerCount n (lab s.1) (lab s.2.1) = mid n s := by
    unfold innerCount mid
    by_cases h : s.1 = s.2.1
    · rw [if_pos h, if_pos (heq.mpr h)]
    · rw [if_neg h, if_neg (fun hh => h (heq.mp hh))]
  have hden : (if lab s.1 = lab s.2.1 then (n : ℚ) + 1 else (n : ℚ) - 1) = (den n s : ℚ) := by
    unfold den
    by_cases h : s.1 = s.2.1
    · rw [if_pos h, if_pos (heq.mpr h)]; push_cast; rfl
    · rw [if_neg h, if_neg (fun hh => h (heq.mp hh)), Nat.cast_sub (by omega)]; push_cast; rfl
  have hd : 0 < den n s := by unfold den; split <;> omega
  have hd' : den n s < 2 ^ 63 := by unfold den; split <;> omega
  have hm' : mid n s + 1 < 2 ^ 63 := by unfold mid; split <;> omega
  have hf := frac_val hd (show l < 2 ^ 63 by omega) hd'
  unfold IsPoint
  rw [hmid, hden]
  unfold pt
  by_cases h0 : l = 0
  · rw [if_pos h0]
    constructor
    · rintro (h | h | h)
      · exact h.2
      · omega
      · omega
    · intro h; exact Or.inl ⟨h0, h⟩
  · rw [if_neg h0]
    by_cases h1 : l = mid n s + 1
    · rw [if_pos h1]
      constructor
      · rintro (h | h | h)
        · omega
        · exact h.2
        · omega
      · intro h; exact Or.inr (Or.inl ⟨h1, h⟩)
    · rw [if_neg h1]
      constructor
      · rintro (h | h | ⟨_, _, q, rfl, hq1, hq2⟩)
        · omega
        · omega
        · rw [RationalProps.canonical_ext hq1 hf.1 (hq2.trans hf.2.symm)]
      · rintro rfl
        exact Or.inr (Or.inr ⟨by omega, by omega, _, rfl, hf.1, hf.2⟩)

/-- the pairs of vertices in the order of the loops -/
def allPairs (V : Nat) : List (Nat × Nat) :=
  (List.range V).flatMap (fun i => (List.range' (i + 1) (V - (i + 1))).map (fun j => (i, j)) ++ [(i, i)])

theorem allStrands_pairs (V : Nat) (c : Nat → Nat → Nat) :
    allStrands V c = (allPairs V).flatMap (fun p => (List.range (c p.1 p.2)).map (fun k => (p.1, p.2, k))) := by
  unfold allStrands allPairs
  rw [List.flatMap_assoc]
  congr 1
  funext i
  simp [List.flatMap_append, List.flatMap_map]

theorem mem_allPairs {V : Nat} {p : Nat × Nat} : p ∈ allPairs V ↔ p.1 ≤ p.2 ∧ p.2 < V := by
  have h : (p.1, p.2, 0) ∈ allStrands V (fun _ _ => 1) ↔ p ∈ allPairs V := by
    rw [allStrands_pairs]
    simp [List.mem_flatMap]
  rw [← h, mem_allStrands]
  simp

theorem allPairs_nodup (V : Nat) : (allPairs V).Nodup := by
  have h := allStrands_nodup V (fun _ _ => 1)
  rw [allStrands_pairs] at h
  have : (allPairs V).flatMap (fun p => (List.range 1).map (fun k => (p.1, p.2, k))) = (allPairs V).map (fun p => (p.1, p.2, 0)) := by
    simp [List.flatMap_def]
    induction allPairs V with
    | nil => rfl
    | cons x l ih => simp [ih]
  rw [this] at h
  exact h.of_map

theorem weighted_count {β γ : Type} (P : List γ) (f : γ → β → Bool) (w : γ → Nat) (edges : List β) :
    (P.map (fun p => edges.countP (f p) * w p)).sum = (edges.map (fun e => ((P.filter (fun p => f p e)).map w).sum)).sum := by
  induction edges with
  | nil => simp
  | cons e es ih =>
    rw [List.map_cons, List.sum_cons, ← ih]
    clear ih
    induction P with
    | nil => rfl
    | cons p P ih =>
      rw [List.map_cons, List.sum_cons, ih, List.map_cons, List.sum_cons, List.countP_cons, List.filter_cons]
      by_cases h : f p e = true
      · rw [if_pos h, if_pos h, List.map_cons, List.sum_cons, Nat.add_mul]; omega
      · rw [if_neg h, if_neg h]; simp; omega

theorem sum_flatMap {β γ : Type} (h : β → List γ) (f : γ → Nat) (l : List β) :
    ((l.flatMap h).map f).sum = (l.map (fun b => ((h b).map f).sum)).sum := by
  induction l with
  | nil => rfl
  | cons b l ih => rw [List.flatMap_cons, List.map_append, List.sum_append, ih, List.map_cons, List.sum_cons]

/-- the total number of inner vertices -/
theorem total_mid (edges : List (α × α)) (n V : Nat) (lab : Nat → α) (hinj : ∀ i j, i < V → j < V → lab i = lab j → i = j)
    (hsurj : ∀ e ∈ edges, (∃ i, i < V ∧ lab i = e.1) ∧ ∃ j, j < V ∧ lab j = e.2) :
    ((allStrands V (fun i j => joining edges (lab i) (lab j))).map (mid n)).sum =
      edges.countP (fun e => decide (e.1 ≠ e.2)) * max (n - 2) 1 + loops edges * n := by
  rw [allStrands_pairs, sum_flatMap]
  have h1 : ∀ p : Nat × Nat, (((List.range (joining edges (lab p.1) (lab p.2))).map (fun k => (p.1, p.2, k))).map (mid n)).sum =
      edges.countP (fun e => decide ((e.1 = lab p.1 ∧ e.2 = lab p.2) ∨ (e.1 = lab p.2 ∧ e.2 = lab p.1))) * mid n (p.1, p.2, 0) := by
    intro p
    rw [List.map_map]
    have : (mid n ∘ fun k => (p.1, p.2, k)) = fun _ => mid n (p.1, p.2, 0) := by funext k; rfl
    rw [this, List.map_const', List.sum_replicate, List.length_range]
    rfl
  simp only [h1]
  rw [weighted_count (allPairs V) (fun p e => decide ((e.1 = lab p.1 ∧ e.2 = lab p.2) ∨ (e.1 = lab p.2 ∧ e.2 = lab p.1))) (fun p => mid n (p.1, p.2, 0)) edges]
  have h2 : ∀ e ∈ edges, (((allPairs V).filter (fun p => decide ((e.1 = lab p.1 ∧ e.2 = lab p.2) ∨ (e.1 = lab p.2 ∧ e.2 = lab p.1)))).map
      (fun p => mid n (p.1, p.2, 0))).sum = if e.1 = e.2 then n else max (n - 2) 1 := by
    intro e he
    obtain ⟨⟨i, hi, hei⟩, ⟨j, hj, hej⟩⟩ := hsurj e he
    have hf : (allPairs V).filter (fun p => decide ((e.1 = lab p.1 ∧ e.2 = lab p.2) ∨ (e.1 = lab p.2 ∧ e.2 = lab p.1))) = [(min i j, max i j)] := by
      apply List.perm_singleton.mp
      rw [List.perm_ext_iff_of_nodup ((allPairs_nodup V).filter _) (List.nodup_singleton _)]
      rintro ⟨x, y⟩
      rw [List.mem_filter, mem_allPairs, List.mem_singleton, decide_eq_true_eq, ← hei, ← hej, Prod.mk.injEq]
      simp only
      constructor
      · rintro ⟨⟨hxy, hy⟩, ⟨a, b⟩ | ⟨a, b⟩⟩
        · have := hinj i x hi (by omega) a
          have := hinj j y hj hy b
          omega
        · have := hinj i y hi hy a
          have := hinj j x hj (by omega) b
          omega
      · rintro ⟨rfl, rfl⟩
        refine ⟨by omega, ?_⟩
        rcases le_total i j with h | h
        · left; rw [min_eq_left h, max_eq_right h]; exact ⟨rfl, rfl⟩
        · right; rw [min_eq_right h, max_eq_left h]; exact ⟨rfl, rfl⟩
    rw [hf, List.map_singleton, List.sum_singleton]
    unfold mid
    simp only
    have : min i j = max i j ↔ e.1 = e.2 := by
      rw [← hei, ← hej]
      constructor
      · intro h; have : i = j := by omega
        rw [this]
      · intro h; have := hinj i j hi hj h; omega
    by_cases h : e.1 = e.2
    · rw [if_pos h, if_pos (this.mpr h)]
    · rw [if_neg h, if_neg (fun hh => h (this.mp hh))]
  rw [List.map_congr_left h2]
  clear h1 h2 hsurj
  unfold loops
  induction edges with
  | nil => simp
  | cons e es ih =>
    rw [List.map_cons, List.sum_cons, ih, List.countP_cons, List.countP_cons]
    by_cases h : e.1 = e.2
    · simp [h, Nat.add_mul]; omega
    · simp [h, Nat.add_mul]; omega

/-- everything about the graph before the maximal tree is chosen -/
theorem preTree_spec (edges : List (α × α)) (hne : edges ≠ []) (m : MGraph α) (hm : MGraph.ofEdges edges = some m) (points : Nat)
    (hp : points + 1 < 2 ^ 63) :
    ∃ (lab : Nat → α) (V : Nat) (g : SGraph α), V = (MGraphProps.endpoints edges).length ∧ (∀ i, i < V → (MGraphProps.endpoints edges)[i]? = some (lab i)) ∧ preTree m points = some g ∧
      Inv lab (max points 2) V (allStrands V (fun i j => joining edges (lab i) (lab j))) g ∧ g.data.n = g.verts.length ∧ g.verts.Nodup ∧
      g.data.n = V + edges.countP (fun e => decide (e.1 ≠ e.2)) * max (max points 2 - 2) 1 + loops edges * max points 2 := by
  obtain ⟨q1, q2, q3, q4, q5, q6, q7⟩ := (c56_from_partial edges).2 m hm
  have hn : (if points < 2 then 2 else points) = max points 2 := by split <;> omega
  set L := MGraphProps.endpoints edges with hL
  obtain ⟨e0, he0⟩ : ∃ a, a ∈ L := by
    cases edges with
    | nil => exact absurd rfl hne
    | cons e es => exact ⟨e.1, by rw [hL, mem_endpoints]; exact ⟨e, List.mem_cons_self .., Or.inl rfl⟩⟩
  have hV : 0 < L.length := List.length_pos_of_mem he0
  let lab : Nat → α := fun i => L.getD i e0
  have hlab : ∀ i, i < L.length → L[i]? = some (lab i) := by
    intro i hi
    show L[i]? = some (L.getD i e0)
    rw [List.getD_eq_getElem?_getD, List.getElem?_eq_getElem hi]; rfl
  have hlab' : ∀ i (hi : i < L.length), L[i] = lab i := by
    intro i hi
    have := hlab i hi
    rw [List.getElem?_eq_getElem hi] at this
    exact Option.some.inj this
  have hnd : L.Nodup := endpoints_nodup edges
  have hinj : ∀ i j, i < L.length → j < L.length → lab i = lab j → i = j := by
    intro i j hi hj h
    have h1 := hlab i hi
    rw [h] at h1
    exact getElem?_inj_of_nodup hnd h1 (hlab j hj)
  have hmult : ∀ i j, i ≤ j → j < m.labels.length → m.mult i j = some (joining edges (lab i) (lab j)) := by
    intro i j hij hj
    have hj' : j < L.length := by rw [q1] at hj; exact hj
    rw [q4 i j (by omega) hj, if_pos hij]
    unfold joining
    simp only [q1, hlab' i (by omega), hlab' j hj']
  have hflat := preTree_flat m points lab (fun i j => joining edges (lab i) (lab j)) (by rw [q1]; exact hlab) hmult
  simp only [hn, q1] at hflat
  have htot := total_mid edges (max points 2) L.length lab hinj (fun e he => by
    have a1 : e.1 ∈ L := mem_endpoints.mpr ⟨e, he, Or.inl rfl⟩
    have a2 : e.2 ∈ L := mem_endpoints.mpr ⟨e, he, Or.inr rfl⟩
    obtain ⟨i, hi, hi'⟩ := List.getElem_of_mem a1
    obtain ⟨j, hj, hj'⟩ := List.getElem_of_mem a2
    exact ⟨⟨i, hi, by rw [← hi', hlab']⟩, ⟨j, hj, by rw [← hj', hlab']⟩⟩)
  have hnew := new_spec (L.length + m.nNonLoop * max (max points 2 - 2) 1 + m.nLoops * max points 2)
  rw [if_pos (by omega)] at hnew
  obtain ⟨raw, r1, r2, r3, r4, r5⟩ := hnew
  rw [r1, Option.bind_some] at hflat
  have hlabels : (L.map SVertex.essential : List (SVertex α)) = (List.range L.length).map (fun i => .essential (lab i)) := by
    apply List.ext_getElem
    · simp
    · intro i h1 h2
      simp only [List.getElem_map, List.getElem_range]
      rw [hlab' i (by simpa using h1)]
  have hinit : Inv lab (max points 2) L.length [] { data := raw, verts := L.map SVertex.essential, nEssential := L.length } := by
    refine ⟨r2, r4, rfl, by simp [hlabels], ?_⟩
    intro x y
    constructor
    · rintro (h | h)
      · exact absurd h (r5 _ _)
      · exact absurd h (r5 _ _)
    · rintro ⟨u, v, _, _, ⟨s, hs, _⟩ | ⟨s, hs, _⟩⟩ <;> simp at hs
  have hn2 : 2 ≤ max points 2 := by omega
  have hn3 : max points 2 + 1 < 2 ^ 63 := by omega
  have hvn := vertices_nodup lab (max points 2) L.length (fun i j => joining edges (lab i) (lab j)) hn2 hn3 hinj
  obtain ⟨g, g1, g2, g3⟩ := strands_inv lab (max points 2) hn2 hn3
    (allStrands L.length (fun i j => joining edges (lab i) (lab j))) [] _ hinit
    (fun t ht => by rw [List.nil_append, mem_allStrands] at ht; exact ⟨ht.1, ht.2.1⟩) (by rw [List.nil_append]; exact hvn)
    (by rw [List.nil_append, htot]; simp only [r3]; rw [q5, q6]; omega)
  rw [List.nil_append] at g2
  simp only [r3] at g3
  have hgn : g.data.n = L.length + edges.countP (fun e => decide (e.1 ≠ e.2)) * max (max points 2 - 2) 1 + loops edges * max points 2 := by
    rw [g3, q5, q6]
  refine ⟨lab, L.length, g, rfl, hlab, by rw [hflat]; exact g1, g2, ?_, by rw [g2.verts]; exact hvn, hgn⟩
  rw [hgn, g2.verts, List.length_append, List.length_map, List.length_range, List.length_flatMap]
  have : (allStrands L.length (fun i j => joining edges (lab i) (lab j))).map (fun s => (inner lab (max points 2) s).length) =
      (allStrands L.length (fun i j => joining edges (lab i) (lab j))).map (mid (max points 2)) := by
    apply List.map_congr_left
    intro t _; exact inner_length lab _ t
  rw [this, htot]; omega

theorem next_iff (edges : List (α × α)) {n : Nat} (hn : 2 ≤ n) (hn' : n + 1 < 2 ^ 63) (lab : Nat → α) (V : Nat)
    (hV : V = (MGraphProps.endpoints edges).length) (hlab : ∀ i, i < V → (MGraphProps.endpoints edges)[i]? = some (lab i)) :
    (∀ a b k, IsStrand edges a b k ↔ ∃ s ∈ allStrands V (fun i j => joining edges (lab i) (lab j)), a = lab s.1 ∧ b = lab s.2.1 ∧ k = s.2.2) ∧
    (∀ u v, Next lab n (allStrands V (fun i j => joining edges (lab i) (lab j))) u v ↔ Consecutive edges n u v) ∧
    (∀ s ∈ allStrands V (fun i j => joining edges (lab i) (lab j)), innerCount n (lab s.1) (lab s.2.1) = mid n s ∧
      ∀ l, l ≤ mid n s + 1 → ∀ v, IsPoint n (lab s.1) (lab s.2.1) s.2.2 l v ↔ v = pt lab n s l) := by
  have hnd : (MGraphProps.endpoints edges).Nodup := endpoints_nodup edges
  have hinj : ∀ i j, i < V → j < V → lab i = lab j → i = j := by
    intro i j hi hj h
    have h1 := hlab i hi
    rw [h] at h1
    exact getElem?_inj_of_nodup hnd h1 (hlab j hj)
  have hidx : ∀ i, i < V → (MGraphProps.endpoints edges).idxOf (lab i) = i := by
    intro i hi
    have h1 := hlab i hi
    obtain ⟨hlt, e⟩ := List.getElem?_eq_some_iff.mp h1
    rw [← e]
    exact List.Nodup.idxOf_getElem hnd i hlt
  have hstrand : ∀ a b k, IsStrand edges a b k ↔ ∃ s ∈ allStrands V (fun i j => joining edges (lab i) (lab j)), a = lab s.1 ∧ b = lab s.2.1 ∧ k = s.2.2 := by
    intro a b k
    constructor
    · rintro ⟨h1, h2⟩
      obtain ⟨e, he, hm⟩ := List.countP_pos_iff.mp (show 0 < joining edges a b by omega)
      have hab : a ∈ MGraphProps.endpoints edges ∧ b ∈ MGraphProps.endpoints edges := by
        simp only [decide_eq_true_eq] at hm
        rw [mem_endpoints, mem_endpoints]
        rcases hm with ⟨rfl, rfl⟩ | ⟨rfl, rfl⟩
        · exact ⟨⟨e, he, Or.inl rfl⟩, ⟨e, he, Or.inr rfl⟩⟩
        · exact ⟨⟨e, he, Or.inr rfl⟩, ⟨e, he, Or.inl rfl⟩⟩
      have a1 := List.idxOf_lt_length_of_mem hab.1
      have b1 := List.idxOf_lt_length_of_mem hab.2
      have a2 : a = lab ((MGraphProps.endpoints edges).idxOf a) := by
        have := hlab _ (show (MGraphProps.endpoints edges).idxOf a < V by omega)
        rw [List.getElem?_eq_getElem a1, List.getElem_idxOf] at this
        exact Option.some.inj this
      have b2 : b = lab ((MGraphProps.endpoints edges).idxOf b) := by
        have := hlab _ (show (MGraphProps.endpoints edges).idxOf b < V by omega)
        rw [List.getElem?_eq_getElem b1, List.getElem_idxOf] at this
        exact Option.some.inj this
      refine ⟨((MGraphProps.endpoints edges).idxOf a, (MGraphProps.endpoints edges).idxOf b, k), mem_allStrands.mpr ⟨h1, by simp only; omega, ?_⟩, a2, b2, rfl⟩
      simp only
      rw [← a2, ← b2]; exact h2
    · rintro ⟨s, hs, rfl, rfl, rfl⟩
      rw [mem_allStrands] at hs
      exact ⟨by rw [hidx _ (by omega), hidx _ (by omega)]; exact hs.1, hs.2.2⟩
  have hpt : ∀ s ∈ allStrands V (fun i j => joining edges (lab i) (lab j)), innerCount n (lab s.1) (lab s.2.1) = mid n s ∧
      ∀ l, l ≤ mid n s + 1 → ∀ v, IsPoint n (lab s.1) (lab s.2.1) s.2.2 l v ↔ v = pt lab n s l := by
    intro s hs
    rw [mem_allStrands] at hs
    have heq : lab s.1 = lab s.2.1 ↔ s.1 = s.2.1 := ⟨hinj _ _ (by omega) hs.2.1, fun h => by rw [h]⟩
    refine ⟨?_, fun l hl v => isPoint_iff lab hn hn' s heq l hl v⟩
    unfold innerCount mid
    by_cases h : s.1 = s.2.1
    · rw [if_pos h, if_pos (heq.mpr h)]
    · rw [if_neg h, if_neg (fun hh => h (heq.mp hh))]
  refine ⟨hstrand, ?_, hpt⟩
  intro u v
  constructor
  · rintro ⟨s, hs, l, hl, hu, hv⟩
    obtain ⟨p1, p2⟩ := hpt s hs
    exact ⟨_, _, _, l, (hstrand _ _ _).mpr ⟨s, hs, rfl, rfl, rfl⟩, by rw [p1]; exact hl, (p2 l (by omega) u).mpr hu, (p2 (l + 1) (by omega) v).mpr hv⟩
  · rintro ⟨a, b, k, l, hs0, hl, hu, hv⟩
    obtain ⟨s, hs, rfl, rfl, rfl⟩ := (hstrand _ _ _).mp hs0
    obtain ⟨p1, p2⟩ := hpt s hs
    rw [p1] at hl
    exact ⟨s, hs, l, hl, (p2 l (by omega) u).mp hu, (p2 (l + 1) (by omega) v).mp hv⟩

theorem preTree_connected (edges : List (α × α)) (hc : ConnectedInput edges) {n : Nat} (hn : 2 ≤ n) (lab : Nat → α) (V : Nat) (g : SGraph α)
    (hV : V = (MGraphProps.endpoints edges).length) (hlab : ∀ i, i < V → (MGraphProps.endpoints edges)[i]? = some (lab i))
    (h : Inv lab n V (allStrands V (fun i j => joining edges (lab i) (lab j))) g) (hlen : g.data.n = g.verts.length) (hnd : g.verts.Nodup) :
    Conn g.data := by
  set S := allStrands V (fun i j => joining edges (lab i) (lab j)) with hS
  have hess : ∀ i, i < V → g.verts[i]? = some (.essential (lab i)) := by
    intro i hi
    rw [h.verts, List.getElem?_append_left (by simpa using hi), List.getElem?_map, List.getElem?_range hi]; rfl
  have hinner : ∀ s ∈ S, ∀ v ∈ inner lab n s, v ∈ g.verts := by
    intro s hs v hv
    rw [h.verts, List.mem_append]
    right
    exact List.mem_flatMap.mpr ⟨s, hs, hv⟩
  have hptm : ∀ s ∈ S, ∀ l, l ≤ mid n s + 1 → pt lab n s l ∈ g.verts := by
    intro s hs l hl
    have := mem_allStrands.mp hs
    exact pt_mem lab n g.verts hess s this.1 this.2.1 (hinner s hs) l hl
  -- along a strand
  have along : ∀ s ∈ S, ∀ l, l ≤ mid n s + 1 → ∀ x, g.verts[x]? = some (pt lab n s l) → Reach g.data s.1 x := by
    intro s hs l
    have hs' := mem_allStrands.mp hs
    induction l with
    | zero =>
      intro _ x hx
      have : x = s.1 := getElem?_inj_of_nodup hnd hx (by rw [hess _ (by omega)]; simp [pt])
      rw [this]
    | succ l ih =>
      intro hl x hx
      obtain ⟨y, hy, ey⟩ := List.getElem_of_mem (hptm s hs l (by omega))
      have hy' : g.verts[y]? = some (pt lab n s l) := by rw [List.getElem?_eq_getElem hy, ey]
      exact (ih (by omega) y hy').tail ((h.adj y x).mpr ⟨_, _, hy', hx, Or.inl ⟨s, hs, l, by omega, rfl, rfl⟩⟩)
  have hV0 : 0 < V := by
    obtain ⟨hne, _⟩ := hc
    cases edges with
    | nil => exact absurd rfl hne
    | cons e es => rw [hV]; exact List.length_pos_of_mem (mem_endpoints.mpr ⟨e, List.mem_cons_self .., Or.inl rfl⟩)
  have reachSymm : ∀ {x y}, Reach g.data x y → Reach g.data y x := by
    intro x y hr
    induction hr with
    | refl => exact .refl
    | tail _ hbc ih => exact .head hbc.symm ih
  -- essential vertices joined by an edge
  have joined : ∀ i j, i < V → j < V → 0 < joining edges (lab i) (lab j) → Reach g.data i j := by
    have half : ∀ i j, i ≤ j → j < V → 0 < joining edges (lab i) (lab j) → Reach g.data i j := by
      intro i j hij hj hpos
      have hs : (i, j, 0) ∈ S := mem_allStrands.mpr ⟨hij, hj, hpos⟩
      refine along _ hs (mid n (i, j, 0) + 1) (le_refl _) j ?_
      rw [hess j hj]
      simp [pt]
    intro i j hi hj hpos
    rcases le_total i j with hij | hij
    · exact half i j hij hj hpos
    · refine reachSymm (half j i hij hi ?_)
      have : joining edges (lab j) (lab i) = joining edges (lab i) (lab j) := by
        unfold joining
        apply List.countP_congr
        intro e _
        simp only [decide_eq_true_eq]
        exact Or.comm
      rw [this]; exact hpos
  have idx : ∀ a, a ∈ MGraphProps.endpoints edges → ∃ i, i < V ∧ lab i = a := by
    intro a ha
    obtain ⟨i, hi, e⟩ := List.getElem_of_mem ha
    have := hlab i (by omega)
    rw [List.getElem?_eq_getElem hi, e] at this
    exact ⟨i, by omega, (Option.some.inj this).symm⟩
  have hinj : ∀ i j, i < V → j < V → lab i = lab j → i = j := by
    intro i j hi hj h
    have h1 := hlab i hi
    rw [h] at h1
    exact getElem?_inj_of_nodup (endpoints_nodup edges) h1 (hlab j hj)
  have hmem : ∀ i, i < V → lab i ∈ MGraphProps.endpoints edges := fun i hi => List.mem_of_getElem? (hlab i hi)
  have ess : ∀ j, j < V → Reach g.data 0 j := by
    intro j hj
    have hr := hc.2 (lab 0) (lab j) (hmem 0 hV0) (hmem j hj)
    have : ∀ b, Relation.ReflTransGen (fun x y => 0 < joining edges x y) (lab 0) b → ∃ j, j < V ∧ lab j = b ∧ Reach g.data 0 j := by
      intro b hr
      induction hr with
      | refl => exact ⟨0, hV0, rfl, .refl⟩
      | @tail b c _ hbc ih =>
        obtain ⟨j, hj, rfl, hr⟩ := ih
        have hcm : c ∈ MGraphProps.endpoints edges := by
          obtain ⟨e, he, hm⟩ := List.countP_pos_iff.mp hbc
          simp only [decide_eq_true_eq] at hm
          rw [mem_endpoints]
          rcases hm with ⟨_, rfl⟩ | ⟨rfl, _⟩
          · exact ⟨e, he, Or.inr rfl⟩
          · exact ⟨e, he, Or.inl rfl⟩
        obtain ⟨j', hj', rfl⟩ := idx c hcm
        exact ⟨j', hj', rfl, hr.trans (joined j j' hj hj' hbc)⟩
    obtain ⟨j', hj', e, hr'⟩ := this _ hr
    rw [← hinj j' j hj' hj e]; exact hr'
  intro x hx
  rw [hlen] at hx
  obtain ⟨vx, hxe⟩ : ∃ vx, g.verts[x]? = some vx := ⟨_, List.getElem?_eq_getElem hx⟩
  have hxm := List.mem_of_getElem? hxe
  rw [h.verts, List.mem_append] at hxm
  rcases hxm with hxm | hxm
  · rw [List.mem_map] at hxm
    obtain ⟨i, hi, e⟩ := hxm
    rw [List.mem_range] at hi
    rw [← e] at hxe
    rw [getElem?_inj_of_nodup hnd hxe (hess i hi)]
    exact ess i hi
  · rw [List.mem_flatMap] at hxm
    obtain ⟨s, hs, hv⟩ := hxm
    unfold inner at hv
    rw [List.mem_map] at hv
    obtain ⟨l, hl, e⟩ := hv
    rw [List.mem_range'_1] at hl
    have : g.verts[x]? = some (pt lab n s l) := by
      rw [hxe, ← e, pt, if_neg (by omega), if_neg (by omega)]
    have hs' := mem_allStrands.mp hs
    exact (ess s.1 (by omega)).trans (along s hs l (by omega) x this)

/-- C57: subdividing a connected graph for `points` marked points (at least 2 are assumed).  Whenever it succeeds the vertices are,
without repetition, the points of the strands: the input vertices and on every edge that is not a loop `max (points-2) 1`, on every
loop `points` inner vertices, with their positions along the edge.  Two vertices are adjacent exactly if they are consecutive points of one
strand.  The result is connected and numbered along a depth-first spanning tree, and the numbers of vertices are as stated.
It succeeds exactly if the graph before choosing the tree, which is the same graph up to renaming, has a vertex that is a possible root
(`c57_leaf` gives a condition on the input). -/
theorem c57_subdivision (edges : List (α × α)) (hc : ConnectedInput edges) (m : MGraph α) (hm : MGraph.ofEdges edges = some m) (points : Nat)
    (hp : points + 1 < 2 ^ 63) (g : SGraph α) (hg : SGraph.subdivide m points = some g) :
    g.verts.Nodup ∧ g.data.n = g.verts.length ∧ g.nEssential = (MGraphProps.endpoints edges).length ∧
    g.verts.length = (MGraphProps.endpoints edges).length + edges.countP (fun e => decide (e.1 ≠ e.2)) * max (max points 2 - 2) 1
      + edges.countP (fun e => decide (e.1 = e.2)) * max points 2 ∧
    (∀ v, v ∈ g.verts ↔ ∃ a b k l, IsStrand edges a b k ∧ l ≤ innerCount (max points 2) a b + 1 ∧ IsPoint (max points 2) a b k l v) ∧
    (∀ x y, Edge g.data x y ↔ ∃ u v, g.verts[x]? = some u ∧ g.verts[y]? = some v ∧
      (Consecutive edges (max points 2) u v ∨ Consecutive edges (max points 2) v u)) ∧
    Built g.data ∧ g.data.treeChosen = true ∧ (toSimple g.data).Connected ∧ IsDfsTree g.data := by
  obtain ⟨lab, V, g0, hV, hlab, p1, p2, p3, p4, p5⟩ := preTree_spec edges hc.1 m hm points hp
  have hn2 : 2 ≤ max points 2 := by omega
  have hn3 : max points 2 + 1 < 2 ^ 63 := by omega
  have hconn := preTree_connected edges hc hn2 lab V g0 hV hlab p2 p3 p4
  obtain ⟨i1, i2, i3⟩ := next_iff edges hn2 hn3 lab V hV hlab
  have hb0 : Built g0.data := built_iff.mpr p2.wf
  rcases chooseMaximalTree_spec p2.wf hconn with ⟨v, g1, p, k1, k2, k3, k4, k5, k6, k7, k8, k9, k10, k11⟩ | ⟨_, he⟩
  swap
  · exfalso
    unfold SGraph.subdivide at hg
    rw [p1] at hg
    simp [he] at hg
  obtain ⟨w, w1, w2, w3⟩ := Permutation.actionBy_spec g0.verts k6 (by
    intro x hx
    by_contra hh
    exact hx (k7 x (by omega)))
  have hgeq : g = { g0 with data := g1, verts := w } := by
    unfold SGraph.subdivide at hg
    rw [p1] at hg
    simp only [Option.bind_eq_bind, Option.bind_some, k2, w1] at hg
    exact (Option.some.inj hg).symm
  subst hgeq
  have hb1 : Built g1 := built_iff.mpr k5
  have hsurj : ∀ y, ∃ x, Permutation.map p x = y := by
    intro y
    by_cases hy : y < g0.data.n
    · obtain ⟨x, _, e⟩ := map_surj k6 k7 hy
      exact ⟨x, e⟩
    · exact ⟨y, k7 y (by omega)⟩
  have hmemw : ∀ u, u ∈ w ↔ u ∈ g0.verts := by
    intro u
    constructor
    · intro hu
      obtain ⟨y, hy, e⟩ := List.getElem_of_mem hu
      obtain ⟨x, rfl⟩ := hsurj y
      have h1 := w3 x
      rw [List.getElem?_eq_getElem hy, e] at h1
      exact List.mem_of_getElem? h1.symm
    · intro hu
      obtain ⟨x, hx, e⟩ := List.getElem_of_mem hu
      have h1 := w3 x
      rw [List.getElem?_eq_getElem hx, e] at h1
      exact List.mem_of_getElem? h1
  have hmem : ∀ v, v ∈ g0.verts ↔ ∃ a b k l, IsStrand edges a b k ∧ l ≤ innerCount (max points 2) a b + 1 ∧ IsPoint (max points 2) a b k l v := by
    have hess : ∀ i, i < V → g0.verts[i]? = some (.essential (lab i)) := by
      intro i hi
      rw [p2.verts, List.getElem?_append_left (by simpa using hi), List.getElem?_map, List.getElem?_range hi]; rfl
    intro v
    constructor
    · intro hv
      rw [p2.verts, List.mem_append] at hv
      rcases hv with hv | hv
      · rw [List.mem_map] at hv
        obtain ⟨i, hi, rfl⟩ := hv
        rw [List.mem_range] at hi
        have hm := List.mem_of_getElem? (hlab i hi)
        obtain ⟨e, he, hor⟩ := mem_endpoints.mp hm
        have hpos : 0 < joining edges e.1 e.2 := List.countP_pos_iff.mpr ⟨e, he, by simp⟩
        have hpos' : 0 < joining edges e.2 e.1 := List.countP_pos_iff.mpr ⟨e, he, by simp⟩
        rcases le_total ((MGraphProps.endpoints edges).idxOf e.1) ((MGraphProps.endpoints edges).idxOf e.2) with hle | hle
        · rcases hor with h | h
          · exact ⟨e.1, e.2, 0, 0, ⟨hle, hpos⟩, by omega, Or.inl ⟨rfl, by rw [h]⟩⟩
          · exact ⟨e.1, e.2, 0, _, ⟨hle, hpos⟩, le_refl _, Or.inr (Or.inl ⟨rfl, by rw [h]⟩)⟩
        · rcases hor with h | h
          · exact ⟨e.2, e.1, 0, _, ⟨hle, hpos'⟩, le_refl _, Or.inr (Or.inl ⟨rfl, by rw [h]⟩)⟩
          · exact ⟨e.2, e.1, 0, 0, ⟨hle, hpos'⟩, by omega, Or.inl ⟨rfl, by rw [h]⟩⟩
      · rw [List.mem_flatMap] at hv
        obtain ⟨s, hs, hv⟩ := hv
        unfold inner at hv
        rw [List.mem_map] at hv
        obtain ⟨l, hl, rfl⟩ := hv
        rw [List.mem_range'_1] at hl
        obtain ⟨j1, j2⟩ := i3 s hs
        refine ⟨_, _, _, l, (i1 _ _ _).mpr ⟨s, hs, rfl, rfl, rfl⟩, by rw [j1]; omega, ?_⟩
        rw [j2 l (by omega), pt, if_neg (by omega), if_neg (by omega)]
    · rintro ⟨a, b, k, l, hs0, hl, hpt⟩
      obtain ⟨s, hs, rfl, rfl, rfl⟩ := (i1 _ _ _).mp hs0
      obtain ⟨j1, j2⟩ := i3 s hs
      rw [j1] at hl
      rw [j2 l hl] at hpt
      subst hpt
      have hs' := mem_allStrands.mp hs
      refine pt_mem lab _ g0.verts hess s hs'.1 hs'.2.1 ?_ l hl
      intro v hv
      rw [p2.verts, List.mem_append]
      right
      exact List.mem_flatMap.mpr ⟨s, hs, hv⟩
  refine ⟨?_, ?_, p2.ess.trans hV, ?_, fun v => (hmemw v).trans (hmem v), ?_, hb1, k3, ?_, isDfsTree_of_upto hb1 k3 k10⟩
  · have hperm : w.length = g0.verts.length := w2
    rw [List.nodup_iff_injective_get]
    intro a b hab
    obtain ⟨x, hx⟩ := hsurj a
    obtain ⟨y, hy⟩ := hsurj b
    have e1 := w3 x
    have e2 := w3 y
    rw [hx] at e1
    rw [hy] at e2
    simp only [List.get_eq_getElem] at hab
    rw [List.getElem?_eq_getElem a.2] at e1
    rw [List.getElem?_eq_getElem b.2, ← hab] at e2
    have := getElem?_inj_of_nodup p4 e1.symm e2.symm
    subst this
    exact Fin.ext (hx.symm.trans hy)
  · show g1.n = w.length
    rw [k4, w2, p3]
  · show w.length = _
    rw [w2, ← p3, p5, hV]; rfl
  · intro x y
    obtain ⟨x, rfl⟩ := hsurj x
    obtain ⟨y, rfl⟩ := hsurj y
    rw [edge_iff hb1, k8, p2.adj]
    simp only [w3]
    constructor <;> rintro ⟨u, v, hu, hv, hN⟩ <;> refine ⟨u, v, hu, hv, ?_⟩
    · rwa [i2, i2] at hN
    · rwa [i2, i2]
  · rw [connected_iff hb1]
    have hc1 := (connected_iff hb0).mpr hconn
    intro x hx
    have hreach : ∀ a b, Reach g0.data a b → Reach g1 (Permutation.map p a) (Permutation.map p b) := by
      intro a b hr
      induction hr with
      | refl => exact .refl
      | tail _ hbc ih => exact ih.tail ((k8 _ _).mpr hbc)
    obtain ⟨a, ha⟩ := hsurj 0
    obtain ⟨b, hb⟩ := hsurj x
    rw [← ha, ← hb]
    apply hreach
    have hlt : ∀ z, Permutation.map p z < g0.data.n → z < g0.data.n := by
      intro z hz
      by_contra hh
      rw [k7 z (by omega)] at hz
      omega
    exact hconn.all (hlt a (by rw [ha]; exact p2.wf.pos)) (hlt b (by rw [hb]; rw [k4] at hx; exact hx))

/-- C57: subdividing succeeds if some input vertex is the end of exactly one edge, and that edge is not a loop. -/
theorem c57_leaf (edges : List (α × α)) (hc : ConnectedInput edges) (m : MGraph α) (hm : MGraph.ofEdges edges = some m) (points : Nat)
    (hp : points + 1 < 2 ^ 63) (a : α) (h1 : edges.countP (fun e => decide (e.1 = a ∨ e.2 = a)) = 1) (h2 : (a, a) ∉ edges) :
    ∃ g, SGraph.subdivide m points = some g := by
  obtain ⟨lab, V, g0, hV, hlab, p1, p2, p3, p4, p5⟩ := preTree_spec edges hc.1 m hm points hp
  have hn2 : 2 ≤ max points 2 := by omega
  have hconn := preTree_connected edges hc hn2 lab V g0 hV hlab p2 p3 p4
  rcases chooseMaximalTree_spec p2.wf hconn with ⟨v, g1, p, k1, k2, k3, k4, k5, k6, k7, k8, k9, k10, k11⟩ | ⟨hno, he⟩
  · obtain ⟨w, w1, w2, w3⟩ := Permutation.actionBy_spec g0.verts k6 (by
      intro x hx
      by_contra hh
      exact hx (k7 x (by omega)))
    refine ⟨{ g0 with data := g1, verts := w }, ?_⟩
    unfold SGraph.subdivide
    rw [p1]
    simp only [Option.bind_eq_bind, Option.bind_some, k2, w1]
    rfl
  · exfalso
    have hb0 : Built g0.data := built_iff.mpr p2.wf
    set n := max points 2 with hn
    set S := allStrands V (fun i j => joining edges (lab i) (lab j)) with hS
    have hinj : ∀ i j, i < V → j < V → lab i = lab j → i = j := by
      intro i j hi hj h
      have h1 := hlab i hi
      rw [h] at h1
      exact getElem?_inj_of_nodup (endpoints_nodup edges) h1 (hlab j hj)
    have hess : ∀ i, i < V → g0.verts[i]? = some (.essential (lab i)) := by
      intro i hi
      rw [p2.verts, List.getElem?_append_left (by simpa using hi), List.getElem?_map, List.getElem?_range hi]; rfl
    -- the only edge at `a`
    obtain ⟨e, hee, hea⟩ := List.countP_pos_iff.mp (show 0 < edges.countP (fun e => decide (e.1 = a ∨ e.2 = a)) by omega)
    simp only [decide_eq_true_eq] at hea
    have haL : a ∈ MGraphProps.endpoints edges := mem_endpoints.mpr ⟨e, hee, by tauto⟩
    obtain ⟨i, hi, ei⟩ := List.getElem_of_mem haL
    have hi' : i < V := by omega
    have hia : lab i = a := by
      have := hlab i hi'
      rw [List.getElem?_eq_getElem hi, ei] at this
      exact (Option.some.inj this).symm
    have hvlen : V ≤ g0.verts.length := by rw [p2.verts]; simp
    -- strands at `a`
    have hcount : ∀ b, joining edges a b ≤ 1 := by
      intro b
      rw [← h1]
      apply List.countP_mono_left
      intro e _
      simp only [decide_eq_true_eq]
      rintro (h | h)
      · exact Or.inl h.1
      · exact Or.inr h.2
    have huniq : ∀ b b', 0 < joining edges a b → 0 < joining edges a b' → b = b' := by
      intro b b' hb hb'
      by_contra hne
      have : joining edges a b + joining edges a b' ≤ 1 := by
        rw [← h1]
        have : ∀ l : List (α × α), (∀ e ∈ l, e ∈ edges) → joining l a b + joining l a b' ≤ l.countP (fun e => decide (e.1 = a ∨ e.2 = a)) := by
          intro l
          induction l with
          | nil => intro _; simp [joining]
          | cons x l ih =>
            intro hl
            have h3 := ih (fun e he => hl e (List.mem_cons_of_mem _ he))
            have hx : x ≠ (a, a) := by rintro rfl; exact h2 (hl _ (List.mem_cons_self ..))
            unfold joining at h3 ⊢
            rw [List.countP_cons, List.countP_cons, List.countP_cons]
            obtain ⟨x1, x2⟩ := x
            simp only [decide_eq_true_eq, Prod.mk.injEq, ne_eq] at hx ⊢
            by_cases q1 : (x1 = a ∧ x2 = b) ∨ (x1 = b ∧ x2 = a)
            · have q2 : ¬ ((x1 = a ∧ x2 = b') ∨ (x1 = b' ∧ x2 = a)) := by
                rintro (⟨s1, s2⟩ | ⟨s1, s2⟩) <;> rcases q1 with ⟨t1, t2⟩ | ⟨t1, t2⟩
                · exact hne (t2.symm.trans s2)
                · exact hx ⟨s1, t2⟩
                · exact hx ⟨t1, s2⟩
                · exact hne (t1.symm.trans s1)
              rw [if_pos q1, if_neg q2, if_pos (by tauto)]
              omega
            · rw [if_neg q1]
              by_cases q2 : (x1 = a ∧ x2 = b') ∨ (x1 = b' ∧ x2 = a)
              · rw [if_pos q2, if_pos (by tauto)]; omega
              · rw [if_neg q2]; omega
        exact this edges (fun _ h => h)
      omega
    have hcomm : ∀ x y, joining edges x y = joining edges y x := by
      intro x y
      unfold joining
      apply List.countP_congr
      intro e _
      simp only [decide_eq_true_eq]
      exact Or.comm
    -- the other end
    obtain ⟨b, hb⟩ : ∃ b, 0 < joining edges a b := by
      rcases hea with h | h
      · exact ⟨e.2, List.countP_pos_iff.mpr ⟨e, hee, by simp [h]⟩⟩
      · exact ⟨e.1, List.countP_pos_iff.mpr ⟨e, hee, by simp [h]⟩⟩
    have hbL : b ∈ MGraphProps.endpoints edges := by
      obtain ⟨e', he', hm'⟩ := List.countP_pos_iff.mp hb
      simp only [decide_eq_true_eq] at hm'
      rcases hm' with h | h
      · exact mem_endpoints.mpr ⟨e', he', Or.inr h.2.symm⟩
      · exact mem_endpoints.mpr ⟨e', he', Or.inl h.1.symm⟩
    have hab : a ≠ b := by
      rintro rfl
      obtain ⟨e', he', hm'⟩ := List.countP_pos_iff.mp hb
      simp only [decide_eq_true_eq, or_self] at hm'
      exact h2 (by rw [show e' = (a, a) from Prod.ext hm'.1 hm'.2] at he'; exact he')
    obtain ⟨j, hj, ej⟩ := List.getElem_of_mem hbL
    have hj' : j < V := by omega
    have hjb : lab j = b := by
      have := hlab j hj'
      rw [List.getElem?_eq_getElem hj, ej] at this
      exact (Option.some.inj this).symm
    have hij : i ≠ j := by rintro rfl; exact hab (hia.symm.trans hjb)
    -- every strand with an end at vertex `i` is the same
    let s0 : Strand := (min i j, max i j, 0)
    have hs0 : s0 ∈ S := by
      rw [hS, mem_allStrands]
      refine ⟨by simp [s0], by simp only [s0]; omega, ?_⟩
      simp only [s0]
      rcases le_total i j with h | h
      · rw [min_eq_left h, max_eq_right h, hia, hjb]; exact hb
      · rw [min_eq_right h, max_eq_left h, hia, hjb, hcomm]; exact hb
    have hsonly : ∀ s ∈ S, s.1 = i ∨ s.2.1 = i → s = s0 := by
      intro s hs hor
      obtain ⟨x, y, k⟩ := s
      rw [hS, mem_allStrands] at hs
      simp only at hs hor
      have hc1 : ∀ z, joining edges a (lab z) ≤ 1 := fun z => hcount _
      rcases hor with rfl | rfl
      · have hk := hs.2.2
        rw [hia] at hk
        have := hc1 y
        have hy : y = j := by
          apply hinj y j hs.2.1 hj'
          rw [hjb]
          exact huniq _ _ (by omega) hb
        subst hy
        simp only [s0, Prod.mk.injEq]
        omega
      · have hk := hs.2.2
        rw [hia, hcomm] at hk
        have := hc1 x
        have hx : x = j := by
          apply hinj x j (by omega) hj'
          rw [hjb]
          exact huniq _ _ (by omega) hb
        subst hx
        simp only [s0, Prod.mk.injEq]
        omega
    have hm1 : 1 ≤ mid n s0 := by unfold mid; split <;> omega
    have hess_pt : ∀ s ∈ S, ∀ l, l ≤ mid n s + 1 → SVertex.essential (lab i) = pt lab n s l → (l = 0 ∧ s.1 = i) ∨ (l = mid n s + 1 ∧ s.2.1 = i) := by
      intro s hs l hl heq
      rw [hS, mem_allStrands] at hs
      unfold pt at heq
      by_cases h0 : l = 0
      · rw [if_pos h0] at heq
        simp only [SVertex.essential.injEq] at heq
        exact Or.inl ⟨h0, (hinj _ _ hi' (by omega) heq).symm⟩
      · rw [if_neg h0] at heq
        by_cases h1 : l = mid n s + 1
        · rw [if_pos h1] at heq
          simp only [SVertex.essential.injEq] at heq
          exact Or.inr ⟨h1, (hinj _ _ hi' hs.2.1 heq).symm⟩
        · rw [if_neg h1] at heq
          simp at heq
    -- the neighbour
    let l0 : Nat := if i < j then 1 else mid n s0
    have hl0 : l0 ≤ mid n s0 + 1 := by simp only [l0]; split <;> omega
    have hptm : pt lab n s0 l0 ∈ g0.verts := by
      have := mem_allStrands.mp hs0
      refine pt_mem lab n g0.verts hess s0 this.1 this.2.1 ?_ l0 hl0
      intro v hv
      rw [p2.verts, List.mem_append]
      right
      exact List.mem_flatMap.mpr ⟨s0, hs0, hv⟩
    obtain ⟨y, hy, ey⟩ := List.getElem_of_mem hptm
    have hy' : g0.verts[y]? = some (pt lab n s0 l0) := by rw [List.getElem?_eq_getElem hy, ey]
    have hadj : ∀ z, Adj g0.data i z ↔ z = y := by
      intro z
      rw [p2.adj]
      constructor
      · rintro ⟨u, v, hu, hv, hN⟩
        rw [hess i hi'] at hu
        obtain rfl := Option.some.inj hu
        apply getElem?_inj_of_nodup p4 hv
        rw [hy']
        rcases hN with ⟨s, hs, l, hl, hu, rfl⟩ | ⟨s, hs, l, hl, rfl, hu⟩
        · rcases hess_pt s hs l (by omega) hu with ⟨rfl, hsi⟩ | ⟨h, _⟩
          · obtain rfl := hsonly s hs (Or.inl hsi)
            have : i < j := by simp only [s0] at hsi; omega
            simp only [l0, if_pos this, Nat.zero_add]
          · omega
        · rcases hess_pt s hs (l + 1) (by omega) hu with ⟨h, _⟩ | ⟨h, hsi⟩
          · omega
          · obtain rfl := hsonly s hs (Or.inr hsi)
            have : ¬ i < j := by simp only [s0] at hsi; omega
            simp only [l0, if_neg this]
            congr 2
            omega
      · rintro rfl
        refine ⟨_, _, hess i hi', hy', ?_⟩
        by_cases hlt : i < j
        · left
          refine ⟨s0, hs0, 0, by omega, ?_, ?_⟩
          · simp only [pt, s0, if_true]; rw [min_eq_left hlt.le]
          · simp only [l0, if_pos hlt]
        · right
          refine ⟨s0, hs0, mid n s0, le_refl _, ?_, ?_⟩
          · simp only [l0, if_neg hlt]
          · rw [pt, if_neg (by omega), if_pos rfl]
            simp only [s0]; rw [max_eq_left (by omega)]
    have hin : i < g0.data.n := by omega
    have hgood : GoodRoot g0.data ⟨i, hin⟩ := by
      left
      have hyn : y < g0.data.n := by omega
      rw [Nat.card_eq_one_iff_unique]
      refine ⟨⟨?_⟩, ⟨⟨⟨y, hyn⟩, ?_⟩⟩⟩
      · rintro ⟨z, hz⟩ ⟨z', hz'⟩
        have e1 := (hadj z).mp ((toSimple_adj hb0 ⟨i, hin⟩ z).mp hz)
        have e2 := (hadj z').mp ((toSimple_adj hb0 ⟨i, hin⟩ z').mp hz')
        exact Subtype.ext (Fin.ext (e1.trans e2.symm))
      · exact (toSimple_adj hb0 ⟨i, hin⟩ ⟨y, hyn⟩).mpr ((hadj y).mpr rfl)
    exact hno i ((good_iff hb0 i).mpr ⟨hin, hgood⟩)

/-- C57: for an empty list of edges it panics. -/
theorem c57_empty_panics (m : MGraph α) (hm : MGraph.ofEdges ([] : List (α × α)) = some m) (points : Nat) : SGraph.subdivide m points = none := by
  obtain rfl : (⟨[], [], 0, 0, 0⟩ : MGraph α) = m := Option.some.inj hm
  have : preTree (⟨[], [], 0, 0, 0⟩ : MGraph α) points = none := by
    unfold preTree
    simp [RawGraph.new, csub]
  unfold SGraph.subdivide
  rw [this]; rfl

/-- C57, counterexample: a connected graph without a suitable root makes it panic. -/
theorem c57_loop_panics_false : (MGraph.ofEdges [((0 : Nat), 0)]).bind (fun m => (SGraph.subdivide m 2).map (fun g => g.verts.length)) = none := by
  decide +kernel

/-- Example of the hypotheses and the result: an edge and a loop, for three points. -/
example : ConnectedInput [((0 : Nat), 1), (1, 1)] := by
  refine ⟨by simp, ?_⟩
  intro a b ha hb
  have h01 : 0 < joining [((0 : Nat), 1), (1, 1)] 0 1 := by decide
  have h10 : 0 < joining [((0 : Nat), 1), (1, 1)] 1 0 := by decide
  have e : MGraphProps.endpoints [((0 : Nat), 1), (1, 1)] = [0, 1] := by decide
  rw [e] at ha hb
  simp only [List.mem_cons, List.not_mem_nil, or_false] at ha hb
  rcases ha with rfl | rfl <;> rcases hb with rfl | rfl
  · exact .refl
  · exact .single h01
  · exact .single h10
  · exact .refl

example : (MGraph.ofEdges [((0 : Nat), 1), (1, 1)]).bind (fun m => (SGraph.subdivide m 3).map (fun g => (g.verts, g.nEssential))) =
    some ([.essential 0, .redundant 0 1 0 ⟨1, 2, true⟩, .essential 1, .redundant 1 1 0 ⟨1, 4, true⟩, .redundant 1 1 0 ⟨1, 2, true⟩,
      .redundant 1 1 0 ⟨3, 4, true⟩], 2) := by decide +kernel

end Toppo.SubdivideProps
