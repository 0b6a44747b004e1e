import Verif.Proof.SubdivideRoot
set_option linter.unusedVariables false

/-! # C57: exactly when a connected graph can be subdivided -/
namespace Toppo.SubdivideProps
open Toppo RawGraph SGraph MGraphProps GraphProps Subdiv
variable {α : Type} [DecidableEq α]

/-- the number of ends of edges at `a`; a loop has both ends there -/
def edgeEnds (edges : List (α × α)) (a : α) : Nat := edges.countP (fun e => decide (e.1 = a)) + edges.countP (fun e => decide (e.2 = a))

/-- the graph without the vertex `a` (and the edges at it) is connected -/
def RestConnected (edges : List (α × α)) (a : α) : Prop :=
  ∀ x y, x ∈ endpoints edges → y ∈ endpoints edges → x ≠ a → y ≠ a →
    Relation.ReflTransGen (fun u v => u ≠ a ∧ v ≠ a ∧ 0 < joining edges u v) x y

/-! ### proofs -/

theorem joining_comm (edges : List (α × α)) (x y : α) : joining edges x y = joining edges y x := by
  unfold joining
  apply List.countP_congr
  intro e _
  simp only [decide_eq_true_eq]
  exact Or.comm

theorem joining_loop (edges : List (α × α)) (a : α) : 0 < joining edges a a ↔ (a, a) ∈ edges := by
  unfold joining
  rw [List.countP_pos_iff]
  constructor
  · rintro ⟨e, he, hm⟩
    simp only [decide_eq_true_eq, or_self] at hm
    rw [show e = (a, a) from Prod.ext hm.1 hm.2] at he; exact he
  · intro h
    exact ⟨_, h, by simp⟩

/-- the strands with an end at a vertex are as many as the ends of edges there -/
theorem ends_eq (edges : List (α × α)) (V : Nat) (lab : Nat → α) (hinj : ∀ i j, i < V → j < V → lab i = lab j → i = j)
    (hsurj : ∀ e ∈ edges, (∃ i, i < V ∧ lab i = e.1) ∧ ∃ j, j < V ∧ lab j = e.2) (v : Nat) (hv : v < V) :
    (allStrands V (fun i j => joining edges (lab i) (lab j))).countP (fun s => decide (s.1 = v)) +
      (allStrands V (fun i j => joining edges (lab i) (lab j))).countP (fun s => decide (s.2.1 = v)) = edgeEnds edges (lab v) := by
  have hc : ∀ f : Nat × Nat → Bool, (allStrands V (fun i j => joining edges (lab i) (lab j))).countP (fun s => f (s.1, s.2.1)) =
      ((allPairs V).map (fun p => joining edges (lab p.1) (lab p.2) * (if f p then 1 else 0))).sum := by
    intro f
    rw [allStrands_pairs, List.countP_flatMap]
    congr 1
    apply List.map_congr_left
    intro p _
    rw [Function.comp, List.countP_map]
    by_cases hf : f p = true
    · rw [if_pos hf, Nat.mul_one]
      have : ((fun s : Strand => f (s.1, s.2.1)) ∘ fun k => (p.1, p.2, k)) = fun _ => true := by funext k; exact hf
      rw [this, List.countP_true, List.length_range]
    · rw [if_neg hf, Nat.mul_zero]
      have : ((fun s : Strand => f (s.1, s.2.1)) ∘ fun k => (p.1, p.2, k)) = fun _ => false := by
        funext k; simpa using hf
      rw [this, List.countP_false]; rfl
  rw [hc (fun p => decide (p.1 = v)), hc (fun p => decide (p.2 = v))]
  have key : ∀ w : Nat × Nat → Nat, ((allPairs V).map (fun p => joining edges (lab p.1) (lab p.2) * w p)).sum =
      (edges.map (fun e => (((allPairs V).filter (fun p => decide ((e.1 = lab p.1 ∧ e.2 = lab p.2) ∨ (e.1 = lab p.2 ∧ e.2 = lab p.1)))).map w).sum)).sum :=
    fun w => weighted_count (allPairs V) (fun p (e : α × α) => decide ((e.1 = lab p.1 ∧ e.2 = lab p.2) ∨ (e.1 = lab p.2 ∧ e.2 = lab p.1))) w edges
  rw [key, key]
  have hf : ∀ e ∈ edges, ∃ i j, i < V ∧ j < V ∧ lab i = e.1 ∧ lab j = e.2 ∧
      (allPairs V).filter (fun p => decide ((e.1 = lab p.1 ∧ e.2 = lab p.2) ∨ (e.1 = lab p.2 ∧ e.2 = lab p.1))) = [(min i j, max i j)] := by
    intro e he
    obtain ⟨⟨i, hi, hei⟩, ⟨j, hj, hej⟩⟩ := hsurj e he
    refine ⟨i, j, hi, hj, hei, hej, ?_⟩
    apply List.perm_singleton.mp
    rw [List.perm_ext_iff_of_nodup ((allPairs_nodup V).filter _) (List.nodup_singleton _)]
    rintro ⟨x, y⟩
    rw [List.mem_filter, mem_allPairs, List.mem_singleton, decide_eq_true_eq, ← hei, ← hej, Prod.mk.injEq]
    simp only
    constructor
    · rintro ⟨⟨hxy, hy⟩, ⟨a, b⟩ | ⟨a, b⟩⟩
      · have := hinj i x hi (by omega) a
        have := hinj j y hj hy b
        omega
      · have := hinj i y hi hy a
        have := hinj j x hj (by omega) b
        omega
    · rintro ⟨rfl, rfl⟩
      refine ⟨by omega, ?_⟩
      rcases le_total i j with h | h
      · left; rw [min_eq_left h, max_eq_right h]; exact ⟨rfl, rfl⟩
      · right; rw [min_eq_right h, max_eq_left h]; exact ⟨rfl, rfl⟩
  unfold edgeEnds
  clear hc key hsurj
  generalize (allPairs V) = P at hf ⊢
  induction edges with
  | nil => rfl
  | cons e es ih =>
    obtain ⟨i, j, hi, hj, hei, hej, hp⟩ := hf e (List.mem_cons_self ..)
    have ih' := ih (fun e he => hf e (List.mem_cons_of_mem _ he))
    simp only [decide_eq_true_eq] at ih'
    rw [List.map_cons, List.map_cons, List.sum_cons, List.sum_cons, List.countP_cons, List.countP_cons, hp]
    have e1 : lab i = lab v ↔ i = v := ⟨hinj i v hi hv, fun h => by rw [h]⟩
    have e2 : lab j = lab v ↔ j = v := ⟨hinj j v hj hv, fun h => by rw [h]⟩
    rw [← hei, ← hej]
    simp only [List.map_cons, List.map_nil, List.sum_cons, List.sum_nil, decide_eq_true_eq, e1, e2]
    rcases le_total i j with h | h
    · rw [min_eq_left h, max_eq_right h]; split <;> split <;> omega
    · rw [min_eq_right h, max_eq_left h]; split <;> split <;> omega

/-- C57: subdividing a connected graph succeeds exactly if some vertex `a` has one edge end, or has at least three, no loop, and
its removal leaves the rest connected.  In every other case it panics. -/
theorem c57_iff (edges : List (α × α)) (hc : ConnectedInput edges) (m : MGraph α) (hm : MGraph.ofEdges edges = some m) (points : Nat)
    (hp : points + 1 < 2 ^ 63) :
    (∃ g, SGraph.subdivide m points = some g) ↔
      ∃ a, edgeEnds edges a = 1 ∨ (3 ≤ edgeEnds edges a ∧ (a, a) ∉ edges ∧ RestConnected edges a) := by
  obtain ⟨lab, V, g0, hV, hlab, p1, p2, p3, p4, p5⟩ := preTree_spec edges hc.1 m hm points hp
  have hn2 : 2 ≤ max points 2 := by omega
  have hconn := preTree_connected edges hc hn2 lab V g0 hV hlab p2 p3 p4
  have hinj : ∀ i j, i < V → j < V → lab i = lab j → i = j := by
    intro i j hi hj h
    have h1 := hlab i hi
    rw [h] at h1
    exact getElem?_inj_of_nodup (endpoints_nodup edges) h1 (hlab j hj)
  have idx : ∀ a, a ∈ MGraphProps.endpoints edges → ∃ i, i < V ∧ lab i = a := by
    intro a ha
    obtain ⟨i, hi, e⟩ := List.getElem_of_mem ha
    have := hlab i (by omega)
    rw [List.getElem?_eq_getElem hi, e] at this
    exact ⟨i, by omega, (Option.some.inj this).symm⟩
  have hmem : ∀ i, i < V → lab i ∈ MGraphProps.endpoints edges := fun i hi => List.mem_of_getElem? (hlab i hi)
  have hpre : Pre lab (max points 2) V (fun i j => joining edges (lab i) (lab j)) g0 :=
    ⟨hn2, by omega, hinj, p2, p3, p4⟩
  have hends := ends_eq edges V lab hinj (fun e he =>
    ⟨idx _ (mem_endpoints.mpr ⟨e, he, Or.inl rfl⟩), idx _ (mem_endpoints.mpr ⟨e, he, Or.inr rfl⟩)⟩)
  have hrest : ∀ v, v < V → ((∀ j k, j < V → k < V → j ≠ v → k ≠ v →
      Relation.ReflTransGen (fun j k => j < V ∧ k < V ∧ Pre.Step (fun i j => joining edges (lab i) (lab j)) v j k) j k) ↔ RestConnected edges (lab v)) := by
    intro v hv
    have hmm : ∀ j k, joining edges (lab (min j k)) (lab (max j k)) = joining edges (lab j) (lab k) := by
      intro j k
      rcases le_total j k with h | h
      · rw [min_eq_left h, max_eq_right h]
      · rw [min_eq_right h, max_eq_left h, joining_comm]
    constructor
    · intro h x y hx hy hxa hya
      obtain ⟨j, hj, rfl⟩ := idx x hx
      obtain ⟨k, hk, rfl⟩ := idx y hy
      have := h j k hj hk (fun e => hxa (by rw [e])) (fun e => hya (by rw [e]))
      clear hya hy hk
      induction this with
      | refl => exact .refl
      | @tail b d _ hst ih =>
        obtain ⟨hb, hd, hs1, hs2, hs3⟩ := hst
        refine ih.tail ⟨fun e => hs1 (hinj _ _ hb hv e), fun e => hs2 (hinj _ _ hd hv e), ?_⟩
        simp only at hs3
        rw [hmm] at hs3
        exact hs3
    · intro h j k hj hk hjv hkv
      have := h (lab j) (lab k) (hmem j hj) (hmem k hk) (fun e => hjv (hinj _ _ hj hv e)) (fun e => hkv (hinj _ _ hk hv e))
      have gen : ∀ b, Relation.ReflTransGen (fun u w => u ≠ lab v ∧ w ≠ lab v ∧ 0 < joining edges u w) (lab j) b →
          ∃ k, k < V ∧ lab k = b ∧ Relation.ReflTransGen (fun j k => j < V ∧ k < V ∧ Pre.Step (fun i j => joining edges (lab i) (lab j)) v j k) j k := by
        intro b hb
        induction hb with
        | refl => exact ⟨j, hj, rfl, .refl⟩
        | @tail b d _ hst ih =>
          obtain ⟨k, hk, rfl, hr⟩ := ih
          obtain ⟨s1, s2, s3⟩ := hst
          have hd : d ∈ MGraphProps.endpoints edges := by
            obtain ⟨e, he, hm⟩ := List.countP_pos_iff.mp s3
            simp only [decide_eq_true_eq] at hm
            rw [mem_endpoints]
            rcases hm with ⟨_, rfl⟩ | ⟨rfl, _⟩
            · exact ⟨e, he, Or.inr rfl⟩
            · exact ⟨e, he, Or.inl rfl⟩
          obtain ⟨k', hk', rfl⟩ := idx d hd
          refine ⟨k', hk', rfl, hr.tail ⟨hk, hk', fun e => s1 (by rw [e]), fun e => s2 (by rw [e]), ?_⟩⟩
          simp only
          rw [hmm]; exact s3
      obtain ⟨k', hk', e, hr⟩ := gen _ this
      rw [← hinj k' k hk' hk e]
      exact hr
  have hgood : (∃ v, Good g0.data v) ↔ ∃ a, edgeEnds edges a = 1 ∨ (3 ≤ edgeEnds edges a ∧ (a, a) ∉ edges ∧ RestConnected edges a) := by
    constructor
    · rintro ⟨v, hv⟩
      obtain ⟨hvV, hor⟩ := (hpre.good_iff' v).mp hv
      rw [hends v hvV] at hor
      refine ⟨lab v, ?_⟩
      rcases hor with h | ⟨h1, h2, h3⟩
      · exact Or.inl h
      · refine Or.inr ⟨h1, ?_, (hrest v hvV).mp h3⟩
        intro hin
        have := (joining_loop edges (lab v)).mpr hin
        omega
    · rintro ⟨a, hor⟩
      have ha : a ∈ MGraphProps.endpoints edges := by
        have : 0 < edgeEnds edges a := by rcases hor with h | ⟨h, _⟩ <;> omega
        unfold edgeEnds at this
        rcases Nat.eq_zero_or_pos (edges.countP (fun e => decide (e.1 = a))) with h | h
        · obtain ⟨e, he, hm⟩ := List.countP_pos_iff.mp (show 0 < edges.countP (fun e => decide (e.2 = a)) by omega)
          exact mem_endpoints.mpr ⟨e, he, Or.inr (of_decide_eq_true hm).symm⟩
        · obtain ⟨e, he, hm⟩ := List.countP_pos_iff.mp h
          exact mem_endpoints.mpr ⟨e, he, Or.inl (of_decide_eq_true hm).symm⟩
      obtain ⟨v, hvV, rfl⟩ := idx a ha
      refine ⟨v, (hpre.good_iff' v).mpr ⟨hvV, ?_⟩⟩
      rw [hends v hvV]
      rcases hor with h | ⟨h1, h2, h3⟩
      · exact Or.inl h
      · refine Or.inr ⟨h1, ?_, (hrest v hvV).mpr h3⟩
        by_contra hpos
        exact h2 ((joining_loop edges (lab v)).mp (by omega))
  rw [← hgood]
  rcases chooseMaximalTree_spec p2.wf hconn with ⟨v, g1, p, k1, k2, k3, k4, k5, k6, k7, k8, k9, k10, k11⟩ | ⟨hno, he⟩
  · obtain ⟨w, w1, w2, w3⟩ := Permutation.actionBy_spec g0.verts k6 (by
      intro x hx
      by_contra hh
      exact hx (k7 x (by omega)))
    refine ⟨fun _ => ⟨v, k1⟩, fun _ => ⟨{ g0 with data := g1, verts := w }, ?_⟩⟩
    unfold SGraph.subdivide
    rw [p1]
    simp only [Option.bind_eq_bind, Option.bind_some, k2, w1]
    rfl
  · constructor
    · rintro ⟨g, hg⟩
      unfold SGraph.subdivide at hg
      rw [p1] at hg
      simp [he] at hg
    · rintro ⟨v, hv⟩
      exact absurd hv (hno v)

/-- C57: so every connected graph in which all vertices have two edge ends (a cycle) panics. -/
theorem c57_cycles_false (edges : List (α × α)) (hc : ConnectedInput edges) (m : MGraph α) (hm : MGraph.ofEdges edges = some m) (points : Nat)
    (hp : points + 1 < 2 ^ 63) (h2 : ∀ a, a ∈ endpoints edges → edgeEnds edges a = 2) : SGraph.subdivide m points = none := by
  by_contra hne
  obtain ⟨a, ha⟩ := (c57_iff edges hc m hm points hp).mp (Option.ne_none_iff_exists'.mp hne)
  have hpos : 0 < edgeEnds edges a := by rcases ha with h | ⟨h, _⟩ <;> omega
  have hm' : a ∈ endpoints edges := by
    unfold edgeEnds at hpos
    rcases Nat.eq_zero_or_pos (edges.countP (fun e => decide (e.1 = a))) with h | h
    · obtain ⟨e, he, hm⟩ := List.countP_pos_iff.mp (show 0 < edges.countP (fun e => decide (e.2 = a)) by omega)
      exact mem_endpoints.mpr ⟨e, he, Or.inr (of_decide_eq_true hm).symm⟩
    · obtain ⟨e, he, hm⟩ := List.countP_pos_iff.mp h
      exact mem_endpoints.mpr ⟨e, he, Or.inl (of_decide_eq_true hm).symm⟩
  have := h2 a hm'
  omega

/-- Examples: three parallel edges can be subdivided, by the second condition. -/
example : edgeEnds [((0 : Nat), 1), (0, 1), (1, 0)] 0 = 3 ∧ ((0 : Nat), 0) ∉ [((0 : Nat), 1), (0, 1), (1, 0)] ∧
    RestConnected [((0 : Nat), 1), (0, 1), (1, 0)] 0 := by
  refine ⟨by decide, by decide, ?_⟩
  intro x y hx hy hx0 hy0
  have e : endpoints [((0 : Nat), 1), (0, 1), (1, 0)] = [0, 1] := by decide
  rw [e] at hx hy
  simp only [List.mem_cons, List.not_mem_nil, or_false] at hx hy
  have : x = y := by omega
  rw [this]

example : (MGraph.ofEdges [((0 : Nat), 1), (0, 1), (1, 0)]).bind (fun m => (SGraph.subdivide m 2).map (fun g => g.verts.length)) = some 5 := by
  decide +kernel

/-- a triangle: the hypotheses of `c57_cycles_false` -/
example : ConnectedInput [((0 : Nat), 1), (1, 2), (2, 0)] ∧ (∀ a, a ∈ endpoints [((0 : Nat), 1), (1, 2), (2, 0)] → edgeEnds [((0 : Nat), 1), (1, 2), (2, 0)] a = 2) ∧
    (MGraph.ofEdges [((0 : Nat), 1), (1, 2), (2, 0)]).isSome := by
  refine ⟨⟨by simp, ?_⟩, by decide, by decide⟩
  have e : endpoints [((0 : Nat), 1), (1, 2), (2, 0)] = [0, 1, 2] := by decide
  intro a b ha hb
  rw [e] at ha hb
  simp only [List.mem_cons, List.not_mem_nil, or_false] at ha hb
  by_cases q : a = b
  · rw [q]
  · refine .single ?_
    rcases ha with rfl | rfl | rfl <;> rcases hb with rfl | rfl | rfl <;> first | exact absurd rfl q | decide

end Toppo.SubdivideProps
