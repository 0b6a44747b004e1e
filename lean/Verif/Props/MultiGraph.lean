import Verif.Model.MultiGraph
import Mathlib.Data.Sym.Sym2
import Mathlib.Data.List.Dedup
import Mathlib.Algebra.BigOperators.Ring.Finset
import Mathlib.Data.List.Count
import Mathlib.Algebra.BigOperators.Fin
import Mathlib.Tactic.Ring
set_option linter.unusedVariables false

/-!
# C56 and C61: building a graph from a list of edges; the Laplacian

The specification sees the input as the list of unordered pairs (`Sym2`) of labels.
-/
namespace Toppo.MGraphProps
open Toppo MGraph
variable {α : Type} [DecidableEq α]

/-- the input as unordered pairs -/
def pairs (edges : List (α × α)) : List (Sym2 α) := edges.map (fun e => s(e.1, e.2))

/-- number of edges whose two ends are equal -/
def loops (edges : List (α × α)) : Nat := edges.countP (fun e => decide (e.1 = e.2))

/-- number of different unordered pairs -/
def different (edges : List (α × α)) : Nat := (pairs edges).dedup.length

theorem registerAll_foldl (edges : List (α × α)) :
    registerAll edges = (edges.flatMap (fun e => [e.1, e.2])).foldl register [] := by
  have h : ∀ (es : List (α × α)) (acc : List α), es.foldl (fun l e => register (register l e.1) e.2) acc =
      (es.flatMap (fun e => [e.1, e.2])).foldl register acc := by
    intro es
    induction es with
    | nil => intro acc; rfl
    | cons e es ih => intro acc; simp only [List.foldl_cons, List.flatMap_cons, List.foldl_append, List.foldl_nil]; exact ih _
  exact h edges []

theorem foldl_register (l : List α) : l.foldl register [] = l.reverse.dedup.reverse := by
  induction l using List.reverseRecOn with
  | nil => rfl
  | append_singleton l v ih =>
    rw [List.foldl_append, List.foldl_cons, List.foldl_nil, ih, List.reverse_append, List.reverse_singleton, List.singleton_append]
    unfold register
    by_cases h : v ∈ l
    · rw [if_pos (by simpa using h), List.dedup_cons_of_mem (by simpa using h)]
    · rw [if_neg (by simpa using h), List.dedup_cons_of_notMem (by simpa using h), List.reverse_cons]

theorem different_snoc (pre : List (α × α)) (e : α × α) :
    different (pre ++ [e]) = different pre + if s(e.1, e.2) ∈ pairs pre then 0 else 1 := by
  unfold different pairs
  rw [List.map_append]
  have : ∀ (l : List (Sym2 α)) (x : Sym2 α), (l ++ [x]).dedup.length = l.dedup.length + if x ∈ l then 0 else 1 := by
    intro l x
    have h1 : (l ++ [x]).dedup.length = (x :: l).dedup.length := by
      have hp : (l ++ [x]).Perm (x :: l) := by simpa using List.perm_append_comm (l₁ := l) (l₂ := [x])
      exact hp.dedup.length_eq
    rw [h1]
    by_cases h : x ∈ l
    · rw [List.dedup_cons_of_mem h, if_pos h, Nat.add_zero]
    · rw [List.dedup_cons_of_notMem h, if_neg h, List.length_cons]
  exact this _ _

theorem loops_snoc (pre : List (α × α)) (e : α × α) : loops (pre ++ [e]) = loops pre + if e.1 = e.2 then 1 else 0 := by
  unfold loops
  rw [List.countP_append]
  by_cases h : e.1 = e.2 <;> simp [h]

/-- the invariant: `pre` has been registered, `total` edges overall, labels `L` -/
structure Inv (L : List α) (total : Nat) (pre : List (α × α)) (g : MGraph α) : Prop where
  labels : g.labels = L
  len : g.data.length = L.length
  row : ∀ r ∈ g.data, r.length = L.length
  data : ∀ i j (hi : i < L.length) (hj : j < L.length), g.mult i j = some (if i ≤ j then (pairs pre).count s(L[i], L[j]) else 0)
  nl : g.nNonLoop + loops pre = total
  lp : g.nLoops = loops pre
  up : g.nUp + pre.length + loops pre = total + different pre

theorem pairs_snoc (pre : List (α × α)) (e : α × α) : pairs (pre ++ [e]) = pairs pre ++ [s(e.1, e.2)] := by
  simp [pairs]

theorem bump_spec {data : List (List Nat)} {N i j : Nat} (h1 : data.length = N) (h2 : ∀ r ∈ data, r.length = N) (hi : i < N) (hj : j < N)
    (c : Nat) (hc : (do let row ← data[i]?; row[j]?) = some c) :
    ∃ d, bump data i j = some (d, c + 1) ∧ d.length = N ∧ (∀ r ∈ d, r.length = N) ∧
      ∀ a b, a < N → b < N → (do let row ← d[a]?; row[b]?) = if a = i ∧ b = j then some (c + 1) else (do let row ← data[a]?; row[b]?) := by
  have hi' : i < data.length := by omega
  have hrow : data[i]? = some data[i] := List.getElem?_eq_getElem hi'
  have hlen := h2 _ (List.getElem_mem hi')
  rw [hrow] at hc
  have hc' : data[i][j]? = some c := hc
  refine ⟨data.set i (data[i].set j (c + 1)), ?_, by simpa using h1, ?_, ?_⟩
  · unfold bump
    rw [hrow]
    simp only [Option.bind_eq_bind, Option.bind_some, hc']
    rfl
  · intro r hr
    rcases List.mem_or_eq_of_mem_set hr with h | h
    · exact h2 r h
    · rw [h]; simpa using hlen
  · intro a b ha hb
    have ha' : a < data.length := by omega
    by_cases hai : a = i
    · subst hai
      rw [List.getElem?_set_self ha', hrow]
      show (data[a].set j (c + 1))[b]? = _
      by_cases hbj : b = j
      · subst hbj
        rw [List.getElem?_set_self (by omega)]; simp
      · rw [List.getElem?_set_ne (by omega)]; simp [hbj]
    · rw [List.getElem?_set_ne (by omega)]; simp [hai]

theorem findIdx_spec {L : List α} (hnd : L.Nodup) {v : α} (hv : v ∈ L) :
    ∃ i, ∃ hi : i < L.length, L.findIdx? (fun x => decide (x = v)) = some i ∧ L[i] = v := by
  have h1 : L.findIdx? (fun x => decide (x = v)) = some (L.findIdx (fun x => decide (x = v))) := by
    rw [List.findIdx?_eq_some_of_exists ⟨v, hv, by simp⟩]
  have hlt : L.findIdx (fun x => decide (x = v)) < L.length := List.findIdx_lt_length_of_exists ⟨v, hv, by simp⟩
  exact ⟨_, hlt, h1, by simpa using List.findIdx_getElem (w := hlt)⟩

theorem addOne_spec {L : List α} (hnd : L.Nodup) {total : Nat} {pre : List (α × α)} {g : MGraph α} (h : Inv L total pre g)
    {e : α × α} (h1 : e.1 ∈ L) (h2 : e.2 ∈ L) (hlen : pre.length < total) :
    (pre.length + 1 + loops (pre ++ [e]) ≤ total + different (pre ++ [e]) →
      ∃ g', g.addOne e = some g' ∧ Inv L total (pre ++ [e]) g') ∧
    (total + different (pre ++ [e]) < pre.length + 1 + loops (pre ++ [e]) → g.addOne e = none) := by
  obtain ⟨i, hi, fi, ei⟩ := findIdx_spec hnd h1
  obtain ⟨j, hj, fj, ej⟩ := findIdx_spec hnd h2
  -- the ordered pair
  obtain ⟨a, b, ha, hb, hab, hpair, hvw, hdiag⟩ : ∃ a b, ∃ (ha : a < L.length) (hb : b < L.length), a ≤ b ∧ s(L[a], L[b]) = s(e.1, e.2) ∧
      (if i ≤ j then (i, j) else (j, i)) = (a, b) ∧ (a = b ↔ e.1 = e.2) := by
    have hd : i = j ↔ e.1 = e.2 := by
      rw [← ei, ← ej]
      exact ⟨fun h => by subst h; rfl, fun h => (List.Nodup.getElem_inj_iff hnd).mp h⟩
    by_cases hij : i ≤ j
    · exact ⟨i, j, hi, hj, hij, by rw [ei, ej], by rw [if_pos hij], hd⟩
    · exact ⟨j, i, hj, hi, by omega, by rw [ei, ej, Sym2.eq_swap], by rw [if_neg hij], by rw [eq_comm, hd]⟩
  have hm := h.data a b ha hb
  rw [if_pos hab, hpair] at hm
  obtain ⟨d, b1, b2, b3, b4⟩ := bump_spec h.len h.row ha hb _ hm
  have hcnt : (pairs pre).count s(e.1, e.2) + 1 > 1 ↔ s(e.1, e.2) ∈ pairs pre := by
    rw [← List.count_pos_iff]; omega
  have hloops : loops pre ≤ pre.length := List.countP_le_length
  have hU := different_snoc pre e
  have hL := loops_snoc pre e
  have hup := h.up
  have hnl := h.nl
  have hdata' : ∀ x y (hx : x < L.length) (hy : y < L.length), (do let row ← d[x]?; row[y]?) =
      some (if x ≤ y then (pairs (pre ++ [e])).count s(L[x], L[y]) else 0) := by
    intro x y hx hy
    rw [b4 x y hx hy, pairs_snoc, List.count_append]
    by_cases hxy : x = a ∧ y = b
    · obtain ⟨rfl, rfl⟩ := hxy
      simp only [and_self, if_true, if_pos hab, hpair]
      simp
    · rw [if_neg hxy]
      have := h.data x y hx hy
      unfold mult at this
      rw [this]
      congr 1
      by_cases hle : x ≤ y
      · rw [if_pos hle, if_pos hle]
        have : List.count s(L[x], L[y]) [s(e.1, e.2)] = 0 := by
          rw [List.count_eq_zero]
          simp only [List.mem_singleton]
          intro heq
          rw [← hpair] at heq
          rw [Sym2.eq_iff] at heq
          rcases heq with ⟨p, q⟩ | ⟨p, q⟩
          · exact hxy ⟨(List.Nodup.getElem_inj_iff hnd).mp p, (List.Nodup.getElem_inj_iff hnd).mp q⟩
          · have p' := (List.Nodup.getElem_inj_iff hnd).mp p
            have q' := (List.Nodup.getElem_inj_iff hnd).mp q
            omega
        omega
      · rw [if_neg hle, if_neg hle]
  have hrun : g.addOne e = (csub g.nUp (if s(e.1, e.2) ∈ pairs pre then 1 else 0)).bind (fun up =>
      if e.1 = e.2 then (csub g.nNonLoop 1).bind (fun nl => (csub up 1).bind (fun up' =>
        some { g with data := d, nLoops := g.nLoops + 1, nNonLoop := nl, nUp := up' }))
      else some { g with data := d, nUp := up }) := by
    unfold addOne
    rw [h.labels, fi, fj]
    simp only [Option.bind_eq_bind, Option.bind_some, hvw, b1]
    have e1 : (if (pairs pre).count s(e.1, e.2) + 1 > 1 then 1 else 0) = (if s(e.1, e.2) ∈ pairs pre then 1 else 0) := by
      by_cases hc : s(e.1, e.2) ∈ pairs pre
      · rw [if_pos hc, if_pos (hcnt.mpr hc)]
      · rw [if_neg hc, if_neg (fun hh => hc (hcnt.mp hh))]
    rw [e1]
    congr 1
    funext up
    by_cases hd : a = b
    · rw [if_pos hd, if_pos (hdiag.mp hd)]; rfl
    · rw [if_neg hd, if_neg (fun hh => hd (hdiag.mpr hh))]; rfl
  rw [hrun]
  have q2 : csub g.nNonLoop 1 = some (g.nNonLoop - 1) := by unfold csub; rw [if_pos (by omega)]
  by_cases hmem : s(e.1, e.2) ∈ pairs pre <;> by_cases hd : e.1 = e.2 <;>
    (first | rw [if_pos hmem] at hU | rw [if_neg hmem] at hU) <;> (first | rw [if_pos hd] at hL | rw [if_neg hd] at hL) <;>
    (first | rw [if_pos hmem] | rw [if_neg hmem])
  · constructor
    · intro hle
      have q1 : csub g.nUp 1 = some (g.nUp - 1) := by unfold csub; rw [if_pos (by omega)]
      have q3 : csub (g.nUp - 1) 1 = some (g.nUp - 1 - 1) := by unfold csub; rw [if_pos (by omega)]
      rw [q1, Option.bind_some, if_pos hd, q2, Option.bind_some, q3, Option.bind_some]
      exact ⟨_, rfl, h.labels, b2, b3, hdata', by show g.nNonLoop - 1 + _ = _; omega, by show g.nLoops + 1 = _; rw [h.lp]; omega,
        by show g.nUp - 1 - 1 + _ + _ = _; rw [List.length_append, List.length_singleton]; omega⟩
    · intro hlt
      by_cases h0 : 1 ≤ g.nUp
      · have q1 : csub g.nUp 1 = some (g.nUp - 1) := by unfold csub; rw [if_pos h0]
        have q3 : csub (g.nUp - 1) 1 = none := by unfold csub; rw [if_neg (by omega)]
        rw [q1, Option.bind_some, if_pos hd, q2, Option.bind_some, q3, Option.bind_none]
      · have q1 : csub g.nUp 1 = none := by unfold csub; rw [if_neg h0]
        rw [q1, Option.bind_none]
  · constructor
    · intro hle
      have q1 : csub g.nUp 1 = some (g.nUp - 1) := by unfold csub; rw [if_pos (by omega)]
      rw [q1, Option.bind_some, if_neg hd]
      exact ⟨_, rfl, h.labels, b2, b3, hdata', by show g.nNonLoop + _ = _; omega, by show g.nLoops = _; rw [h.lp]; omega,
        by show g.nUp - 1 + _ + _ = _; rw [List.length_append, List.length_singleton]; omega⟩
    · intro hlt
      have q1 : csub g.nUp 1 = none := by unfold csub; rw [if_neg (by omega)]
      rw [q1, Option.bind_none]
  · have q0 : csub g.nUp 0 = some g.nUp := by unfold csub; simp
    rw [q0, Option.bind_some, if_pos hd, q2, Option.bind_some]
    constructor
    · intro hle
      have q3 : csub g.nUp 1 = some (g.nUp - 1) := by unfold csub; rw [if_pos (by omega)]
      rw [q3, Option.bind_some]
      exact ⟨_, rfl, h.labels, b2, b3, hdata', by show g.nNonLoop - 1 + _ = _; omega, by show g.nLoops + 1 = _; rw [h.lp]; omega,
        by show g.nUp - 1 + _ + _ = _; rw [List.length_append, List.length_singleton]; omega⟩
    · intro hlt
      have q3 : csub g.nUp 1 = none := by unfold csub; rw [if_neg (by omega)]
      rw [q3, Option.bind_none]
  · have q0 : csub g.nUp 0 = some g.nUp := by unfold csub; simp
    rw [q0, Option.bind_some, if_neg hd]
    constructor
    · intro hle
      exact ⟨_, rfl, h.labels, b2, b3, hdata', by show g.nNonLoop + _ = _; omega, by show g.nLoops = _; rw [h.lp]; omega,
        by show g.nUp + _ + _ = _; rw [List.length_append, List.length_singleton]; omega⟩
    · intro hlt; omega

/-- the whole loop -/
theorem loop_spec {L : List α} (hnd : L.Nodup) {total : Nat} : ∀ (rest pre : List (α × α)) (g : MGraph α), Inv L total pre g →
    (∀ e ∈ rest, e.1 ∈ L ∧ e.2 ∈ L) → total = pre.length + rest.length →
    (loops (pre ++ rest) ≤ different (pre ++ rest) → ∃ g', rest.foldlM addOne g = some g' ∧ Inv L total (pre ++ rest) g') ∧
    (different (pre ++ rest) < loops (pre ++ rest) → rest.foldlM addOne g = none) := by
  have mono : ∀ (rest pre : List (α × α)), different (pre ++ rest) + loops pre ≤ different pre + rest.length + loops (pre ++ rest) := by
    intro rest
    induction rest with
    | nil => intro pre; simp
    | cons e es ih =>
      intro pre
      have := ih (pre ++ [e])
      have h1 := different_snoc pre e
      have h2 := loops_snoc pre e
      rw [List.append_assoc] at this
      simp only [List.singleton_append] at this
      rw [List.length_cons]
      split at h1 <;> split at h2 <;> omega
  intro rest
  induction rest with
  | nil =>
    intro pre g h hm ht
    have hup := h.up
    simp only [List.length_nil, Nat.add_zero] at ht
    rw [List.append_nil]
    exact ⟨fun _ => ⟨g, rfl, h⟩, fun hlt => by omega⟩
  | cons e es ih =>
    intro pre g h hm ht
    have he := hm e (List.mem_cons_self ..)
    rw [List.length_cons] at ht
    obtain ⟨s1, s2⟩ := addOne_spec hnd h he.1 he.2 (by omega)
    have hmono := mono es (pre ++ [e])
    rw [List.append_assoc, List.singleton_append] at hmono
    rw [List.foldlM_cons]
    by_cases hc : pre.length + 1 + loops (pre ++ [e]) ≤ total + different (pre ++ [e])
    · obtain ⟨g', r1, r2⟩ := s1 hc
      have := ih (pre ++ [e]) g' r2 (fun x hx => hm x (List.mem_cons_of_mem _ hx)) (by rw [List.length_append, List.length_singleton]; omega)
      rw [List.append_assoc, List.singleton_append] at this
      rw [r1]
      exact this
    · rw [s2 (by omega)]
      refine ⟨fun hle => ?_, fun _ => rfl⟩
      omega

/-- the endpoints of the edges in order, each only where it occurs first -/
def endpoints (edges : List (α × α)) : List α := (edges.flatMap (fun e => [e.1, e.2])).reverse.dedup.reverse

theorem registerAll_eq (edges : List (α × α)) : registerAll edges = endpoints edges := by
  rw [registerAll_foldl, foldl_register]; rfl

theorem endpoints_nodup (edges : List (α × α)) : (endpoints edges).Nodup := by
  unfold endpoints
  rw [List.nodup_reverse]
  exact List.nodup_dedup _

theorem mem_endpoints {edges : List (α × α)} {v : α} : v ∈ endpoints edges ↔ ∃ e ∈ edges, v = e.1 ∨ v = e.2 := by
  simp [endpoints]

theorem inv_init (edges : List (α × α)) : Inv (endpoints edges) edges.length []
    (MGraph.mk (List.replicate (endpoints edges).length (List.replicate (endpoints edges).length 0)) (endpoints edges) edges.length
      edges.length 0) := by
  refine ⟨rfl, by simp, ?_, ?_, by simp [loops], by simp [loops], by simp [loops, different, pairs]⟩
  · intro r hr
    rw [List.eq_of_mem_replicate hr]; simp
  · intro i j hi hj
    simp [mult, hi, hj, pairs]

theorem ofEdges_spec (edges : List (α × α)) :
    (loops edges ≤ different edges → ∃ g, MGraph.ofEdges edges = some g ∧ Inv (endpoints edges) edges.length edges g) ∧
    (different edges < loops edges → MGraph.ofEdges edges = none) := by
  have h := loop_spec (endpoints_nodup edges) edges [] _ (inv_init edges)
    (fun e he => ⟨mem_endpoints.mpr ⟨e, he, Or.inl rfl⟩, mem_endpoints.mpr ⟨e, he, Or.inr rfl⟩⟩) (by simp)
  rw [List.nil_append] at h
  unfold MGraph.ofEdges
  simp only [registerAll_eq]
  exact h

/-- C56: `Graph::from` succeeds exactly when there are at most as many loops as different unordered pairs; then every endpoint is a
vertex exactly once, in order of first occurrence, and the multiplicity stored for two vertices is the number of input edges joining
them (it is stored at the position in increasing order, the other position stays empty); the numbers of loops and of non-loop edges
are right, and the counter "up to multiplicity" is the number of different pairs minus the number of loops.
Partial: the property claims that it never panics and that the last counter is right; both fail with repeated loops
(`c56_repeated_loops_false`). -/
theorem c56_from_partial (edges : List (α × α)) :
    ((MGraph.ofEdges edges).isSome ↔ loops edges ≤ different edges) ∧
    ∀ g, MGraph.ofEdges edges = some g →
      g.labels = endpoints edges ∧ g.labels.Nodup ∧ (∀ v, v ∈ g.labels ↔ ∃ e ∈ edges, v = e.1 ∨ v = e.2) ∧
      (∀ i j (hi : i < g.labels.length) (hj : j < g.labels.length), g.mult i j =
        some (if i ≤ j then edges.countP (fun e => decide ((e.1 = g.labels[i] ∧ e.2 = g.labels[j]) ∨ (e.1 = g.labels[j] ∧ e.2 = g.labels[i])))
          else 0)) ∧
      g.nLoops = loops edges ∧ g.nNonLoop = edges.countP (fun e => decide (e.1 ≠ e.2)) ∧
      g.nUp = different edges - loops edges := by
  obtain ⟨s1, s2⟩ := ofEdges_spec edges
  constructor
  · constructor
    · intro h
      by_contra hc
      rw [s2 (by omega)] at h
      simp at h
    · intro h
      obtain ⟨g, hg, _⟩ := s1 h
      rw [hg]; rfl
  · intro g hg
    have hle : loops edges ≤ different edges := by
      by_contra hc
      rw [s2 (by omega)] at hg
      simp at hg
    obtain ⟨g', hg', h⟩ := s1 hle
    obtain rfl : g = g' := by rw [hg] at hg'; exact Option.some.inj hg'
    have hlab := h.labels
    obtain ⟨data, labels, nn, nu, nlo⟩ := g
    simp only at hlab
    subst hlab
    refine ⟨rfl, endpoints_nodup _, fun v => mem_endpoints, ?_, h.lp, ?_, ?_⟩
    · intro i j hi hj
      rw [h.data i j hi hj]
      congr 1
      by_cases hij : i ≤ j
      · rw [if_pos hij, if_pos hij, pairs, List.count_eq_countP, List.countP_map]
        apply List.countP_congr
        intro e _
        simp [Prod.ext_iff]
      · rw [if_neg hij, if_neg hij]
    · have h1 := h.nl
      have h2 : edges.length = loops edges + edges.countP (fun e => decide (e.1 ≠ e.2)) := by
        rw [loops, List.length_eq_countP_add_countP (fun e : α × α => decide (e.1 = e.2))]
        congr 1
        apply List.countP_congr; intro e _; simp
      simp only at h1 ⊢
      omega
    · have := h.up
      simp only at this ⊢
      omega

/-- C56: if no loop is repeated, construction succeeds and the last counter is the number of different non-loop pairs. -/
theorem c56_without_repeated_loops (edges : List (α × α)) (h : (edges.filter (fun e => decide (e.1 = e.2))).Nodup) :
    ∃ g, MGraph.ofEdges edges = some g ∧ g.nUp = ((pairs edges).filter (fun p => decide (¬ p.IsDiag))).dedup.length := by
  have key : different edges = loops edges + ((pairs edges).filter (fun p => decide (¬ p.IsDiag))).dedup.length := by
    have h1 : (pairs edges).filter (fun p => decide p.IsDiag) = (edges.filter (fun e => decide (e.1 = e.2))).map (fun e => s(e.1, e.2)) := by
      unfold pairs
      rw [List.filter_map]
      congr 1
      apply List.filter_congr
      intro e _
      simp
    have h2 : ((pairs edges).filter (fun p => decide p.IsDiag)).Nodup := by
      rw [h1]
      rw [List.nodup_map_iff_inj_on h]
      rintro ⟨x, x'⟩ hx ⟨y, y'⟩ hy hxy
      simp only [List.mem_filter, decide_eq_true_eq] at hx hy
      rw [Sym2.eq_iff] at hxy
      rcases hxy with ⟨a, b⟩ | ⟨a, b⟩ <;> simp_all
    have h3 : loops edges = ((pairs edges).filter (fun p => decide p.IsDiag)).dedup.length := by
      rw [h2.dedup, h1, List.length_map, loops, List.countP_eq_length_filter]
    rw [h3, different]
    have : ∀ l : List (Sym2 α), l.dedup.length = (l.filter (fun p => decide p.IsDiag)).dedup.length + (l.filter (fun p => decide (¬ p.IsDiag))).dedup.length := by
      intro l
      induction l with
      | nil => rfl
      | cons x l ih =>
        by_cases hx : x.IsDiag
        · rw [List.filter_cons_of_pos (by simpa using hx), List.filter_cons_of_neg (by simpa using hx)]
          by_cases hm : x ∈ l
          · rw [List.dedup_cons_of_mem hm, List.dedup_cons_of_mem (by simp [hm, hx]), ih]
          · rw [List.dedup_cons_of_notMem hm, List.dedup_cons_of_notMem (by simp [hm]), List.length_cons, List.length_cons, ih]; omega
        · rw [List.filter_cons_of_neg (by simpa using hx), List.filter_cons_of_pos (by simpa using hx)]
          by_cases hm : x ∈ l
          · rw [List.dedup_cons_of_mem hm, List.dedup_cons_of_mem (by simp [hm, hx]), ih]
          · rw [List.dedup_cons_of_notMem hm, List.dedup_cons_of_notMem (by simp [hm]), List.length_cons, List.length_cons, ih]; omega
    exact this _
  obtain ⟨g, hg⟩ := Option.isSome_iff_exists.mp ((c56_from_partial edges).1.mpr (by omega))
  exact ⟨g, hg, by rw [((c56_from_partial edges).2 g hg).2.2.2.2.2.2]; omega⟩

/-- C56, counterexample: two loops at one vertex make `Graph::from` panic, and with enough other edges it succeeds but reports one
non-loop pair too few. -/
theorem c56_repeated_loops_false :
    MGraph.ofEdges [(0, 0), (0, 0)] = (none : Option (MGraph Nat)) ∧
    (MGraph.ofEdges [(0, 0), (0, 0), (0, 1)]).map (fun g => g.nUp) = some 0 := by decide +kernel

example : (MGraph.ofEdges [(0, 0), (0, 1), (1, 0), (1, 1)]).map (fun g => (g.labels, g.data, g.nLoops, g.nNonLoop, g.nUp))
    = some ([0, 1], [[1, 2], [0, 1]], 2, 2, 1) := by decide +kernel

end Toppo.MGraphProps

/-! ## C61 -/
namespace Toppo.WGraphProps
open Toppo WGraph
variable {α T : Type} [DecidableEq α]

/-- the weight the input gives to the pair `a, b`: that of the last entry joining them, zero if there is none -/
def weight [Zero T] (input : List (α × α × T)) (a b : α) : T :=
  match input.reverse.find? (fun e => decide ((e.1 = a ∧ e.2.1 = b) ∨ (e.1 = b ∧ e.2.1 = a))) with
  | some e => e.2.2
  | none => 0

/-- the endpoints in order of first occurrence -/
def endpoints (input : List (α × α × T)) : List α := (input.flatMap (fun e => [e.1, e.2.1])).reverse.dedup.reverse

theorem endpoints_nodup (input : List (α × α × T)) : (endpoints input).Nodup := by
  unfold endpoints
  rw [List.nodup_reverse]
  exact List.nodup_dedup _

theorem place_spec (l : List α) (v : α) (l' : List α) (idx : Option Nat) (hl : l <+: l')
    (hidx : idx = l.findIdx? (fun x => decide (x = v))) (hnew : v ∉ l → v ∉ l') :
    (place l' v idx).1 = MGraph.register l' v ∧ (place l' v idx).1[(place l' v idx).2]? = some v ∧ l' <+: (place l' v idx).1 := by
  subst hidx
  cases hf : l.findIdx? (fun x => decide (x = v)) with
  | none =>
    have : v ∉ l := by
      rw [List.findIdx?_eq_none_iff] at hf
      intro hm
      have := hf v hm
      simp at this
    have h' := hnew this
    refine ⟨?_, ?_, ?_⟩
    · simp [place, MGraph.register, h']
    · simp [place]
    · exact List.prefix_append _ _
  | some i =>
    rw [List.findIdx?_eq_some_iff_getElem] at hf
    obtain ⟨hi, hv, _⟩ := hf
    have hv' : l[i] = v := by simpa using hv
    have hget : l'[i]? = some v := by
      rw [← hv']
      exact List.prefix_iff_getElem?.mp hl i hi
    refine ⟨?_, hget, List.prefix_refl _⟩
    have : v ∈ l' := List.mem_of_getElem? hget
    simp [place, MGraph.register, this]

/-- what is known after the entries `pre` -/
def Inv (pre : List (α × α × T)) (s : List α × List (Nat × Nat × T)) : Prop :=
  s.1 = (pre.flatMap (fun e => [e.1, e.2.1])).foldl MGraph.register [] ∧
  List.Forall₂ (fun p e => s.1[p.1]? = some e.1 ∧ s.1[p.2.1]? = some e.2.1 ∧ p.2.2 = e.2.2) s.2 pre

theorem addWeight_spec {pre : List (α × α × T)} {s : List α × List (Nat × Nat × T)} (h : Inv pre s) (e : α × α × T) :
    (e.1 = e.2.1 → addWeight s e = none) ∧ (e.1 ≠ e.2.1 → ∃ s', addWeight s e = some s' ∧ Inv (pre ++ [e]) s') := by
  constructor
  · intro he; unfold addWeight; rw [if_pos he]
  · intro he
    unfold addWeight
    rw [if_neg he]
    obtain ⟨a1, a2, a3⟩ := place_spec s.1 e.1 s.1 _ (List.prefix_refl _) rfl id
    have hnew : e.2.1 ∉ s.1 → e.2.1 ∉ (place s.1 e.1 (s.1.findIdx? (fun x => decide (x = e.1)))).1 := by
      intro hn hm
      rw [a1] at hm
      unfold MGraph.register at hm
      split at hm
      · exact hn hm
      · simp only [List.mem_append, List.mem_singleton] at hm
        rcases hm with hm | hm
        · exact hn hm
        · exact he hm.symm
    obtain ⟨b1, b2, b3⟩ := place_spec s.1 e.2.1 _ _ a3 rfl hnew
    refine ⟨_, rfl, ?_, ?_⟩
    · simp only
      rw [b1, a1, h.1, List.flatMap_append, List.foldl_append]
      rfl
    · simp only
      have pres : ∀ {i : Nat} {x : α} {l l' : List α}, l <+: l' → l[i]? = some x → l'[i]? = some x := by
        intro i x l l' hp hx
        obtain ⟨hi, rfl⟩ := List.getElem?_eq_some_iff.mp hx
        exact List.prefix_iff_getElem?.mp hp i hi
      apply List.rel_append
      · exact h.2.imp (fun p e hpe => ⟨pres (a3.trans b3) hpe.1, pres (a3.trans b3) hpe.2.1, hpe.2.2⟩)
      · exact List.Forall₂.cons ⟨pres b3 a2, b2, rfl⟩ List.Forall₂.nil

theorem addAll_spec : ∀ (rest pre : List (α × α × T)) (s : List α × List (Nat × Nat × T)), Inv pre s →
    ((∃ e ∈ rest, e.1 = e.2.1) → rest.foldlM addWeight s = none) ∧
    ((∀ e ∈ rest, e.1 ≠ e.2.1) → ∃ s', rest.foldlM addWeight s = some s' ∧ Inv (pre ++ rest) s') := by
  intro rest
  induction rest with
  | nil => intro pre s h; exact ⟨by rintro ⟨e, he, _⟩; simp at he, fun _ => ⟨s, rfl, by rwa [List.append_nil]⟩⟩
  | cons e es ih =>
    intro pre s h
    obtain ⟨s1, s2⟩ := addWeight_spec h e
    rw [List.foldlM_cons]
    by_cases he : e.1 = e.2.1
    · rw [s1 he]
      exact ⟨fun _ => rfl, fun hall => absurd he (hall e (List.mem_cons_self ..))⟩
    · obtain ⟨s', r1, r2⟩ := s2 he
      have := ih _ s' r2
      rw [List.append_assoc, List.singleton_append] at this
      rw [r1]
      constructor
      · rintro ⟨x, hx, hxe⟩
        rcases List.mem_cons.mp hx with rfl | hx
        · exact absurd hxe he
        · exact this.1 ⟨x, hx, hxe⟩
      · intro hall
        exact this.2 (fun x hx => hall x (List.mem_cons_of_mem _ hx))

/-- weights by label -/
def put (f : α → α → T) (e : α × α × T) : α → α → T := fun a b =>
  if (e.1 = a ∧ e.2.1 = b) ∨ (e.1 = b ∧ e.2.1 = a) then e.2.2 else f a b

theorem put_fold [Zero T] (input : List (α × α × T)) (a b : α) : input.foldl put (fun _ _ => 0) a b = weight input a b := by
  induction input using List.reverseRecOn with
  | nil => rfl
  | append_singleton l e ih =>
    rw [List.foldl_append, List.foldl_cons, List.foldl_nil]
    unfold put weight
    rw [List.reverse_append, List.reverse_singleton, List.singleton_append, List.find?_cons]
    by_cases h : (e.1 = a ∧ e.2.1 = b) ∨ (e.1 = b ∧ e.2.1 = a)
    · rw [if_pos h, decide_eq_true h]
    · rw [if_neg h, decide_eq_false h]
      exact ih

theorem putWeight_fold (L : List α) (hnd : L.Nodup) (ws : List (Nat × Nat × T)) (input : List (α × α × T))
    (h : List.Forall₂ (fun p e => L[p.1]? = some e.1 ∧ L[p.2.1]? = some e.2.1 ∧ p.2.2 = e.2.2) ws input) :
    ∀ (w0 : Nat → Nat → T) (f0 : α → α → T), (∀ i j (hi : i < L.length) (hj : j < L.length), w0 i j = f0 L[i] L[j]) →
      ∀ i j (hi : i < L.length) (hj : j < L.length), ws.foldl putWeight w0 i j = input.foldl put f0 L[i] L[j] := by
  induction h with
  | nil => intro w0 f0 h0; exact h0
  | @cons p e ws input hpe _ ih =>
    intro w0 f0 h0
    rw [List.foldl_cons, List.foldl_cons]
    refine ih _ _ ?_
    intro i j hi hj
    obtain ⟨x1, x2, x3⟩ := hpe
    obtain ⟨h1, y1⟩ := List.getElem?_eq_some_iff.mp x1
    obtain ⟨h2, y2⟩ := List.getElem?_eq_some_iff.mp x2
    unfold putWeight put
    rw [← y1, ← y2, ← x3, h0 i j hi hj]
    simp only [List.Nodup.getElem_inj_iff hnd]
    have : ((i = p.2.1 ∧ j = p.1) ∨ (i = p.1 ∧ j = p.2.1)) ↔ ((p.1 = i ∧ p.2.1 = j) ∨ (p.1 = j ∧ p.2.1 = i)) := by
      constructor
      · rintro (⟨rfl, rfl⟩ | ⟨rfl, rfl⟩) <;> simp
      · rintro (⟨rfl, rfl⟩ | ⟨rfl, rfl⟩) <;> simp
    by_cases hc : (p.1 = i ∧ p.2.1 = j) ∨ (p.1 = j ∧ p.2.1 = i)
    · rw [if_pos hc, if_pos (this.mpr hc)]
    · rw [if_neg hc, if_neg (fun hh => hc (this.mp hh))]

/-- C61: `WeightedSimpleGraph::from` succeeds exactly for a non-empty input without loops; its vertices are the endpoints in order of
first occurrence, and the stored weight of two vertices is that of the last entry joining them, zero if there is none. -/
theorem c61_from [Zero T] (input : List (α × α × T)) :
    ((WGraph.ofEdges input).isSome ↔ input ≠ [] ∧ ∀ e ∈ input, e.1 ≠ e.2.1) ∧
    ∀ g, WGraph.ofEdges input = some g → g.labels = endpoints input ∧ g.labels.Nodup ∧
      ∀ i j (hi : i < g.labels.length) (hj : j < g.labels.length), g.w i j = weight input g.labels[i] g.labels[j] := by
  have h0 : Inv ([] : List (α × α × T)) ([], []) := ⟨rfl, List.Forall₂.nil⟩
  obtain ⟨s1, s2⟩ := addAll_spec input [] _ h0
  rw [List.nil_append] at s2
  by_cases hall : ∀ e ∈ input, e.1 ≠ e.2.1
  · obtain ⟨s, r1, r2, r3⟩ := s2 hall
    have hlab : s.1 = endpoints input := by rw [r2, MGraphProps.foldl_register]; rfl
    have hrun : WGraph.ofEdges input = if s.1.length = 0 then none else some { labels := s.1, w := s.2.foldl putWeight (fun _ _ => 0) } := by
      unfold WGraph.ofEdges
      rw [r1]; rfl
    have hz : s.1.length = 0 ↔ input = [] := by
      rw [hlab]
      cases input with
      | nil => simp [endpoints]
      | cons e es =>
        simp only [reduceCtorEq, iff_false]
        intro hc
        have : e.1 ∈ endpoints (e :: es) := by simp [endpoints]
        rw [List.length_eq_zero_iff] at hc
        rw [hc] at this
        simp at this
    rw [hrun]
    by_cases hn : input = []
    · rw [if_pos (hz.mpr hn)]
      exact ⟨by simp [hn], by intro g hg; simp at hg⟩
    · rw [if_neg (fun hh => hn (hz.mp hh))]
      refine ⟨by simp [hn]; exact fun a b c h => hall _ h, ?_⟩
      intro g hg
      obtain rfl := Option.some.inj hg
      have hnd : s.1.Nodup := by rw [hlab]; exact endpoints_nodup _
      refine ⟨hlab, hnd, ?_⟩
      intro i j hi hj
      rw [← put_fold]
      exact putWeight_fold s.1 hnd s.2 input r3 _ _ (fun _ _ _ _ => rfl) i j hi hj
  · push Not at hall
    obtain ⟨e, he, hee⟩ := hall
    have : WGraph.ofEdges input = none := by
      unfold WGraph.ofEdges
      rw [s1 ⟨e, he, hee⟩]; rfl
    rw [this]
    refine ⟨?_, by intro g hg; simp at hg⟩
    simp only [Option.isSome_none, Bool.false_eq_true, false_iff]
    rintro ⟨_, hall⟩
    exact hall e he hee

theorem weight_comm [Zero T] (input : List (α × α × T)) (a b : α) : weight input a b = weight input b a := by
  unfold weight
  have : (fun e : α × α × T => decide ((e.1 = a ∧ e.2.1 = b) ∨ (e.1 = b ∧ e.2.1 = a))) =
      (fun e => decide ((e.1 = b ∧ e.2.1 = a) ∨ (e.1 = a ∧ e.2.1 = b))) := by
    funext e
    rw [decide_eq_decide]
    exact Or.comm
  rw [this]

theorem weight_diag [Zero T] {input : List (α × α × T)} (h : ∀ e ∈ input, e.1 ≠ e.2.1) (a : α) : weight input a a = 0 := by
  unfold weight
  have : input.reverse.find? (fun e => decide ((e.1 = a ∧ e.2.1 = a) ∨ (e.1 = a ∧ e.2.1 = a))) = none := by
    rw [List.find?_eq_none]
    intro e he
    have := h e (by simpa using he)
    simp only [or_self, decide_eq_true_eq]
    rintro ⟨rfl, h2⟩
    exact this h2.symm
  rw [this]

section ring
variable [CommRing T]

theorem sum_foldl (l : List T) : l.foldl (· + ·) 0 = l.sum := by
  rw [List.sum_eq_foldl]

theorem diag_fold (w : Nat → Nat → T) (n : Nat) (h0 : ∀ i, i < n → w i i = 0) : ∀ k, k ≤ n → ∀ i j, i < n → j < n →
    (List.range k).foldl (diagStep n) w i j = if i = j ∧ i < k then ∑ x ∈ Finset.range n, w i x else w i j := by
  intro k
  induction k with
  | zero => intro _ i j _ _; simp
  | succ k ih =>
    intro hk i j hi hj
    rw [List.range_succ, List.foldl_append, List.foldl_cons, List.foldl_nil]
    unfold diagStep
    by_cases hc : i = k ∧ j = k
    · obtain ⟨rfl, rfl⟩ := hc
      rw [if_pos ⟨rfl, rfl⟩, if_pos ⟨rfl, by omega⟩, sum_foldl, Finset.sum_range]
      rw [← List.sum_ofFn]
      congr 1
      apply List.ext_getElem
      · simp
      · intro m h1 h2
        have hm : m < n := by simpa using h1
        simp only [List.getElem_map, List.getElem_range, List.getElem_ofFn]
        rw [← ih (by omega) j m hi hm |>.trans (if_neg (by omega))]
        rfl
    · rw [if_neg hc]
      have := ih (by omega) i j hi hj
      unfold diagStep at this
      rw [this]
      by_cases hd : i = j ∧ i < k
      · rw [if_pos hd, if_pos ⟨hd.1, by omega⟩]
      · rw [if_neg hd, if_neg (by omega)]

/-- C61: the Laplacian of a graph built by `from`: off the diagonal it is minus the weight, on the diagonal the sum of the weights of
the row, so it is symmetric and every row sums to zero. -/
theorem c61_laplacian (input : List (α × α × T)) (g : WGraph α T) (hg : WGraph.ofEdges input = some g) :
    (∀ i j (hi : i < g.labels.length) (hj : j < g.labels.length), i ≠ j → g.laplacian i j = - weight input g.labels[i] g.labels[j]) ∧
    (∀ i (hi : i < g.labels.length), g.laplacian i i = ∑ j : Fin g.labels.length, weight input g.labels[i] g.labels[j]) ∧
    (∀ i j, i < g.labels.length → j < g.labels.length → g.laplacian i j = g.laplacian j i) ∧
    (∀ i, i < g.labels.length → ∑ j ∈ Finset.range g.labels.length, g.laplacian i j = 0) := by
  obtain ⟨hiff, hspec⟩ := c61_from input
  obtain ⟨hne, hloop⟩ := hiff.mp (by rw [hg]; rfl)
  obtain ⟨_, hnd, hw⟩ := hspec g hg
  have h0 : ∀ i, i < g.labels.length → g.w i i = 0 := fun i hi => by rw [hw i i hi hi, weight_diag hloop]
  have key : ∀ i j, i < g.labels.length → j < g.labels.length →
      g.laplacian i j = if i = j then ∑ x ∈ Finset.range g.labels.length, g.w i x else - g.w i j := by
    intro i j hi hj
    show (if i = j then _ else _) = _
    rw [diag_fold g.w _ h0 _ (le_refl _) i j hi hj]
    by_cases h : i = j
    · rw [if_pos h, if_pos h, if_pos ⟨h, hi⟩]
    · rw [if_neg h, if_neg h, if_neg (fun hh => h hh.1)]; ring
  refine ⟨?_, ?_, ?_, ?_⟩
  · intro i j hi hj hij
    rw [key i j hi hj, if_neg hij, hw i j hi hj]
  · intro i hi
    rw [key i i hi hi, if_pos rfl, Finset.sum_range]
    exact Finset.sum_congr rfl (fun j _ => hw i j hi j.2)
  · intro i j hi hj
    rw [key i j hi hj, key j i hj hi]
    by_cases h : i = j
    · subst h; rfl
    · rw [if_neg h, if_neg (Ne.symm h), hw i j hi hj, hw j i hj hi, weight_comm]
  · intro i hi
    rw [Finset.sum_congr rfl (fun j hj => key i j hi (Finset.mem_range.mp hj))]
    have hi' := Finset.mem_range.mpr hi
    rw [← Finset.add_sum_erase _ _ hi', if_pos rfl, ← Finset.add_sum_erase _ (g.w i) hi', h0 i hi, zero_add]
    rw [← Finset.sum_add_distrib]
    apply Finset.sum_eq_zero
    intro j hj
    rw [if_neg (Ne.symm (Finset.ne_of_mem_erase hj))]
    ring

end ring

example : (WGraph.ofEdges [("a", "b", (2 : Int)), ("b", "c", 3), ("b", "a", 5)]).map (fun g => (g.labels,
    (List.range 3).map (fun i => (List.range 3).map (g.laplacian i)))) =
    some (["a", "b", "c"], [[5, -5, 0], [-5, 8, -3], [0, -3, 3]]) := by decide +kernel

end Toppo.WGraphProps
