import Verif.Props.Subdivide
set_option linter.unusedVariables false

/-! Degrees and cut vertices of the subdivided graph before the tree is chosen (C57). -/
namespace Toppo.SubdivideProps
open Toppo RawGraph SGraph MGraphProps GraphProps Subdiv
variable {α : Type} [DecidableEq α]

/-- the setting: the graph before the tree is chosen -/
structure Pre (lab : Nat → α) (n V : Nat) (c : Nat → Nat → Nat) (g : SGraph α) : Prop where
  hn : 2 ≤ n
  hn' : n + 1 < 2 ^ 63
  inj : ∀ i j, i < V → j < V → lab i = lab j → i = j
  inv : Inv lab n V (allStrands V c) g
  len : g.data.n = g.verts.length
  nodup : g.verts.Nodup

namespace Pre
variable {lab : Nat → α} {n V : Nat} {c : Nat → Nat → Nat} {g : SGraph α}

/-- vertex `x` of the graph is point `l` of the strand `s` -/
def At (lab : Nat → α) (n : Nat) (g : SGraph α) (s : Strand) (l x : Nat) : Prop := g.verts[x]? = some (pt lab n s l)

theorem mid_pos (h : Pre lab n V c g) (s : Strand) : 1 ≤ mid n s := by have := h.hn; unfold mid; split <;> omega
theorem mid_loop (h : Pre lab n V c g) {s : Strand} (e : s.1 = s.2.1) : 2 ≤ mid n s := by have := h.hn; unfold mid; rw [if_pos e]; omega

theorem ess (h : Pre lab n V c g) {i : Nat} (hi : i < V) : g.verts[i]? = some (.essential (lab i)) := by
  rw [h.inv.verts, List.getElem?_append_left (by simpa using hi), List.getElem?_map, List.getElem?_range hi]; rfl

theorem pt_mem' (h : Pre lab n V c g) {s : Strand} (hs : s ∈ allStrands V c) {l : Nat} (hl : l ≤ mid n s + 1) : pt lab n s l ∈ g.verts := by
  have := mem_allStrands.mp hs
  refine pt_mem lab n g.verts (fun i hi => h.ess hi) s this.1 this.2.1 ?_ l hl
  intro v hv
  rw [h.inv.verts, List.mem_append]
  exact Or.inr (List.mem_flatMap.mpr ⟨s, hs, hv⟩)

theorem ex (h : Pre lab n V c g) {s : Strand} (hs : s ∈ allStrands V c) {l : Nat} (hl : l ≤ mid n s + 1) : ∃ x, x < g.data.n ∧ At lab n g s l x := by
  obtain ⟨y, hy, ey⟩ := List.getElem_of_mem (h.pt_mem' hs hl)
  exact ⟨y, by rw [h.len]; exact hy, by unfold At; rw [List.getElem?_eq_getElem hy, ey]⟩

theorem At.lt (h : Pre lab n V c g) {s : Strand} {l x : Nat} (hx : At lab n g s l x) : x < g.data.n := by
  rw [h.len]; exact (List.getElem?_eq_some_iff.mp hx).1

theorem at_uniq (h : Pre lab n V c g) {s : Strand} {l x y : Nat} (hx : At lab n g s l x) (hy : At lab n g s l y) : x = y :=
  getElem?_inj_of_nodup h.nodup hx hy

theorem at_zero (h : Pre lab n V c g) {s : Strand} (hs : s ∈ allStrands V c) {x : Nat} : At lab n g s 0 x ↔ x = s.1 := by
  have := mem_allStrands.mp hs
  have e : g.verts[s.1]? = some (pt lab n s 0) := by rw [h.ess (by omega)]; simp [pt]
  exact ⟨fun hx => getElem?_inj_of_nodup h.nodup hx e, fun hx => hx ▸ e⟩

theorem at_last (h : Pre lab n V c g) {s : Strand} (hs : s ∈ allStrands V c) {x : Nat} : At lab n g s (mid n s + 1) x ↔ x = s.2.1 := by
  have := mem_allStrands.mp hs
  have e : g.verts[s.2.1]? = some (pt lab n s (mid n s + 1)) := by rw [h.ess (by omega)]; simp [pt]
  exact ⟨fun hx => getElem?_inj_of_nodup h.nodup hx e, fun hx => hx ▸ e⟩

/-- an inner point belongs to one strand only -/
theorem pt_inj (h : Pre lab n V c g) {s t : Strand} (hs : s ∈ allStrands V c) (ht : t ∈ allStrands V c) {l l' : Nat} (h1 : 1 ≤ l) (h2 : l ≤ mid n s)
    (hl' : l' ≤ mid n t + 1) (e : pt lab n s l = pt lab n t l') : s = t ∧ l = l' := by
  have hn := h.hn
  have hn' := h.hn'
  rw [mem_allStrands] at hs ht
  unfold pt at e
  rw [if_neg (by omega), if_neg (by omega)] at e
  by_cases q0 : l' = 0
  · rw [if_pos q0] at e; cases e
  rw [if_neg q0] at e
  by_cases q1 : l' = mid n t + 1
  · rw [if_pos q1] at e; cases e
  rw [if_neg q1] at e
  simp only [SVertex.redundant.injEq] at e
  obtain ⟨i, j, k⟩ := s
  obtain ⟨i', j', k'⟩ := t
  simp only at hs ht e
  have a1 := h.inj i i' (by omega) (by omega) e.1
  have a2 := h.inj j j' (by omega) (by omega) e.2.1
  have a3 := e.2.2.1
  subst a1 a2 a3
  refine ⟨rfl, ?_⟩
  have hm' : mid n (i, j, k) + 1 < 2 ^ 63 := by unfold mid; split <;> omega
  exact frac_inj (by unfold den; split <;> omega) (by omega) (by omega) (by unfold den; split <;> omega) e.2.2.2

theorem at_inj (h : Pre lab n V c g) {s t : Strand} (hs : s ∈ allStrands V c) (ht : t ∈ allStrands V c) {l l' x : Nat} (h1 : 1 ≤ l) (h2 : l ≤ mid n s)
    (hl' : l' ≤ mid n t + 1) (hx : At lab n g s l x) (hx' : At lab n g t l' x) : s = t ∧ l = l' := by
  unfold At at hx hx'
  rw [hx] at hx'
  exact h.pt_inj hs ht h1 h2 hl' (Option.some.inj hx')

theorem at_inner_ge (h : Pre lab n V c g) {s : Strand} (hs : s ∈ allStrands V c) {l x : Nat} (h1 : 1 ≤ l) (h2 : l ≤ mid n s) (hx : At lab n g s l x) : V ≤ x := by
  by_contra hlt
  have := h.ess (show x < V by omega)
  unfold At at hx
  rw [this] at hx
  unfold pt at hx
  rw [if_neg (by omega), if_neg (by omega)] at hx
  cases hx

theorem V_le (h : Pre lab n V c g) : V ≤ g.data.n := by rw [h.len, h.inv.verts]; simp

/-- every vertex is essential or an inner point -/
theorem cases' (h : Pre lab n V c g) {x : Nat} (hx : x < g.data.n) :
    x < V ∨ ∃ s ∈ allStrands V c, ∃ l, 1 ≤ l ∧ l ≤ mid n s ∧ At lab n g s l x := by
  rw [h.len] at hx
  obtain ⟨v, he⟩ : ∃ v, g.verts[x]? = some v := ⟨_, List.getElem?_eq_getElem hx⟩
  have hm := List.mem_of_getElem? he
  rw [h.inv.verts, List.mem_append] at hm
  rcases hm with hm | hm
  · rw [List.mem_map] at hm
    obtain ⟨i, hi, e⟩ := hm
    rw [List.mem_range] at hi
    left
    rw [← e] at he
    rw [getElem?_inj_of_nodup h.nodup he (h.ess hi)]; exact hi
  · right
    rw [List.mem_flatMap] at hm
    obtain ⟨s, hs, hv⟩ := hm
    unfold inner at hv
    rw [List.mem_map] at hv
    obtain ⟨l, hl, e⟩ := hv
    rw [List.mem_range'_1] at hl
    refine ⟨s, hs, l, by omega, by omega, ?_⟩
    unfold At
    rw [he, ← e, pt, if_neg (by omega), if_neg (by omega)]

theorem adj_next (h : Pre lab n V c g) {s : Strand} (hs : s ∈ allStrands V c) {l x y : Nat} (hl : l ≤ mid n s) (hx : At lab n g s l x)
    (hy : At lab n g s (l + 1) y) : Adj g.data x y := (h.inv.adj x y).mpr ⟨_, _, hx, hy, Or.inl ⟨s, hs, l, hl, rfl, rfl⟩⟩

theorem adj_iff (h : Pre lab n V c g) (x y : Nat) : Adj g.data x y ↔ ∃ s ∈ allStrands V c, ∃ l, l ≤ mid n s ∧
    ((At lab n g s l x ∧ At lab n g s (l + 1) y) ∨ (At lab n g s l y ∧ At lab n g s (l + 1) x)) := by
  rw [h.inv.adj]
  constructor
  · rintro ⟨u, v, hu, hv, ⟨s, hs, l, hl, rfl, rfl⟩ | ⟨s, hs, l, hl, rfl, rfl⟩⟩
    · exact ⟨s, hs, l, hl, Or.inl ⟨hu, hv⟩⟩
    · exact ⟨s, hs, l, hl, Or.inr ⟨hv, hu⟩⟩
  · rintro ⟨s, hs, l, hl, ⟨hx, hy⟩ | ⟨hy, hx⟩⟩
    · exact ⟨_, _, hx, hy, Or.inl ⟨s, hs, l, hl, rfl, rfl⟩⟩
    · exact ⟨_, _, hx, hy, Or.inr ⟨s, hs, l, hl, rfl, rfl⟩⟩

/-- the neighbours of an inner point -/
theorem adj_inner (h : Pre lab n V c g) {s : Strand} (hs : s ∈ allStrands V c) {l x : Nat} (h1 : 1 ≤ l) (h2 : l ≤ mid n s) (hx : At lab n g s l x) (y : Nat) :
    Adj g.data x y ↔ At lab n g s (l - 1) y ∨ At lab n g s (l + 1) y := by
  constructor
  · intro ha
    obtain ⟨t, ht, l', hl', ⟨hx', hy⟩ | ⟨hy, hx'⟩⟩ := (h.adj_iff x y).mp ha
    · obtain ⟨rfl, rfl⟩ := h.at_inj hs ht h1 h2 (by omega) hx hx'
      exact Or.inr hy
    · obtain ⟨rfl, rfl⟩ := h.at_inj hs ht h1 h2 (by omega) hx hx'
      exact Or.inl hy
  · rintro (hy | hy)
    · exact (h.adj_next hs (show l - 1 ≤ mid n s by omega) hy (by rw [Nat.sub_add_cancel h1]; exact hx)).symm
    · exact h.adj_next hs h2 hx hy

/-- the neighbours of an essential vertex -/
theorem adj_ess (h : Pre lab n V c g) {i : Nat} (hi : i < V) (y : Nat) :
    Adj g.data i y ↔ ∃ s ∈ allStrands V c, (s.1 = i ∧ At lab n g s 1 y) ∨ (s.2.1 = i ∧ At lab n g s (mid n s) y) := by
  rw [h.adj_iff]
  constructor
  · rintro ⟨s, hs, l, hl, ⟨hx, hy⟩ | ⟨hy, hx⟩⟩
    · by_cases q : l = 0
      · subst q
        exact ⟨s, hs, Or.inl ⟨((h.at_zero hs).mp hx).symm, hy⟩⟩
      · have := h.at_inner_ge hs (by omega) hl hx
        omega
    · by_cases q : l = mid n s
      · subst q
        exact ⟨s, hs, Or.inr ⟨((h.at_last hs).mp hx).symm, hy⟩⟩
      · have := h.at_inner_ge hs (by omega) (by omega) hx
        omega
  · rintro ⟨s, hs, ⟨rfl, hy⟩ | ⟨rfl, hy⟩⟩
    · exact ⟨s, hs, 0, by omega, Or.inl ⟨(h.at_zero hs).mpr rfl, hy⟩⟩
    · exact ⟨s, hs, mid n s, le_refl _, Or.inr ⟨hy, (h.at_last hs).mpr rfl⟩⟩

/-! ### degrees -/

theorem degree_of_list (h : Pre lab n V c g) {x : Nat} (hx : x < g.data.n) (L : List (SVertex α)) (hL : L.Nodup) (hsub : ∀ v ∈ L, v ∈ g.verts)
    (hadj : ∀ y, Adj g.data x y ↔ ∃ v ∈ L, g.verts[y]? = some v) : g.data.degreeOf x = some L.length := by
  have hb : Built g.data := built_iff.mpr h.inv.wf
  obtain ⟨l, h1, h2, h3, h4⟩ := (c52_adjacent_vertices hb x).1 hx
  rw [h4]
  congr 1
  have hnd : l.Nodup := h2.imp (fun h => by omega)
  have hl : ∀ y ∈ l, y < g.verts.length := by
    intro y hy
    rw [← h.len]
    exact ((edge_iff hb _ _).mp ((h3 y).mp hy)).lt.2.1
  have e : (l.map (fun y => g.verts[y]?)).Perm (L.map some) := by
    rw [List.perm_ext_iff_of_nodup]
    · intro o
      simp only [List.mem_map]
      constructor
      · rintro ⟨y, hy, rfl⟩
        obtain ⟨v, hv, e⟩ := (hadj y).mp ((edge_iff hb _ _).mp ((h3 y).mp hy))
        exact ⟨v, hv, e.symm⟩
      · rintro ⟨v, hv, rfl⟩
        obtain ⟨y, hy, e⟩ := List.getElem_of_mem (hsub v hv)
        have e' : g.verts[y]? = some v := by rw [List.getElem?_eq_getElem hy, e]
        exact ⟨y, (h3 y).mpr ((edge_iff hb _ _).mpr ((hadj y).mpr ⟨v, hv, e'⟩)), e'⟩
    · rw [List.nodup_map_iff_inj_on hnd]
      intro y hy z hz e
      have hy' := List.getElem?_eq_getElem (hl y hy)
      exact getElem?_inj_of_nodup h.nodup hy' (e ▸ hy')
    · exact hL.map (Option.some_injective _)
  simpa using e.length_eq

/-- an inner vertex has two neighbours -/
theorem degree_inner (h : Pre lab n V c g) {s : Strand} (hs : s ∈ allStrands V c) {l x : Nat} (h1 : 1 ≤ l) (h2 : l ≤ mid n s) (hx : At lab n g s l x) :
    g.data.degreeOf x = some 2 := by
  refine h.degree_of_list (At.lt h hx) [pt lab n s (l - 1), pt lab n s (l + 1)] ?_ ?_ ?_
  · rw [List.nodup_cons, List.mem_singleton]
    refine ⟨?_, List.nodup_singleton _⟩
    intro e
    by_cases q : l = 1
    · subst q
      by_cases q' : mid n s = 1
      · have hne : s.1 ≠ s.2.1 := fun e => by have := h.mid_loop e; omega
        simp only [Nat.sub_self, pt, if_true, q', Nat.reduceAdd] at e
        rw [if_neg (by omega)] at e
        simp only [SVertex.essential.injEq] at e
        have := mem_allStrands.mp hs
        exact hne (h.inj _ _ (by omega) (by omega) e)
      · have := h.pt_inj hs hs (show 1 ≤ 1 + 1 by omega) (by omega) (by omega) e.symm
        omega
    · have := h.pt_inj hs hs (show 1 ≤ l - 1 by omega) (by omega) (by omega) e
      omega
  · intro v hv
    simp only [List.mem_cons, List.not_mem_nil, or_false] at hv
    rcases hv with rfl | rfl
    · exact h.pt_mem' hs (by omega)
    · exact h.pt_mem' hs (by omega)
  · intro y
    rw [h.adj_inner hs h1 h2 hx]
    simp [At]

/-- an essential vertex has as many neighbours as there are ends of strands at it -/
theorem degree_ess (h : Pre lab n V c g) {i : Nat} (hi : i < V) :
    g.data.degreeOf i = some ((allStrands V c).countP (fun s => decide (s.1 = i)) + (allStrands V c).countP (fun s => decide (s.2.1 = i))) := by
  have hVn := h.V_le
  have hnd := allStrands_nodup V c
  rw [h.degree_of_list (show i < g.data.n by omega) (((allStrands V c).filter (fun s => decide (s.1 = i))).map (fun s => pt lab n s 1) ++
    ((allStrands V c).filter (fun s => decide (s.2.1 = i))).map (fun s => pt lab n s (mid n s)))]
  · simp [List.countP_eq_length_filter]
  · rw [List.nodup_append]
    refine ⟨?_, ?_, ?_⟩
    · rw [List.nodup_map_iff_inj_on (hnd.filter _)]
      intro s hs t ht e
      rw [List.mem_filter] at hs ht
      have := h.mid_pos s
      exact (h.pt_inj hs.1 ht.1 (le_refl _) this (by omega) e).1
    · rw [List.nodup_map_iff_inj_on (hnd.filter _)]
      intro s hs t ht e
      rw [List.mem_filter] at hs ht
      have := h.mid_pos s
      exact (h.pt_inj hs.1 ht.1 this (le_refl _) (by omega) e).1
    · intro v hv w hw e
      rw [List.mem_map] at hv hw
      obtain ⟨s, hs, rfl⟩ := hv
      obtain ⟨t, ht, rfl⟩ := hw
      rw [List.mem_filter, decide_eq_true_eq] at hs ht
      have := h.mid_pos s
      have := h.pt_inj hs.1 ht.1 (le_refl _) (by omega) (by omega) e
      obtain ⟨rfl, q⟩ := this
      have := h.mid_loop (hs.2.trans ht.2.symm)
      omega
  · intro v hv
    rw [List.mem_append, List.mem_map, List.mem_map] at hv
    rcases hv with ⟨s, hs, rfl⟩ | ⟨s, hs, rfl⟩ <;> rw [List.mem_filter] at hs
    · exact h.pt_mem' hs.1 (by omega)
    · exact h.pt_mem' hs.1 (by omega)
  · intro y
    rw [h.adj_ess hi]
    simp only [List.mem_append, List.mem_map, List.mem_filter, decide_eq_true_eq, At]
    constructor
    · rintro ⟨s, hs, ⟨e, hy⟩ | ⟨e, hy⟩⟩
      · exact ⟨_, Or.inl ⟨s, ⟨hs, e⟩, rfl⟩, hy⟩
      · exact ⟨_, Or.inr ⟨s, ⟨hs, e⟩, rfl⟩, hy⟩
    · rintro ⟨_, ⟨s, ⟨hs, e⟩, rfl⟩ | ⟨s, ⟨hs, e⟩, rfl⟩, hy⟩
      · exact ⟨s, hs, Or.inl ⟨e, hy⟩⟩
      · exact ⟨s, hs, Or.inr ⟨e, hy⟩⟩

/-! ### cut vertices -/

/-- paths that avoid `i` -/
abbrev Av (g : SGraph α) (i : Nat) : Nat → Nat → Prop := Relation.ReflTransGen (fun x y => Adj g.data x y ∧ x ≠ i ∧ y ≠ i)

omit [DecidableEq α] in
theorem Av.symm {i x y : Nat} (h : Av g i x y) : Av g i y x := by
  induction h with
  | refl => exact .refl
  | tail _ hbc ih => exact .head ⟨hbc.1.symm, hbc.2.2, hbc.2.1⟩ ih

/-- two points of a strand between which the strand avoids `i` -/
theorem along (h : Pre lab n V c g) {i : Nat} {s : Strand} (hs : s ∈ allStrands V c) (a : Nat) : ∀ (k : Nat) (x y : Nat), a + k ≤ mid n s + 1 →
    (∀ l, a ≤ l → l ≤ a + k → ¬ At lab n g s l i) → At lab n g s a x → At lab n g s (a + k) y → Av g i x y
  | 0, x, y, _, _, hx, hy => by rw [h.at_uniq hx hy]
  | k + 1, x, y, hle, hav, hx, hy => by
    obtain ⟨z, _, hz⟩ := h.ex hs (show a + k ≤ mid n s + 1 by omega)
    refine (along h hs a k x z (by omega) (fun l h1 h2 => hav l h1 (by omega)) hx hz).tail ⟨h.adj_next hs (by omega) hz hy, ?_, ?_⟩
    · rintro rfl; exact hav _ (by omega) (by omega) hz
    · rintro rfl; exact hav _ (by omega) (by omega) hy

/-- the inner points never are an essential vertex -/
theorem not_at (h : Pre lab n V c g) {i : Nat} (hi : i < V) {s : Strand} (hs : s ∈ allStrands V c) {l : Nat} (hl : l ≤ mid n s + 1)
    (h0 : l = 0 → s.1 ≠ i) (h1 : l = mid n s + 1 → s.2.1 ≠ i) : ¬ At lab n g s l i := by
  intro ha
  by_cases q0 : l = 0
  · subst q0; exact h0 rfl ((h.at_zero hs).mp ha).symm
  · by_cases q1 : l = mid n s + 1
    · subst q1; exact h1 rfl ((h.at_last hs).mp ha).symm
    · have := h.at_inner_ge hs (by omega) (by omega) ha
      omega

/-- `j` and `k` are joined by an edge of the input that does not end at `i` -/
def Step (c : Nat → Nat → Nat) (i j k : Nat) : Prop := j ≠ i ∧ k ≠ i ∧ 0 < c (min j k) (max j k)

theorem Step.symm {i j k : Nat} (h : Step c i j k) : Step c i k j := ⟨h.2.1, h.1, by rw [min_comm, max_comm]; exact h.2.2⟩

/-- an essential vertex does not cut the graph if there is no loop at it and the other essential vertices are connected without it -/
theorem nonCut_of (h : Pre lab n V c g) {i : Nat} (hi : i < V) (hloop : c i i = 0)
    (hrest : ∀ j k, j < V → k < V → j ≠ i → k ≠ i → Relation.ReflTransGen (fun j k => j < V ∧ k < V ∧ Step c i j k) j k) : NonCut g.data i := by
  -- essential vertices
  have hess : ∀ j k, j < V → k < V → j ≠ i → k ≠ i → Av g i j k := by
    intro j k hj hk hji hki
    have := hrest j k hj hk hji hki
    clear hk hki
    induction this with
    | refl => exact .refl
    | @tail k k' _ hst ih =>
      refine ih.trans ?_
      obtain ⟨hkV, hkV', hk1, hk2, hc⟩ := hst
      have hs : (min k k', max k k', 0) ∈ allStrands V c := mem_allStrands.mpr ⟨by simp, by simp only; omega, hc⟩
      have hav : Av g i (min k k') (max k k') := by
        refine h.along hs 0 (mid n (min k k', max k k', 0) + 1) _ _ (by omega) ?_ ((h.at_zero hs).mpr rfl) ?_
        · intro l _ hl
          refine h.not_at hi hs (by omega) ?_ ?_
          · rintro -; simp only; rcases le_total k k' with q | q <;> simp [q, hk1, hk2]
          · rintro -; simp only; rcases le_total k k' with q | q <;> simp [q, hk1, hk2]
        · rw [Nat.zero_add]; exact (h.at_last hs).mpr rfl
      rcases le_total k k' with q | q
      · rw [min_eq_left q, max_eq_right q] at hav; exact hav
      · rw [min_eq_right q, max_eq_left q] at hav; exact hav.symm
  -- every vertex is connected with an essential one
  have hto : ∀ x, x < g.data.n → x ≠ i → ∃ j, j < V ∧ j ≠ i ∧ Av g i x j := by
    intro x hx hxi
    rcases h.cases' hx with hxV | ⟨s, hs, l, h1, h2, hat⟩
    · exact ⟨x, hxV, hxi, .refl⟩
    · have hs' := mem_allStrands.mp hs
      by_cases q : s.1 = i
      · have q2 : s.2.1 ≠ i := by
          intro q2
          rw [q, q2, hloop] at hs'
          omega
        refine ⟨s.2.1, hs'.2.1, q2, ?_⟩
        refine h.along hs l (mid n s + 1 - l) _ _ (by omega) ?_ hat (by rw [show l + (mid n s + 1 - l) = mid n s + 1 by omega]; exact (h.at_last hs).mpr rfl)
        intro l' g1 g2
        exact h.not_at hi hs (by omega) (by omega) (fun _ => q2)
      · refine ⟨s.1, by omega, q, Av.symm ?_⟩
        refine h.along hs 0 l _ _ (by omega) ?_ ((h.at_zero hs).mpr rfl) (by rw [Nat.zero_add]; exact hat)
        intro l' g1 g2
        exact h.not_at hi hs (by omega) (fun _ => q) (by omega)
  intro a b ha hb hai hbi
  obtain ⟨j, j1, j2, j3⟩ := hto a ha hai
  obtain ⟨k, k1, k2, k3⟩ := hto b hb hbi
  exact (j3.trans (hess j k j1 k1 j2 k2)).trans k3.symm

/-- the converse, for an essential vertex with at least three ends of strands -/
theorem of_nonCut (h : Pre lab n V c g) {i : Nat} (hi : i < V) (hcut : NonCut g.data i)
    (h3 : 3 ≤ (allStrands V c).countP (fun s => decide (s.1 = i)) + (allStrands V c).countP (fun s => decide (s.2.1 = i))) :
    c i i = 0 ∧ ∀ j k, j < V → k < V → j ≠ i → k ≠ i → Relation.ReflTransGen (fun j k => j < V ∧ k < V ∧ Step c i j k) j k := by
  constructor
  · by_contra hpos
    have hs : (i, i, 0) ∈ allStrands V c := mem_allStrands.mpr ⟨le_refl _, hi, by simp only; omega⟩
    set s : Strand := (i, i, 0) with hsd
    -- another strand at `i`
    obtain ⟨t, ht, hti, hts⟩ : ∃ t ∈ allStrands V c, (t.1 = i ∨ t.2.1 = i) ∧ t ≠ s := by
      by_contra hno
      push Not at hno
      have hnd := allStrands_nodup V c
      have hle : ∀ p : Strand → Bool, (∀ t ∈ allStrands V c, p t = true → t = s) → (allStrands V c).countP p ≤ 1 := by
        intro p hp
        rw [List.countP_eq_length_filter]
        have : ((allStrands V c).filter p) ⊆ [s] := by
          intro t ht
          rw [List.mem_filter] at ht
          rw [List.mem_singleton]
          exact hp t ht.1 ht.2
        simpa using (List.subperm_of_subset (hnd.filter p) this).length_le
      have a1 := hle (fun s => decide (s.1 = i)) (fun t ht e => hno t ht (Or.inl (by simpa using e)))
      have a2 := hle (fun s => decide (s.2.1 = i)) (fun t ht e => hno t ht (Or.inr (by simpa using e)))
      omega
    have hms := h.mid_pos s
    have hmt := h.mid_pos t
    obtain ⟨x, hx, hxa⟩ := h.ex hs (show 1 ≤ mid n s + 1 by omega)
    obtain ⟨y, hy, hya⟩ := h.ex ht (show 1 ≤ mid n t + 1 by omega)
    have hxi : x ≠ i := by have := h.at_inner_ge hs (le_refl _) hms hxa; omega
    have hyi : y ≠ i := by have := h.at_inner_ge ht (le_refl _) hmt hya; omega
    have hpath := hcut x y hx hy hxi hyi
    have hinv : ∃ l, 1 ≤ l ∧ l ≤ mid n s ∧ At lab n g s l y := by
      clear hya hyi hy
      induction hpath with
      | refl => exact ⟨1, le_refl _, hms, hxa⟩
      | @tail b d _ hst ih =>
        obtain ⟨l, l1, l2, l3⟩ := ih
        obtain ⟨ha, hb, hd⟩ := hst
        rcases (h.adj_inner hs l1 l2 l3 d).mp ha with hd' | hd'
        · by_cases q : l = 1
          · subst q
            exact absurd ((h.at_zero hs).mp hd') hd
          · exact ⟨l - 1, by omega, by omega, hd'⟩
        · by_cases q : l = mid n s
          · subst q
            exact absurd ((h.at_last hs).mp hd') hd
          · exact ⟨l + 1, by omega, by omega, hd'⟩
    obtain ⟨l, l1, l2, l3⟩ := hinv
    exact hts (h.at_inj hs ht l1 l2 (by omega) l3 hya).1.symm
  · intro j k hj hk hji hki
    have hVn := h.V_le
    have hpath := hcut j k (by omega) (by omega) hji hki
    -- along the path
    have hinv : ∀ x, Av g i j x → (x < V → Relation.ReflTransGen (fun j k => j < V ∧ k < V ∧ Step c i j k) j x) ∧
        (∀ s ∈ allStrands V c, ∀ l, 1 ≤ l → l ≤ mid n s → At lab n g s l x → ∀ e, e = s.1 ∨ e = s.2.1 → e ≠ i →
          Relation.ReflTransGen (fun j k => j < V ∧ k < V ∧ Step c i j k) j e) := by
      intro x hx
      have other : ∀ s ∈ allStrands V c, ∀ e e', (e = s.1 ∨ e = s.2.1) → (e' = s.1 ∨ e' = s.2.1) → e ≠ i → e' ≠ i →
          Relation.ReflTransGen (fun j k => j < V ∧ k < V ∧ Step c i j k) e e' := by
        intro s hs e e' he he' hei hei'
        have hs' := mem_allStrands.mp hs
        by_cases q : e = e'
        · rw [q]
        · refine .single ⟨by rcases he with rfl | rfl <;> omega, by rcases he' with rfl | rfl <;> omega, hei, hei', ?_⟩
          have : min e e' = s.1 ∧ max e e' = s.2.1 := by
            rcases he with rfl | rfl <;> rcases he' with rfl | rfl <;> omega
          rw [this.1, this.2]
          omega
      induction hx with
      | refl =>
        refine ⟨fun _ => .refl, ?_⟩
        intro s hs l l1 l2 hat
        have := h.at_inner_ge hs l1 l2 hat
        omega
      | @tail b d hb hst ih =>
        obtain ⟨ha, hbi, hdi⟩ := hst
        have hbn : b < g.data.n := ha.lt.1
        have hdn : d < g.data.n := ha.lt.2.1
        rcases h.cases' hbn with hbV | ⟨s, hs, l, l1, l2, hat⟩
        · -- from an essential vertex to an inner point
          have hjb := ih.1 hbV
          obtain ⟨s, hs, hor⟩ := (h.adj_ess hbV d).mp ha
          have hms := h.mid_pos s
          obtain ⟨l, l1, l2, l3, hbs⟩ : ∃ l, 1 ≤ l ∧ l ≤ mid n s ∧ At lab n g s l d ∧ (b = s.1 ∨ b = s.2.1) := by
            rcases hor with ⟨e, hat⟩ | ⟨e, hat⟩
            · exact ⟨1, le_refl _, hms, hat, Or.inl e.symm⟩
            · exact ⟨mid n s, hms, le_refl _, hat, Or.inr e.symm⟩
          have hdV := h.at_inner_ge hs l1 l2 l3
          refine ⟨fun hd => by omega, ?_⟩
          intro t ht l' l1' l2' hat' e he hei
          obtain ⟨rfl, _⟩ := h.at_inj hs ht l1 l2 (by omega) l3 hat'
          exact hjb.trans (other s hs b e hbs he hbi hei)
        · -- from an inner point
          have hj := ih.2 s hs l l1 l2 hat
          rcases (h.adj_inner hs l1 l2 hat d).mp ha with hd' | hd'
          · by_cases q : l = 1
            · subst q
              have hd1 := (h.at_zero hs).mp hd'
              refine ⟨fun _ => hj d (Or.inl hd1) hdi, ?_⟩
              intro t ht l' l1' l2' hat'
              have := h.at_inner_ge ht l1' l2' hat'
              have := (mem_allStrands.mp hs)
              omega
            · have hdV := h.at_inner_ge hs (by omega) (by omega) hd'
              refine ⟨fun hd => by omega, ?_⟩
              intro t ht l' l1' l2' hat'
              obtain ⟨rfl, _⟩ := h.at_inj ht hs l1' l2' (by omega) hat' hd'
              exact hj
          · by_cases q : l = mid n s
            · subst q
              have hd1 := (h.at_last hs).mp hd'
              refine ⟨fun _ => hj d (Or.inr hd1) hdi, ?_⟩
              intro t ht l' l1' l2' hat'
              have := h.at_inner_ge ht l1' l2' hat'
              have := (mem_allStrands.mp hs)
              omega
            · have hdV := h.at_inner_ge hs (by omega) (by omega) hd'
              refine ⟨fun hd => by omega, ?_⟩
              intro t ht l' l1' l2' hat'
              obtain ⟨rfl, _⟩ := h.at_inj ht hs l1' l2' (by omega) hat' hd'
              exact hj
    exact (hinv k hpath).1 hk

/-- the vertices that can be chosen as the root -/
theorem good_iff' (h : Pre lab n V c g) (v : Nat) : Good g.data v ↔ v < V ∧
    ((allStrands V c).countP (fun s => decide (s.1 = v)) + (allStrands V c).countP (fun s => decide (s.2.1 = v)) = 1 ∨
     (3 ≤ (allStrands V c).countP (fun s => decide (s.1 = v)) + (allStrands V c).countP (fun s => decide (s.2.1 = v)) ∧ c v v = 0 ∧
      ∀ j k, j < V → k < V → j ≠ v → k ≠ v → Relation.ReflTransGen (fun j k => j < V ∧ k < V ∧ Step c v j k) j k)) := by
  have hVn := h.V_le
  constructor
  · rintro ⟨hv, hg⟩
    rcases h.cases' hv with hvV | ⟨s, hs, l, l1, l2, hat⟩
    · refine ⟨hvV, ?_⟩
      rw [h.degree_ess hvV] at hg
      rcases hg with hg | ⟨⟨d, hd, hg⟩, hcut⟩
      · exact Or.inl (Option.some.inj hg)
      · have := Option.some.inj hg
        have h3 : 3 ≤ (allStrands V c).countP (fun s => decide (s.1 = v)) + (allStrands V c).countP (fun s => decide (s.2.1 = v)) := by omega
        exact Or.inr ⟨h3, h.of_nonCut hvV hcut h3⟩
    · exfalso
      rw [h.degree_inner hs l1 l2 hat] at hg
      rcases hg with hg | ⟨⟨d, hd, hg⟩, _⟩
      · exact absurd (Option.some.inj hg) (by omega)
      · have := Option.some.inj hg
        omega
  · rintro ⟨hvV, hg⟩
    refine ⟨by omega, ?_⟩
    rw [h.degree_ess hvV]
    rcases hg with hg | ⟨h3, h4, h5⟩
    · exact Or.inl (by rw [hg])
    · exact Or.inr ⟨⟨_, h3, rfl⟩, h.nonCut_of hvV h4 h5⟩

end Pre
end Toppo.SubdivideProps
