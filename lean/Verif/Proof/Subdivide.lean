import Verif.Props.MultiGraph
import Verif.Props.MaxTree
import Verif.Props.Rational
set_option linter.unusedVariables false
/-!
Proofs about `subdivided_graph_from` before the maximal tree is chosen.  A strand is a triple `(i, j, k)`: edge number `k`
between the vertices number `i ≤ j`.
-/
namespace Toppo.Subdiv
open Toppo RawGraph SGraph
variable {α : Type}

abbrev Strand := Nat × Nat × Nat

/-- number of inner vertices -/
def mid (n : Nat) (s : Strand) : Nat := if s.1 = s.2.1 then n else max (n - 2) 1
/-- the denominator of their positions -/
def den (n : Nat) (s : Strand) : Nat := if s.1 = s.2.1 then n + 1 else n - 1

def frac (l d : Nat) : Rational := (Rational.new l d).getD Rational.zero

theorem frac_spec {l d : Nat} (hd : 0 < d) (hl' : l < 2 ^ 63) (hd' : d < 2 ^ 63) : Rational.new l d = some (frac l d) := by
  obtain ⟨s, hs⟩ : ∃ s, Rational.new l d = some s := by
    unfold Rational.new
    rw [if_neg (by omega), if_neg (by simp; omega)]
    exact RationalProps.optimize_some _ (by simp; omega)
  unfold frac
  rw [hs]; rfl

theorem frac_val {l d : Nat} (hd : 0 < d) (hl' : l < 2 ^ 63) (hd' : d < 2 ^ 63) :
    RationalProps.Canonical (frac l d) ∧ RationalProps.val (frac l d) = (l : ℚ) / d := by
  have := RationalProps.new_some (frac_spec hd hl' hd')
  refine ⟨this.2.1, ?_⟩
  rw [this.2.2]
  simp

theorem frac_inj {l l' d : Nat} (hd : 0 < d) (hl : l < 2 ^ 63) (hl' : l' < 2 ^ 63) (hd' : d < 2 ^ 63) (h : frac l d = frac l' d) : l = l' := by
  have h1 := (frac_val hd hl hd').2
  have h2 := (frac_val hd hl' hd').2
  rw [h, h2] at h1
  have hd0 : (d : ℚ) ≠ 0 := by exact_mod_cast hd.ne'
  rw [div_left_inj' hd0] at h1
  exact_mod_cast h1.symm

section
variable (lab : Nat → α) (n : Nat)

/-- the points of a strand, from one end to the other -/
def pt (s : Strand) (l : Nat) : SVertex α :=
  if l = 0 then .essential (lab s.1)
  else if l = mid n s + 1 then .essential (lab s.2.1)
  else .redundant (lab s.1) (lab s.2.1) s.2.2 (frac l (den n s))

/-- the inner points -/
def inner (s : Strand) : List (SVertex α) := (List.range' 1 (mid n s)).map (fun l => .redundant (lab s.1) (lab s.2.1) s.2.2 (frac l (den n s)))

theorem inner_pt (s : Strand) (l : Nat) (h1 : 1 ≤ l) (h2 : l ≤ mid n s) : (inner lab n s)[l - 1]? = some (pt lab n s l) := by
  unfold inner pt
  rw [if_neg (by omega), if_neg (by omega), List.getElem?_map, List.getElem?_range' (by omega)]
  simp only [Option.map_some, Option.some.injEq, one_mul]
  congr 2
  omega

theorem inner_length (s : Strand) : (inner lab n s).length = mid n s := by simp [inner]

theorem midLoop_spec [DecidableEq α] (a b : α) (dir d : Nat) (hd : 0 < d) (hd' : d < 2 ^ 63) : ∀ (k l : Nat) (g : SGraph α), WF g.data →
    1 ≤ g.verts.length → g.verts.length + k ≤ g.data.n → l + k < 2 ^ 63 →
    ∃ g', midLoop a b dir d k l g = some g' ∧ WF g'.data ∧ g'.data.n = g.data.n ∧ g'.data.treeChosen = g.data.treeChosen ∧ g'.nEssential = g.nEssential ∧
      g'.verts = g.verts ++ (List.range' l k).map (fun l => .redundant a b dir (frac l d)) ∧
      ∀ x y, E g'.data x y ↔ E g.data x y ∨ (g.verts.length ≤ y ∧ y < g.verts.length + k ∧ x + 1 = y) := by
  intro k
  induction k with
  | zero =>
    intro l g hw h1 h2 h3
    exact ⟨g, rfl, hw, rfl, rfl, rfl, by simp, fun x y => by constructor <;> [exact Or.inl; (rintro (h | h); exact h; omega)]⟩
  | succ k ih =>
    intro l g hw h1 h2 h3
    have he := addEdge_spec hw (g.verts.length - 1) g.verts.length
    rw [if_pos (by omega)] at he
    obtain ⟨r, r1, r2, r3, r4, r5⟩ := he
    have hc : csub g.verts.length 1 = some (g.verts.length - 1) := by unfold csub; rw [if_pos h1]
    obtain ⟨g', s1, s2, s3, s4, s5, s6, s7⟩ := ih (l + 1) { g with data := r, verts := g.verts ++ [.redundant a b dir (frac l d)] } r2
      (by simp) (by simp only [List.length_append, List.length_singleton]; omega) (by omega)
    refine ⟨g', ?_, s2, s3.trans r3, s4.trans r4, s5, ?_, ?_⟩
    · unfold midLoop
      rw [hc]
      simp only [Option.bind_eq_bind, Option.bind_some, r1, frac_spec hd (show l < 2 ^ 63 by omega) hd']
      exact s1
    · rw [s6, List.range'_succ]
      simp
    · intro x y
      rw [s7, r5]
      simp only [List.length_append, List.length_singleton]
      constructor
      · rintro ((h | h) | h)
        · exact Or.inl h
        · right; omega
        · right; omega
      · rintro (h | h)
        · exact Or.inl (Or.inl h)
        · rcases Nat.lt_or_ge g.verts.length y with h' | h'
          · right; omega
          · left; right; omega

/-- where the points of the strand `s` are when its inner points start at `len` -/
def at' (len : Nat) (s : Strand) (l : Nat) : Nat := if l = 0 then s.1 else if l = mid n s + 1 then s.2.1 else len + l - 1

theorem strand_spec [DecidableEq α] (s : Strand) (hs : s.1 ≤ s.2.1) (hn : 2 ≤ n) (hn' : n + 1 < 2 ^ 63) (g : SGraph α) (hw : WF g.data) (hj : s.2.1 < g.verts.length)
    (hlen : g.verts.length + mid n s ≤ g.data.n) :
    ∃ g', strand (lab s.1) (lab s.2.1) s.1 s.2.1 (mid n s) (den n s) g s.2.2 = some g' ∧ WF g'.data ∧ g'.data.n = g.data.n ∧
      g'.data.treeChosen = g.data.treeChosen ∧ g'.nEssential = g.nEssential ∧
      g'.verts = g.verts ++ inner lab n s ∧
      ∀ x y, Adj g'.data x y ↔ Adj g.data x y ∨ ∃ l, l ≤ mid n s ∧
        ((x = at' n g.verts.length s l ∧ y = at' n g.verts.length s (l + 1)) ∨ (y = at' n g.verts.length s l ∧ x = at' n g.verts.length s (l + 1))) := by
  have hm : 1 ≤ mid n s := by unfold mid; split <;> omega
  have hd : 0 < den n s := by unfold den; split <;> omega
  have hd' : den n s < 2 ^ 63 := by unfold den; split <;> omega
  have hm' : mid n s + 1 < 2 ^ 63 := by unfold mid; split <;> omega
  have he := addEdge_spec hw s.1 g.verts.length
  rw [if_pos (by omega)] at he
  obtain ⟨r, r1, r2, r3, r4, r5⟩ := he
  obtain ⟨g', s1, s2, s3, s4, s5, s6, s7⟩ := midLoop_spec (lab s.1) (lab s.2.1) s.2.2 (den n s) hd hd' (mid n s - 1) 2
    { g with data := r, verts := g.verts ++ [.redundant (lab s.1) (lab s.2.1) s.2.2 (frac 1 (den n s))] } r2
    (by simp) (by simp only [List.length_append, List.length_singleton]; omega) (by omega)
  have hv : g'.verts = g.verts ++ inner lab n s := by
    rw [s6, List.append_assoc]
    congr 1
    unfold inner
    conv_rhs => rw [show mid n s = (mid n s - 1) + 1 by omega, List.range'_succ, List.map_cons]
    rfl
  have hvl : g'.verts.length = g.verts.length + mid n s := by rw [hv, List.length_append, inner_length]
  have he2 := addEdge_spec s2 s.2.1 (g'.verts.length - 1)
  rw [if_pos (by rw [hvl, s3]; simp only; omega)] at he2
  obtain ⟨t, t1, t2, t3, t4, t5⟩ := he2
  have hc : csub g'.verts.length 1 = some (g'.verts.length - 1) := by unfold csub; rw [if_pos (by omega)]
  refine ⟨{ g' with data := t }, ?_, t2, t3.trans (s3.trans r3), t4.trans (s4.trans r4), s5, hv, ?_⟩
  · unfold strand
    rw [r1]
    have h1 : Rational.new 1 (den n s) = some (frac 1 (den n s)) := frac_spec (l := 1) hd (by omega) hd'
    simp only [Option.bind_eq_bind, Option.bind_some, h1, s1, hc, t1]
    rfl
  · have key : ∀ x y, x < y → (E t x y ↔ E g.data x y ∨ ∃ l, l ≤ mid n s ∧
        ((x = at' n g.verts.length s l ∧ y = at' n g.verts.length s (l + 1)) ∨ (y = at' n g.verts.length s l ∧ x = at' n g.verts.length s (l + 1)))) := by
      intro x y hxy
      rw [t5, s7, r5]
      simp only [List.length_append, List.length_singleton, hvl]
      constructor
      · rintro (((h | h) | h) | h)
        · exact Or.inl h
        · right
          refine ⟨0, by omega, Or.inl ⟨?_, ?_⟩⟩
          · rw [at', if_pos rfl]; exact h.1
          · rw [at', if_neg (by omega), if_neg (by omega)]; omega
        · right
          refine ⟨y - g.verts.length, by omega, Or.inl ⟨?_, ?_⟩⟩
          · rw [at', if_neg (by omega), if_neg (by omega)]; omega
          · rw [at', if_neg (by omega), if_neg (by omega)]; omega
        · right
          refine ⟨mid n s, le_refl _, Or.inr ⟨?_, ?_⟩⟩
          · rw [at', if_neg (by omega), if_neg (by omega)]; omega
          · rw [at', if_neg (by omega), if_pos rfl]; exact h.1
      · rintro (h | ⟨l, hl, h⟩)
        · exact Or.inl (Or.inl (Or.inl h))
        · unfold at' at h
          by_cases h0 : l = 0
          · subst h0
            rw [if_pos rfl, if_neg (by omega), if_neg (by omega)] at h
            left; left; right
            omega
          · rw [if_neg h0, if_neg (by omega), if_neg (by omega)] at h
            by_cases h2 : l = mid n s
            · rw [if_pos (by omega)] at h
              right; omega
            · rw [if_neg (by omega)] at h
              left; right; omega
    intro x y
    unfold Adj
    have hlt : ∀ (G : RawGraph) {a b}, E G a b → a < b := fun G a b h => h.1
    rcases Nat.lt_trichotomy x y with h | h | h
    · have h1 : ¬ E t y x := fun hh => by have := hlt _ hh; omega
      have h2 : ¬ E g.data y x := fun hh => by have := hlt _ hh; omega
      simp only [h1, h2, or_false]
      exact key x y h
    · subst h
      have h1 : ¬ E t x x := fun hh => by have := hlt _ hh; omega
      have h2 : ¬ E g.data x x := fun hh => by have := hlt _ hh; omega
      simp only [h1, h2, or_false, false_or, false_iff]
      rintro ⟨l, hl, h⟩
      unfold at' at h
      by_cases h0 : l = 0
      · subst h0
        rw [if_pos rfl, if_neg (by omega), if_neg (by omega)] at h
        omega
      · rw [if_neg h0, if_neg (by omega), if_neg (by omega)] at h
        split at h <;> omega
    · have h1 : ¬ E t x y := fun hh => by have := hlt _ hh; omega
      have h2 : ¬ E g.data x y := fun hh => by have := hlt _ hh; omega
      simp only [h1, h2, false_or]
      rw [key y x h]
      apply or_congr Iff.rfl
      constructor <;> rintro ⟨l, hl, h | h⟩ <;> exact ⟨l, hl, by tauto⟩

/-- consecutive points of a strand -/
def Next (S : List Strand) (u v : SVertex α) : Prop := ∃ s ∈ S, ∃ l, l ≤ mid n s ∧ u = pt lab n s l ∧ v = pt lab n s (l + 1)

/-- the invariant after the strands `S` -/
structure Inv (V : Nat) (S : List Strand) (g : SGraph α) : Prop where
  wf : WF g.data
  tree : g.data.treeChosen = false
  ess : g.nEssential = V
  verts : g.verts = (List.range V).map (fun i => .essential (lab i)) ++ S.flatMap (inner lab n)
  adj : ∀ x y, Adj g.data x y ↔ ∃ u v, g.verts[x]? = some u ∧ g.verts[y]? = some v ∧ (Next lab n S u v ∨ Next lab n S v u)

theorem getElem?_inj_of_nodup {l : List α} (h : l.Nodup) {i j : Nat} {a : α} (hi : l[i]? = some a) (hj : l[j]? = some a) : i = j := by
  obtain ⟨h1, e1⟩ := List.getElem?_eq_some_iff.mp hi
  obtain ⟨h2, e2⟩ := List.getElem?_eq_some_iff.mp hj
  exact (List.Nodup.getElem_inj_iff h).mp (e1.trans e2.symm)

theorem at_spec {V : Nat} (verts : List (SVertex α)) (hv : ∀ i, i < V → verts[i]? = some (.essential (lab i))) (s : Strand) (hs : s.1 ≤ s.2.1)
    (hj : s.2.1 < V) (hV : V ≤ verts.length) (l : Nat) (hl : l ≤ mid n s + 1) :
    (verts ++ inner lab n s)[at' n verts.length s l]? = some (pt lab n s l) := by
  unfold at'
  by_cases h0 : l = 0
  · rw [if_pos h0, List.getElem?_append_left (by omega), hv _ (by omega), pt, if_pos h0]
  · rw [if_neg h0]
    by_cases h1 : l = mid n s + 1
    · rw [if_pos h1, List.getElem?_append_left (by omega), hv _ (by omega), pt, if_neg h0, if_pos h1]
    · rw [if_neg h1, List.getElem?_append_right (by omega), ← inner_pt lab n s l (by omega) (by omega)]
      congr 1; omega

theorem pt_mem {V : Nat} (verts : List (SVertex α)) (hv : ∀ i, i < V → verts[i]? = some (.essential (lab i))) (s : Strand) (hs : s.1 ≤ s.2.1)
    (hj : s.2.1 < V) (hin : ∀ v ∈ inner lab n s, v ∈ verts) (l : Nat) (hl : l ≤ mid n s + 1) : pt lab n s l ∈ verts := by
  unfold pt
  by_cases h0 : l = 0
  · rw [if_pos h0]; exact List.mem_of_getElem? (hv _ (by omega))
  · rw [if_neg h0]
    by_cases h1 : l = mid n s + 1
    · rw [if_pos h1]; exact List.mem_of_getElem? (hv _ (by omega))
    · rw [if_neg h1]
      apply hin
      unfold inner
      rw [List.mem_map]
      exact ⟨l, by rw [List.mem_range'_1]; omega, rfl⟩

theorem strand_inv [DecidableEq α] {V : Nat} {S : List Strand} {g : SGraph α} (h : Inv lab n V S g) (s : Strand) (hs : s.1 ≤ s.2.1) (hj : s.2.1 < V)
    (hn : 2 ≤ n) (hn' : n + 1 < 2 ^ 63) (hS : ∀ t ∈ S, t.1 ≤ t.2.1 ∧ t.2.1 < V)
    (hnd : ((List.range V).map (fun i => SVertex.essential (lab i)) ++ (S ++ [s]).flatMap (inner lab n)).Nodup)
    (hlen : V + ((S ++ [s]).map (mid n)).sum ≤ g.data.n) :
    ∃ g', strand (lab s.1) (lab s.2.1) s.1 s.2.1 (mid n s) (den n s) g s.2.2 = some g' ∧ Inv lab n V (S ++ [s]) g' ∧ g'.data.n = g.data.n := by
  have hm : 1 ≤ mid n s := by unfold mid; split <;> omega
  have hvl : g.verts.length = V + (S.map (mid n)).sum := by
    rw [h.verts, List.length_append, List.length_map, List.length_range, List.length_flatMap]
    congr 2
    apply List.map_congr_left
    intro t _; exact inner_length lab n t
  rw [List.map_append, List.sum_append, List.map_singleton, List.sum_singleton] at hlen
  obtain ⟨g', a1, a2, a3, a4, a5, a6, a7⟩ := strand_spec lab n s hs hn hn' g h.wf (by omega) (by omega)
  have hverts : g'.verts = (List.range V).map (fun i => .essential (lab i)) ++ (S ++ [s]).flatMap (inner lab n) := by
    rw [a6, h.verts, List.flatMap_append, ← List.append_assoc]
    simp
  refine ⟨g', a1, ⟨a2, a4.trans h.tree, a5.trans h.ess, hverts, ?_⟩, a3⟩
  have hnd' : (g.verts ++ inner lab n s).Nodup := by rw [← a6, hverts]; exact hnd
  have hold : ∀ i, i < V → g.verts[i]? = some (.essential (lab i)) := by
    intro i hi
    rw [h.verts, List.getElem?_append_left (by simpa using hi), List.getElem?_map, List.getElem?_range hi]; rfl
  have hat := at_spec lab n g.verts hold s hs hj (by omega)
  have hptold : ∀ t ∈ S, ∀ l, l ≤ mid n t + 1 → pt lab n t l ∈ g.verts := by
    intro t ht l hl
    refine pt_mem lab n g.verts hold t (hS t ht).1 (hS t ht).2 ?_ l hl
    intro v hv
    rw [h.verts, List.mem_append]
    right
    exact List.mem_flatMap.mpr ⟨t, ht, hv⟩
  have lift : ∀ {x : Nat} {u : SVertex α}, g.verts[x]? = some u → (g.verts ++ inner lab n s)[x]? = some u := by
    intro x u hx
    obtain ⟨hlt, _⟩ := List.getElem?_eq_some_iff.mp hx
    rw [List.getElem?_append_left hlt]; exact hx
  have lower : ∀ {x : Nat} {u : SVertex α}, (g.verts ++ inner lab n s)[x]? = some u → u ∈ g.verts → g.verts[x]? = some u := by
    intro x u hx hu
    obtain ⟨y, hy, e⟩ := List.getElem_of_mem hu
    have hy' : g.verts[y]? = some u := by rw [List.getElem?_eq_getElem hy, e]
    have := getElem?_inj_of_nodup hnd' hx (lift hy')
    rw [this]; exact hy'
  intro x y
  rw [a7, h.adj, a6]
  constructor
  · rintro (⟨u, v, hu, hv, hN⟩ | ⟨l, hl, hxy⟩)
    · refine ⟨u, v, lift hu, lift hv, ?_⟩
      rcases hN with ⟨t, ht, r⟩ | ⟨t, ht, r⟩
      · exact Or.inl ⟨t, List.mem_append_left _ ht, r⟩
      · exact Or.inr ⟨t, List.mem_append_left _ ht, r⟩
    · rcases hxy with ⟨rfl, rfl⟩ | ⟨rfl, rfl⟩
      · exact ⟨_, _, hat l (by omega), hat (l + 1) (by omega), Or.inl ⟨s, by simp, l, hl, rfl, rfl⟩⟩
      · exact ⟨_, _, hat (l + 1) (by omega), hat l (by omega), Or.inr ⟨s, by simp, l, hl, rfl, rfl⟩⟩
  · rintro ⟨u, v, hu, hv, hN⟩
    have side : ∀ {x y u v}, (g.verts ++ inner lab n s)[x]? = some u → (g.verts ++ inner lab n s)[y]? = some v → Next lab n (S ++ [s]) u v →
        (g.verts[x]? = some u ∧ g.verts[y]? = some v ∧ Next lab n S u v) ∨
        ∃ l, l ≤ mid n s ∧ x = at' n g.verts.length s l ∧ y = at' n g.verts.length s (l + 1) := by
      rintro x y u v hu hv ⟨t, ht, l, hl, rfl, rfl⟩
      rcases List.mem_append.mp ht with ht | ht
      · left
        exact ⟨lower hu (hptold t ht l (by omega)), lower hv (hptold t ht (l + 1) (by omega)), t, ht, l, hl, rfl, rfl⟩
      · rw [List.mem_singleton] at ht
        subst ht
        right
        exact ⟨l, hl, getElem?_inj_of_nodup hnd' hu (hat l (by omega)), getElem?_inj_of_nodup hnd' hv (hat (l + 1) (by omega))⟩
    rcases hN with hN | hN
    · rcases side hu hv hN with ⟨p, q, r⟩ | ⟨l, hl, p, q⟩
      · exact Or.inl ⟨u, v, p, q, Or.inl r⟩
      · exact Or.inr ⟨l, hl, Or.inl ⟨p, q⟩⟩
    · rcases side hv hu hN with ⟨p, q, r⟩ | ⟨l, hl, p, q⟩
      · exact Or.inl ⟨u, v, q, p, Or.inr r⟩
      · exact Or.inr ⟨l, hl, Or.inr ⟨p, q⟩⟩

theorem strands_inv [DecidableEq α] {V : Nat} (hn : 2 ≤ n) (hn' : n + 1 < 2 ^ 63) : ∀ (T S : List Strand) (g : SGraph α), Inv lab n V S g →
    (∀ t ∈ S ++ T, t.1 ≤ t.2.1 ∧ t.2.1 < V) →
    ((List.range V).map (fun i => SVertex.essential (lab i)) ++ (S ++ T).flatMap (inner lab n)).Nodup →
    V + ((S ++ T).map (mid n)).sum ≤ g.data.n →
    ∃ g', T.foldlM (fun g s => strand (lab s.1) (lab s.2.1) s.1 s.2.1 (mid n s) (den n s) g s.2.2) g = some g' ∧ Inv lab n V (S ++ T) g' ∧
      g'.data.n = g.data.n := by
  intro T
  induction T with
  | nil => intro S g h _ _ _; exact ⟨g, rfl, by rwa [List.append_nil], rfl⟩
  | cons s T ih =>
    intro S g h hS hnd hlen
    have e : S ++ s :: T = (S ++ [s]) ++ T := by simp
    rw [e] at hS hnd hlen
    obtain ⟨g1, a1, a2, a3⟩ := strand_inv lab n h s (hS s (by simp)).1 (hS s (by simp)).2 hn hn'
      (fun t ht => hS t (by simp [ht]))
      (by
        rw [List.flatMap_append, ← List.append_assoc] at hnd
        exact (List.nodup_append.mp hnd).1)
      (by
        rw [List.map_append, List.sum_append] at hlen
        omega)
    obtain ⟨g', b1, b2, b3⟩ := ih (S ++ [s]) g1 a2 hS hnd (by rw [a3]; exact hlen)
    refine ⟨g', ?_, by rw [e]; exact b2, b3.trans a3⟩
    rw [List.foldlM_cons, a1]
    exact b1

end
end Toppo.Subdiv

namespace Toppo.Subdiv
open Toppo RawGraph SGraph
variable {α : Type}

/-- all strands in the order in which the code adds them -/
def allStrands (V : Nat) (c : Nat → Nat → Nat) : List Strand :=
  (List.range V).flatMap (fun i =>
    (List.range' (i + 1) (V - (i + 1))).flatMap (fun j => (List.range (c i j)).map (fun k => (i, j, k))) ++ (List.range (c i i)).map (fun k => (i, i, k)))

theorem mem_allStrands {V : Nat} {c : Nat → Nat → Nat} {s : Strand} :
    s ∈ allStrands V c ↔ s.1 ≤ s.2.1 ∧ s.2.1 < V ∧ s.2.2 < c s.1 s.2.1 := by
  obtain ⟨i, j, k⟩ := s
  unfold allStrands
  simp only [List.mem_flatMap, List.mem_range, List.mem_append, List.mem_map, List.mem_range'_1, Prod.mk.injEq]
  constructor
  · rintro ⟨i', hi, ⟨j', hj, k', hk, rfl, rfl, rfl⟩ | ⟨k', hk, rfl, rfl, rfl⟩⟩
    · exact ⟨by omega, by omega, hk⟩
    · exact ⟨le_refl _, hi, hk⟩
  · rintro ⟨h1, h2, h3⟩
    rcases Nat.lt_or_ge i j with h | h
    · exact ⟨i, by omega, Or.inl ⟨j, by omega, k, h3, rfl, rfl, rfl⟩⟩
    · obtain rfl : i = j := by omega
      exact ⟨i, by omega, Or.inr ⟨k, h3, rfl, rfl, rfl⟩⟩

theorem allStrands_nodup (V : Nat) (c : Nat → Nat → Nat) : (allStrands V c).Nodup := by
  unfold allStrands
  rw [List.nodup_flatMap]
  constructor
  · intro i _
    rw [List.nodup_append]
    refine ⟨?_, ?_, ?_⟩
    · rw [List.nodup_flatMap]
      constructor
      · intro j _
        exact (List.nodup_range).map (fun a b h => by simpa using h)
      · refine (List.nodup_range').imp ?_
        intro a b hab
        rw [Function.onFun, List.disjoint_left]
        intro x hx hy
        simp only [List.mem_map] at hx hy
        obtain ⟨k, _, rfl⟩ := hx
        obtain ⟨k', _, h⟩ := hy
        exact hab (by simp at h; exact h.1.symm)
    · exact (List.nodup_range).map (fun a b h => by simpa using h)
    · intro a ha b hb
      simp only [List.mem_flatMap, List.mem_map, List.mem_range'_1] at ha hb
      obtain ⟨j, hj, k, _, rfl⟩ := ha
      obtain ⟨k', _, rfl⟩ := hb
      simp
      omega
  · refine (List.nodup_range).imp ?_
    intro a b hab
    rw [Function.onFun, List.disjoint_left]
    intro x hx hy
    simp only [List.mem_append, List.mem_flatMap, List.mem_map] at hx hy
    have h1 : x.1 = a := by rcases hx with ⟨j, _, k, _, rfl⟩ | ⟨k, _, rfl⟩ <;> rfl
    have h2 : x.1 = b := by rcases hy with ⟨j, _, k, _, rfl⟩ | ⟨k, _, rfl⟩ <;> rfl
    exact hab (h1.symm.trans h2)

theorem foldlM_flatMap {β γ σ : Type} (f : σ → γ → Option σ) (h : β → List γ) : ∀ (l : List β) (s : σ),
    (l.flatMap h).foldlM f s = l.foldlM (fun s b => (h b).foldlM f s) s := by
  intro l
  induction l with
  | nil => intro s; rfl
  | cons b l ih =>
    intro s
    rw [List.flatMap_cons, List.foldlM_append, List.foldlM_cons]
    congr 1
    funext s'
    exact ih s'

theorem foldlM_congr_mem {β σ : Type} {f f' : σ → β → Option σ} : ∀ (l : List β), (∀ b ∈ l, ∀ s, f s b = f' s b) → ∀ s, l.foldlM f s = l.foldlM f' s := by
  intro l
  induction l with
  | nil => intro _ s; rfl
  | cons b l ih =>
    intro h s
    rw [List.foldlM_cons, List.foldlM_cons, h b (List.mem_cons_self ..)]
    congr 1
    funext s'
    exact ih (fun b hb => h b (List.mem_cons_of_mem _ hb)) s'

theorem preTree_flat [DecidableEq α] (m : MGraph α) (points : Nat) (lab : Nat → α) (c : Nat → Nat → Nat) (hlab : ∀ i, i < m.labels.length → m.labels[i]? = some (lab i))
    (hc : ∀ i j, i ≤ j → j < m.labels.length → m.mult i j = some (c i j)) :
    let n := if points < 2 then 2 else points
    preTree m points = (RawGraph.new (m.labels.length + m.nNonLoop * max (n - 2) 1 + m.nLoops * n)).bind (fun raw =>
      (allStrands m.labels.length c).foldlM (fun g s => strand (lab s.1) (lab s.2.1) s.1 s.2.1 (mid n s) (den n s) g s.2.2)
        { data := raw, verts := m.labels.map SVertex.essential, nEssential := m.labels.length }) := by
  intro n
  show (RawGraph.new _).bind (fun raw => (List.range m.labels.length).foldlM (atVertex m n) _) = _
  congr 1
  funext raw
  unfold allStrands
  rw [foldlM_flatMap]
  apply foldlM_congr_mem
  intro i hi g
  rw [List.mem_range] at hi
  have hstrands : ∀ j, i ≤ j → j < m.labels.length → ∀ g, strands m i j (mid n (i, j, 0)) (den n (i, j, 0)) g =
      ((List.range (c i j)).map (fun k => (i, j, k))).foldlM (fun g s => strand (lab s.1) (lab s.2.1) s.1 s.2.1 (mid n s) (den n s) g s.2.2) g := by
    intro j hij hj g
    unfold strands
    rw [hc i j hij hj, hlab i hi, hlab j hj]
    simp only [Option.bind_eq_bind, Option.bind_some, List.foldlM_map]
    rfl
  unfold atVertex
  rw [List.foldlM_append, foldlM_flatMap]
  have e1 : ∀ g, strands m i i n (n + 1) g = ((List.range (c i i)).map (fun k => (i, i, k))).foldlM (fun g s => strand (lab s.1) (lab s.2.1) s.1 s.2.1 (mid n s) (den n s) g s.2.2) g := by
    intro g
    rw [← hstrands i (le_refl _) hi]
    simp [mid, den]
  have e2 : (List.range' (i + 1) (m.labels.length - (i + 1))).foldlM (fun g j => strands m i j (max (n - 2) 1) (n - 1) g) g =
      (List.range' (i + 1) (m.labels.length - (i + 1))).foldlM (fun g j => ((List.range (c i j)).map (fun k => (i, j, k))).foldlM (fun g s => strand (lab s.1) (lab s.2.1) s.1 s.2.1 (mid n s) (den n s) g s.2.2) g) g := by
    apply foldlM_congr_mem
    intro j hj g
    rw [List.mem_range'_1] at hj
    rw [← hstrands j (by omega) (by omega)]
    have : i ≠ j := by omega
    simp [mid, den, this]
  show (List.foldlM _ g _ >>= fun g1 => strands m i i n (n + 1) g1) = _
  rw [e2]
  congr 1
  funext g1
  exact e1 g1

theorem vertices_nodup (lab : Nat → α) (n V : Nat) (c : Nat → Nat → Nat) (hn : 2 ≤ n) (hn' : n + 1 < 2 ^ 63)
    (hinj : ∀ i j, i < V → j < V → lab i = lab j → i = j) :
    ((List.range V).map (fun i => SVertex.essential (lab i)) ++ (allStrands V c).flatMap (inner lab n)).Nodup := by
  rw [List.nodup_append]
  refine ⟨?_, ?_, ?_⟩
  · rw [List.nodup_map_iff_inj_on List.nodup_range]
    intro i hi j hj h
    rw [List.mem_range] at hi hj
    exact hinj i j hi hj (by simpa using h)
  · rw [List.nodup_flatMap]
    constructor
    · intro s _
      unfold inner
      rw [List.nodup_map_iff_inj_on List.nodup_range']
      intro l hl l' hl' h
      rw [List.mem_range'_1] at hl hl'
      simp only [SVertex.redundant.injEq, true_and] at h
      have hm' : mid n s + 1 < 2 ^ 63 := by unfold mid; split <;> omega
      exact frac_inj (by unfold den; split <;> omega) (by omega) (by omega) (by unfold den; split <;> omega) h
    · refine (allStrands_nodup V c).imp_of_mem ?_
      intro s t hs ht hst
      rw [mem_allStrands] at hs ht
      rw [Function.onFun, List.disjoint_left]
      intro v hv hw
      unfold inner at hv hw
      rw [List.mem_map] at hv hw
      obtain ⟨l, _, rfl⟩ := hv
      obtain ⟨l', _, h⟩ := hw
      simp only [SVertex.redundant.injEq] at h
      apply hst
      obtain ⟨i, j, k⟩ := s
      obtain ⟨i', j', k'⟩ := t
      simp only at h hs ht
      have a1 := hinj i' i (by omega) (by omega) h.1
      have a2 := hinj j' j (by omega) (by omega) h.2.1
      rw [a1, a2, h.2.2.1]
  · intro v hv w hw
    rw [List.mem_map] at hv
    obtain ⟨i, _, rfl⟩ := hv
    rw [List.mem_flatMap] at hw
    obtain ⟨s, _, hw⟩ := hw
    unfold inner at hw
    rw [List.mem_map] at hw
    obtain ⟨l, _, rfl⟩ := hw
    simp

/-- double counting -/
theorem sum_countP {β γ : Type} (P : List γ) (f : γ → β → Bool) (edges : List β) :
    (P.map (fun p => edges.countP (f p))).sum = (edges.map (fun e => P.countP (fun p => f p e))).sum := by
  induction edges with
  | nil => simp
  | cons e es ih =>
    rw [List.map_cons, List.sum_cons, ← ih]
    clear ih
    induction P with
    | nil => rfl
    | cons p P ih =>
      rw [List.map_cons, List.sum_cons, ih, List.map_cons, List.sum_cons, List.countP_cons, List.countP_cons]
      omega

end Toppo.Subdiv
