import Verif.Model.Sparse
import Mathlib.Algebra.BigOperators.Group.Finset.Basic
import Mathlib.Algebra.BigOperators.Intervals
import Mathlib.Tactic.Ring
set_option linter.unusedVariables false
set_option linter.unusedSectionVars false

namespace Toppo.Sparse
variable {K : Type}

/-- the pairs `(k, value)` for `lo ≤ k < hi`, increasing -/
def sel (lo hi : Nat) (g : Nat → Option K) : List (Nat × K) :=
  (List.range' lo (hi - lo)).filterMap (fun k => (g k).map (fun v => (k, v)))

theorem sel_nil {lo hi : Nat} (h : hi ≤ lo) (g : Nat → Option K) : sel lo hi g = [] := by
  simp [sel, show hi - lo = 0 by omega]

theorem sel_some {lo hi : Nat} (h : lo < hi) {g : Nat → Option K} {v : K} (hv : g lo = some v) : sel lo hi g = (lo, v) :: sel (lo + 1) hi g := by
  rw [sel, show hi - lo = (hi - (lo + 1)) + 1 by omega, List.range'_succ, List.filterMap_cons]; simp [hv, sel]

theorem sel_none {lo hi : Nat} (h : lo < hi) {g : Nat → Option K} (hv : g lo = none) : sel lo hi g = sel (lo + 1) hi g := by
  rw [sel, show hi - lo = (hi - (lo + 1)) + 1 by omega, List.range'_succ, List.filterMap_cons]; simp [hv, sel]

/-- a list of start nodes that gives access to the lines `g k` -/
structure Good (dir : Bool) (g : Nat → List (Nat × K)) (L : List (Node K)) : Prop where
  st : ∀ nd ∈ L, ∃ k p, nd = .start k p ∧ walk dir p = some (g k) ∧ g k ≠ []
  nodup : (L.map Node.startIdx).Nodup
  all : ∀ k, g k ≠ [] → ∃ p, .start k p ∈ L

theorem Good.congr {dir : Bool} {g g' : Nat → List (Nat × K)} {L : List (Node K)} (h : Good dir g L) (e : ∀ k, g k = g' k) : Good dir g' L := by
  have : g = g' := funext e
  rw [← this]; exact h

theorem Good.perm {dir : Bool} {g : Nat → List (Nat × K)} {L L' : List (Node K)} (h : Good dir g L) (p : L'.Perm L) : Good dir g L' :=
  ⟨fun nd hnd => h.st nd (p.mem_iff.mp hnd), (p.map _).nodup_iff.mpr h.nodup, fun k hk => (h.all k hk).imp fun q hq => p.mem_iff.mpr hq⟩

theorem start_unique {L : List (Node K)} (h : (L.map Node.startIdx).Nodup) {j : Nat} {p p' : Node K} (h1 : Node.start j p ∈ L) (h2 : Node.start j p' ∈ L) : p = p' := by
  have := List.inj_on_of_nodup_map h h1 h2 rfl
  cases this; rfl

theorem updateFirst_spec (j : Nat) (mk : Node K → Node K) : ∀ (L : List (Node K)), (∀ nd ∈ L, ∃ k p, nd = .start k p) → (L.map Node.startIdx).Nodup →
    (∃ p L', Node.start j p ∈ L ∧ updateFirst j mk L = some (some (mk p, L')) ∧ L'.map Node.startIdx = L.map Node.startIdx ∧
      ∀ nd, nd ∈ L' ↔ nd = .start j (mk p) ∨ (nd ∈ L ∧ nd.startIdx ≠ some j)) ∨
    ((∀ p, Node.start j p ∉ L) ∧ updateFirst j mk L = some none) := by
  intro L
  induction L with
  | nil => intro _ _; right; simp [updateFirst]
  | cons nd rest ih =>
    intro hs hn
    obtain ⟨k, p, rfl⟩ := hs nd (List.mem_cons_self ..)
    rw [List.map_cons, List.nodup_cons] at hn
    by_cases hk : k = j
    · subst hk
      left
      refine ⟨p, .start k (mk p) :: rest, List.mem_cons_self .., by simp [updateFirst, Node.startIdx, Node.startPtr], by simp [Node.startIdx], ?_⟩
      intro nd
      rw [List.mem_cons, List.mem_cons]
      constructor
      · rintro (h | h)
        · exact Or.inl h
        · refine Or.inr ⟨Or.inr h, ?_⟩
          intro e
          exact hn.1 (List.mem_map.mpr ⟨nd, h, e⟩)
      · rintro (h | ⟨h | h, e⟩)
        · exact Or.inl h
        · subst h; exact absurd rfl e
        · exact Or.inr h
    · rcases ih (fun nd h => hs nd (List.mem_cons_of_mem _ h)) hn.2 with ⟨p', L', h1, h2, h3, h4⟩ | ⟨h1, h2⟩
      · left
        refine ⟨p', .start k p :: L', List.mem_cons_of_mem _ h1, by simp [updateFirst, Node.startIdx, hk, h2], by simp [h3], ?_⟩
        intro nd
        rw [List.mem_cons, List.mem_cons, h4]
        constructor
        · rintro (h | h | ⟨h, e⟩)
          · subst h; exact Or.inr ⟨Or.inl rfl, by simp [Node.startIdx, hk]⟩
          · exact Or.inl h
          · exact Or.inr ⟨Or.inr h, e⟩
        · rintro (h | ⟨h | h, e⟩)
          · exact Or.inr (Or.inl h)
          · exact Or.inl h
          · exact Or.inr (Or.inr ⟨h, e⟩)
      · right
        refine ⟨?_, by simp [updateFirst, Node.startIdx, hk, h2]⟩
        intro p' hp'
        rcases List.mem_cons.mp hp' with h | h
        · cases h; exact hk rfl
        · exact h1 p' h

/-- adding an entry at `(i, j)`: the column list gains it in front -/
theorem fromEntry_spec {f : Nat → Nat → Option K} {i j : Nat} {v : K} {g : Nat → List (Nat × K)} {cols : List (Node K)} {curr : Node K}
    {lr : List (Nat × K)} (hv : f i j = some v) (hg : Good false g cols) (hc : walk true curr = some lr) :
    ∃ cols' new, fromEntry f i (cols, curr) j = some (cols', new) ∧ Good false (Function.update g j ((i, v) :: g j)) cols' ∧
      walk true new = some ((j, v) :: lr) ∧ new.isEnd = false := by
  rcases updateFirst_spec j (fun old => .entry i j v curr old) cols (fun nd h => (hg.st nd h).imp fun k h => h.imp fun p h => h.1) hg.nodup with
    ⟨p, L', h1, h2, h3, h4⟩ | ⟨h1, h2⟩
  · refine ⟨L', .entry i j v curr p, by simp [fromEntry, hv, h2], ⟨?_, by rw [h3]; exact hg.nodup, ?_⟩, by simp [walk, hc], rfl⟩
    · intro nd hnd
      rcases (h4 nd).mp hnd with h | ⟨h, e⟩
      · obtain ⟨k, p', e1, e2, e3⟩ := hg.st _ h1
        cases e1
        exact ⟨j, _, h, by simp [walk, e2], by simp⟩
      · obtain ⟨k, p', e1, e2, e3⟩ := hg.st _ h
        subst e1
        have : k ≠ j := fun e' => e (by simp [Node.startIdx, e'])
        exact ⟨k, p', rfl, by rw [Function.update_of_ne this]; exact e2, by rw [Function.update_of_ne this]; exact e3⟩
    · intro k hk
      by_cases e : k = j
      · subst e; exact ⟨_, (h4 _).mpr (Or.inl rfl)⟩
      · rw [Function.update_of_ne e] at hk
        obtain ⟨p', hp'⟩ := hg.all k hk
        exact ⟨p', (h4 _).mpr (Or.inr ⟨hp', by simp [Node.startIdx, e]⟩)⟩
  · have hgj : g j = [] := by
      by_contra h
      obtain ⟨p, hp⟩ := hg.all j h
      exact h1 p hp
    refine ⟨cols ++ [.start j (.entry i j v curr .endN)], .entry i j v curr .endN, by simp [fromEntry, hv, h2], ⟨?_, ?_, ?_⟩, by simp [walk, hc], rfl⟩
    · intro nd hnd
      rcases List.mem_append.mp hnd with h | h
      · obtain ⟨k, p', e1, e2, e3⟩ := hg.st _ h
        subst e1
        have : k ≠ j := fun e' => by subst e'; exact h1 _ h
        exact ⟨k, p', rfl, by rw [Function.update_of_ne this]; exact e2, by rw [Function.update_of_ne this]; exact e3⟩
      · rw [List.mem_singleton] at h
        exact ⟨j, _, h, by simp [walk, hgj], by simp⟩
    · rw [List.map_append, List.map_singleton, List.nodup_append]
      refine ⟨hg.nodup, by simp, ?_⟩
      intro a ha b hb hab
      rw [List.mem_singleton] at hb
      obtain ⟨nd, h3, h4⟩ := List.mem_map.mp ha
      obtain ⟨k, p', e1, _⟩ := hg.st _ h3
      subst e1
      rw [← h4, hb] at hab
      simp only [Node.startIdx, Option.some.injEq] at hab
      subst hab; exact h1 _ h3
    · intro k hk
      by_cases e : k = j
      · subst e; exact ⟨_, List.mem_append.mpr (Or.inr (List.mem_singleton.mpr rfl))⟩
      · rw [Function.update_of_ne e] at hk
        obtain ⟨p', hp'⟩ := hg.all k hk
        exact ⟨p', List.mem_append.mpr (Or.inl hp')⟩

/-- column lines when the rows `≥ lb j` have been entered -/
def colG (n m : Nat) (f : Nat → Nat → Option K) (lb : Nat → Nat) : Nat → List (Nat × K) :=
  fun j => if j < m then sel (lb j) n (fun i => f i j) else []

theorem range_reverse_fold {σ : Type} (P : Nat → σ → Prop) (step : σ → Nat → Option σ) :
    ∀ n s, P n s → (∀ k s, k < n → P (k + 1) s → ∃ s', step s k = some s' ∧ P k s') → ∃ s', (List.range n).reverse.foldlM step s = some s' ∧ P 0 s' := by
  intro n
  induction n with
  | zero => intro s h _; exact ⟨s, rfl, h⟩
  | succ n ih =>
    intro s h hs
    obtain ⟨s1, h1, h2⟩ := hs n s (by omega) h
    obtain ⟨s2, h3, h4⟩ := ih s1 h2 (fun k s hk => hs k s (by omega))
    refine ⟨s2, ?_, h4⟩
    rw [List.range_succ, List.reverse_append, List.reverse_singleton, List.singleton_append, List.foldlM_cons, h1]
    exact h3

theorem fromRow_cols {f : Nat → Nat → Option K} {n m i : Nat} (hi : i < n) {cols : List (Node K)} (hg : Good false (colG n m f (fun _ => i + 1)) cols) :
    ∃ cols' curr, (List.range m).reverse.foldlM (fromEntry f i) (cols, .endN) = some (cols', curr) ∧ Good false (colG n m f (fun _ => i)) cols' ∧
      walk true curr = some (sel 0 m (f i)) ∧ (curr.isEnd = true ↔ sel 0 m (f i) = []) := by
  obtain ⟨⟨cols', curr⟩, h1, h2, h3, h4⟩ := range_reverse_fold
    (fun j (s : List (Node K) × Node K) => Good false (colG n m f (fun j' => if j ≤ j' then i else i + 1)) s.1 ∧
      walk true s.2 = some (sel j m (f i)) ∧ (s.2.isEnd = true ↔ sel j m (f i) = [])) (fromEntry f i) m (cols, .endN)
    ⟨hg.congr (fun k => by
        simp only [colG]
        split
        · rw [if_neg (by omega)]
        · rfl), by simp [walk, sel_nil], by simp [Node.isEnd, sel_nil]⟩
    (by
      rintro j ⟨cols, curr⟩ hj ⟨h1, h2, h3⟩
      cases hv : f i j with
      | none =>
        refine ⟨(cols, curr), by simp [fromEntry, hv], h1.congr ?_, by rw [sel_none hj hv]; exact h2, by rw [sel_none hj hv]; exact h3⟩
        intro k
        simp only [colG]
        split
        · by_cases e : k = j
          · subst e
            rw [if_neg (by omega), if_pos le_rfl, sel_none (lo := i) hi hv]
          · by_cases e' : j ≤ k
            · rw [if_pos (by omega), if_pos e']
            · rw [if_neg (by omega), if_neg e']
        · rfl
      | some v =>
        obtain ⟨cols', new, e1, e2, e3, e4⟩ := fromEntry_spec hv h1 h2
        refine ⟨(cols', new), e1, e2.congr ?_, by rw [sel_some hj hv]; exact e3, by rw [e4, sel_some hj hv]; simp⟩
        intro k
        by_cases e : k = j
        · subst e
          rw [Function.update_self]
          simp only [colG]
          rw [if_pos hj, if_pos hj, if_neg (by omega), if_pos le_rfl, sel_some (lo := i) hi hv]
        · rw [Function.update_of_ne e]
          simp only [colG]
          split
          · by_cases e' : j ≤ k
            · rw [if_pos (by omega), if_pos e']
            · rw [if_neg (by omega), if_neg e']
          · rfl)
  refine ⟨cols', curr, h1, h2.congr (fun k => by simp [colG]), h3, h4⟩

/-- row lines when the rows `≥ i` have been entered -/
def rowG (n m : Nat) (f : Nat → Nat → Option K) (i : Nat) : Nat → List (Nat × K) :=
  fun k => if i ≤ k ∧ k < n then sel 0 m (f k) else []

theorem from_loops (n m : Nat) (f : Nat → Nat → Option K) :
    ∃ rows cols, (List.range n).reverse.foldlM (fromRow m f) ([], []) = some (rows, cols) ∧
      Good true (rowG n m f 0) rows ∧ Good false (colG n m f (fun _ => 0)) cols := by
  obtain ⟨⟨rows, cols⟩, h1, h2, h3⟩ := range_reverse_fold
    (fun i (s : List (Node K) × List (Node K)) => Good true (rowG n m f i) s.1 ∧ Good false (colG n m f (fun _ => i)) s.2) (fromRow m f) n ([], [])
    ⟨⟨by simp, by simp, fun k hk => by simp [rowG] at hk⟩, ⟨by simp, by simp, fun k hk => by simp [colG, sel_nil] at hk⟩⟩
    (by
      rintro i ⟨rows, cols⟩ hi ⟨h1, h2⟩
      obtain ⟨cols', curr, e1, e2, e3, e4⟩ := fromRow_cols hi h2
      by_cases hE : curr.isEnd = true
      · refine ⟨(rows, cols'), by simp [fromRow, e1, hE], h1.congr ?_, e2⟩
        intro k
        simp only [rowG]
        by_cases e : k = i
        · subst e
          rw [if_neg (by omega), if_pos ⟨le_rfl, hi⟩, e4.mp hE]
        · by_cases e' : i ≤ k ∧ k < n
          · rw [if_pos (by omega), if_pos e']
          · rw [if_neg (by omega), if_neg e']
      · have hne : sel 0 m (f i) ≠ [] := fun h => hE (e4.mpr h)
        refine ⟨(rows ++ [.start i curr], cols'), by simp [fromRow, e1, hE], ⟨?_, ?_, ?_⟩, e2⟩
        · intro nd hnd
          rcases List.mem_append.mp hnd with h | h
          · obtain ⟨k, p, a1, a2, a3⟩ := h1.st nd h
            have hk : i + 1 ≤ k ∧ k < n := by
              by_contra hk; apply a3; simp only [rowG, if_neg hk]
            have hrow : rowG n m f i k = rowG n m f (i + 1) k := by
              simp only [rowG]; rw [if_pos (by omega), if_pos hk]
            exact ⟨k, p, a1, by rw [hrow]; exact a2, by rw [hrow]; exact a3⟩
          · rw [List.mem_singleton] at h
            have hrow : rowG n m f i i = sel 0 m (f i) := by simp only [rowG]; rw [if_pos ⟨le_rfl, hi⟩]
            exact ⟨i, curr, h, by rw [hrow]; exact e3, by rw [hrow]; exact hne⟩
        · rw [List.map_append, List.map_singleton, List.nodup_append]
          refine ⟨h1.nodup, by simp, ?_⟩
          intro a ha b hb hab
          rw [List.mem_singleton] at hb
          obtain ⟨nd, h3, h4⟩ := List.mem_map.mp ha
          obtain ⟨k, p', a1, _, a3⟩ := h1.st _ h3
          subst a1
          have hk : i + 1 ≤ k ∧ k < n := by
            by_contra hk; apply a3; simp only [rowG, if_neg hk]
          rw [← h4, hb] at hab
          simp only [Node.startIdx, Option.some.injEq] at hab
          omega
        · intro k hk
          by_cases e : k = i
          · subst e; exact ⟨_, List.mem_append.mpr (Or.inr (List.mem_singleton.mpr rfl))⟩
          · have hk' : i ≤ k ∧ k < n := by
              by_contra hk'; apply hk; simp only [rowG, if_neg hk']
            obtain ⟨p', hp'⟩ := h1.all k (by simp only [rowG] at hk ⊢; rw [if_pos hk'] at hk; rw [if_pos (by omega)]; exact hk)
            exact ⟨p', List.mem_append.mpr (Or.inl hp')⟩)
  exact ⟨rows, cols, h1, h2, h3⟩

theorem bisect_good {dir : Bool} {g : Nat → List (Nat × K)} {L : List (Node K)} (h : Good dir g L) (hs : L.Pairwise (fun x y => leStart x y = true)) (i : Nat) :
    ∀ fuel lo hi, hi - lo ≤ fuel → hi ≤ L.length → (∀ t p, L[t]? = some (.start i p) → lo ≤ t ∧ t < hi) →
      (∃ p, bisect L i fuel lo hi = some (some (.start i p)) ∧ Node.start i p ∈ L) ∨ (bisect L i fuel lo hi = some none ∧ ∀ p, Node.start i p ∉ L) := by
  have none_left : ∀ lo hi : Nat, hi ≤ lo → (∀ (t : Nat) p, L[t]? = some (Node.start i p) → lo ≤ t ∧ t < hi) → ∀ p, Node.start i p ∉ L := by
    intro lo hi hle hin p hp
    obtain ⟨t, ht⟩ := List.mem_iff_getElem?.mp hp
    have := hin t p ht
    omega
  intro fuel
  induction fuel with
  | zero => intro lo hi h1 h2 h3; exact Or.inr ⟨rfl, none_left lo hi (by omega) h3⟩
  | succ fuel ih =>
    intro lo hi h1 h2 h3
    rw [bisect]
    by_cases hlt : lo < hi
    · rw [if_pos hlt]
      have hm : lo + (hi - lo) / 2 < L.length := by omega
      obtain ⟨k, p, e, e2, -⟩ := h.st _ (List.getElem_mem hm)
      rw [List.getElem?_eq_getElem hm, e]
      simp only [Option.bind_eq_bind, Option.bind_some, Node.startIdx]
      have hget : L[lo + (hi - lo) / 2]? = some (.start k p) := by rw [List.getElem?_eq_getElem hm, e]
      have hord : ∀ t q, L[t]? = some (Node.start i q) → (t < lo + (hi - lo) / 2 → i ≤ k) ∧ (lo + (hi - lo) / 2 < t → k ≤ i) := by
        intro t q ht
        obtain ⟨ht1, ht2⟩ := List.getElem?_eq_some_iff.mp ht
        constructor
        · intro hlt
          have := List.pairwise_iff_getElem.mp hs t _ ht1 hm hlt
          rw [ht2, e] at this
          exact of_decide_eq_true this
        · intro hlt
          have := List.pairwise_iff_getElem.mp hs _ t hm ht1 hlt
          rw [ht2, e] at this
          exact of_decide_eq_true this
      by_cases c1 : k < i
      · rw [if_pos c1]
        refine ih _ _ (by omega) h2 (fun t q ht => ?_)
        have := h3 t q ht
        have := hord t q ht
        have : t ≠ lo + (hi - lo) / 2 := by
          rintro rfl
          rw [hget] at ht
          cases ht
          exact lt_irrefl _ c1
        omega
      · rw [if_neg c1]
        by_cases c2 : i < k
        · rw [if_pos c2]
          refine ih _ _ (by omega) (by omega) (fun t q ht => ?_)
          have := h3 t q ht
          have := hord t q ht
          have : t ≠ lo + (hi - lo) / 2 := by
            rintro rfl
            rw [hget] at ht
            cases ht
            exact lt_irrefl _ c2
          omega
        · rw [if_neg c2]
          obtain rfl : k = i := by omega
          exact Or.inl ⟨p, rfl, List.mem_of_getElem? hget⟩
    · rw [if_neg hlt]
      exact Or.inr ⟨rfl, none_left lo hi (by omega) h3⟩

theorem search_good {dir : Bool} {g : Nat → List (Nat × K)} {L : List (Node K)} (h : Good dir g L) (hs : L.Pairwise (fun x y => leStart x y = true)) (i : Nat) :
    (∃ p, search L i = some (some (.start i p)) ∧ walk dir p = some (g i)) ∨ (search L i = some none ∧ g i = []) := by
  rcases bisect_good h hs i L.length 0 L.length (by omega) le_rfl (fun t p ht => ⟨Nat.zero_le _, (List.getElem?_eq_some_iff.mp ht).1⟩) with ⟨p, h1, h2⟩ | ⟨h1, h2⟩
  · obtain ⟨k, p', e1, e2, -⟩ := h.st _ h2
    cases e1
    exact Or.inl ⟨p, h1, e2⟩
  · refine Or.inr ⟨h1, ?_⟩
    by_contra hne
    obtain ⟨p, hp⟩ := h.all i hne
    exact h2 p hp

theorem leStart_sorted (L : List (Node K)) : (L.mergeSort leStart).Pairwise (fun x y => leStart x y = true) := by
  refine List.pairwise_mergeSort ?_ ?_ L
  · intro a b c h1 h2
    simp only [leStart, decide_eq_true_eq] at *
    omega
  · intro a b
    simp only [leStart, Bool.or_eq_true, decide_eq_true_eq]
    omega

/-! ### values -/

section ring
variable [CommRing K]

/-- the value a line gives at position `x` -/
def valL (l : List (Nat × K)) (x : Nat) : K := (l.map (fun p => if p.1 = x then p.2 else 0)).sum

theorem valL_cons (k : Nat) (v : K) (l : List (Nat × K)) (x : Nat) : valL ((k, v) :: l) x = (if k = x then v else 0) + valL l x := by
  simp [valL]

theorem valL_zero {l : List (Nat × K)} {x : Nat} (h : ∀ p ∈ l, p.1 ≠ x) : valL l x = 0 := by
  induction l with
  | nil => simp [valL]
  | cons p l ih =>
    obtain ⟨k, v⟩ := p
    rw [valL_cons, if_neg (h (k, v) (List.mem_cons_self ..)), ih (fun p hp => h p (List.mem_cons_of_mem _ hp)), zero_add]

theorem merge_spec (N : Nat) : ∀ (d : Nat) (l1 l2 : List (Nat × K)) (k2 : Nat) (v2 s : K), l1.length + l2.length = d →
    l1.Pairwise (fun p q => p.1 < q.1) → ((k2, v2) :: l2).Pairwise (fun p q => p.1 < q.1) → (∀ p ∈ l1, p.1 < N) → (∀ p ∈ (k2, v2) :: l2, p.1 < N) →
    merge s l1 k2 v2 l2 = s + ∑ k ∈ Finset.range N, valL l1 k * valL ((k2, v2) :: l2) k := by
  intro d
  induction d using Nat.strong_induction_on with
  | _ d ih =>
    intro l1 l2 k2 v2 s hd h1 h2 b1 b2
    cases l1 with
    | nil => rw [merge]; simp [valL]
    | cons p rest =>
      obtain ⟨k1, v1⟩ := p
      rw [List.length_cons] at hd
      have hsum : ∀ B : Nat → K, ∑ k ∈ Finset.range N, valL ((k1, v1) :: rest) k * B k = v1 * B k1 + ∑ k ∈ Finset.range N, valL rest k * B k := by
        intro B
        simp only [valL_cons, add_mul, Finset.sum_add_distrib]
        congr 1
        rw [Finset.sum_eq_single k1]
        · simp
        · intro b _ hb; rw [if_neg (Ne.symm hb)]; ring
        · intro h; exact absurd (Finset.mem_range.mpr (b1 (k1, v1) (List.mem_cons_self ..))) h
      have h1' := List.pairwise_cons.mp h1
      have h2' := List.pairwise_cons.mp h2
      have b1' : ∀ p ∈ rest, p.1 < N := fun p hp => b1 p (List.mem_cons_of_mem _ hp)
      rw [merge]
      split
      · rename_i e
        subst e
        rw [ih _ (by omega) rest l2 k1 v2 _ rfl h1'.2 h2 b1' b2, hsum]
        rw [valL_cons k1 v2 l2 k1, if_pos rfl, valL_zero (l := l2) (fun p hp => by have := h2'.1 p hp; simp at this; omega)]
        ring
      · split
        · rename_i hne hgt
          rw [ih _ (by omega) l2 rest k1 v1 s rfl h2'.2 h1 (fun p hp => b2 p (List.mem_cons_of_mem _ hp)) b1]
          congr 1
          apply Finset.sum_congr rfl
          intro k _
          rw [mul_comm]
          by_cases hk : k2 = k
          · subst hk
            rw [valL_zero (l := (k1, v1) :: rest)]
            · ring
            · intro p hp
              rcases List.mem_cons.mp hp with rfl | hp
              · exact hne
              · have := h1'.1 p hp; simp at this; omega
          · rw [valL_cons k2 v2 l2, if_neg hk, zero_add]
        · rename_i hne hgt
          rw [ih _ (by omega) rest l2 k2 v2 s rfl h1'.2 h2 b1' b2, hsum]
          rw [valL_zero (l := (k2, v2) :: l2) (x := k1)]
          · ring
          · intro p hp
            rcases List.mem_cons.mp hp with rfl | hp
            · exact Ne.symm hne
            · have := h2'.1 p hp; simp at this; omega

omit [CommRing K] in
theorem sel_mem {lo hi : Nat} {g : Nat → Option K} {p : Nat × K} (h : p ∈ sel lo hi g) : lo ≤ p.1 ∧ p.1 < hi ∧ g p.1 = some p.2 := by
  obtain ⟨k, hk, h2⟩ := List.mem_filterMap.mp h
  rw [List.mem_range'_1] at hk
  cases hg : g k with
  | none => rw [hg] at h2; simp at h2
  | some v =>
    rw [hg] at h2
    simp only [Option.map_some, Option.some.injEq] at h2
    subst h2
    exact ⟨hk.1, by omega, hg⟩

omit [CommRing K] in
theorem sel_sorted (g : Nat → Option K) (hi : Nat) : ∀ d lo, hi - lo = d → (sel lo hi g).Pairwise (fun p q => p.1 < q.1) := by
  intro d
  induction d with
  | zero => intro lo h; rw [sel_nil (by omega)]; exact List.Pairwise.nil
  | succ d ih =>
    intro lo h
    cases hv : g lo with
    | none => rw [sel_none (by omega) hv]; exact ih (lo + 1) (by omega)
    | some v =>
      rw [sel_some (by omega) hv, List.pairwise_cons]
      refine ⟨fun q hq => ?_, ih (lo + 1) (by omega)⟩
      have := sel_mem hq
      simp only; omega

theorem valL_sel (g : Nat → Option K) (hi : Nat) (x : Nat) (hx : x < hi) : ∀ d lo, hi - lo = d → lo ≤ x → valL (sel lo hi g) x = (g x).getD 0 := by
  intro d
  induction d with
  | zero => intro lo h1 h2; omega
  | succ d ih =>
    intro lo h1 h2
    by_cases e : lo = x
    · subst e
      cases hv : g lo with
      | none =>
        rw [sel_none hx hv, valL_zero]
        · rfl
        · intro p hp; have := sel_mem hp; omega
      | some v =>
        rw [sel_some hx hv, valL_cons, if_pos rfl, valL_zero]
        · simp
        · intro p hp; have := sel_mem hp; omega
    · cases hv : g lo with
      | none => rw [sel_none (by omega) hv]; exact ih (lo + 1) (by omega) (by omega)
      | some v => rw [sel_some (by omega) hv, valL_cons, if_neg e, zero_add]; exact ih (lo + 1) (by omega) (by omega)

theorem foldl_sel (h : Nat → K) (g : Nat → Option K) (hi : Nat) : ∀ d lo s, hi - lo = d →
    (sel lo hi g).foldl (fun s p => s + p.2 * h p.1) s = s + ∑ k ∈ Finset.Ico lo hi, (g k).getD 0 * h k := by
  intro d
  induction d with
  | zero => intro lo s hd; rw [sel_nil (by omega), Finset.Ico_eq_empty (by omega)]; simp
  | succ d ih =>
    intro lo s hd
    rw [Finset.sum_eq_sum_Ico_succ_bot (by omega)]
    cases hv : g lo with
    | none => rw [sel_none (by omega) hv, ih (lo + 1) s (by omega)]; simp
    | some v => rw [sel_some (by omega) hv, List.foldl_cons, ih (lo + 1) _ (by omega)]; simp [add_assoc]

end ring

end Toppo.Sparse
