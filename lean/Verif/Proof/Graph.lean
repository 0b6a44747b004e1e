import Verif.Proof.BinaryPool
import Verif.Proof.PermSwap
import Verif.Model.Graph
/-! Supporting lemmas for `RawSimpleGraph`: the pool is a set of pairs `i < j < n`. -/
namespace Toppo.RawGraph
open Toppo

/-- triangular numbers -/
def tri (j : Nat) : Nat := j * (j - 1) / 2

theorem tri_succ (j : Nat) : tri (j + 1) = tri j + j := by
  unfold tri
  have h : (j + 1) * (j + 1 - 1) = j * (j - 1) + j * 2 := by
    cases j with
    | zero => rfl
    | succ k => simp only [Nat.add_sub_cancel]; ring
  rw [h, Nat.add_mul_div_right _ _ (by norm_num)]

theorem tri_mono {a b : Nat} (h : a ≤ b) : tri a ≤ tri b := by
  induction h with
  | refl => exact Nat.le_refl _
  | step _ ih => rw [tri_succ]; omega

theorem tri_lt {i j n : Nat} (hj : j < n) (hi : i < j) : tri j + i < tri n := by
  have := tri_mono (show j + 1 ≤ n from hj)
  rw [tri_succ] at this; omega

theorem tri_inj {i j a b : Nat} (hi : i < j) (ha : a < b) (h : tri j + i = tri b + a) : i = a ∧ j = b := by
  rcases Nat.lt_trichotomy j b with hlt | rfl | hlt
  · have := tri_lt hlt hi; omega
  · exact ⟨by omega, rfl⟩
  · have := tri_lt hlt ha; omega

/-- the representation invariant -/
structure WF (g : RawGraph) : Prop where
  inv : g.data.Inv
  len : g.data.len = tri g.n
  pos : 0 < g.n

/-- the stored pairs -/
def E (g : RawGraph) (i j : Nat) : Prop := i < j ∧ j < g.n ∧ tri j + i ∈ g.data.members
instance (g : RawGraph) (i j : Nat) : Decidable (E g i j) := by unfold E; infer_instance

/-- adjacency -/
def Adj (g : RawGraph) (i j : Nat) : Prop := E g i j ∨ E g j i
instance (g : RawGraph) (i j : Nat) : Decidable (Adj g i j) := by unfold Adj; infer_instance

theorem Adj.symm {g i j} (h : Adj g i j) : Adj g j i := Or.symm h
theorem adj_comm {g : RawGraph} {i j} : Adj g i j ↔ Adj g j i := or_comm
theorem Adj.lt {g i j} (h : Adj g i j) : i < g.n ∧ j < g.n ∧ i ≠ j := by
  rcases h with h | h
  · exact ⟨by have := h.1; have := h.2.1; omega, h.2.1, by have := h.1; omega⟩
  · exact ⟨h.2.1, by have := h.1; have := h.2.1; omega, by have := h.1; omega⟩
theorem adj_of_lt {g : RawGraph} {i j} (h : i < j) : Adj g i j ↔ E g i j := by
  constructor
  · rintro (h' | h')
    · exact h'
    · have := h'.1; omega
  · exact Or.inl
theorem not_adj_self (g : RawGraph) (i) : ¬ Adj g i i := fun h => h.lt.2.2 rfl

theorem new_spec (n : Nat) : if 0 < n then ∃ g, new n = some g ∧ WF g ∧ g.n = n ∧ g.treeChosen = false ∧
    (∀ i j, ¬ E g i j) else new n = none := by
  split
  · rename_i h
    have hc : csub n 1 = some (n - 1) := by simp [csub]; omega
    refine ⟨⟨BinaryPool.new (n * (n - 1) / 2), n, false⟩, by simp [new, hc], ?_, rfl, rfl, ?_⟩
    · obtain ⟨h1, _, h3⟩ := BinaryPool.inv_new (n * (n - 1) / 2)
      exact ⟨h1, h3, h⟩
    · intro i j he
      have := he.2.2
      rw [show (BinaryPool.new (n * (n - 1) / 2)).members = ∅ from (BinaryPool.inv_new _).2.1] at this
      simp at this
  · rename_i h
    have : n = 0 := by omega
    subst this; simp [new, csub]

theorem rawIdx_lt {i j : Nat} (h : i < j) : rawIdx i j = some (tri j + i) := by simp [rawIdx, h, tri]
theorem rawIdx_ge {i j : Nat} (h : ¬ i < j) : rawIdx i j = none := by simp [rawIdx, h]

theorem idx_lt_iff {i j n : Nat} (h : i < j) : tri j + i < tri n ↔ j < n := by
  constructor
  · intro h2; by_contra hc
    have := tri_mono (show n ≤ j by omega); omega
  · intro h2; exact tri_lt h2 h

theorem contains_eq {g : RawGraph} (h : WF g) (i j : Nat) :
    g.contains i j = if i < j ∧ j < g.n then some (decide (E g i j)) else none := by
  unfold contains
  by_cases hij : i < j
  · rw [rawIdx_lt hij]
    simp only [Option.bind_eq_bind, Option.bind_some]
    rw [BinaryPool.contains_eq h.inv, h.len]
    by_cases hj : j < g.n
    · simp [hij, hj, idx_lt_iff hij, E]
    · simp [hij, hj, idx_lt_iff hij]
  · simp [rawIdx_ge hij, hij]

theorem addEdge_spec {g : RawGraph} (h : WF g) (i j : Nat) :
    if i < j ∧ j < g.n then ∃ g', g.addEdge i j = some g' ∧ WF g' ∧ g'.n = g.n ∧ g'.treeChosen = g.treeChosen ∧
      ∀ a b, E g' a b ↔ E g a b ∨ (a = i ∧ b = j)
    else g.addEdge i j = none := by
  unfold addEdge
  by_cases hij : i < j
  · rw [rawIdx_lt hij]
    have ha := BinaryPool.add_spec h.inv (tri j + i)
    simp only [h.len, idx_lt_iff hij] at ha
    by_cases hj : j < g.n
    · simp only [hj, if_true] at ha
      obtain ⟨q, h1, h2, h3, h4⟩ := ha
      simp only [hij, hj, and_self, if_true, Option.bind_eq_bind, Option.bind_some, h1]
      refine ⟨{ g with data := q }, rfl, ⟨h2, h3, h.pos⟩, rfl, rfl, ?_⟩
      intro a b
      simp only [E, h4, Finset.mem_insert]
      constructor
      · rintro ⟨c1, c2, c3 | c3⟩
        · exact Or.inr (tri_inj c1 hij c3)
        · exact Or.inl ⟨c1, c2, c3⟩
      · rintro (⟨c1, c2, c3⟩ | ⟨rfl, rfl⟩)
        · exact ⟨c1, c2, Or.inr c3⟩
        · exact ⟨hij, hj, Or.inl rfl⟩
    · simp only [hj, if_false] at ha
      simp [ha, hj]
  · simp [rawIdx_ge hij, hij]

theorem removeEdge_spec {g : RawGraph} (h : WF g) (i j : Nat) :
    if i < j ∧ j < g.n then ∃ g', g.removeEdge i j = some g' ∧ WF g' ∧ g'.n = g.n ∧ g'.treeChosen = g.treeChosen ∧
      ∀ a b, E g' a b ↔ E g a b ∧ ¬ (a = i ∧ b = j)
    else g.removeEdge i j = none := by
  unfold removeEdge
  by_cases hij : i < j
  · rw [rawIdx_lt hij]
    have ha := BinaryPool.remove_spec h.inv (tri j + i)
    simp only [h.len, idx_lt_iff hij] at ha
    by_cases hj : j < g.n
    · simp only [hj, if_true] at ha
      obtain ⟨q, h1, h2, h3, h4⟩ := ha
      simp only [hij, hj, and_self, if_true, Option.bind_eq_bind, Option.bind_some, h1]
      refine ⟨{ g with data := q }, rfl, ⟨h2, h3, h.pos⟩, rfl, rfl, ?_⟩
      intro a b
      simp only [E, h4, Finset.mem_erase]
      constructor
      · rintro ⟨c1, c2, c3, c4⟩
        refine ⟨⟨c1, c2, c4⟩, ?_⟩
        rintro ⟨rfl, rfl⟩; exact c3 rfl
      · rintro ⟨⟨c1, c2, c3⟩, c4⟩
        exact ⟨c1, c2, fun e => c4 (tri_inj c1 hij e), c3⟩
    · simp only [hj, if_false] at ha
      simp [ha, hj]
  · simp [rawIdx_ge hij, hij]

theorem ext_wf {g k : RawGraph} (hg : WF g) (hk : WF k) (hn : g.n = k.n) (ht : g.treeChosen = k.treeChosen)
    (he : ∀ i j, E g i j ↔ E k i j) : g = k := by
  have hl : g.data.len = k.data.len := by rw [hg.len, hk.len, hn]
  have : g.data = k.data := by
    apply BinaryPool.ext_inv hg.inv hk.inv hl
    ext x
    have key : ∀ {g k : RawGraph}, WF g → WF k → g.n = k.n → (∀ i j, E g i j → E k i j) →
        x ∈ g.data.members → x ∈ k.data.members := by
      intro g k hg hk hn he hx
      have hxl : x < tri g.n := by rw [← hg.len]; exact ((BinaryPool.mem_members _ _).mp hx).1
      have hex : ∃ j, j < g.n ∧ ∃ i, i < j ∧ x = tri j + i := by
        have : ∀ n, x < tri n → ∃ j, j < n ∧ ∃ i, i < j ∧ x = tri j + i := by
          intro n
          induction n with
          | zero => intro h; simp [tri] at h
          | succ n ih =>
            intro h
            rw [tri_succ] at h
            by_cases h2 : x < tri n
            · obtain ⟨j, h3, h4⟩ := ih h2; exact ⟨j, by omega, h4⟩
            · exact ⟨n, by omega, x - tri n, by omega, by omega⟩
        exact this _ hxl
      obtain ⟨j, hj, i, hi, rfl⟩ := hex
      exact (he i j ⟨hi, hj, hx⟩).2.2
    exact ⟨key hg hk hn (fun i j => (he i j).mp), key hk hg hn.symm (fun i j => (he i j).mpr)⟩
  cases g; cases k; simp_all

/-! ### neighbours -/

theorem adjTest_eq {g : RawGraph} (h : WF g) {v c : Nat} (hv : v < g.n) (hc : c < g.n) :
    g.adjTest v c = some (decide (Adj g v c)) := by
  have key : ∀ a b, a < b → b < g.n → (do g.data.contains (← rawIdx a b)) = some (decide (E g a b)) := by
    intro a b hab hb
    have := contains_eq h a b
    unfold contains at this
    simp only [hab, hb, and_self, if_true] at this
    exact this
  unfold adjTest
  rcases Nat.lt_trichotomy v c with hlt | rfl | hlt
  · rw [if_pos hlt, key _ _ hlt hc]; simp [adj_of_lt hlt]
  · simp [not_adj_self]
  · rw [if_neg (by omega), if_pos (by omega), key _ _ hlt hv]; simp only [adj_comm (i := v), adj_of_lt hlt]

theorem adjNext_spec {g : RawGraph} (h : WF g) {v : Nat} (hv : v < g.n) (c : Nat) :
    ((∀ x, c ≤ x → x < g.n → ¬ Adj g v x) ∧ ∃ c', g.adjNext v c = some (none, c')) ∨
    ∃ x, c ≤ x ∧ x < g.n ∧ Adj g v x ∧ (∀ y, c ≤ y → y < x → ¬ Adj g v y) ∧ g.adjNext v c = some (some x, x + 1) := by
  induction hm : g.n - c generalizing c with
  | zero => left; refine ⟨fun x h1 h2 => by omega, c, ?_⟩; rw [adjNext, if_neg (by omega)]
  | succ m ih =>
    have hc : c < g.n := by omega
    by_cases ha : Adj g v c
    · right; refine ⟨c, Nat.le_refl _, hc, ha, fun y h1 h2 => by omega, ?_⟩
      rw [adjNext, if_pos hc, adjTest_eq h hv hc]; simp [ha]
    · have e : g.adjNext v c = g.adjNext v (c + 1) := by
        rw [adjNext, if_pos hc, adjTest_eq h hv hc]; simp [ha]
      have hstep : ∀ y, c ≤ y → ¬ c + 1 ≤ y → ¬ Adj g v y := fun y h1 h2 => by
        have : y = c := by omega
        exact this ▸ ha
      rcases ih (c + 1) (by omega) with ⟨h1, c', h2⟩ | ⟨x, h1, h2, h3, h4, h5⟩
      · left; refine ⟨fun x hx hx2 => ?_, c', e ▸ h2⟩
        by_cases hc1 : c + 1 ≤ x
        · exact h1 x hc1 hx2
        · exact hstep x hx hc1
      · right; refine ⟨x, by omega, h2, h3, fun y hy hy2 => ?_, e ▸ h5⟩
        by_cases hc1 : c + 1 ≤ y
        · exact h4 y hc1 hy2
        · exact hstep y hy hc1

theorem filter_range'_none {P : Nat → Bool} : ∀ (len c : Nat), (∀ x, c ≤ x → x < c + len → P x = false) →
    (List.range' c len).filter P = [] := by
  intro len c h
  rw [List.filter_eq_nil_iff]
  intro x hx
  simp only [List.mem_range'_1] at hx
  simp [h x hx.1 hx.2]

theorem adjDrain_spec {g : RawGraph} (h : WF g) {v : Nat} (hv : v < g.n) : ∀ (fuel c : Nat), g.n - c < fuel →
    g.adjDrain v fuel c = some ((List.range' c (g.n - c)).filter (fun x => decide (Adj g v x))) := by
  intro fuel
  induction fuel with
  | zero => intro c hc; omega
  | succ fuel ih =>
    intro c hc
    unfold adjDrain
    rcases adjNext_spec h hv c with ⟨h1, c', h2⟩ | ⟨x, h1, h2, h3, h4, h5⟩
    · rw [h2]; simp only
      rw [filter_range'_none]
      intro x hx hx2; simp [h1 x hx (by omega)]
    · rw [h5]; simp only
      rw [ih (x + 1) (by omega)]
      have : List.range' c (g.n - c) = List.range' c (x - c) ++ x :: List.range' (x + 1) (g.n - (x + 1)) := by
        have h6 : g.n - c = (x - c) + (1 + (g.n - (x + 1))) := by omega
        rw [h6, ← List.range'_append_1, ← List.range'_append_1]
        congr 2
        · rw [show c + (x - c) = x by omega]; simp [List.range'_one]
      rw [this, List.filter_append, filter_range'_none (x - c) c]
      · simp [h3]
      · intro y hy hy2; simp [h4 y hy (by omega)]

theorem adj_eq {g : RawGraph} (h : WF g) {v : Nat} (hv : v < g.n) :
    g.adj v = some ((List.range g.n).filter (fun x => decide (Adj g v x))) := by
  unfold adj
  rw [adjDrain_spec h hv _ _ (by omega), List.range_eq_range']; simp

theorem adj_none {g : RawGraph} (h : WF g) {v : Nat} (hv : g.n ≤ v) : g.adj v = none := by
  have hp := h.pos
  have h1 : g.adjTest v 0 = none := by
    unfold adjTest
    rw [if_neg (by omega), if_pos (by omega), rawIdx_lt (by omega)]
    simp only [Option.bind_eq_bind, Option.bind_some]
    rw [BinaryPool.contains_eq h.inv, h.len, if_neg]
    rw [idx_lt_iff (by omega)]; omega
  unfold adj
  rw [adjDrain, adjNext, if_pos hp, h1]

/-! ### bulk updates -/

theorem addEdges_spec : ∀ (l : List (Nat × Nat)) {g : RawGraph}, WF g → (∀ e ∈ l, e.1 < e.2 ∧ e.2 < g.n) →
    ∃ g', g.addEdges l = some g' ∧ WF g' ∧ g'.n = g.n ∧ g'.treeChosen = g.treeChosen ∧
      ∀ a b, E g' a b ↔ E g a b ∨ (a, b) ∈ l
  | [], g, h, _ => ⟨g, rfl, h, rfl, rfl, by simp⟩
  | e :: es, g, h, hl => by
    have ha := addEdge_spec h e.1 e.2
    rw [if_pos (hl e (by simp))] at ha
    obtain ⟨g1, h1, h2, h3, h4, h5⟩ := ha
    obtain ⟨g2, k1, k2, k3, k4, k5⟩ := addEdges_spec es h2 (fun x hx => by rw [h3]; exact hl x (by simp [hx]))
    refine ⟨g2, by simp [addEdges, h1, k1], k2, k3.trans h3, k4.trans h4, ?_⟩
    intro a b
    rw [k5, h5, List.mem_cons, or_assoc]
    have : (a = e.1 ∧ b = e.2) ↔ (a, b) = e := by cases e; simp
    rw [this]

theorem removeEdges_spec : ∀ (l : List (Nat × Nat)) {g : RawGraph}, WF g → (∀ e ∈ l, e.1 < e.2 ∧ e.2 < g.n) →
    ∃ g', g.removeEdges l = some g' ∧ WF g' ∧ g'.n = g.n ∧ g'.treeChosen = g.treeChosen ∧
      ∀ a b, E g' a b ↔ E g a b ∧ (a, b) ∉ l
  | [], g, h, _ => ⟨g, rfl, h, rfl, rfl, by simp⟩
  | e :: es, g, h, hl => by
    have ha := removeEdge_spec h e.1 e.2
    rw [if_pos (hl e (by simp))] at ha
    obtain ⟨g1, h1, h2, h3, h4, h5⟩ := ha
    obtain ⟨g2, k1, k2, k3, k4, k5⟩ := removeEdges_spec es h2 (fun x hx => by rw [h3]; exact hl x (by simp [hx]))
    refine ⟨g2, by simp [removeEdges, h1, k1], k2, k3.trans h3, k4.trans h4, ?_⟩
    intro a b
    rw [k5, h5, List.mem_cons, not_or, and_assoc]
    have : (a = e.1 ∧ b = e.2) ↔ (a, b) = e := by cases e; simp
    rw [this]

theorem ordered_lt {a b : Nat} (h : a ≠ b) : (ordered a b).1 < (ordered a b).2 := by
  unfold ordered; split <;> simp <;> omega

theorem ordered_snd_lt {a b n : Nat} (ha : a < n) (hb : b < n) : (ordered a b).2 < n := by
  unfold ordered; split <;> simpa

theorem mem_ordered_map {l : List Nat} {v a b : Nat} (hab : a < b) (hl : ∀ x ∈ l, x ≠ v) :
    (a, b) ∈ l.map (fun x => ordered v x) ↔ (a = v ∧ b ∈ l) ∨ (b = v ∧ a ∈ l) := by
  simp only [List.mem_map]
  constructor
  · rintro ⟨x, hx, e⟩
    unfold ordered at e
    split at e
    · injection e with e1 e2; subst e1; subst e2; exact Or.inl ⟨rfl, hx⟩
    · injection e with e1 e2; subst e1; subst e2; exact Or.inr ⟨rfl, hx⟩
  · rintro (⟨rfl, hx⟩ | ⟨rfl, hx⟩)
    · exact ⟨b, hx, by simp [ordered, hab]⟩
    · exact ⟨a, hx, by simp [ordered]; omega⟩

theorem removeAdjacent_spec {g : RawGraph} (h : WF g) {i : Nat} (hi : i < g.n) :
    ∃ g', g.removeAdjacent i = some g' ∧ WF g' ∧ g'.n = g.n ∧ g'.treeChosen = g.treeChosen ∧
      ∀ a b, E g' a b ↔ E g a b ∧ a ≠ i ∧ b ≠ i := by
  unfold removeAdjacent
  rw [adj_eq h hi]
  simp only [Option.bind_eq_bind, Option.bind_some]
  have hmem : ∀ x, x ∈ (List.range g.n).filter (fun x => decide (Adj g i x)) ↔ Adj g i x := by
    intro x; simp only [List.mem_filter, List.mem_range, decide_eq_true_eq]
    exact ⟨fun h => h.2, fun h => ⟨h.lt.2.1, h⟩⟩
  obtain ⟨g', k1, k2, k3, k4, k5⟩ := removeEdges_spec
    (((List.range g.n).filter (fun x => decide (Adj g i x))).map (fun j => ordered i j)) h (by
      intro e he
      obtain ⟨x, hx, rfl⟩ := List.mem_map.mp he
      have := ((hmem x).mp hx).lt
      exact ⟨ordered_lt this.2.2, ordered_snd_lt this.1 this.2.1⟩)
  refine ⟨g', k1, k2, k3, k4, ?_⟩
  intro a b
  rw [k5]
  apply and_congr_right
  intro hE
  rw [mem_ordered_map hE.1 (fun x hx => ((hmem x).mp hx).lt.2.2.symm), hmem, hmem]
  constructor
  · intro hno
    constructor
    · rintro rfl; exact hno (Or.inl ⟨rfl, Or.inl hE⟩)
    · rintro rfl; exact hno (Or.inr ⟨rfl, Or.inr hE⟩)
  · rintro ⟨h1, h2⟩ (⟨e, _⟩ | ⟨e, _⟩)
    · exact h1 e
    · exact h2 e

theorem swap_logic (A : Nat → Nat → Prop) (sy : ∀ a b, A a b ↔ A b a) (irr : ∀ a, ¬ A a a) {i j a b : Nat}
    (nij : i ≠ j) (nab : a ≠ b) (hno : ¬ (a = j ∧ b = i)) :
    (((A a b ∧ a ≠ i ∧ b ≠ i ∧ a ≠ j ∧ b ≠ j) ∨
      ((a = j ∧ A i b ∧ b ≠ j) ∨ (b = j ∧ A i a ∧ a ≠ j)) ∨
      ((a = i ∧ A j b ∧ b ≠ i) ∨ (b = i ∧ A j a ∧ a ≠ i))) ∨ (a = i ∧ b = j ∧ A i j)) ↔
    A (Permutation.swapFn i j a) (Permutation.swapFn i j b) := by
  have nji := nij.symm
  unfold Permutation.swapFn
  by_cases h1 : a = i
  · subst h1
    by_cases h4 : b = j
    · subst h4; simp [nij, nji, irr, sy b a]
    · have h3 : b ≠ a := nab.symm
      simp [nij, h3, h4]
  · by_cases h2 : a = j
    · subst h2
      have h3 : b ≠ i := fun e => hno ⟨rfl, e⟩
      have h4 : b ≠ a := nab.symm
      simp [nji, h3, h4]
    · by_cases h3 : b = i
      · subst h3; simp [h1, h2, nij, sy j a]
      · by_cases h4 : b = j
        · subst h4; simp [h1, h2, h3, sy i a]
        · simp [h1, h2, h3, h4]

theorem adj_iff_of_E {g : RawGraph} {P : Nat → Nat → Prop} (h : ∀ a b, a < b → (E g a b ↔ P a b))
    (hs : ∀ a b, P a b → P b a) (hi : ∀ a, ¬ P a a) (a b : Nat) : Adj g a b ↔ P a b := by
  rcases Nat.lt_trichotomy a b with hlt | rfl | hlt
  · rw [adj_of_lt hlt, h _ _ hlt]
  · exact ⟨fun h => absurd h (not_adj_self _ _), fun h => absurd h (hi a)⟩
  · rw [adj_comm, adj_of_lt hlt, h _ _ hlt]; exact ⟨hs _ _, hs _ _⟩

open Permutation in
/-- `swap(i,j)`: the new graph is the image of the old one under the transposition. -/
theorem swap_spec {g : RawGraph} (h : WF g) {i j : Nat} (hij : i < j) (hj : j < g.n) :
    ∃ g', g.swap i j = some g' ∧ WF g' ∧ g'.n = g.n ∧ g'.treeChosen = g.treeChosen ∧
      ∀ a b, Adj g' a b ↔ Adj g (swapFn i j a) (swapFn i j b) := by
  have hi : i < g.n := by omega
  have hmem : ∀ (v x : Nat), x ∈ (List.range g.n).filter (fun x => decide (Adj g v x)) ↔ Adj g v x := by
    intro v x; simp only [List.mem_filter, List.mem_range, decide_eq_true_eq]
    exact ⟨fun h => h.2, fun h => ⟨h.lt.2.1, h⟩⟩
  unfold swap
  rw [if_neg (by simp [hij, hj]), contains_eq h, if_pos ⟨hij, hj⟩, adj_eq h hi, adj_eq h hj]
  simp only [Option.bind_eq_bind, Option.bind_some]
  obtain ⟨g1, a1, a2, a3, a4, a5⟩ := removeAdjacent_spec h hi
  obtain ⟨g2, b1, b2, b3, b4, b5⟩ := removeAdjacent_spec a2 (i := j) (by rw [a3]; exact hj)
  simp only [a1, b1, Option.bind_some]
  have hm1 : ∀ x, x ∈ ((List.range g.n).filter (fun x => decide (Adj g i x))).filter (fun v => v != j) ↔
      Adj g i x ∧ x ≠ j := by
    intro x; rw [List.mem_filter, hmem]; simp
  have hm2 : ∀ x, x ∈ ((List.range g.n).filter (fun x => decide (Adj g j x))).filter (fun v => v != i) ↔
      Adj g j x ∧ x ≠ i := by
    intro x; rw [List.mem_filter, hmem]; simp
  have hn2 : g2.n = g.n := b3.trans a3
  obtain ⟨g3, c1, c2, c3, c4, c5⟩ := addEdges_spec
    ((((List.range g.n).filter (fun x => decide (Adj g i x))).filter (fun v => v != j)).map (fun v => ordered j v)) b2 (by
      intro e he
      obtain ⟨x, hx, rfl⟩ := List.mem_map.mp he
      have := ((hm1 x).mp hx)
      rw [hn2]
      exact ⟨ordered_lt this.2.symm, ordered_snd_lt hj this.1.lt.2.1⟩)
  have hn3 : g3.n = g.n := c3.trans hn2
  obtain ⟨g4, d1, d2, d3, d4, d5⟩ := addEdges_spec
    ((((List.range g.n).filter (fun x => decide (Adj g j x))).filter (fun v => v != i)).map (fun v => ordered i v)) c2 (by
      intro e he
      obtain ⟨x, hx, rfl⟩ := List.mem_map.mp he
      have := ((hm2 x).mp hx)
      rw [hn3]
      exact ⟨ordered_lt this.2.symm, ordered_snd_lt hi this.1.lt.2.1⟩)
  have hn4 : g4.n = g.n := d3.trans hn3
  simp only [c1, d1, Option.bind_some]
  -- the edges of `g4`
  have hE4 : ∀ a b, a < b → (E g4 a b ↔ (E g a b ∧ a ≠ i ∧ b ≠ i ∧ a ≠ j ∧ b ≠ j) ∨
      ((a = j ∧ Adj g i b ∧ b ≠ j) ∨ (b = j ∧ Adj g i a ∧ a ≠ j)) ∨
      ((a = i ∧ Adj g j b ∧ b ≠ i) ∨ (b = i ∧ Adj g j a ∧ a ≠ i))) := by
    intro a b hab
    rw [d5, c5, b5, a5, mem_ordered_map hab (fun x hx => ((hm1 x).mp hx).2),
      mem_ordered_map hab (fun x hx => ((hm2 x).mp hx).2), hm1, hm1, hm2, hm2]
    simp only [and_assoc, or_assoc]
  -- adding back the edge `(i,j)`
  have hfin : ∃ g', (if decide (E g i j) then g4.addEdge i j else some g4) = some g' ∧ WF g' ∧ g'.n = g.n ∧
      g'.treeChosen = g.treeChosen ∧ ∀ a b, a < b → (E g' a b ↔ E g4 a b ∨ (a = i ∧ b = j ∧ E g i j)) := by
    by_cases hE : E g i j
    · have := addEdge_spec d2 i j
      rw [if_pos (by rw [hn4]; exact ⟨hij, hj⟩)] at this
      obtain ⟨g', e1, e2, e3, e4, e5⟩ := this
      refine ⟨g', by simp [hE, e1], e2, e3.trans hn4, e4.trans (d4.trans (c4.trans (b4.trans a4))), ?_⟩
      intro a b _; rw [e5]; simp [hE]
    · refine ⟨g4, by simp [hE], d2, hn4, d4.trans (c4.trans (b4.trans a4)), ?_⟩
      intro a b _; simp [hE]
  obtain ⟨g', e1, e2, e3, e4, e5⟩ := hfin
  refine ⟨g', e1, e2, e3, e4, ?_⟩
  apply adj_iff_of_E
  · intro a b hab
    rw [e5 a b hab, hE4 a b hab, ← adj_of_lt hab, ← adj_of_lt hij]
    exact swap_logic (Adj g) (fun a b => adj_comm) (not_adj_self g) (by omega) (by omega) (by omega)
  · intro a b; exact adj_comm.mp
  · intro a; exact not_adj_self _ _

theorem swap_none {g : RawGraph} {i j : Nat} (h : ¬ (i < j ∧ j < g.n)) : g.swap i j = none := by
  unfold swap; rw [if_pos h]

open Permutation in
theorem foldAction_spec : ∀ (gens : List Permutation) {g : RawGraph}, WF g →
    (∀ t ∈ gens, t = identity ∨ ∃ a b, IsTransp t a b ∧ b < g.n) →
    ∃ g', gens.foldlM genActionBy g = some g' ∧ WF g' ∧ g'.n = g.n ∧ g'.treeChosen = g.treeChosen ∧
      ∀ a b, Adj g' (gens.foldl (fun y t => map t y) a) (gens.foldl (fun y t => map t y) b) ↔ Adj g a b
  | [], g, h, _ => ⟨g, rfl, h, rfl, rfl, fun a b => Iff.rfl⟩
  | t :: ts, g, h, hl => by
    have h1 : ∃ g1, g.genActionBy t = some g1 ∧ WF g1 ∧ g1.n = g.n ∧ g1.treeChosen = g.treeChosen ∧
        ∀ a b, Adj g1 (map t a) (map t b) ↔ Adj g a b := by
      rcases hl t (by simp) with rfl | ⟨a, b, ht, hb⟩
      · exact ⟨g, by simp [genActionBy], h, rfl, rfl, fun a b => by simp [map_identity]⟩
      · obtain ⟨g1, k1, k2, k3, k4, k5⟩ := swap_spec h ht.1 hb
        refine ⟨g1, ?_, k2, k3, k4, ?_⟩
        · have hne : t ≠ identity := by rw [ht.2]; simp [identity]
          have hu : unfixed t = some [a, b] := by rw [ht.2]; simp [unfixed, unfixedTail]
          unfold genActionBy
          rw [if_neg hne, hu]; exact k1
        · intro x y
          rw [k5, ht.map, ht.map, swapFn_invol, swapFn_invol]
    obtain ⟨g1, k1, k2, k3, k4, k5⟩ := h1
    obtain ⟨g2, l1, l2, l3, l4, l5⟩ := foldAction_spec ts k2 (fun x hx => by rw [k3]; exact hl x (by simp [hx]))
    refine ⟨g2, by simp [List.foldlM_cons, k1, l1], l2, l3.trans k3, l4.trans k4, ?_⟩
    intro a b
    rw [List.foldl_cons, List.foldl_cons, l5, k5]

open Permutation in
theorem actionBy_spec {g : RawGraph} (h : WF g) {p : Permutation} (hp : Valid p) (hb : ∀ x, map p x ≠ x → x < g.n) :
    ∃ g', g.actionBy p = some g' ∧ WF g' ∧ g'.n = g.n ∧ g'.treeChosen = g.treeChosen ∧
      ∀ a b, Adj g' (map p a) (map p b) ↔ Adj g a b := by
  rcases hp with rfl | hc
  · exact ⟨g, by simp [actionBy, inTermsOfGens, genActionBy], h, rfl, rfl, fun a b => by simp [map_identity]⟩
  · obtain ⟨gens, k1, k2, _, _, k3, k4⟩ := inTermsOfGens_spec (Or.inr hc)
    rw [inTermsOfGens_canon hc] at k1
    injection k1 with k1
    subst k1
    obtain ⟨g', l1, l2, l3, l4, l5⟩ := foldAction_spec (List.map gensTail p).flatten h (by
      intro t ht
      obtain ⟨a, b, h1, h2⟩ := gens_bound hc t ht
      exact Or.inr ⟨a, b, h1, hb b ((hc.mem_iff b).mp h2)⟩)
    refine ⟨g', by simp [actionBy, inTermsOfGens_canon hc, l1], l2, l3, l4, ?_⟩
    intro a b
    rw [← l5, k3, k3]

end Toppo.RawGraph
