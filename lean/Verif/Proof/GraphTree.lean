import Verif.Proof.GraphConn
import Verif.Proof.Normal
/-! The depth-first choice of the maximal tree. -/
namespace Toppo.RawGraph
open Toppo Permutation Normal

/-- `g` is `g0` with the vertices renamed by `p` -/
structure Relab (g0 g : RawGraph) (p : Permutation) : Prop where
  wf : WF g
  n : g.n = g0.n
  tree : g.treeChosen = g0.treeChosen
  valid : Valid p
  bound : ∀ x, g0.n ≤ x → map p x = x
  adj : ∀ a b, Adj g (map p a) (map p b) ↔ Adj g0 a b

theorem Relab.refl {g : RawGraph} (h : WF g) : Relab g g identity :=
  ⟨h, rfl, rfl, valid_identity, fun x _ => map_identity x, fun a b => by rw [map_identity, map_identity]⟩

theorem Relab.step {g0 g : RawGraph} {p q : Permutation} (h : Relab g0 g p) (hq : Valid q)
    (hb : ∀ x, g0.n ≤ x → map q x = x) :
    ∃ g' r, g.actionBy q = some g' ∧ mul q p = some r ∧ Relab g0 g' r ∧ (∀ x, map r x = map q (map p x)) ∧
      (∀ a b, Adj g' (map q a) (map q b) ↔ Adj g a b) := by
  obtain ⟨g', k1, k2, k3, k4, k5⟩ := actionBy_spec h.wf hq (by
    intro x hx; by_contra hc; exact hx (hb x (by rw [h.n] at hc; omega)))
  obtain ⟨r, l1, l2, l3⟩ := mul_spec hq h.valid
  refine ⟨g', r, k1, l1, ⟨k2, k3.trans h.n, k4.trans h.tree, l2, ?_, ?_⟩, l3, k5⟩
  · intro x hx; rw [l3, h.bound x hx, hb x hx]
  · intro a b; rw [l3, l3, k5, h.adj]

theorem Relab.reach {g0 g : RawGraph} {p} (h : Relab g0 g p) {a b} (hr : Reach g0 a b) : Reach g (map p a) (map p b) := by
  induction hr with
  | refl => exact .refl
  | tail _ hbc ih => exact .tail ih ((h.adj _ _).mpr hbc)

theorem map_lt {p : Permutation} (hv : Valid p) {n : Nat} (hb : ∀ x, n ≤ x → map p x = x) {x} (hx : x < n) : map p x < n := by
  by_contra hc
  have h1 := hb (map p x) (by omega)
  have := hv.injective h1
  omega

theorem map_surj {p : Permutation} (hv : Valid p) {n : Nat} (hb : ∀ x, n ≤ x → map p x = x) {y} (hy : y < n) :
    ∃ x, x < n ∧ map p x = y := by
  obtain ⟨q, _, _, _, h2⟩ := inverse_spec hv
  refine ⟨map q y, ?_, h2 y⟩
  by_contra hc
  have := hb (map q y) (by omega)
  rw [h2] at this; omega

/-- every vertex is reachable from vertex `0` -/
def Conn (g : RawGraph) : Prop := ∀ x < g.n, Reach g 0 x

theorem Conn.all {g : RawGraph} (h : Conn g) {a b} (ha : a < g.n) (hb : b < g.n) : Reach g a b :=
  (h a ha).symm.trans (h b hb)

theorem Relab.conn {g0 g : RawGraph} {p} (h : Relab g0 g p) (hc : Conn g0) : Conn g := by
  intro x hx
  have hp : 0 < g0.n := by have := h.wf.pos; rw [h.n] at this; exact this
  obtain ⟨a, ha, e⟩ := map_surj h.valid h.bound (y := 0) hp
  obtain ⟨b, hb, e'⟩ := map_surj h.valid h.bound (y := x) (by rw [← h.n]; exact hx)
  have := h.reach (hc.all ha hb)
  rwa [e, e'] at this

theorem transp_valid {a b : Nat} (h : a < b) : Valid [[a, b]] := Or.inr (transp_canon h)

theorem fetchRight_spec {g0 g : RawGraph} {p} (h : Relab g0 g p) {i j : Nat} (hi : i < g.n) :
    ((∀ y, j < y → ¬ Adj g i y) ∧ g.fetchRight i j = some (g, none)) ∨
    (∃ k g' r, j < k ∧ k < g.n ∧ Adj g i k ∧ g.fetchRight i j = some (g', some [[j, k]]) ∧
      mul [[j, k]] p = some r ∧ Relab g0 g' r ∧ (∀ x, map r x = swapFn j k (map p x)) ∧
      (∀ a b, Adj g' a b ↔ Adj g (swapFn j k a) (swapFn j k b))) := by
  unfold fetchRight
  rw [adj_eq h.wf hi]
  simp only [Option.bind_eq_bind, Option.bind_some]
  have hmem : ∀ x, x ∈ ((List.range g.n).filter (fun x => decide (Adj g i x))).filter (fun k => decide (k > j)) ↔
      Adj g i x ∧ j < x := by
    intro x; simp only [List.mem_filter, List.mem_range, decide_eq_true_eq]
    exact ⟨fun h => ⟨h.1.2, h.2⟩, fun h => ⟨⟨h.1.lt.2.1, h.1⟩, h.2⟩⟩
  cases hh : (((List.range g.n).filter (fun x => decide (Adj g i x))).filter (fun k => decide (k > j))).head? with
  | none =>
    left
    rw [List.head?_eq_none_iff] at hh
    refine ⟨fun y hy ha => ?_, rfl⟩
    have := (hmem y).mpr ⟨ha, hy⟩
    rw [hh] at this; simp at this
  | some k =>
    right
    have hk := (hmem k).mp (List.mem_of_head? hh)
    have hkn := hk.1.lt.2.1
    obtain ⟨g', r, h1, h2, h3, h4, h5⟩ := h.step (transp_valid hk.2) (by
      intro x hx
      rw [transp_map hk.2]
      rw [h.n] at hkn
      unfold swapFn; split
      · omega
      · split <;> omega)
    refine ⟨k, g', r, hk.2, hkn, hk.1, ?_, h2, h3, ?_, ?_⟩
    · simp [pair_spec j k hk.2, h1]
    · intro x; rw [h4, transp_map hk.2]
    · intro a b
      have := h5 (swapFn j k a) (swapFn j k b)
      rw [transp_map hk.2, transp_map hk.2, swapFn_invol, swapFn_invol] at this
      exact this

theorem swapFn_lt {j k x : Nat} (h : x < j) (hjk : j < k) : swapFn j k x = x := by
  unfold swapFn; rw [if_neg (by omega), if_neg (by omega)]

theorem swapFn_ge {j k x : Nat} (h : j ≤ x) (hjk : j < k) : j ≤ swapFn j k x := by
  unfold swapFn; split
  · omega
  · split <;> omega

theorem dfsInner_spec {g0 : RawGraph} (hc0 : Conn g0) {j : Nat} (hj : 1 ≤ j) : ∀ (i : Nat) {g : RawGraph} {p : Permutation},
    Relab g0 g p → j < g.n → i ≤ j → map p 0 = 0 → Upto (Adj g) j →
    (∀ x, i ≤ x → x < j → ∀ y, j ≤ y → ¬ Adj g x y) →
    ∃ g' p', dfsInner j i g p = some (g', p') ∧ Relab g0 g' p' ∧ map p' 0 = 0 ∧ Upto (Adj g') (j + 1) := by
  intro i
  induction i with
  | zero =>
    intro g p h hjn _ hp0 _ hno
    exfalso
    -- the vertices below `j` form a component
    have hcl : ∀ x, Reach g 0 x → x < j := by
      intro x hx
      induction hx with
      | refl => omega
      | tail _ hbc ih =>
        by_contra hcc
        exact hno _ (by omega) ih _ (by omega) hbc
    have := hcl j (h.conn hc0 j hjn)
    omega
  | succ i ih =>
    intro g p h hjn hij hp0 hu hno
    unfold dfsInner
    rw [contains_eq h.wf, if_pos ⟨by omega, hjn⟩]
    simp only [Option.bind_eq_bind, Option.bind_some]
    by_cases hE : E g i j
    · refine ⟨g, p, by simp [hE], h, hp0, ?_⟩
      exact hu.step (i := i) (by omega) (fun _ _ _ _ => Iff.rfl) (fun _ _ hx => hx) (Or.inl hE)
        (fun x h1 h2 y h3 => hno x (by omega) h2 y h3)
    · rw [decide_eq_false hE]
      simp only [Bool.false_eq_true, if_false]
      rcases fetchRight_spec h (i := i) (j := j) (by omega) with ⟨hn, e⟩ | ⟨k, g', r, h1, h2, h3, h4, h5, h6, h7, h8⟩
      · rw [e]
        simp only [Option.bind_some]
        apply ih h hjn (by omega) hp0 hu
        intro x hx hxj y hy
        by_cases hxi : x = i
        · subst hxi
          by_cases hyj : y = j
          · subst hyj; rw [adj_of_lt (by omega)]; exact hE
          · exact hn y (by omega)
        · exact hno x (by omega) hxj y hy
      · rw [h4]
        simp only [Option.bind_some, h5]
        refine ⟨g', r, rfl, h6, ?_, ?_⟩
        · rw [h7, hp0, swapFn_lt (by omega) h1]
        · refine hu.step (i := i) (by omega) ?_ ?_ ?_ (fun x h1 h2 y h3 => hno x (by omega) h2 y h3)
          · intro x y hx hy; rw [h8, swapFn_lt hx h1, swapFn_lt hy h1]
          · rintro x hx ⟨y, hy, ha⟩
            rw [h8, swapFn_lt hx h1] at ha
            exact ⟨_, swapFn_ge hy h1, ha⟩
          · rw [h8, swapFn_lt (by omega) h1]
            have : swapFn j k j = k := by simp [swapFn]
            rw [this]; exact h3

theorem dfsOuter_spec {g0 : RawGraph} (hc0 : Conn g0) : ∀ (len j : Nat) {g : RawGraph} {p : Permutation}, 1 ≤ j →
    j + len = g.n → Relab g0 g p → map p 0 = 0 → Upto (Adj g) j →
    ∃ g' p', dfsOuter (List.range' j len) g p = some (g', p') ∧ Relab g0 g' p' ∧ map p' 0 = 0 ∧ Upto (Adj g') g'.n := by
  intro len
  induction len with
  | zero => intro j g p h1 h2 h hp hu; exact ⟨g, p, by simp [dfsOuter], h, hp, by rw [← h2]; exact hu⟩
  | succ len ih =>
    intro j g p h1 h2 h hp hu
    obtain ⟨g1, p1, k1, k2, k3, k4⟩ := dfsInner_spec hc0 h1 j h (by omega) (Nat.le_refl _) hp hu (fun x a b => by omega)
    obtain ⟨g', p', l1, l2, l3, l4⟩ := ih (j + 1) (by omega) (by rw [k2.n, ← h.n]; omega) k2 k3 k4
    refine ⟨g', p', ?_, l2, l3, l4⟩
    rw [List.range'_succ, dfsOuter]
    simp [k1, l1]

theorem chooseDfs_spec {g : RawGraph} (h : WF g) (hc : Conn g) :
    ∃ g' p, g.chooseDfs = some (g', p) ∧ Relab g g' p ∧ map p 0 = 0 ∧ Upto (Adj g') g'.n := by
  have hp := h.pos
  exact dfsOuter_spec hc (g.n - 1) 1 (Nat.le_refl _) (by omega) (Relab.refl h) (map_identity 0) (Upto.init _)

/-! ### `maximal_tree_contains` -/

theorem anyRange_spec {f : Nat → Option Bool} {P : Nat → Prop} : ∀ (l : List Nat),
    (∀ k ∈ l, ∃ b, f k = some b ∧ (b = true ↔ P k)) → ∃ b, anyRange f l = some b ∧ (b = true ↔ ∃ k ∈ l, P k)
  | [], _ => ⟨false, rfl, by simp⟩
  | k :: ks, h => by
    obtain ⟨b, h1, h2⟩ := h k (by simp)
    obtain ⟨c, h3, h4⟩ := anyRange_spec ks (fun x hx => h x (by simp [hx]))
    cases b with
    | true => exact ⟨true, by simp [anyRange, h1], by simp [h2.mp rfl]⟩
    | false =>
      refine ⟨c, by simp [anyRange, h1, h3], ?_⟩
      have : ¬ P k := fun hp => by have := h2.mpr hp; simp at this
      simp [h4, this]

theorem treeContains_spec {g : RawGraph} (h : WF g) (ht : g.treeChosen = true) {i j : Nat} (hij : i < j) (hj : j < g.n) :
    ∃ b, g.treeContains i j = some b ∧ (b = true ↔ Par (Adj g) i j) := by
  unfold treeContains
  have hcon : g.contains i j = some (decide (E g i j)) := by rw [contains_eq h, if_pos ⟨hij, hj⟩]
  rw [ht, hcon]
  simp only [Bool.not_true, Bool.false_eq_true, if_false, Option.bind_eq_bind, Option.bind_some]
  by_cases hE : E g i j
  · obtain ⟨b, h1, h2⟩ := anyRange_spec (f := fun k => g.contains k j) (P := fun k => E g k j)
      (List.range' (i + 1) (j - (i + 1))) (by
        intro k hk
        rw [List.mem_range'_1] at hk
        exact ⟨decide (E g k j), by rw [contains_eq h, if_pos ⟨by omega, hj⟩], by simp⟩)
    refine ⟨!b, by simp [hE, h1], ?_⟩
    have : (!b) = true ↔ ¬ b = true := by simp
    rw [this, h2]
    constructor
    · intro hn
      refine ⟨hij, Or.inl hE, fun k k1 k2 k3 => hn ⟨k, ?_, ?_⟩⟩
      · rw [List.mem_range'_1]; omega
      · exact (adj_of_lt k2).mp k3
    · rintro hp ⟨k, k1, k2⟩
      rw [List.mem_range'_1] at k1
      exact hp.2.2 k (by omega) (by omega) (Or.inl k2)
  · refine ⟨false, by simp [hE], ?_⟩
    simp only [Bool.false_eq_true, false_iff]
    intro hp; exact hE ((adj_of_lt hij).mp hp.2.1)

end Toppo.RawGraph
