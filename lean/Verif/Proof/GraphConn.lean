import Verif.Proof.Graph
import Mathlib.Logic.Relation
/-! `is_connected` and `edge_iter`. -/
namespace Toppo.RawGraph
open Toppo

/-- `j` can be reached from `i` along edges -/
abbrev Reach (g : RawGraph) : Nat → Nat → Prop := Relation.ReflTransGen (Adj g)

theorem Reach.symm {g : RawGraph} {a b} (h : Reach g a b) : Reach g b a := by
  induction h with
  | refl => exact .refl
  | tail _ h ih => exact .head h.symm ih

theorem visitAll_spec : ∀ (ws : List Nat) {V : BinaryPool} {st : List Nat}, V.Inv → (∀ w ∈ ws, w < V.len) →
    ∃ V' st', visitAll V st ws = some (V', st') ∧ V'.Inv ∧ V'.len = V.len ∧
      V'.members = V.members ∪ ws.toFinset ∧ (∀ x, x ∈ st' ↔ x ∈ st ∨ (x ∈ ws ∧ x ∉ V.members)) ∧
      st'.length + V.members.card = st.length + V'.members.card
  | [], V, st, h, _ => ⟨V, st, rfl, h, rfl, by simp, by simp, rfl⟩
  | w :: ws, V, st, h, hl => by
    have hw := hl w (by simp)
    have hc := BinaryPool.contains_eq h w
    rw [if_pos hw] at hc
    by_cases hm : w ∈ V.members
    · obtain ⟨V', st', k1, k2, k3, k4, k5, k6⟩ := visitAll_spec ws (st := st) h (fun x hx => hl x (by simp [hx]))
      refine ⟨V', st', by simp [visitAll, hc, hm, k1], k2, k3, ?_, ?_, k6⟩
      · rw [k4]; ext x; simp; rintro rfl; exact Or.inl hm
      · intro x; rw [k5, List.mem_cons]
        constructor
        · rintro (h | ⟨h, h'⟩)
          · exact Or.inl h
          · exact Or.inr ⟨Or.inr h, h'⟩
        · rintro (h | ⟨rfl | h, h'⟩)
          · exact Or.inl h
          · exact absurd hm h'
          · exact Or.inr ⟨h, h'⟩
    · have ha := BinaryPool.add_spec h w
      rw [if_pos hw] at ha
      obtain ⟨V1, a1, a2, a3, a4⟩ := ha
      obtain ⟨V', st', k1, k2, k3, k4, k5, k6⟩ := visitAll_spec ws (st := w :: st) a2
        (fun x hx => by rw [a3]; exact hl x (by simp [hx]))
      refine ⟨V', st', by simp [visitAll, hc, hm, a1, k1], k2, k3.trans a3, ?_, ?_, ?_⟩
      · rw [k4, a4]; ext x; simp
      · intro x; rw [k5, a4]; simp only [List.mem_cons, Finset.mem_insert, not_or]
        constructor
        · rintro ((rfl | h) | ⟨h, h1, h2⟩)
          · exact Or.inr ⟨Or.inl rfl, hm⟩
          · exact Or.inl h
          · exact Or.inr ⟨Or.inr h, h2⟩
        · rintro (h | ⟨rfl | h, h2⟩)
          · exact Or.inl (Or.inr h)
          · exact Or.inl (Or.inl rfl)
          · by_cases hx : x = w
            · exact Or.inl (Or.inl hx)
            · exact Or.inr ⟨h, hx, h2⟩
      · rw [a4, Finset.card_insert_of_notMem hm] at k6
        simp only [List.length_cons] at k6; omega

theorem connLoop_spec {g : RawGraph} (h : WF g) (h2 : 2 ≤ g.n) : ∀ (fuel : Nat) (V : BinaryPool) (st : List Nat),
    V.Inv → V.len = g.n → (∀ x ∈ st, x ∈ V.members) → (∀ x ∈ V.members, Reach g 0 x) →
    (∀ x, (x = 0 ∨ x ∈ V.members) → x ∉ st → ∀ y, Adj g x y → y ∈ V.members) → (∀ y, Adj g 0 y → y ∈ V.members) →
    (g.n - V.members.card) + st.length < fuel →
    ∃ b, g.connLoop fuel V st = some b ∧ (b = true ↔ ∀ x < g.n, Reach g 0 x) := by
  intro fuel
  induction fuel with
  | zero => intro V st _ _ _ _ _ _ hf; omega
  | succ fuel ih =>
    intro V st hV hlen hst hreach hclosed h0 hf
    have hsub : V.members ⊆ Finset.range g.n := by
      intro x hx; rw [Finset.mem_range, ← hlen]; exact ((BinaryPool.mem_members _ _).mp hx).1
    have hcard : V.members.card ≤ g.n := by simpa using Finset.card_le_card hsub
    have hfull : V.isFull = true ↔ V.members = Finset.range g.n := by
      unfold BinaryPool.isFull
      rw [beq_iff_eq, hV.card, hlen]
      constructor
      · intro e; exact Finset.eq_of_subset_of_card_le hsub (by simp [e])
      · intro e; rw [e]; simp
    unfold connLoop
    by_cases hf' : V.isFull = true
    · rw [if_pos hf']
      refine ⟨true, rfl, ?_⟩
      simp only [true_iff]
      intro x hx; apply hreach; rw [hfull.mp hf']; simpa using hx
    · rw [if_neg hf']
      cases st with
      | nil =>
        refine ⟨false, rfl, ?_⟩
        simp only [Bool.false_eq_true, false_iff]
        intro hall
        apply hf'
        rw [hfull]
        -- everything reachable from `0` is `0` or recorded
        have hcl : ∀ x, Reach g 0 x → x = 0 ∨ x ∈ V.members := by
          intro x hx
          induction hx with
          | refl => exact Or.inl rfl
          | tail _ hbc ihb => exact Or.inr (hclosed _ ihb (by simp) _ hbc)
        have h1 : Reach g 0 1 := hall 1 (by omega)
        have hz : 0 ∈ V.members := by
          rcases Relation.ReflTransGen.cases_head h1 with he | ⟨c, hc, _⟩
          · omega
          · exact hclosed c (Or.inr (h0 c hc)) (by simp) 0 hc.symm
        apply Finset.Subset.antisymm hsub
        intro x hx
        rcases hcl x (hall x (by simpa using hx)) with rfl | hm
        · exact hz
        · exact hm
      | cons v rest =>
        have hvm := hst v (by simp)
        have hv : v < g.n := by simpa using hsub hvm
        obtain ⟨V', st', k1, k2, k3, k4, k5, k6⟩ := visitAll_spec
          ((List.range g.n).filter (fun x => decide (Adj g v x))) (st := rest) hV
          (fun w hw => by rw [hlen]; simpa using (List.mem_filter.mp hw).1)
        have hmem : ∀ x, x ∈ (List.range g.n).filter (fun x => decide (Adj g v x)) ↔ Adj g v x := by
          intro x; simp only [List.mem_filter, List.mem_range, decide_eq_true_eq]
          exact ⟨fun h => h.2, fun h => ⟨h.lt.2.1, h⟩⟩
        have hV'm : ∀ x, x ∈ V'.members ↔ x ∈ V.members ∨ Adj g v x := by
          intro x; rw [k4, Finset.mem_union, List.mem_toFinset, hmem]
        have hsub' : V'.members ⊆ Finset.range g.n := by
          intro x hx; rw [Finset.mem_range, ← hlen, ← k3]; exact ((BinaryPool.mem_members _ _).mp hx).1
        have hcard' : V'.members.card ≤ g.n := by simpa using Finset.card_le_card hsub'
        obtain ⟨b, hb1, hb2⟩ := ih V' st' k2 (k3.trans hlen)
          (by
            intro x hx; rw [k5] at hx; rw [hV'm]
            rcases hx with hx | ⟨hx, _⟩
            · exact Or.inl (hst x (by simp [hx]))
            · exact Or.inr ((hmem x).mp hx))
          (by
            intro x hx; rw [hV'm] at hx
            rcases hx with hx | hx
            · exact hreach x hx
            · exact (hreach v hvm).tail hx)
          (by
            intro x hx hns y hxy
            rw [hV'm]
            by_cases hxv : x = v
            · subst hxv; exact Or.inr hxy
            · left
              have hns' : x ∉ v :: rest := by
                rw [List.mem_cons, not_or]; exact ⟨hxv, fun hr => hns ((k5 x).mpr (Or.inl hr))⟩
              rcases hx with hx | hx
              · exact hclosed x (Or.inl hx) hns' y hxy
              · rw [hV'm] at hx
                by_cases hm : x ∈ V.members
                · exact hclosed x (Or.inr hm) hns' y hxy
                · rcases hx with hx | hx
                  · exact absurd hx hm
                  · exact absurd ((k5 x).mpr (Or.inr ⟨(hmem x).mpr hx, hm⟩)) hns)
          (by intro y hy; rw [hV'm]; exact Or.inl (h0 y hy))
          (by simp only [List.length_cons] at hf; omega)
        refine ⟨b, ?_, hb2⟩
        simp only [adj_eq h hv, Option.bind_eq_bind, Option.bind_some, k1, hb1]

theorem isConnected_spec {g : RawGraph} (h : WF g) (h2 : 2 ≤ g.n) :
    ∃ b, g.isConnected = some b ∧ (b = true ↔ ∀ x < g.n, Reach g 0 x) := by
  unfold isConnected
  rw [adj_eq h h.pos]
  simp only [Option.bind_eq_bind, Option.bind_some]
  have hmem : ∀ x, x ∈ (List.range g.n).filter (fun x => decide (Adj g 0 x)) ↔ Adj g 0 x := by
    intro x; simp only [List.mem_filter, List.mem_range, decide_eq_true_eq]
    exact ⟨fun h => h.2, fun h => ⟨h.lt.2.1, h⟩⟩
  obtain ⟨hi, hmn, hln⟩ := BinaryPool.inv_new g.n
  have ha := BinaryPool.addAll_spec ((List.range g.n).filter (fun x => decide (Adj g 0 x))) hi
  rw [if_pos (by intro i hi; rw [hln]; simpa using (List.mem_filter.mp hi).1)] at ha
  obtain ⟨V, v1, v2, v3, v4⟩ := ha
  rw [hmn, Finset.empty_union] at v4
  rw [v1]
  simp only [Option.bind_some]
  have hV : ∀ x, x ∈ V.members ↔ Adj g 0 x := by intro x; rw [v4, List.mem_toFinset, hmem]
  apply connLoop_spec h h2 _ _ _ v2 (v3.trans hln)
  · intro x hx; rw [hV]; exact (hmem x).mp (by simpa using hx)
  · intro x hx; exact .single ((hV x).mp hx)
  · intro x hx hns y hxy
    rcases hx with rfl | hx
    · exact (hV y).mpr hxy
    · exact absurd (List.mem_reverse.mpr ((hmem x).mpr ((hV x).mp hx))) hns
  · intro y hy; exact (hV y).mpr hy
  · have : ((List.range g.n).filter (fun x => decide (Adj g 0 x))).length ≤ g.n := by
      have := List.length_filter_le (fun x => decide (Adj g 0 x)) (List.range g.n)
      simpa using this
    rw [List.length_reverse]; omega

/-! ### `edge_iter` -/

/-- the `k`-th candidate pair of the iterator: `j` ascending, `i` descending from `j-1` to `0` -/
def pairAt (k : Nat) : Nat × Nat := edgeAdvance^[k] (0, 1)

theorem pairAt_succ (k : Nat) : pairAt (k + 1) = edgeAdvance (pairAt k) := by
  unfold pairAt; rw [Function.iterate_succ_apply']

theorem pairAt_spec (k : Nat) : (pairAt k).1 < (pairAt k).2 ∧ tri (pairAt k).2 + ((pairAt k).2 - 1 - (pairAt k).1) = k := by
  induction k with
  | zero => exact ⟨by decide, by decide⟩
  | succ k ih =>
    obtain ⟨h1, h2⟩ := ih
    rw [pairAt_succ]
    unfold edgeAdvance
    split
    · rename_i h0
      rw [h0] at h2 h1
      refine ⟨by simp, ?_⟩
      simp only
      rw [tri_succ]; omega
    · rename_i h0
      refine ⟨by simp only; omega, ?_⟩
      simp only
      omega

theorem pairAt_of {i j : Nat} (h : i < j) : pairAt (tri j + (j - 1 - i)) = (i, j) := by
  obtain ⟨h1, h2⟩ := pairAt_spec (tri j + (j - 1 - i))
  have h3 : (pairAt (tri j + (j - 1 - i))).2 = j := by
    set p := pairAt (tri j + (j - 1 - i)) with hp
    have := tri_inj (i := p.2 - 1 - p.1) (j := p.2) (a := j - 1 - i) (b := j) (by omega) (by omega) h2
    exact this.2
  have h4 : (pairAt (tri j + (j - 1 - i))).1 = i := by rw [h3] at h2 h1; omega
  exact Prod.ext h4 h3

theorem pairAt_lt (k n : Nat) : (pairAt k).2 < n ↔ k < tri n := by
  obtain ⟨h1, h2⟩ := pairAt_spec k
  conv_rhs => rw [← h2]
  rw [idx_lt_iff]; omega

theorem edgeSeek_spec {g : RawGraph} (h : WF g) : ∀ (fuel k : Nat), k < tri g.n → tri g.n - k < fuel + 1 →
    ∃ k', k < k' ∧ k' ≤ tri g.n ∧ (∀ m, k < m → m < k' → ¬ E g (pairAt m).1 (pairAt m).2) ∧
      (k' < tri g.n → E g (pairAt k').1 (pairAt k').2) ∧
      g.edgeSeek fuel (pairAt k) = some (pairAt k', decide (k' = tri g.n)) := by
  intro fuel
  induction fuel with
  | zero => intro k h1 h2; omega
  | succ fuel ih =>
    intro k h1 h2
    unfold edgeSeek
    rw [← pairAt_succ]
    simp only
    by_cases hk : k + 1 < tri g.n
    · have hp := (pairAt_lt (k + 1) g.n).mpr hk
      have hq := (pairAt_spec (k + 1)).1
      rw [if_neg (by omega), contains_eq h, if_pos ⟨hq, hp⟩]
      by_cases hE : E g (pairAt (k + 1)).1 (pairAt (k + 1)).2
      · refine ⟨k + 1, by omega, by omega, fun m h3 h4 => by omega, fun _ => hE, ?_⟩
        have : ¬ (k + 1 = tri g.n) := by omega
        simp [hE, this]
      · obtain ⟨k', a1, a2, a3, a4, a5⟩ := ih (k + 1) hk (by omega)
        refine ⟨k', by omega, a2, ?_, a4, ?_⟩
        · intro m h3 h4
          by_cases hm : m = k + 1
          · subst hm; exact hE
          · exact a3 m (by omega) h4
        · simp [hE, a5]
    · have e : k + 1 = tri g.n := by omega
      have hp : ¬ (pairAt (k + 1)).2 < g.n := by rw [pairAt_lt]; omega
      rw [if_pos (by omega)]
      exact ⟨k + 1, by omega, by omega, fun m h3 h4 => by omega, fun h5 => by omega, by simp [e]⟩

theorem tri_le_sq (n : Nat) : tri n ≤ n * n := by
  unfold tri
  calc n * (n - 1) / 2 ≤ n * (n - 1) := Nat.div_le_self _ _
    _ ≤ n * n := Nat.mul_le_mul_left _ (by omega)

/-- the edge at position `k` -/
def edgeAt (k : Nat) : Factor := Factor.edge (pairAt k).1 (pairAt k).2

theorem edgeDrain_spec {g : RawGraph} (h : WF g) : ∀ (fuel k : Nat), k < tri g.n → tri g.n - k < fuel →
    g.edgeDrain fuel (pairAt k) false = some (edgeAt k ::
      ((List.range' (k + 1) (tri g.n - (k + 1))).filter (fun m => decide (E g (pairAt m).1 (pairAt m).2))).map edgeAt) := by
  intro fuel
  induction fuel with
  | zero => intro k h1 h2; omega
  | succ fuel ih =>
    intro k h1 h2
    unfold edgeDrain
    have hsq := tri_le_sq g.n
    obtain ⟨k', a1, a2, a3, a4, a5⟩ := edgeSeek_spec h (g.n * g.n + g.n) k h1 (by have := h.pos; omega)
    simp only [Bool.false_eq_true, if_false, a5, Option.bind_eq_bind, Option.bind_some]
    by_cases hk : k' = tri g.n
    · have : ∀ f, f ≠ 0 → g.edgeDrain f (pairAt k') true = some [] := by
        intro f hf; cases f with
        | zero => exact absurd rfl hf
        | succ f => simp [edgeDrain]
      rw [decide_eq_true hk, this fuel (by omega)]
      simp only [Option.bind_some]
      rw [filter_range'_none]
      · rfl
      · intro x hx hx2; simp [a3 x (by omega) (by omega)]
    · rw [decide_eq_false hk, ih k' (by omega) (by omega)]
      simp only [Option.bind_some]
      have : List.range' (k + 1) (tri g.n - (k + 1)) = List.range' (k + 1) (k' - (k + 1)) ++ k' :: List.range' (k' + 1) (tri g.n - (k' + 1)) := by
        have h6 : tri g.n - (k + 1) = (k' - (k + 1)) + (1 + (tri g.n - (k' + 1))) := by omega
        rw [h6, ← List.range'_append_1, ← List.range'_append_1]
        congr 2
        rw [show k + 1 + (k' - (k + 1)) = k' by omega]; simp [List.range'_one]
      rw [this, List.filter_append, filter_range'_none (k' - (k + 1)) (k + 1)]
      · simp [a4 (by omega), edgeAt]
      · intro x hx hx2; simp [a3 x (by omega) (by omega)]

theorem edgeIter_spec {g : RawGraph} (h : WF g) (h2 : 2 ≤ g.n) :
    g.edgeIter = some (Factor.edge 0 1 ::
      ((List.range' 1 (tri g.n - 1)).filter (fun m => decide (E g (pairAt m).1 (pairAt m).2))).map edgeAt) := by
  unfold edgeIter
  have ht : 0 < tri g.n := by
    have := tri_mono h2; have : tri 2 = 1 := by decide
    omega
  have hsq := tri_le_sq g.n
  have := edgeDrain_spec h (g.n * g.n + 2) 0 ht (by omega)
  rw [decide_eq_false (by omega)]
  exact this

end Toppo.RawGraph
