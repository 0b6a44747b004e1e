import Verif.Model.LinAlg
import Mathlib.LinearAlgebra.Matrix.Rank
import Mathlib.LinearAlgebra.Matrix.Block
import Mathlib.Algebra.BigOperators.Intervals
import Mathlib.Algebra.BigOperators.Fin
import Mathlib.Data.Finset.Sort
import Mathlib.Tactic.LinearCombination
import Mathlib.Tactic.FieldSimp
set_option linter.unusedVariables false
set_option linter.unusedSectionVars false

/-
C37, C38: `rank_as_linear_map`, `lu`, `det`, `solve` over an arbitrary field with exact arithmetic.
-/
namespace Toppo.LinAlg
open Finset

variable {K : Type} [Field K] [DecidableEq K] {n m : Nat}

/-- the `n × m` matrix with entries `f` -/
def mat (n m : Nat) (f : Nat → Nat → K) : Matrix (Fin n) (Fin m) K := Matrix.of fun i j => f i j

/-! ## C37 -/

theorem rank_submatrix_le' {N M P Q : Type} [Fintype N] [Fintype M] [Fintype P] [Fintype Q] [DecidableEq N] [DecidableEq M]
    (A : Matrix N M K) (e1 : P → N) (e2 : Q → M) : (A.submatrix e1 e2).rank ≤ A.rank := by
  have : A.submatrix e1 e2 = (1 : Matrix N N K).submatrix e1 id * A * (1 : Matrix M M K).submatrix id e2 := by
    ext p q
    simp [Matrix.mul_apply, Matrix.one_apply]
  rw [this]
  exact (Matrix.rank_mul_le_left _ _).trans (Matrix.rank_mul_le_right _ _)

theorem mat_rowOp (a : Nat → Nat → K) {r1 r2 : Nat} (h1 : r1 < n) (h2 : r2 < n) (c : K) :
    mat n m (rowOp a r1 r2 c) = (1 + Matrix.single ⟨r1, h1⟩ ⟨r2, h2⟩ c) * mat n m a := by
  ext i j
  rw [Matrix.add_mul, Matrix.one_mul, Matrix.add_apply]
  simp only [mat, Matrix.of_apply, rowOp]
  by_cases hi : i.1 = r1
  · have : i = ⟨r1, h1⟩ := Fin.ext hi
    subst this
    rw [Matrix.single_mul_apply_same]; simp [mul_comm]
  · have : (⟨r1, h1⟩ : Fin n) ≠ i := fun e => hi (by rw [← e])
    rw [Matrix.single_mul_apply_of_ne _ _ _ _ _ this.symm]; simp [hi]

theorem rank_rowOp (a : Nat → Nat → K) {r1 r2 : Nat} (h1 : r1 < n) (h2 : r2 < n) (c : K) :
    (mat n m (rowOp a r1 r2 c)).rank ≤ (mat n m a).rank := by
  rw [mat_rowOp a h1 h2]; exact Matrix.rank_mul_le_right _ _

theorem rank_colOp (a : Nat → Nat → K) {c1 c2 : Nat} (h1 : c1 < m) (h2 : c2 < m) (c : K) :
    (mat n m (colOp a c1 c2 c)).rank ≤ (mat n m a).rank := by
  have : mat n m (colOp a c1 c2 c) = mat n m a * (1 + Matrix.single ⟨c2, h2⟩ ⟨c1, h1⟩ c) := by
    ext i j
    rw [Matrix.mul_add, Matrix.mul_one, Matrix.add_apply]
    simp only [mat, Matrix.of_apply, colOp]
    by_cases hi : j.1 = c1
    · have : j = ⟨c1, h1⟩ := Fin.ext hi
      subst this
      rw [Matrix.mul_single_apply_same]; simp
    · have : (⟨c1, h1⟩ : Fin m) ≠ j := fun e => hi (by rw [← e])
      rw [Matrix.mul_single_apply_of_ne _ _ _ _ _ this.symm]; simp [hi]
  rw [this]; exact Matrix.rank_mul_le_left _ _

theorem mem_rng {lo hi k : Nat} : k ∈ rng lo hi ↔ lo ≤ k ∧ k < hi := by
  simp only [rng, List.mem_range'_1]; omega

/-- the loop invariant of `rank_as_linear_map`: `G` are the positions that were not skipped -/
structure RInv (n m : Nat) (A a : Nat → Nat → K) (k skipped : Nat) (G : Finset Nat) : Prop where
  lt : ∀ g ∈ G, g < k
  card : G.card + skipped = k
  piv : ∀ g ∈ G, a g g ≠ 0
  low : ∀ g ∈ G, ∀ r, g < r → r < n → a r g = 0
  rank : (mat n m a).rank ≤ (mat n m A).rank

theorem rankPivot_spec {A a : Nat → Nat → K} {k s : Nat} {G : Finset Nat} (h : RInv n m A a k s G) (hn : k < n) (hm : k < m) :
    (∀ g ∈ G, (rankPivot n m a k).1 g g ≠ 0) ∧ (∀ g ∈ G, ∀ r, g < r → r < n → (rankPivot n m a k).1 r g = 0) ∧
    (mat n m (rankPivot n m a k).1).rank ≤ (mat n m A).rank ∧ ((rankPivot n m a k).2 = false → (rankPivot n m a k).1 k k ≠ 0) := by
  -- the column phase
  set a1 := (if a k k = 0 then
      match (rng (k + 2) m).find? (fun i => decide (a k i ≠ 0)) with
      | some j => colOp a k j 1
      | none => a
    else a) with ha1
  have h1 : (∀ g ∈ G, a1 g g ≠ 0) ∧ (∀ g ∈ G, ∀ r, g < r → r < n → a1 r g = 0) ∧ (mat n m a1).rank ≤ (mat n m A).rank := by
    rw [ha1]
    split
    · split
      · rename_i hz j hj
        have hjm := mem_rng.mp (List.mem_of_find?_eq_some hj)
        refine ⟨?_, ?_, (rank_colOp a hm (by omega) 1).trans h.rank⟩
        · intro g hg
          have := h.lt g hg
          simp only [colOp, if_neg (show g ≠ k by omega)]; exact h.piv g hg
        · intro g hg r hr hrn
          have := h.lt g hg
          simp only [colOp, if_neg (show g ≠ k by omega)]; exact h.low g hg r hr hrn
      · exact ⟨h.piv, h.low, h.rank⟩
    · exact ⟨h.piv, h.low, h.rank⟩
  have hrw : rankPivot n m a k = if a1 k k = 0 then
    match (rng (k + 2) n).find? (fun j => decide (a1 j k ≠ 0)) with
    | some i => (rowOp a1 k i 1, false)
    | none => (a1, true)
  else (a1, false) := rfl
  rw [hrw]
  split
  · rename_i hz
    split
    · rename_i i hi
      have him := mem_rng.mp (List.mem_of_find?_eq_some hi)
      have hnz : a1 i k ≠ 0 := by have := List.find?_some hi; simpa using this
      refine ⟨?_, ?_, (rank_rowOp a1 hn (by omega) 1).trans h1.2.2, ?_⟩
      · intro g hg
        have := h.lt g hg
        simp only [rowOp, if_neg (show g ≠ k by omega)]; exact h1.1 g hg
      · intro g hg r hr hrn
        have := h.lt g hg
        simp only [rowOp]
        split
        · rw [h1.2.1 g hg k (by omega) hn, h1.2.1 g hg i (by omega) (by omega)]; ring
        · exact h1.2.1 g hg r hr hrn
      · intro _
        simp only [rowOp, if_true]; rw [hz]; simpa using hnz
    · exact ⟨h1.1, h1.2.1, h1.2.2, fun h => by simp at h⟩
  · rename_i hz
    exact ⟨h1.1, h1.2.1, h1.2.2, fun _ => hz⟩

theorem rankElim_spec {A a : Nat → Nat → K} {k s : Nat} {G : Finset Nat} (hlt : ∀ g ∈ G, g < k) (hpiv : ∀ g ∈ G, a g g ≠ 0)
    (hlow : ∀ g ∈ G, ∀ r, g < r → r < n → a r g = 0) (hr : (mat n m a).rank ≤ (mat n m A).rank) (hz : a k k ≠ 0) (hn : k < n) :
    (∀ g ∈ G, rankElim n a k g g ≠ 0) ∧ (∀ g ∈ G, ∀ r, g < r → r < n → rankElim n a k r g = 0) ∧
    (mat n m (rankElim n a k)).rank ≤ (mat n m A).rank ∧ rankElim n a k k k ≠ 0 ∧ (∀ r, k < r → r < n → rankElim n a k r k = 0) := by
  set b := rowOp a k k (1 / a k k - 1) with hb
  have hbk : b k k = 1 := by simp only [hb, rowOp, if_true]; field_simp; ring
  have hbl : ∀ g ∈ G, ∀ r, g < r → r < n → b r g = 0 := by
    intro g hg r h1 h2
    simp only [hb, rowOp]
    split
    · rw [hlow g hg k (hlt g hg) hn]; ring
    · exact hlow g hg r h1 h2
  have hbp : ∀ g ∈ G, b g g ≠ 0 := by
    intro g hg
    have := hlt g hg
    simp only [hb, rowOp, if_neg (show g ≠ k by omega)]; exact hpiv g hg
  have hbr : (mat n m b).rank ≤ (mat n m A).rank := (rank_rowOp a hn hn _).trans hr
  have key : ∀ (d lo : Nat) (b : Nat → Nat → K), n - lo = d → k < lo → b k k = 1 → (∀ g ∈ G, ∀ r, g < r → r < n → b r g = 0) →
      (∀ g ∈ G, b g g ≠ 0) → (mat n m b).rank ≤ (mat n m A).rank → (∀ r, k < r → r < lo → r < n → b r k = 0) →
      let c := (rng lo n).foldl (fun a l => if a l k = 0 then a else rowOp a l k ((0 - 1) * a l k)) b
      c k k = 1 ∧ (∀ g ∈ G, ∀ r, g < r → r < n → c r g = 0) ∧ (∀ g ∈ G, c g g ≠ 0) ∧ (mat n m c).rank ≤ (mat n m A).rank ∧
        (∀ r, k < r → r < n → c r k = 0) := by
    intro d
    induction d with
    | zero =>
      intro lo b hd hlo h1 h2 h3 h4 h5
      have : rng lo n = [] := by simp [rng]; omega
      rw [this]
      exact ⟨h1, h2, h3, h4, fun r a b => h5 r a (by omega) b⟩
    | succ d ih =>
      intro lo b hd hlo h1 h2 h3 h4 h5
      have : rng lo n = lo :: rng (lo + 1) n := by
        simp only [rng]; rw [show n - lo = (n - (lo + 1)) + 1 by omega, List.range'_succ]
      rw [this, List.foldl_cons]
      apply ih (lo + 1) _ (by omega) (by omega)
      · split
        · exact h1
        · simp only [rowOp, if_neg (show k ≠ lo by omega)]; exact h1
      · intro g hg r hgr hrn
        have := hlt g hg
        split
        · exact h2 g hg r hgr hrn
        · simp only [rowOp]
          split
          · rw [h2 g hg lo (by omega) (by omega), h2 g hg k (by omega) hn]; ring
          · exact h2 g hg r hgr hrn
      · intro g hg
        have := hlt g hg
        split
        · exact h3 g hg
        · simp only [rowOp, if_neg (show g ≠ lo by omega)]; exact h3 g hg
      · split
        · exact h4
        · exact (rank_rowOp b (by omega) hn _).trans h4
      · intro r hkr hr hrn
        by_cases e : r = lo
        · subst e
          split
          · assumption
          · simp only [rowOp, if_true, h1]; ring
        · split
          · exact h5 r hkr (by omega) hrn
          · simp only [rowOp, if_neg e]; exact h5 r hkr (by omega) hrn
  have := key _ (k + 1) b rfl (by omega) hbk hbl hbp hbr (fun r h1 h2 => by omega)
  exact ⟨this.2.2.1, this.2.1, this.2.2.2.1, by rw [show rankElim n a k k k = 1 from this.1]; exact one_ne_zero, this.2.2.2.2⟩

theorem rankStep_spec {A a : Nat → Nat → K} {k s : Nat} {G : Finset Nat} (h : RInv n m A a k s G) (hn : k < n) (hm : k < m) :
    ∃ G', RInv n m A (rankStep n m (a, s) k).1 (k + 1) (rankStep n m (a, s) k).2 G' := by
  obtain ⟨p1, p2, p3, p4⟩ := rankPivot_spec h hn hm
  have hc := h.card
  by_cases hb : (rankPivot n m a k).2 = true
  · refine ⟨G, ?_⟩
    have e : rankStep n m (a, s) k = ((rankPivot n m a k).1, s + 1) := by simp [rankStep, hb]
    rw [e]
    exact ⟨fun g hg => Nat.lt_succ_of_lt (h.lt g hg), by omega, p1, p2, p3⟩
  · rw [Bool.not_eq_true] at hb
    obtain ⟨q1, q2, q3, q4, q5⟩ := rankElim_spec (s := s) h.lt p1 p2 p3 (p4 hb) hn
    have e : rankStep n m (a, s) k = (rankElim n (rankPivot n m a k).1 k, s) := by simp [rankStep, hb]
    have hk : k ∉ G := fun hk => by have := h.lt k hk; omega
    refine ⟨insert k G, ?_⟩
    rw [e]
    refine ⟨?_, by rw [card_insert_of_notMem hk]; omega, ?_, ?_, q3⟩
    · intro g hg
      rcases mem_insert.mp hg with rfl | hg
      · omega
      · have := h.lt g hg; omega
    · intro g hg
      rcases mem_insert.mp hg with rfl | hg
      · exact q4
      · exact q1 g hg
    · intro g hg
      rcases mem_insert.mp hg with rfl | hg
      · exact q5
      · exact q2 g hg

theorem rinv_rank {A a : Nat → Nat → K} {k s : Nat} {G : Finset Nat} (h : RInv n m A a k s G) (hn : k ≤ n) (hm : k ≤ m) :
    G.card ≤ (mat n m A).rank := by
  refine le_trans ?_ h.rank
  let e := G.orderEmbOfFin rfl
  have hG : ∀ i, e i ∈ G := fun i => G.orderEmbOfFin_mem rfl i
  let e1 : Fin G.card → Fin n := fun i => ⟨e i, by have := h.lt _ (hG i); omega⟩
  let e2 : Fin G.card → Fin m := fun i => ⟨e i, by have := h.lt _ (hG i); omega⟩
  have hdet : IsUnit ((mat n m a).submatrix e1 e2) := by
    rw [Matrix.isUnit_iff_isUnit_det, Matrix.det_of_isUpperTriangular, isUnit_iff_ne_zero, Finset.prod_ne_zero_iff]
    · intro i _
      exact h.piv _ (hG i)
    · intro i j hij
      simp only [Matrix.submatrix_apply, mat, Matrix.of_apply, e1, e2]
      exact h.low _ (hG j) _ (e.strictMono hij) (by have := h.lt _ (hG i); omega)
  calc G.card = ((mat n m a).submatrix e1 e2).rank := by rw [Matrix.rank_of_isUnit _ hdet, Fintype.card_fin]
    _ ≤ _ := rank_submatrix_le' _ _ _

theorem rank_main (A : Nat → Nat → K) : ∀ k, k ≤ min n m → ∃ G, RInv n m A ((List.range k).foldl (rankStep n m) (A, 0)).1 k
    ((List.range k).foldl (rankStep n m) (A, 0)).2 G := by
  intro k
  induction k with
  | zero => intro _; exact ⟨∅, by simp, by simp, by simp, by simp, le_refl _⟩
  | succ k ih =>
    intro hk
    obtain ⟨G, hG⟩ := ih (by omega)
    rw [List.range_succ, List.foldl_append]
    exact rankStep_spec hG (by omega) (by omega)

/-- **C37**, lower bound: the value returned never exceeds the rank of the matrix. -/
theorem c37_le_rank_partial (A : Nat → Nat → K) : rankAsLinearMap n m A ≤ (mat n m A).rank := by
  obtain ⟨G, hG⟩ := rank_main A (min n m) le_rfl
  have := rinv_rank hG (by omega) (by omega)
  have := hG.card
  rw [rankAsLinearMap]; omega

/-- **C37** for full rank answers: if the function answers `min(rows, columns)`, that is the rank.
What is missing of C37: equality in all cases, which fails (`c37_false`). -/
theorem c37_full_partial (A : Nat → Nat → K) (h : rankAsLinearMap n m A = min n m) : rankAsLinearMap n m A = (mat n m A).rank := by
  have h1 := c37_le_rank_partial (n := n) (m := m) A
  have h2 := (mat n m A).rank_le_height
  have h3 := (mat n m A).rank_le_width
  omega

/-- **C37** for vectors: a one-row or one-column matrix whose first entry is non-zero gets rank one. -/
theorem c37_vector_partial (A : Nat → Nat → K) (hn : 0 < n) (hm : 0 < m) (h1 : n = 1 ∨ m = 1) (h0 : A 0 0 ≠ 0) :
    rankAsLinearMap n m A = (mat n m A).rank := by
  apply c37_full_partial
  have : min n m = 1 := by omega
  simp [rankAsLinearMap, this, rankStep, rankPivot, h0]

/-! ### leading principal minors -/

theorem mat_rowOp_low (a : Nat → Nat → K) {j r1 r2 : Nat} (h : j ≤ r1) (c : K) : mat j j (rowOp a r1 r2 c) = mat j j a := by
  ext x y
  have := x.2
  simp only [mat, Matrix.of_apply, rowOp, if_neg (show x.1 ≠ r1 by omega)]

theorem rowOp_undo (a : Nat → Nat → K) {r1 r2 : Nat} (h : r1 ≠ r2) (c : K) : rowOp (rowOp a r1 r2 c) r1 r2 (-c) = a := by
  funext i j
  simp only [rowOp, if_true, if_neg h.symm]
  split
  · rename_i e; rw [e]; ring
  · rfl

theorem rowOp_undo_self (a : Nat → Nat → K) (r : Nat) {c : K} (h : 1 + c ≠ 0) : rowOp (rowOp a r r c) r r (1 / (1 + c) - 1) = a := by
  funext i j
  simp only [rowOp, if_true]
  split
  · rename_i e; rw [e]; field_simp; ring
  · rfl

/-- a row operation that can be undone does not change which leading principal minors vanish -/
theorem minor_rowOp {a : Nat → Nat → K} {j r1 r2 : Nat} (h21 : r2 ≤ r1) (c d : K) (hu : rowOp (rowOp a r1 r2 c) r1 r2 d = a)
    (h : (mat j j a).det ≠ 0) : (mat j j (rowOp a r1 r2 c)).det ≠ 0 := by
  by_cases hj : j ≤ r1
  · rwa [mat_rowOp_low a hj]
  · have h1 := mat_rowOp (n := j) (m := j) (rowOp a r1 r2 c) (r1 := r1) (r2 := r2) (by omega) (by omega) d
    rw [hu] at h1
    rw [h1, Matrix.det_mul] at h
    exact right_ne_zero_of_mul h

/-- the state after `k` rounds when the leading principal minors up to size `r` do not vanish -/
structure Lead (n r : Nat) (a : Nat → Nat → K) (k : Nat) : Prop where
  minors : ∀ j ≤ r, (mat j j a).det ≠ 0
  low : ∀ c < k, ∀ x, c < x → x < n → a x c = 0

theorem Lead.piv {r k : Nat} {a : Nat → Nat → K} (h : Lead n r a k) (hk : k < r) (hr : r ≤ n) : a k k ≠ 0 := by
  intro hz
  refine h.minors (k + 1) (by omega) (Matrix.det_eq_zero_of_row_eq_zero ⟨k, by omega⟩ ?_)
  intro c
  simp only [mat, Matrix.of_apply]
  by_cases e : c.1 = k
  · rw [e]; exact hz
  · exact h.low c (by have := c.2; omega) k (by have := c.2; omega) (by omega)

theorem Lead.elim {r k : Nat} {a : Nat → Nat → K} (h : Lead n r a k) (hk : k < r) (hr : r ≤ n) : Lead n r (rankElim n a k) (k + 1) := by
  have hz := h.piv hk hr
  set b := rowOp a k k (1 / a k k - 1) with hb
  have hbk : b k k = 1 := by simp only [hb, rowOp, if_true]; field_simp; ring
  have hb0 : Lead n r b k := by
    refine ⟨fun j hj => minor_rowOp le_rfl _ _ (rowOp_undo_self a k ?_) (h.minors j hj), ?_⟩
    · rw [add_sub_cancel]; exact one_div_ne_zero hz
    · intro c hc x hx hxn
      simp only [hb, rowOp]
      split
      · rw [h.low c hc k hc (by omega)]; ring
      · exact h.low c hc x hx hxn
  have key : ∀ (l : List Nat) (b : Nat → Nat → K), (∀ x ∈ l, k < x ∧ x < n) → b k k = 1 → Lead n r b k →
      let c := l.foldl (fun a l => if a l k = 0 then a else rowOp a l k ((0 - 1) * a l k)) b
      Lead n r c k ∧ (∀ x ∈ l, c x k = 0) ∧ ∀ x, b x k = 0 → x ≠ k → c x k = 0 := by
    intro l
    induction l with
    | nil => intro b _ _ hL; exact ⟨hL, by simp, fun x h _ => h⟩
    | cons y l ih =>
      intro b hl hb hL
      obtain ⟨hy1, hy2⟩ := hl y (by simp)
      rw [List.foldl_cons]
      set b' := (if b y k = 0 then b else rowOp b y k ((0 - 1) * b y k)) with hb'
      have e1 : b' k k = 1 := by
        rw [hb']; split
        · exact hb
        · simp only [rowOp, if_neg (show k ≠ y by omega)]; exact hb
      have e2 : Lead n r b' k := by
        rw [hb']; split
        · exact hL
        · refine ⟨fun j hj => minor_rowOp (by omega) _ _ (rowOp_undo b (by omega) _) (hL.minors j hj), ?_⟩
          intro c hc x hx hxn
          simp only [rowOp]
          split
          · rw [hL.low c hc y (by omega) hy2, hL.low c hc k hc (by omega)]; ring
          · exact hL.low c hc x hx hxn
      have e3 : b' y k = 0 := by
        rw [hb']; split
        · assumption
        · simp only [rowOp, if_true, hb]; ring
      have e4 : ∀ x, b x k = 0 → x ≠ k → b' x k = 0 := by
        intro x hx hxk
        rw [hb']; split
        · exact hx
        · rename_i hne
          simp only [rowOp]
          split
          · rename_i e; rw [e] at hx; exact absurd hx hne
          · exact hx
      obtain ⟨q1, q2, q3⟩ := ih b' (fun x hx => hl x (List.mem_cons_of_mem _ hx)) e1 e2
      refine ⟨q1, ?_, fun x hx hxk => q3 x (e4 x hx hxk) hxk⟩
      intro x hx
      rcases List.mem_cons.mp hx with rfl | hx
      · exact q3 x e3 (by omega)
      · exact q2 x hx
  obtain ⟨q1, q2, _⟩ := key (rng (k + 1) n) b (fun x hx => by have := mem_rng.mp hx; omega) hbk hb0
  refine ⟨q1.minors, fun c hc x hx hxn => ?_⟩
  by_cases e : c = k
  · rw [e]; exact q2 x (mem_rng.mpr ⟨by omega, hxn⟩)
  · exact q1.low c (by omega) x hx hxn

theorem rankStep_skipped (s : (Nat → Nat → K) × Nat) (k : Nat) : (rankStep n m s k).2 ≤ s.2 + 1 := by
  simp only [rankStep]
  split <;> simp

theorem foldl_skipped (l : List Nat) (s : (Nat → Nat → K) × Nat) : (l.foldl (rankStep n m) s).2 ≤ s.2 + l.length := by
  induction l generalizing s with
  | nil => simp
  | cons k l ih =>
    rw [List.foldl_cons, List.length_cons]
    have := ih (rankStep n m s k)
    have := rankStep_skipped (n := n) (m := m) s k
    omega

/-- **C37** in the generic case: the value is the rank `r` if the leading principal minors of sizes `1, …, r` are non-zero. -/
theorem c37_minors_partial (A : Nat → Nat → K) (h : ∀ j ≤ (mat n m A).rank, (mat j j A).det ≠ 0) : rankAsLinearMap n m A = (mat n m A).rank := by
  set r := (mat n m A).rank with hr
  have hrn : r ≤ n := (mat n m A).rank_le_height
  have hrm : r ≤ m := (mat n m A).rank_le_width
  have hle := c37_le_rank_partial (n := n) (m := m) A
  have key : ∀ k ≤ r, ((List.range k).foldl (rankStep n m) (A, 0)).2 = 0 ∧ Lead n r ((List.range k).foldl (rankStep n m) (A, 0)).1 k := by
    intro k
    induction k with
    | zero => intro _; exact ⟨rfl, h, fun c hc => absurd hc (Nat.not_lt_zero _)⟩
    | succ k ih =>
      intro hk
      obtain ⟨h1, h2⟩ := ih (by omega)
      rw [List.range_succ, List.foldl_append, List.foldl_cons, List.foldl_nil]
      set s := (List.range k).foldl (rankStep n m) (A, 0)
      have hz := h2.piv (by omega) hrn
      have e : rankStep n m s k = (rankElim n s.1 k, s.2) := by
        simp [rankStep, rankPivot, hz]
      rw [e]
      exact ⟨h1, h2.elim (by omega) hrn⟩
  have hsplit : List.range (min n m) = List.range r ++ (List.range (min n m - r)).map (r + ·) := by
    rw [← List.range_add]; congr 1; omega
  have hsk : ((List.range (min n m)).foldl (rankStep n m) (A, 0)).2 ≤ min n m - r := by
    rw [hsplit, List.foldl_append]
    have := foldl_skipped (n := n) (m := m) ((List.range (min n m - r)).map (r + ·)) ((List.range r).foldl (rankStep n m) (A, 0))
    rw [(key r le_rfl).1] at this
    simpa using this
  rw [rankAsLinearMap] at hle ⊢
  omega

/-- a case: the `2 × 3` matrix of ones, of rank 1 -/
example : (∀ j ≤ (mat 2 3 (fun _ _ => (1 : K))).rank, (mat j j (fun _ _ => (1 : K))).det ≠ 0) ∧ rankAsLinearMap 2 3 (fun _ _ => (1 : K)) = 1 := by
  constructor
  · have hr : (mat 2 3 (fun _ _ => (1 : K))).rank ≤ 1 := by
      have : mat 2 3 (fun _ _ => (1 : K)) = Matrix.vecMulVec (fun _ => 1) (fun _ => 1) := by
        ext i j; simp [mat, Matrix.vecMulVec_apply]
      rw [this]; exact Matrix.rank_vecMulVec_le _ _
    intro j hj
    obtain rfl | rfl : j = 0 ∨ j = 1 := by omega
    · simp
    · simp [mat]
  · simp [rankAsLinearMap, List.range_succ, rankStep, rankPivot, rankElim, rng, rowOp]

/-- **C37 fails**: for all non-zero `x`, `y` the invertible matrix `[[0, x], [y, 0]]` is reported to have rank 0
(the searches start at `k+2` instead of `k+1`, lines 1084 and 1091). -/
theorem c37_false (x y : K) (hx : x ≠ 0) (hy : y ≠ 0) :
    let A : Nat → Nat → K := fun i j => if i = 0 ∧ j = 1 then x else if i = 1 ∧ j = 0 then y else 0
    rankAsLinearMap 2 2 A = 0 ∧ (mat 2 2 A).rank = 2 := by
  intro A
  constructor
  · simp [rankAsLinearMap, List.range_succ, rankStep, rankPivot, rng, A]
  · have : IsUnit (mat 2 2 A) := by
      rw [Matrix.isUnit_iff_isUnit_det, Matrix.det_fin_two]
      simp [mat, A, hx, hy]
    rw [Matrix.rank_of_isUnit _ this, Fintype.card_fin]

/-! ## C38 -/

/-- the unit lower triangular factor stored in `b` -/
def lowerOf (b : Nat → Nat → K) : Nat → Nat → K := fun r k => if k < r then b r k else if r = k then 1 else 0
/-- the upper triangular factor stored in `b` -/
def upperOf (b : Nat → Nat → K) : Nat → Nat → K := fun k c => if k ≤ c then b k c else 0

/-- state after `i` rounds of `lu` -/
structure LInv (n : Nat) (A b : Nat → Nat → K) (i : Nat) : Prop where
  eq : ∀ r c, r < n → c < n → A r c = ∑ k ∈ range i, lowerOf b r k * upperOf b k c + if i ≤ r ∧ i ≤ c then b r c else 0
  piv : ∀ k < i, b k k ≠ 0

theorem luStep_spec {A b : Nat → Nat → K} {i : Nat} (h : LInv n A b i) (hi : i < n) (hz : b i i ≠ 0) :
    ∃ b', luStep n b i = some b' ∧ LInv n A b' (i + 1) ∧ (∀ r c, r ≤ i → b' r c = b r c) ∧ (∀ r c, c < i → b' r c = b r c) := by
  have hs : luStep n b i = some (fun r c => if i + 1 ≤ r ∧ r < n ∧ i + 1 ≤ c ∧ c < n then
      (if i + 1 ≤ r ∧ r < n ∧ c = i then b r i / b i i else b r c) -
      (if i + 1 ≤ r ∧ r < n ∧ i = i then b r i / b i i else b r i) * (if i + 1 ≤ i ∧ i < n ∧ c = i then b i i / b i i else b i c)
      else (if i + 1 ≤ r ∧ r < n ∧ c = i then b r i / b i i else b r c)) := by
    rw [luStep, if_neg hz]
  refine ⟨_, hs, ?_, ?_, ?_⟩
  · set b' := (fun r c => if i + 1 ≤ r ∧ r < n ∧ i + 1 ≤ c ∧ c < n then
      (if i + 1 ≤ r ∧ r < n ∧ c = i then b r i / b i i else b r c) -
      (if i + 1 ≤ r ∧ r < n ∧ i = i then b r i / b i i else b r i) * (if i + 1 ≤ i ∧ i < n ∧ c = i then b i i / b i i else b i c)
      else (if i + 1 ≤ r ∧ r < n ∧ c = i then b r i / b i i else b r c)) with hb'
    have e1 : ∀ r c, r ≤ i → b' r c = b r c := by
      intro r c hr; simp only [hb']; rw [if_neg (by omega), if_neg (by omega)]
    have e2 : ∀ r c, c < i → b' r c = b r c := by
      intro r c hr; simp only [hb']; rw [if_neg (by omega), if_neg (by omega)]
    have e3 : ∀ r, i < r → r < n → b' r i = b r i / b i i := by
      intro r h1 h2; simp [hb', Nat.succ_le_iff, h1, h2]
    have e4 : ∀ r c, i < r → r < n → i < c → c < n → b' r c = b r c - b r i / b i i * b i c := by
      intro r c h1 h2 h3 h4; simp [hb', Nat.succ_le_iff, h1, h2, h3, h4, show c ≠ i by omega]
    constructor
    · intro r c hr hc
      rw [h.eq r c hr hc, sum_range_succ]
      have hsum : ∑ k ∈ range i, lowerOf b' r k * upperOf b' k c = ∑ k ∈ range i, lowerOf b r k * upperOf b k c := by
        apply sum_congr rfl
        intro k hk
        rw [mem_range] at hk
        simp only [lowerOf, upperOf]
        rw [e2 r k hk, e1 k c (by omega)]
      rw [hsum, add_assoc]
      congr 1
      simp only [lowerOf, upperOf]
      rw [e1 i c le_rfl]
      rcases Nat.lt_trichotomy r i with h1 | h1 | h1
      · split_ifs <;> first | omega | ring
      · subst h1
        split_ifs <;> first | omega | ring
      · rw [e3 r h1 hr]
        rcases Nat.lt_trichotomy c i with h2 | h2 | h2
        · split_ifs <;> first | omega | ring
        · subst h2
          split_ifs <;> first | omega | (field_simp; ring)
        · rw [e4 r c h1 hr h2 hc]; split_ifs <;> first | omega | ring
    · intro k hk
      by_cases hki : k = i
      · subst hki; rw [e1 k k le_rfl]; exact hz
      · rw [e1 k k (by omega)]; exact h.piv k (by omega)
  · intro r c hr; simp only []; rw [if_neg (by omega), if_neg (by omega)]
  · intro r c hr; simp only []; rw [if_neg (by omega), if_neg (by omega)]

theorem lu_run {A : Nat → Nat → K} : ∀ i, i ≤ n → ∀ b, (List.range i).foldlM (luStep n) A = some b → LInv n A b i := by
  intro i
  induction i with
  | zero =>
    intro _ b h
    simp at h; subst h
    exact ⟨fun r c _ _ => by simp, fun k hk => by omega⟩
  | succ i ih =>
    intro hi b h
    rw [List.range_succ, List.foldlM_append] at h
    cases h1 : (List.range i).foldlM (luStep n) A with
    | none => rw [h1] at h; simp at h
    | some b1 =>
      rw [h1] at h
      have hI := ih (by omega) b1 h1
      have h2 : luStep n b1 i = some b := by simpa using h
      by_cases hz : b1 i i = 0
      · rw [luStep, if_pos hz] at h2; cases h2
      · obtain ⟨b', e1, e2, _⟩ := luStep_spec hI (by omega) hz
        rw [e1] at h2; cases h2; exact e2

theorem linv_fact {A b : Nat → Nat → K} {i : Nat} (h : LInv n A b i) (hi : i < n) {r c : Nat} (hr : r ≤ i) (hc : c ≤ i) :
    A r c = ∑ k ∈ range (i + 1), lowerOf b r k * upperOf b k c := by
  rw [h.eq r c (by omega) (by omega), sum_range_succ]
  congr 1
  simp only [lowerOf, upperOf]
  by_cases e : r = i
  · subst e; split_ifs <;> first | omega | ring
  · split_ifs <;> first | omega | ring

/-- state before round `i`: the leading `(i+1) × (i+1)` minor is the product of the pivots -/
theorem linv_minor {A b : Nat → Nat → K} {i : Nat} (h : LInv n A b i) (hi : i < n) :
    (mat (i + 1) (i + 1) A).det = ∏ k ∈ range (i + 1), b k k := by
  have hf : mat (i + 1) (i + 1) A = mat (i + 1) (i + 1) (lowerOf b) * mat (i + 1) (i + 1) (upperOf b) := by
    ext r c
    rw [Matrix.mul_apply]
    simp only [mat, Matrix.of_apply]
    rw [linv_fact h hi (Nat.lt_succ_iff.mp r.2) (Nat.lt_succ_iff.mp c.2), ← Finset.sum_range (f := fun k => lowerOf b r k * upperOf b k c)]
  rw [hf, Matrix.det_mul, Matrix.det_of_isLowerTriangular, Matrix.det_of_isUpperTriangular]
  · have : ∏ x : Fin (i + 1), mat (i + 1) (i + 1) (lowerOf b) x x = 1 := by
      apply prod_eq_one; intro x _; simp [mat, lowerOf]
    rw [this, one_mul, Finset.prod_range]
    apply prod_congr rfl; intro x _; simp [mat, upperOf]
  · intro r c hrc
    have : (r : Nat) > c := hrc
    simp only [mat, Matrix.of_apply, upperOf]; rw [if_neg (by omega)]
  · intro r c hrc
    have : (r : Nat) < c := hrc
    simp only [mat, Matrix.of_apply, lowerOf]; rw [if_neg (by omega), if_neg (by omega)]

/-- **C38**, `lu`: when it returns, the strictly lower part (with unit diagonal) times the upper part of the result is `A`, and
the first `n - 1` pivots are non-zero. -/
theorem c38_lu {A b : Nat → Nat → K} (h : lu n A = some b) :
    mat n n (lowerOf b) * mat n n (upperOf b) = mat n n A ∧ ∀ k, k + 1 < n → b k k ≠ 0 := by
  rw [lu] at h
  split at h
  · cases h
  · rename_i hn
    have hI := lu_run (n - 1) (by omega) b h
    refine ⟨?_, fun k hk => hI.piv k (by omega)⟩
    ext r c
    rw [Matrix.mul_apply]
    simp only [mat, Matrix.of_apply]
    have hr := r.2
    have hc := c.2
    rw [linv_fact hI (by omega) (r := r) (c := c) (by omega) (by omega), ← Finset.sum_range (f := fun k => lowerOf b r k * upperOf b k c)]
    congr 2
    omega

/-- **C38**, when `lu` returns: exactly for the non-empty matrices all of whose leading principal minors of size `1 .. n-1` are
non-zero (there is no pivoting). -/
theorem c38_lu_iff (A : Nat → Nat → K) : (∃ b, lu n A = some b) ↔ 0 < n ∧ ∀ k, 1 ≤ k → k < n → (mat k k A).det ≠ 0 := by
  have key : ∀ i, i < n → ((∃ b, (List.range i).foldlM (luStep n) A = some b) ↔ ∀ k, 1 ≤ k → k ≤ i → (mat k k A).det ≠ 0) := by
    intro i
    induction i with
    | zero => intro _; constructor
              · intro _ k h1 h2; omega
              · intro _; exact ⟨A, rfl⟩
    | succ i ih =>
      intro hi
      rw [List.range_succ]
      constructor
      · rintro ⟨b, hb⟩ k h1 h2
        rw [List.foldlM_append] at hb
        cases h3 : (List.range i).foldlM (luStep n) A with
        | none => rw [h3] at hb; simp at hb
        | some b1 =>
          rw [h3] at hb
          by_cases hk : k = i + 1
          · subst hk
            have hI := lu_run i (by omega) b1 h3
            rw [linv_minor hI (by omega), Finset.prod_range_succ]
            have h4 : luStep n b1 i = some b := by simpa using hb
            have hz : b1 i i ≠ 0 := by intro hz; rw [luStep, if_pos hz] at h4; cases h4
            exact mul_ne_zero (Finset.prod_ne_zero_iff.mpr fun k hk => hI.piv k (mem_range.mp hk)) hz
          · exact (ih (by omega)).mp ⟨b1, h3⟩ k h1 (by omega)
      · intro hd
        obtain ⟨b1, h3⟩ := (ih (by omega)).mpr (fun k a b => hd k a (by omega))
        have hI := lu_run i (by omega) b1 h3
        have hz : b1 i i ≠ 0 := by
          intro hz
          have := hd (i + 1) (by omega) le_rfl
          rw [linv_minor hI (by omega), Finset.prod_range_succ, hz, mul_zero] at this
          exact this rfl
        obtain ⟨b', e1, _⟩ := luStep_spec hI (by omega) hz
        refine ⟨b', ?_⟩
        rw [List.foldlM_append, h3]; simp [e1]
  rw [lu]
  split
  · rename_i h; subst h; simp
  · rename_i h
    rw [key (n - 1) (by omega)]
    constructor
    · intro h1; exact ⟨by omega, fun k a b => h1 k a (by omega)⟩
    · rintro ⟨_, h1⟩ k a b; exact h1 k a (by omega)

theorem foldl_prod (n : Nat) (h : Nat → K) : (List.range n).foldl (fun p i => p * h i) 1 = ∏ k ∈ range n, h k := by
  induction n with
  | zero => simp
  | succ n ih => rw [List.range_succ, List.foldl_append, ih, Finset.prod_range_succ]; rfl

/-- **C38**, `det`: whenever it returns on a square matrix, the value is the determinant. -/
theorem c38_det {A : Nat → Nat → K} {d : K} (h : det n n A = some d) : d = (mat n n A).det := by
  simp only [det, ne_eq, not_true, if_false, Option.map_eq_some_iff] at h
  obtain ⟨b, h1, h2⟩ := h
  rw [foldl_prod] at h2
  rw [lu] at h1
  split at h1
  · cases h1
  · rename_i hn
    have := linv_minor (lu_run (n - 1) (by omega) b h1) (by omega)
    rw [show n - 1 + 1 = n by omega] at this
    rw [this, ← h2]

/-- **C38**, `det` of a non-square matrix is defined to be 0. -/
theorem c38_det_nonsquare (A : Nat → Nat → K) (h : n ≠ m) : det n m A = some 0 := by simp [det, h]

/-- **C38**: without pivoting `det` and `solve` break down (division by zero) on an invertible matrix. -/
theorem c38_no_pivot_false (x y : K) (hx : x ≠ 0) (hy : y ≠ 0) (v : Nat → K) :
    let A : Nat → Nat → K := fun i j => if i = 0 ∧ j = 1 then x else if i = 1 ∧ j = 0 then y else 0
    (mat 2 2 A).det ≠ 0 ∧ det 2 2 A = none ∧ solve 2 A v = none := by
  intro A
  have hl : lu 2 A = none := by simp [lu, luStep, A]
  refine ⟨?_, by simp [det, hl], by simp [solve, hl]⟩
  rw [Matrix.det_fin_two]; simp [mat, A, hx, hy]

theorem fwd_spec (f : Nat → Nat → K) (b : Nat → K) : ∀ i, 1 ≤ i →
    let y := (rng 1 i).foldl (fwdStep f) b
    (∀ r, r < i → y r + ∑ k ∈ range r, f r k * y k = b r) ∧ ∀ r, i ≤ r → y r = b r := by
  intro i
  induction i with
  | zero => intro h; omega
  | succ i ih =>
    intro hi
    by_cases h0 : i = 0
    · subst h0
      simp only [rng, Nat.sub_self, List.range'_zero, List.foldl_nil]
      refine ⟨fun r hr => ?_, fun _ _ => trivial⟩
      have : r = 0 := by omega
      subst this; simp
    · obtain ⟨h1, h2⟩ := ih (by omega)
      have hr : rng 1 (i + 1) = rng 1 i ++ [i] := by
        simp only [rng]; rw [show i + 1 - 1 = (i - 1) + 1 by omega, List.range'_concat]; congr; omega
      rw [hr, List.foldl_append]
      set y := (rng 1 i).foldl (fwdStep f) b
      simp only [List.foldl_cons, List.foldl_nil, fwdStep]
      constructor
      · intro r hr
        have hs : ∀ r, r ≤ i → ∑ k ∈ range r, f r k * (if k = i then y i - ∑ k ∈ range i, f i k * y k else y k) = ∑ k ∈ range r, f r k * y k := by
          intro r hr
          apply sum_congr rfl; intro k hk
          rw [mem_range] at hk; rw [if_neg (by omega)]
        rw [hs r (by omega)]
        by_cases e : r = i
        · subst e; rw [if_pos rfl, h2 r le_rfl]; ring
        · rw [if_neg e]; exact h1 r (by omega)
      · intro r hr
        rw [if_neg (by omega)]; exact h2 r (by omega)

theorem bwd_spec (n : Nat) (f : Nat → Nat → K) (y : Nat → K) (hf : ∀ i < n, f i i ≠ 0) : ∀ d i, n - i = d → i ≤ n →
    let x := (List.range' i (n - i)).reverse.foldl (bwdStep n f) y
    (∀ r, i ≤ r → r < n → ∑ k ∈ Finset.Ico r n, f r k * x k = y r) ∧ ∀ r, r < i → x r = y r := by
  intro d
  induction d with
  | zero =>
    intro i hd hi
    have : n - i = 0 := by omega
    simp only [this, List.range'_zero, List.reverse_nil, List.foldl_nil]
    exact ⟨fun r h1 h2 => by omega, fun _ _ => trivial⟩
  | succ d ih =>
    intro i hd hi
    obtain ⟨h1, h2⟩ := ih (i + 1) (by omega) (by omega)
    have hr : List.range' i (n - i) = i :: List.range' (i + 1) (n - (i + 1)) := by
      rw [show n - i = (n - (i + 1)) + 1 by omega, List.range'_succ]
    rw [hr, List.reverse_cons, List.foldl_append]
    set x := (List.range' (i + 1) (n - (i + 1))).reverse.foldl (bwdStep n f) y
    simp only [List.foldl_cons, List.foldl_nil, bwdStep]
    have hs : ∀ r, i + 1 ≤ r → ∀ g : Nat → K, ∑ k ∈ Finset.Ico r n, g k * (if k = i then (x i - ∑ k ∈ Finset.Ico (i + 1) n, f i k * x k) / f i i else x k) = ∑ k ∈ Finset.Ico r n, g k * x k := by
      intro r hr g
      apply sum_congr rfl; intro k hk
      rw [Finset.mem_Ico] at hk; rw [if_neg (by omega)]
    constructor
    · intro r h3 h4
      by_cases e : r = i
      · subst e
        rw [Finset.sum_eq_sum_Ico_succ_bot h4, if_pos rfl, hs (r + 1) le_rfl, h2 r (by omega)]
        have := hf r h4
        field_simp; ring
      · rw [hs r (by omega)]; exact h1 r (by omega) h4
    · intro r hr
      rw [if_neg (by omega)]; exact h2 r (by omega)

/-- **C38**, `solve`: whenever it returns, the result solves `A x = b`. -/
theorem c38_solve {A : Nat → Nat → K} {b x : Nat → K} (h : solve n A b = some x) :
    Matrix.mulVec (mat n n A) (fun i => x i) = fun i : Fin n => b i := by
  simp only [solve, Option.bind_eq_bind, Option.bind_eq_some_iff] at h
  obtain ⟨f, h1, h2⟩ := h
  split at h2
  · rename_i hpiv
    have hpiv : ∀ i < n, f i i ≠ 0 := fun i hi => hpiv i (List.mem_range.mpr hi)
    have hx := (Option.some.inj h2).symm
    have hn : n ≠ 0 := by rintro rfl; simp [lu] at h1
    obtain ⟨hy1, hy2⟩ := fwd_spec f b n (by omega)
    set y := (rng 1 n).foldl (fwdStep f) b
    obtain ⟨hx1, _⟩ := bwd_spec n f y hpiv n 0 (by omega) (by omega)
    rw [Nat.sub_zero, ← List.range_eq_range', ← hx] at hx1
    rw [← (c38_lu h1).1, ← Matrix.mulVec_mulVec]
    have hU : Matrix.mulVec (mat n n (upperOf f)) (fun i => x i) = fun i : Fin n => y i := by
      funext i
      simp only [Matrix.mulVec, dotProduct, mat, Matrix.of_apply]
      rw [← Finset.sum_range (f := fun k => upperOf f i k * x k), ← hx1 i (by omega) i.2]
      rw [← Finset.sum_range_add_sum_Ico _ (Nat.le_of_lt i.2)]
      have e1 : ∑ k ∈ range i.1, upperOf f i k * x k = 0 := by
        apply sum_eq_zero; intro k hk
        rw [mem_range] at hk; simp only [upperOf]; rw [if_neg (by omega)]; ring
      rw [e1, zero_add]
      apply sum_congr rfl; intro k hk
      rw [Finset.mem_Ico] at hk; simp only [upperOf]; rw [if_pos (by omega)]
    rw [hU]
    funext i
    simp only [Matrix.mulVec, dotProduct, mat, Matrix.of_apply]
    rw [← Finset.sum_range (f := fun k => lowerOf f i k * y k), ← hy1 i i.2]
    rw [← Finset.sum_range_add_sum_Ico _ (Nat.le_of_lt i.2), Finset.sum_eq_sum_Ico_succ_bot i.2]
    have e1 : ∑ k ∈ Finset.Ico (i.1 + 1) n, lowerOf f i k * y k = 0 := by
      apply sum_eq_zero; intro k hk
      rw [Finset.mem_Ico] at hk; simp only [lowerOf]; rw [if_neg (by omega), if_neg (by omega)]; ring
    have e2 : ∑ k ∈ range i.1, lowerOf f i k * y k = ∑ k ∈ range i.1, f i k * y k := by
      apply sum_congr rfl; intro k hk
      rw [mem_range] at hk; simp only [lowerOf]; rw [if_pos hk]
    rw [e1, e2]
    simp [lowerOf]; ring
  · cases h2

/-- **C38**, `solve` returns exactly when all leading principal minors, including the determinant, are non-zero. -/
theorem c38_solve_iff (A : Nat → Nat → K) (b : Nat → K) :
    (∃ x, solve n A b = some x) ↔ 0 < n ∧ ∀ k, 1 ≤ k → k ≤ n → (mat k k A).det ≠ 0 := by
  constructor
  · rintro ⟨x, h⟩
    simp only [solve, Option.bind_eq_bind, Option.bind_eq_some_iff] at h
    obtain ⟨f, h1, h2⟩ := h
    split at h2
    · rename_i hpiv
      obtain ⟨hn, hd⟩ := (c38_lu_iff A).mp ⟨f, h1⟩
      refine ⟨hn, fun k h3 h4 => ?_⟩
      by_cases e : k = n
      · subst e
        have hI : LInv k A f (k - 1) := by
          rw [lu, if_neg (by omega)] at h1; exact lu_run (k - 1) (by omega) f h1
        have := linv_minor hI (by omega)
        rw [show k - 1 + 1 = k by omega] at this
        rw [this, Finset.prod_ne_zero_iff]
        intro i hi
        exact hpiv i (List.mem_range.mpr (mem_range.mp hi))
      · exact hd k h3 (by omega)
    · cases h2
  · rintro ⟨hn, hd⟩
    obtain ⟨f, h1⟩ := (c38_lu_iff A).mpr ⟨hn, fun k a b => hd k a (by omega)⟩
    have hI : LInv n A f (n - 1) := by
      rw [lu, if_neg (by omega)] at h1; exact lu_run (n - 1) (by omega) f h1
    have := linv_minor hI (by omega)
    rw [show n - 1 + 1 = n by omega] at this
    have h0 := hd n (by omega) le_rfl
    rw [this, Finset.prod_ne_zero_iff] at h0
    have hp : ∀ i ∈ List.range n, f i i ≠ 0 := fun i hi => h0 i (mem_range.mpr (List.mem_range.mp hi))
    exact ⟨_, by simp only [solve, h1, Option.bind_eq_bind, Option.bind_some]; rw [if_pos hp]; rfl⟩

/-! ### concrete cases -/

/-- `[[2, 1, 1], [4, 3, 3], [8, 7, 9]]`, all leading minors non-zero -/
def exA : Nat → Nat → ℚ := fun i j => ((([[2, 1, 1], [4, 3, 3], [8, 7, 9]] : List (List ℚ))[i]?.getD [])[j]?.getD 0)
example : det 3 3 exA = some 4 := by decide +kernel
example : (solve 3 exA (fun i => i + 1)).map (fun x => (x 0, x 1, x 2)) = some (1 / 2, 1 / 2, -1 / 2) := by decide +kernel
example : rankAsLinearMap 3 3 exA = 3 := by decide +kernel
end Toppo.LinAlg
