import Verif.Proof.Francis
set_option linter.unusedVariables false

/-
C80: the implicit double-shift QR step of Francis on an unreduced Hessenberg matrix; exact real arithmetic.
-/
namespace Toppo.RealAlg
open Finset Matrix

/-- an unreduced Hessenberg matrix: no zero on the first sub-diagonal -/
def Unreduced (n : Nat) (A : RM) : Prop := IsHess n A ∧ ∀ j, j + 1 < n → A (j + 1) j ≠ 0

/-- the last reflection -/
theorem francisLast_spec {n : Nat} (hn : 3 ≤ n) {A0 : RM} {f : FState} (h : FInv n (n - 2) A0 f) :
    IsHess n (francisLast n f) ∧ (0 ≤ francisLast n f (n - 2) (n - 3) → OrthSimilar (toM n A0) (toM n (francisLast n f))) ∧
    (toM n (francisLast n f)).det = (if francisLast n f (n - 2) (n - 3) < 0 then 9 else 1) * (toM n A0).det := by
  set x : Nat → ℝ := fun t => if t = 0 then f.x else f.y with hx
  set v := (hvec 1 x).1 with hv
  set b := (hvec 1 x).2 with hb
  set B := colsRefl (rowsRefl f.a (n - 2) 2 (n - 3) n v b) 0 n (n - 2) 2 v b with hB
  have hfl : francisLast n f = B := rfl
  rw [hfl]
  have hconj : toM n B = refl n (ext (n - 2) 2 v) b * toM n f.a * refl n (ext (n - 2) 2 v) b := by
    apply round_eq (by omega)
    · intro i j h1 h2 h3
      exact h.shape i j (by omega) (by omega) (by omega)
    · intro i j h1 h2 h3 h4
      omega
  have hcv : ∀ t, t < 2 → f.a (n - 2 + t) (n - 3) = x t := by
    intro t ht
    have e1 := h.hx (by omega)
    have e2 := h.hy (by omega)
    rw [show n - 2 - 1 = n - 3 by omega] at e1 e2
    rcases (by omega : t = 0 ∨ t = 1) with rfl | rfl
    · simp only [hx, if_pos, e1, Nat.add_zero]
    · simp only [hx, Nat.one_ne_zero, if_false, e2]
  have hs : ∑ t ∈ range 2, v t * f.a (n - 2 + t) (n - 3) = ∑ t ∈ range (1 + 1), v t * x t := by
    apply Finset.sum_congr rfl
    intro t ht
    rw [hcv t (Finset.mem_range.mp ht)]
  have hcol : ∀ t, t < 2 → B (n - 2 + t) (n - 3) = x t - v t * (∑ t ∈ range (1 + 1), v t * x t) * b := by
    intro t ht
    rw [hB]
    unfold colsRefl
    rw [if_neg (by omega)]
    unfold rowsRefl
    rw [if_pos ⟨by omega, by omega, le_rfl, by omega⟩, hs, hcv t ht, show n - 2 + t - (n - 2) = t by omega]
  have hfirst : 0 ≤ B (n - 2) (n - 3) ↔ GoodVec 1 x := by
    have := hcol 0 (by omega)
    rw [Nat.add_zero] at this
    rw [this]
    exact hvec_first 1 x
  refine ⟨?_, ?_, ?_⟩
  · intro i j h1 h2
    by_cases hj : j = n - 3
    · subst hj
      have hi : i = n - 2 + 1 := by omega
      rw [hi, hcol 1 (by omega)]
      exact hvec_below 1 x 1 (by omega) (by omega)
    · rw [hB]
      unfold colsRefl
      rw [if_neg (by omega)]
      unfold rowsRefl
      rw [if_neg (by omega)]
      exact h.shape i j h1 h2 (by omega)
  · intro hpos
    refine h.sim.trans ⟨_, refl_orth (n := n) (lo := n - 2) (len := 2) (by omega) (hvec_good (hfirst.mp hpos)).1, ?_⟩
    rw [refl_symm]
    exact hconj
  · rw [hconj, Matrix.det_mul, Matrix.det_mul, h.det]
    by_cases hgood : GoodVec 1 x
    · rw [if_neg (not_lt.mpr (hfirst.mpr hgood))]
      have hd := refl_good_det (n := n) (lo := n - 2) (len := 2) (by omega) (hvec_good hgood).1
      linear_combination (toM n A0).det * hd
    · rw [if_pos (not_le.mp (fun h => hgood (hfirst.mp h)))]
      obtain ⟨b1, b2, -, -⟩ := hvec_bad hgood
      have hd := refl_bad_det (n := n) (lo := n - 2) (len := 2) (by omega) (by omega) (hvec_zero 1 x) b2
      rw [hb, b1, hd]
      ring

/-- **C80**: a Francis step on an unreduced Hessenberg matrix with at least three rows does not panic and returns a Hessenberg matrix; if the sub-diagonal entry `(n-2, n-3)` of the
result is not negative, it is orthogonally similar to the input.  Otherwise the last reflection is wrong: `c80_false`. -/
theorem c80_francis_partial (n : Nat) (hn : 3 ≤ n) (A : RM) (hA : Unreduced n A) (op : Bool) :
    ∃ B Q, francis n A op = some (B, Q) ∧ IsHess n B ∧ (0 ≤ B (n - 2) (n - 3) → OrthSimilar (toM n A) (toM n B)) := by
  have h := FInv.run hn hA.1 hA.2 (n - 2) (by omega)
  obtain ⟨h1, h2, -⟩ := francisLast_spec hn h
  unfold francis
  rw [if_neg (by omega)]
  exact ⟨_, _, rfl, h1, h2⟩

/-- **C80 fails**: if that entry is negative, the determinant has been multiplied by 9. -/
theorem c80_false (n : Nat) (hn : 3 ≤ n) (A : RM) (hA : Unreduced n A) (op : Bool) (B Q : RM) (h : francis n A op = some (B, Q)) :
    (toM n B).det = (if B (n - 2) (n - 3) < 0 then 9 else 1) * (toM n A).det := by
  have h0 := FInv.run hn hA.1 hA.2 (n - 2) (by omega)
  unfold francis at h
  rw [if_neg (by omega)] at h
  injection h with h
  injection h with h1 h2
  rw [← h1]
  exact (francisLast_spec hn h0).2.2

/-- **C80 fails** for `francis_step_with_op`: the matrix returned is always the identity. -/
theorem c80_op_false (n : Nat) (A B Q : RM) (h : francis n A true = some (B, Q)) : toM n Q = 1 := by
  unfold francis at h
  split at h
  · cases h
  · injection h with h
    injection h with h1 h2
    rw [← h2]
    ext i j
    simp only [toM_apply, if_true, Matrix.one_apply, Fin.ext_iff]

/-- with fewer than three rows the step panics -/
theorem c80_small_panics (n : Nat) (hn : n < 3) (A : RM) (op : Bool) : francis n A op = none := by
  unfold francis
  rw [if_pos hn]

/-! ### Concrete cases -/

/-- a 3 × 3 matrix -/
def m3 (a b c d e f g h i : ℝ) : RM := fun r s =>
  if r = 0 then (if s = 0 then a else if s = 1 then b else c) else if r = 1 then (if s = 0 then d else if s = 1 then e else f) else (if s = 0 then g else if s = 1 then h else i)

theorem m3_unreduced {a b c d e f h i : ℝ} (hd : d ≠ 0) (hh : h ≠ 0) : Unreduced 3 (m3 a b c d e f 0 h i) := by
  constructor
  · intro r s h1 h2
    obtain rfl : r = 2 := by omega
    obtain rfl : s = 0 := by omega
    simp [m3]
  · intro j hj
    rcases (by omega : j = 0 ∨ j = 1) with rfl | rfl
    · simpa [m3] using hd
    · simpa [m3] using hh

/-- the step on a 3 × 3 matrix, when the norms `u1`, `u2` of the two vectors reflected are known and their tails do not vanish -/
theorem francis3 (A : RM) (op : Bool) : ∃ Q, francis 3 A op = some (francisLast 3 (francisRound 3 (francisInit 3 A) 0), Q) := by
  unfold francis
  rw [if_neg (by omega)]
  exact ⟨_, rfl⟩

/-- the cyclic permutation matrix -/
def cyc3 : RM := m3 0 0 1 1 0 0 0 1 0

theorem round_cyc3 {A : RM} (hA : ∀ i j, i < 3 → j < 3 → A i j = cyc3 i j) : (∀ i j, i < 3 → j < 3 → (francisRound 3 (francisInit 3 A) 0).a i j = m3 0 1 0 0 0 1 1 0 0 i j) ∧
    (francisRound 3 (francisInit 3 A) 0).x = 0 ∧ (francisRound 3 (francisInit 3 A) 0).y = 1 := by
  have hinit : (francisInit 3 A).x = 0 ∧ (francisInit 3 A).y = 0 ∧ (francisInit 3 A).z = 1 ∧ (francisInit 3 A).a = A := by
    simp [francisInit, hA, cyc3, m3]
  obtain ⟨e1, e2, e3, e4⟩ := hinit
  obtain ⟨g1, g2⟩ := hvec_eval (m := 2) (x := fun t : Nat => if t = 0 then (francisInit 3 A).x else if t = 1 then (francisInit 3 A).y else (francisInit 3 A).z) 1 (by norm_num)
    (by rw [Finset.sum_range_succ, Finset.sum_range_succ, Finset.sum_range_one]; simp [e1, e2, e3])
    (by rw [Finset.sum_range_succ, Finset.sum_range_one]; simp [e1, e2, e3])
  have v0 := g1 0 (by omega)
  have v1 := g1 1 (by omega)
  have v2 := g1 2 (by omega)
  simp only [Finset.sum_range_succ, Finset.sum_range_zero] at g2
  norm_num [e1, e2, e3] at v0 v1 v2 g2
  have hent : ∀ i j, i < 3 → j < 3 → (francisRound 3 (francisInit 3 A) 0).a i j = m3 0 1 0 0 0 1 1 0 0 i j := by
    intro i j hi hj
    simp only [francisRound, e1, e2, e3, e4]
    unfold colsRefl rowsRefl
    simp only [Finset.sum_range_succ, Finset.sum_range_zero]
    rcases (by omega : i = 0 ∨ i = 1 ∨ i = 2) with rfl | rfl | rfl <;> rcases (by omega : j = 0 ∨ j = 1 ∨ j = 2) with rfl | rfl | rfl <;>
      norm_num [v0, v1, v2, g2, hA, cyc3, m3]
  refine ⟨hent, ?_, ?_⟩
  · have : (francisRound 3 (francisInit 3 A) 0).x = (francisRound 3 (francisInit 3 A) 0).a 1 0 := rfl
    rw [this, hent 1 0 (by omega) (by omega)]
    simp [m3]
  · have : (francisRound 3 (francisInit 3 A) 0).y = (francisRound 3 (francisInit 3 A) 0).a 2 0 := rfl
    rw [this, hent 2 0 (by omega) (by omega)]
    simp [m3]

/-- the cyclic permutation matrix is a fixed point of the step -/
theorem francis_like_cyc3 {A : RM} (hA : ∀ i j, i < 3 → j < 3 → A i j = cyc3 i j) (op : Bool) : ∃ B Q, francis 3 A op = some (B, Q) ∧ ∀ i j, i < 3 → j < 3 → B i j = cyc3 i j := by
  obtain ⟨Q, hQ⟩ := francis3 A op
  refine ⟨_, Q, hQ, ?_⟩
  obtain ⟨e4, e1, e2⟩ := round_cyc3 hA
  set f := francisRound 3 (francisInit 3 A) 0 with hf
  obtain ⟨g1, g2⟩ := hvec_eval (m := 1) (x := fun t : Nat => if t = 0 then f.x else f.y) 1 (by norm_num)
    (by rw [Finset.sum_range_succ, Finset.sum_range_one]; simp [e1, e2])
    (by rw [Finset.sum_range_one]; simp [e1, e2])
  have v0 := g1 0 (by omega)
  have v1 := g1 1 (by omega)
  simp only [Finset.sum_range_succ, Finset.sum_range_zero] at g2
  norm_num [e1, e2] at v0 v1 g2
  intro i j hi hj
  simp only [francisLast, e1, e2]
  unfold colsRefl rowsRefl
  simp only [Finset.sum_range_succ, Finset.sum_range_zero]
  rcases (by omega : i = 0 ∨ i = 1 ∨ i = 2) with rfl | rfl | rfl <;> rcases (by omega : j = 0 ∨ j = 1 ∨ j = 2) with rfl | rfl | rfl <;>
    norm_num [v0, v1, g2, cyc3, m3, e4]

theorem francis_cyc3 (op : Bool) : ∃ B Q, francis 3 cyc3 op = some (B, Q) ∧ ∀ i j, i < 3 → j < 3 → B i j = cyc3 i j :=
  francis_like_cyc3 (fun _ _ _ _ => rfl) op

/-- the hypotheses of `c80_francis_partial` are met, with a non-negative entry in the result -/
example : Unreduced 3 cyc3 ∧ ∃ B Q, francis 3 cyc3 false = some (B, Q) ∧ 0 ≤ B (3 - 2) (3 - 3) := by
  obtain ⟨B, Q, h1, h2⟩ := francis_cyc3 false
  refine ⟨m3_unreduced (by norm_num) (by norm_num), B, Q, h1, ?_⟩
  rw [h2 _ _ (by omega) (by omega)]
  simp [cyc3, m3]

/-- an unreduced matrix for which the last reflection is wrong: its determinant is -4, that of the result is -36 -/
def badFr : RM := m3 (-2) (-2) (-1) (-2) (-2) 0 0 (-2) (-1)

example : Unreduced 3 badFr ∧ (toM 3 badFr).det = -4 ∧ ∃ B Q, francis 3 badFr false = some (B, Q) ∧ (toM 3 B).det = -36 := by
  have hU : Unreduced 3 badFr := m3_unreduced (by norm_num) (by norm_num)
  have hd : (toM 3 badFr).det = -4 := by
    rw [Matrix.det_fin_three]
    simp only [toM_apply, badFr, m3]
    norm_num
  refine ⟨hU, hd, ?_⟩
  obtain ⟨Q, hQ⟩ := francis3 badFr false
  refine ⟨_, Q, hQ, ?_⟩
  rw [c80_false 3 (by omega) badFr hU false _ Q hQ, hd]
  have hinit : (francisInit 3 badFr).x = 4 ∧ (francisInit 3 badFr).y = 2 ∧ (francisInit 3 badFr).z = 4 ∧ (francisInit 3 badFr).a = badFr := by
    norm_num [francisInit, badFr, m3]
  obtain ⟨e1, e2, e3, e4⟩ := hinit
  have hrow : ∀ i, i < 3 → (francisRound 3 (francisInit 3 badFr) 0).a i 0 = if i = 0 then -10 / 3 else if i = 1 then -4 / 3 else 0 := by
    obtain ⟨g1, g2⟩ := hvec_eval (m := 2) (x := fun t : Nat => if t = 0 then (francisInit 3 badFr).x else if t = 1 then (francisInit 3 badFr).y else (francisInit 3 badFr).z) 6 (by norm_num)
      (by rw [Finset.sum_range_succ, Finset.sum_range_succ, Finset.sum_range_one]; norm_num [e1, e2, e3])
      (by rw [Finset.sum_range_succ, Finset.sum_range_one]; norm_num [e1, e2, e3])
    have v0 := g1 0 (by omega)
    have v1 := g1 1 (by omega)
    have v2 := g1 2 (by omega)
    simp only [Finset.sum_range_succ, Finset.sum_range_zero] at g2
    norm_num [e1, e2, e3] at v0 v1 v2 g2
    intro i hi
    simp only [francisRound, e1, e2, e3, e4]
    unfold colsRefl rowsRefl
    simp only [Finset.sum_range_succ, Finset.sum_range_zero]
    rcases (by omega : i = 0 ∨ i = 1 ∨ i = 2) with rfl | rfl | rfl <;> norm_num [v0, v1, v2, g2, badFr, m3]
  have hx : (francisRound 3 (francisInit 3 badFr) 0).x = -4 / 3 := by
    have : (francisRound 3 (francisInit 3 badFr) 0).x = (francisRound 3 (francisInit 3 badFr) 0).a 1 0 := rfl
    rw [this, hrow 1 (by omega)]
    norm_num
  have hy : (francisRound 3 (francisInit 3 badFr) 0).y = 0 := by
    have : (francisRound 3 (francisInit 3 badFr) 0).y = (francisRound 3 (francisInit 3 badFr) 0).a 2 0 := rfl
    rw [this, hrow 2 (by omega)]
    norm_num
  have hneg : francisLast 3 (francisRound 3 (francisInit 3 badFr) 0) (3 - 2) (3 - 3) < 0 := by
    have hbad : ¬ GoodVec 1 (fun t : Nat => if t = 0 then (francisRound 3 (francisInit 3 badFr) 0).x else (francisRound 3 (francisInit 3 badFr) 0).y) := by
      rw [GoodVec, not_not]
      constructor
      · intro t ht
        simp [hy]
      · simp only [if_pos, hx]
        norm_num
    obtain ⟨b1, b2, -, -⟩ := hvec_bad hbad
    have b0 := hvec_zero 1 (fun t : Nat => if t = 0 then (francisRound 3 (francisInit 3 badFr) 0).x else (francisRound 3 (francisInit 3 badFr) 0).y)
    have b3 := b2 1 (by omega)
    have r1 := hrow 1 (by omega)
    have r2 := hrow 2 (by omega)
    simp only [francisLast]
    unfold colsRefl rowsRefl
    simp only [Finset.sum_range_succ, Finset.sum_range_zero]
    norm_num [b1, b0, b3, r1, r2]
  rw [if_pos hneg]
  norm_num

end Toppo.RealAlg
