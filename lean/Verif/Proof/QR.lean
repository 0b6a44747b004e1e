import Verif.Props.Francis
import Mathlib.LinearAlgebra.Matrix.Charpoly.Coeff
set_option linter.unusedVariables false

/-
Block triangular matrices, the searches of `raw_qr` and the rounds of its loop.
-/
namespace Toppo.RealAlg
open Finset Matrix

/-- the characteristic polynomial of a block triangular matrix -/
theorem charpoly_split (k m : Nat) (A : RM) (h : ∀ i j, k ≤ i → i < k + m → j < k → A i j = 0) :
    (toM (k + m) A).charpoly = (toM k A).charpoly * (toM m (shift k A)).charpoly := by
  have h1 : Matrix.reindex finSumFinEquiv.symm finSumFinEquiv.symm (toM (k + m) A) =
      Matrix.fromBlocks (toM k A) (Matrix.of fun (i : Fin k) (j : Fin m) => A i (k + j)) 0 (toM m (shift k A)) := by
    ext i j
    rcases i with i | i <;> rcases j with j | j
    · simp [toM]
    · simp [toM]
    · simp only [Matrix.reindex_apply, Matrix.submatrix_apply, Equiv.symm_symm, finSumFinEquiv_apply_left, finSumFinEquiv_apply_right, Matrix.fromBlocks_apply₂₁, Matrix.zero_apply, toM_apply]
      exact h _ _ (by simp) (by simp) (by simp)
    · simp [toM, shift]
  rw [← Matrix.charpoly_reindex finSumFinEquiv.symm, h1, Matrix.charpoly_fromBlocks_zero₂₁]

theorem toM_congr {n : Nat} {A B : RM} (h : ∀ i j, i < n → j < n → A i j = B i j) : toM n A = toM n B := by
  ext i j
  exact h i j i.2 j.2

/-! ### the searches -/

theorem qrTol_pos : 0 < qrTol := by unfold qrTol; norm_num

theorem findQ_spec {n : Nat} (hn : 2 ≤ n) (A : RM) :
    (findQ n A < n → findQ n A + 2 < n ∧ qrTol < |A (n - findQ n A - 1) (n - findQ n A - 2)| ∧ qrTol < |A (n - findQ n A - 2) (n - findQ n A - 3)|) ∧
    ∀ i, i < findQ n A → i + 2 < n → ¬ (qrTol < |A (n - i - 1) (n - i - 2)| ∧ qrTol < |A (n - i - 2) (n - i - 3)|) := by
  classical
  unfold findQ
  cases hf : (List.range (n - 2)).find? (fun i => decide (qrTol < |A (n - i - 1) (n - i - 2)| ∧ qrTol < |A (n - i - 2) (n - i - 3)|)) with
  | none =>
    simp only [Option.getD_none, lt_irrefl, IsEmpty.forall_iff, true_and]
    intro i h1 h2
    rw [List.find?_eq_none] at hf
    simpa using hf i (List.mem_range.mpr (by omega))
  | some q =>
    simp only [Option.getD_some]
    have h1 := List.find?_some hf
    have h2 := List.mem_of_find?_eq_some hf
    rw [List.mem_range] at h2
    refine ⟨fun _ => ⟨by omega, by simpa using h1⟩, ?_⟩
    intro i h3 h4
    rw [List.find?_range_eq_some] at hf
    rintro ⟨a, b⟩
    have := hf.2.2 i h3
    simp only [Bool.not_eq_true', decide_eq_false_iff_not] at this
    exact this ⟨a, b⟩

theorem findQ_le {n : Nat} (hn : 2 ≤ n) (A : RM) : findQ n A ≤ n := by
  classical
  unfold findQ
  cases hf : (List.range (n - 2)).find? (fun i => decide (qrTol < |A (n - i - 1) (n - i - 2)| ∧ qrTol < |A (n - i - 2) (n - i - 3)|)) with
  | none => simp
  | some q =>
    have h2 := List.mem_of_find?_eq_some hf
    rw [List.mem_range] at h2
    simp only [Option.getD_some]
    omega

theorem findP_spec (n q : Nat) (A : RM) :
    (findP n q A ≠ 0 → findP n q A < n - q ∧ |A (findP n q A) (findP n q A - 1)| < qrTol) ∧ ∀ i, findP n q A < i → i < n - q → qrTol ≤ |A i (i - 1)| := by
  classical
  unfold findP
  cases hf : (List.range' 1 (n - q - 1)).reverse.find? (fun i => decide (|A i (i - 1)| < qrTol)) with
  | none =>
    simp only [Option.getD_none, ne_eq, not_true_eq_false, IsEmpty.forall_iff, true_and]
    intro i h1 h2
    rw [List.find?_eq_none] at hf
    have := hf i (by rw [List.mem_reverse, List.mem_range']; exact ⟨i - 1, by omega, by omega⟩)
    simpa using this
  | some p =>
    simp only [Option.getD_some]
    have h1 := List.find?_some hf
    have h2 := List.mem_of_find?_eq_some hf
    rw [List.mem_reverse, List.mem_range'] at h2
    obtain ⟨k, h2, h3⟩ := h2
    refine ⟨fun _ => ⟨by omega, by simpa using h1⟩, ?_⟩
    intro i h4 h5
    rw [List.find?_eq_some_iff_append] at hf
    obtain ⟨-, as, bs, h6, h7⟩ := hf
    have h8 : i ∈ as ++ p :: bs := by
      rw [← h6, List.mem_reverse, List.mem_range']
      exact ⟨i - 1, by omega, by omega⟩
    have h9 : (as ++ p :: bs).Pairwise (· > ·) := by
      rw [← h6, List.pairwise_reverse]
      exact List.pairwise_lt_range'
    rw [List.mem_append, List.mem_cons] at h8
    rcases h8 with h8 | h8 | h8
    · simpa using h7 i h8
    · omega
    · rw [List.pairwise_append] at h9
      have := (List.pairwise_cons.mp h9.2.1).1 i h8
      omega

/-! ### one round -/

theorem deflate_hess {n : Nat} {A : RM} (h : IsHess n A) : IsHess n (deflate n A) := by
  intro i j h1 h2
  unfold deflate
  rw [if_neg (by omega)]
  exact h i j h1 h2

/-- the block found is an unreduced Hessenberg matrix with at least three rows -/
theorem block_unreduced {n : Nat} (hn : 2 ≤ n) {D : RM} (hD : IsHess n D) (hq : findQ n D < n) :
    findP n (findQ n D) D + 3 ≤ n - findQ n D ∧ Unreduced (n - findQ n D - findP n (findQ n D) D) (shift (findP n (findQ n D) D) D) := by
  obtain ⟨q1, q2, q3⟩ := (findQ_spec hn D).1 hq
  obtain ⟨p1, p2⟩ := findP_spec n (findQ n D) D
  set q := findQ n D with hqd
  set p := findP n q D with hpd
  have hp : p + 3 ≤ n - q := by
    by_contra hc
    have hp0 : p ≠ 0 := by omega
    obtain ⟨a1, a2⟩ := p1 hp0
    rcases (by omega : p = n - q - 1 ∨ p = n - q - 2) with h | h
    · rw [h, show n - q - 1 - 1 = n - q - 2 by omega] at a2
      linarith
    · rw [h, show n - q - 2 - 1 = n - q - 3 by omega] at a2
      linarith
  refine ⟨hp, ?_, ?_⟩
  · intro i j h1 h2
    exact hD _ _ (by omega) (by omega)
  · intro j hj
    have := p2 (p + (j + 1)) (by omega) (by omega)
    intro h0
    rw [show p + (j + 1) - 1 = p + j by omega] at this
    unfold shift at h0
    rw [h0, abs_zero] at this
    linarith [qrTol_pos]

theorem putBlock_hess {n p m : Nat} (hpm : p + m ≤ n) {D B : RM} (hD : IsHess n D) (hB : IsHess m B) : IsHess n (putBlock D p m B) := by
  intro i j h1 h2
  unfold putBlock
  split
  · exact hB _ _ (by omega) (by omega)
  · exact hD i j h1 h2

/-- three diagonal blocks -/
theorem charpoly_split3 {n p m : Nat} (hpm : p + m ≤ n) {A : RM} (hA : IsHess n A) (h1 : p = 0 ∨ A p (p - 1) = 0) (h2 : p + m = n ∨ A (p + m) (p + m - 1) = 0) (hm : 0 < m) :
    (toM n A).charpoly = (toM p A).charpoly * ((toM m (shift p A)).charpoly * (toM (n - (p + m)) (shift (p + m) A)).charpoly) := by
  obtain ⟨r, rfl⟩ : ∃ r, n = p + (m + r) := ⟨n - (p + m), by omega⟩
  rw [charpoly_split p (m + r) A, charpoly_split m r (shift p A)]
  · rw [show p + (m + r) - (p + m) = r by omega]
    congr 3
    exact toM_congr (fun i j _ _ => by unfold shift; rw [Nat.add_assoc, Nat.add_assoc])
  · intro i j a1 a2 a3
    unfold shift
    by_cases h : j + 1 < i
    · exact hA _ _ (by omega) (by omega)
    · have e1 : i = m := by omega
      have e2 : p + j = p + m - 1 := by omega
      rw [e1, e2]
      rcases h2 with h2 | h2
      · omega
      · exact h2
  · intro i j a1 a2 a3
    by_cases h : j + 1 < i
    · exact hA _ _ (by omega) (by omega)
    · have e1 : i = p := by omega
      have e2 : j = p - 1 := by omega
      rw [e1, e2]
      rcases h1 with h1 | h1
      · omega
      · exact h1

theorem putBlock_charpoly {n p m : Nat} (hpm : p + m ≤ n) {D B : RM} (hD : IsHess n D) (hB : IsHess m B) (h1 : p = 0 ∨ D p (p - 1) = 0) (h2 : p + m = n ∨ D (p + m) (p + m - 1) = 0)
    (hm : 0 < m) (hc : (toM m B).charpoly = (toM m (shift p D)).charpoly) : (toM n (putBlock D p m B)).charpoly = (toM n D).charpoly := by
  rw [charpoly_split3 hpm (putBlock_hess hpm hD hB) _ _ hm, charpoly_split3 hpm hD h1 h2 hm, ← hc]
  · congr 1
    · congr 1
      apply toM_congr
      intro i j a1 a2
      unfold putBlock
      rw [if_neg (by omega)]
    · congr 2
      · apply toM_congr
        intro i j a1 a2
        unfold shift putBlock
        rw [if_pos ⟨by omega, by omega, by omega, by omega⟩, Nat.add_sub_cancel_left, Nat.add_sub_cancel_left]
      · apply toM_congr
        intro i j a1 a2
        unfold shift putBlock
        rw [if_neg (by omega)]
  · rcases h1 with h1 | h1
    · exact Or.inl h1
    · by_cases hp : p = 0
      · exact Or.inl hp
      · right
        unfold putBlock
        rw [if_neg (by omega)]
        exact h1
  · rcases h2 with h2 | h2
    · exact Or.inl h2
    · right
      unfold putBlock
      rw [if_neg (by omega)]
      exact h2

/-- the round on a Hessenberg matrix, without `op` -/
theorem qrStep_spec {n : Nat} (hn : 2 ≤ n) {A : RM} (hA : IsHess n A) (op : RM) :
    (findQ n (deflate n A) = n ∧ qrStep n false (A, op) = some (Sum.inl (deflate n A, op))) ∨
    (findQ n (deflate n A) < n ∧ ∃ B Q, francis (n - findQ n (deflate n A) - findP n (findQ n (deflate n A)) (deflate n A)) (shift (findP n (findQ n (deflate n A)) (deflate n A)) (deflate n A)) false = some (B, Q) ∧
      IsHess (n - findQ n (deflate n A) - findP n (findQ n (deflate n A)) (deflate n A)) B ∧
      qrStep n false (A, op) = some (Sum.inr (putBlock (deflate n A) (findP n (findQ n (deflate n A)) (deflate n A)) (n - findQ n (deflate n A) - findP n (findQ n (deflate n A)) (deflate n A)) B, op))) := by
  have hD := deflate_hess hA
  set D := deflate n A with hDd
  by_cases hq : findQ n D < n
  · right
    obtain ⟨hp, hu⟩ := block_unreduced hn hD hq
    obtain ⟨B, Q, b1, b2, -⟩ := c80_francis_partial _ (by omega) _ hu false
    refine ⟨hq, B, Q, b1, b2, ?_⟩
    unfold qrStep
    simp only [← hDd, if_pos hq, b1]
    simp
  · left
    refine ⟨le_antisymm (findQ_le hn D) (not_lt.mp hq), ?_⟩
    unfold qrStep
    simp only [← hDd, if_neg hq]

end Toppo.RealAlg
