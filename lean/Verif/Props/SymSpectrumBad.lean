import Verif.Props.SymSpectrum
set_option linter.unusedVariables false

/-
C85, where it fails, and a concrete case.
-/
namespace Toppo.RealAlg
open Finset Matrix Polynomial

/-! ### A matrix on which the loop never ends -/

def st4 (b u w : ℝ) : RM := fun i j =>
  if i = 0 ∧ j = 0 then 999998 else if i = 1 ∧ j = 1 then -1000000 else if i + j = 1 then b else if (i = 0 ∧ j = 2) ∨ (i = 2 ∧ j = 0) then u
  else if i + j = 3 ∧ 1 ≤ i ∧ 1 ≤ j then w else if i + j = 5 then 1 else 0

def Like4 (b u w : ℝ) (A : RM) : Prop := ∀ i j, i < 4 → j < 4 → A i j = st4 b u w i j

theorem wilkRound_z {n i : Nat} {f : WState} (h : i < n - 2) : (wilkRound n f i).z = (wilkRound n f i).a (i + 2) i := if_pos h

theorem wilkRound_x {n i : Nat} {f : WState} (h : i < n - 2) : (wilkRound n f i).x = (wilkRound n f i).a (i + 1) i := if_pos h

theorem st4_round {b u w : ℝ} {S : RM} (hS : Like4 b u w S) (hb : b = 2000 ∨ b = -2000) (hu : |(999999 * u + b * w) / 1000001| < 0.000000000001) :
    Like4 (-b) ((999999 * u + b * w) / 1000001) ((-b * u + 999999 * w) / 1000001) (wst 4 S 3).a := by
  have hinit : wilkInit 4 S = { a := S, x := 999999, z := b, op := fun _ => (0, 0) } := by
    unfold wilkInit
    simp only [hS _ _ (show 4 - 2 < 4 by omega) (show 4 - 2 < 4 by omega), hS _ _ (show 4 - 1 < 4 by omega) (show 4 - 1 < 4 by omega),
      hS _ _ (show 4 - 1 < 4 by omega) (show 4 - 2 < 4 by omega), hS _ _ (show 0 < 4 by omega) (show 0 < 4 by omega), hS _ _ (show 1 < 4 by omega) (show 0 < 4 by omega)]
    norm_num [st4]
  have hg : givens 999999 b = (999999 / 1000001, -b / 1000001) := by
    have hb1 : |b| = 2000 := by rcases hb with h | h <;> rw [h] <;> norm_num
    have hb2 : b * b = 4000000 := by rcases hb with h | h <;> rw [h] <;> norm_num
    unfold givens
    rw [if_neg (by rw [hb1]; norm_num), if_neg (by rw [hb1]; norm_num)]
    have hs : Real.sqrt (1 + -b / 999999 * (-b / 999999)) = 1000001 / 999999 := by
      rw [show 1 + -b / 999999 * (-b / 999999) = (1000001 / 999999) * (1000001 / 999999 : ℝ) by
        rw [show -b / 999999 * (-b / 999999) = (b * b) / (999999 * 999999 : ℝ) by ring, hb2]; norm_num]
      exact Real.sqrt_mul_self (by norm_num)
    simp only [hs, Prod.mk.injEq]
    constructor
    · norm_num
    · field_simp
  have hb2 : b * b = 4000000 := by rcases hb with h | h <;> rw [h] <;> norm_num
  have h1 : Like4 (-b) ((999999 * u + b * w) / 1000001) ((-b * u + 999999 * w) / 1000001) (wst 4 S 1).a := by
    rw [wst_succ]
    show Like4 _ _ _ (wilkRound 4 (wilkInit 4 S) 0).a
    rw [hinit]
    unfold wilkRound
    simp only [hg]
    intro i j hi hj
    have e := fun i j (hi : i < 4) (hj : j < 4) => hS i j hi hj
    have e00 := hS 0 0 (by omega) (by omega)
    have e01 := hS 0 1 (by omega) (by omega)
    have e02 := hS 0 2 (by omega) (by omega)
    have e03 := hS 0 3 (by omega) (by omega)
    have e10 := hS 1 0 (by omega) (by omega)
    have e11 := hS 1 1 (by omega) (by omega)
    have e12 := hS 1 2 (by omega) (by omega)
    have e13 := hS 1 3 (by omega) (by omega)
    have e20 := hS 2 0 (by omega) (by omega)
    have e21 := hS 2 1 (by omega) (by omega)
    have e22 := hS 2 2 (by omega) (by omega)
    have e23 := hS 2 3 (by omega) (by omega)
    have e30 := hS 3 0 (by omega) (by omega)
    have e31 := hS 3 1 (by omega) (by omega)
    have e32 := hS 3 2 (by omega) (by omega)
    have e33 := hS 3 3 (by omega) (by omega)
    norm_num [st4] at e00 e01 e02 e03 e10 e11 e12 e13 e20 e21 e22 e23 e30 e31 e32 e33
    interval_cases i <;> interval_cases j <;> norm_num [givCols, givRows, st4, e00, e01, e02, e03, e10, e11, e12, e13, e20, e21, e22, e23, e30, e31, e32, e33] <;>
      first
      | (ring_nf; done)
      | (have hb3 : b ^ 2 = 4000000 := by rw [pow_two]; exact hb2
         have hb4 : b ^ 3 = 4000000 * b := by rw [show b ^ 3 = b ^ 2 * b by ring, hb3]
         ring_nf
         try rw [hb4]
         try rw [hb3]
         ring_nf)
  have hz1 : (wst 4 S 1).z = (999999 * u + b * w) / 1000001 := by
    have h2 := h1 2 0 (by omega) (by omega)
    rw [wst_succ] at h2 ⊢
    rw [wilkRound_z (by omega), h2]
    norm_num [st4]
  have h2 : (wst 4 S 2).a = (wst 4 S 1).a := by
    rw [wst_succ]
    exact wilk_id (by rw [hz1]; exact hu)
  have hz2 : (wst 4 S 2).z = 0 := by
    have h3 := h1 3 1 (by omega) (by omega)
    rw [← h2, wst_succ] at h3
    rw [wst_succ]
    rw [wilkRound_z (by omega), h3]
    norm_num [st4]
  have h3 : (wst 4 S 3).a = (wst 4 S 2).a := by
    rw [wst_succ]
    exact wilk_id (by rw [hz2]; norm_num)
  rw [h3, h2]
  exact h1

theorem st4_step {b u w : ℝ} {A : RM} (hA : Like4 b u w A) (hb : b = 2000 ∨ b = -2000) (hw : symTol < |w|) (hu : |(999999 * u + b * w) / 1000001| < 0.000000000001) :
    ∃ B, Like4 (-b) ((999999 * u + b * w) / 1000001) ((-b * u + 999999 * w) / 1000001) B ∧ ∀ op, symStep 4 false (A, op) = some (Sum.inr (B, op)) := by
  have hb1 : |b| = 2000 := by rcases hb with h | h <;> rw [h] <;> norm_num
  have a10 : A 1 0 = b := by rw [hA 1 0 (by omega) (by omega)]; norm_num [st4]
  have a21 : A 2 1 = w := by rw [hA 2 1 (by omega) (by omega)]; norm_num [st4]
  have a32 : A 3 2 = 1 := by rw [hA 3 2 (by omega) (by omega)]; norm_num [st4]
  have ht1 : ¬ |b| < symTol := by rw [hb1]; unfold symTol; norm_num
  have ht3 : ¬ |(1 : ℝ)| < symTol := by unfold symTol; norm_num
  have hD : Like4 b u w (symDeflate 4 A) := by
    intro i j hi hj
    unfold symDeflate
    rw [if_neg]
    · exact hA i j hi hj
    · have : ∀ k, k + 1 < 4 → ¬ |A (k + 1) k| < symTol := by
        intro k hk
        rcases (by omega : k = 0 ∨ k = 1 ∨ k = 2) with rfl | rfl | rfl
        · rw [a10]; exact ht1
        · rw [a21]; exact not_lt.mpr hw.le
        · rw [a32]; exact ht3
      rintro (⟨rfl, h2, h3⟩ | ⟨rfl, h2, h3⟩)
      · exact this j h2 h3
      · exact this i h2 h3
  set D := symDeflate 4 A with hDd
  have d10 : D 1 0 = b := by rw [hD 1 0 (by omega) (by omega)]; norm_num [st4]
  have d21 : D 2 1 = w := by rw [hD 2 1 (by omega) (by omega)]; norm_num [st4]
  have d32 : D 3 2 = 1 := by rw [hD 3 2 (by omega) (by omega)]; norm_num [st4]
  have hq : symQ 4 D = 0 := by
    by_contra hc
    refine (symQ_spec (n := 4) (by omega) D).2 0 (by omega) (by omega) ⟨?_, ?_⟩
    · show symTol < |D 3 2|
      rw [d32]
      unfold symTol
      norm_num
    · show symTol < |D 2 1|
      rw [d21]
      exact hw
  have hend : blockEnd 4 A = 4 := by
    show 4 - symQ 4 D = 4
    rw [hq]
  have hp : blockStart 4 A = 0 := by
    have h1 := (block_size (n := 4) (by omega) (A := A) (by rw [← hDd, hq]; omega)).1
    rw [hend] at h1
    by_contra hc
    have h2 := ((symP_spec 4 (symQ 4 D) D).1 hc).2
    change |D (blockStart 4 A) (blockStart 4 A - 1)| < symTol at h2
    rw [show blockStart 4 A = 1 by omega, d10] at h2
    exact ht1 h2
  refine ⟨symNext 4 A, ?_, ?_⟩
  · unfold symNext
    rw [← hDd, if_pos (by rw [hq]; omega), hend, hp]
    intro i j hi hj
    unfold putBlock
    rw [if_pos (by omega)]
    exact st4_round (S := shift 0 D) (fun i j hi hj => by unfold shift; rw [Nat.zero_add, Nat.zero_add]; exact hD i j hi hj) hb hu i j hi hj
  · intro op
    rcases symStep_spec (n := 4) (by omega) A op with ⟨h1, -⟩ | ⟨-, h2⟩
    · rw [← hDd, hq] at h1
      omega
    · exact h2

theorem st4_loop (fuel : Nat) : ∀ (A op : RM), (Like4 2000 0 0.0000000002 A ∨ Like4 (-2000) (0.0000004 / 1000001) (0.0001999998 / 1000001) A) → symLoop 4 false fuel (A, op) = .running := by
  induction fuel with
  | zero => intro A op _; rfl
  | succ fuel ih =>
    intro A op h
    unfold symLoop
    rcases h with h | h
    · obtain ⟨B, h1, h2⟩ := st4_step h (Or.inl rfl) (by unfold symTol; rw [abs_of_pos (by norm_num)]; norm_num) (by rw [abs_of_pos (by norm_num)]; norm_num)
      rw [h2]
      apply ih
      right
      norm_num at h1 ⊢
      exact h1
    · obtain ⟨B, h1, h2⟩ := st4_step h (Or.inr rfl) (by unfold symTol; rw [abs_of_pos (by norm_num)]; norm_num) (by norm_num)
      rw [h2]
      apply ih
      left
      norm_num at h1 ⊢
      exact h1

theorem st4_tri : SymTri 4 (st4 2000 0 0.0000000002) := by
  constructor
  · intro i j hi hj
    interval_cases i <;> interval_cases j <;> norm_num [st4]
  · intro r c hr hc hrc
    interval_cases r <;> interval_cases c <;> first | omega | norm_num [st4]

/-- **C85 fails**: there is a symmetric tridiagonal 4 × 4 matrix on which `spectrum_symmetric` never ends: a rotation below the cut-off of `givens_rotation` is skipped, the entry it
should have removed is never removed, and the next round takes the matrix back to where it was. -/
theorem c85_stall_false (fuel : Nat) : SymTri 4 (st4 2000 0 0.0000000002) ∧ spectrumSymmetric fuel 4 4 (st4 2000 0 0.0000000002) = .running := by
  refine ⟨st4_tri, ?_⟩
  obtain ⟨B, h1, h2, -⟩ := start_keep (n := 4) (by omega) st4_tri (by
    intro k hk
    rcases (by omega : k = 0 ∨ k = 1) with rfl | rfl <;> norm_num [st4])
  obtain ⟨B', op, h3, h4⟩ := symmetricQr_eq (fuel := fuel) (n := 4) (by omega) (st4 2000 0 0.0000000002)
  obtain rfl := start_unique h1 h3
  unfold spectrumSymmetric
  rw [if_neg (by simp), h4, st4_loop fuel B op (Or.inl h2)]

/-! ### A tie -/

def tie3 : RM := fun i j => if i + j = 1 then 0.0000000001 else if i + j = 3 ∧ 1 ≤ i ∧ 1 ≤ j then 1 else 0

theorem tie3_tri : SymTri 3 tie3 := by
  constructor
  · intro i j hi hj
    interval_cases i <;> interval_cases j <;> norm_num [tie3]
  · intro r c hr hc hrc
    interval_cases r <;> interval_cases c <;> first | omega | norm_num [tie3]

/-- **C85 fails**: with an entry exactly as large as the tolerance the loop ends at once, although the matrix is not split, and the values read off are wrong: of a matrix with the
eigenvalues `-√(1+ε²)`, `0`, `√(1+ε²)`, `ε = 1e-10`, the values returned are `-ε`, `0`, `ε`. -/
theorem c85_tie_false (fuel : Nat) : SymTri 3 tie3 ∧ spectrumSymmetric (fuel + 1) 3 3 tie3 = .done [-0.0000000001, 0, 0.0000000001] ∧
    IsSpectrum 3 tie3 [-Real.sqrt (1 + 0.0000000001 ^ 2), 0, Real.sqrt (1 + 0.0000000001 ^ 2)] := by
  refine ⟨tie3_tri, ?_, ?_, ?_⟩
  · obtain ⟨B, h1, h2, -⟩ := start_keep (n := 3) (by omega) tie3_tri (by
      intro k hk
      obtain rfl : k = 0 := by omega
      norm_num [tie3])
    obtain ⟨B', op, h3, h4⟩ := symmetricQr_eq (fuel := fuel + 1) (n := 3) (by omega) tie3
    obtain rfl := start_unique h1 h3
    have b10 : B 1 0 = 0.0000000001 := by rw [h2 1 0 (by omega) (by omega)]; norm_num [tie3]
    have b21 : B 2 1 = 1 := by rw [h2 2 1 (by omega) (by omega)]; norm_num [tie3]
    have hD : ∀ i j, i < 3 → j < 3 → symDeflate 3 B i j = tie3 i j := by
      intro i j hi hj
      unfold symDeflate
      rw [if_neg]
      · exact h2 i j hi hj
      · have : ∀ k, k + 1 < 3 → ¬ |B (k + 1) k| < symTol := by
          intro k hk
          rcases (by omega : k = 0 ∨ k = 1) with rfl | rfl
          · rw [b10]
            unfold symTol
            rw [abs_of_pos (by norm_num)]
            exact lt_irrefl _
          · rw [b21]
            unfold symTol
            norm_num
        rintro (⟨rfl, h5, h3⟩ | ⟨rfl, h5, h3⟩)
        · exact this j h5 h3
        · exact this i h5 h3
    have hq : symQ 3 (symDeflate 3 B) = 3 := by
      by_contra hc
      have hlt := lt_of_le_of_ne (symQ_le (n := 3) (by omega) (symDeflate 3 B)) hc
      obtain ⟨c1, -, c3⟩ := (symQ_spec (n := 3) (by omega) (symDeflate 3 B)).1 hlt
      rw [show symQ 3 (symDeflate 3 B) = 0 by omega, hD _ _ (by omega) (by omega)] at c3
      norm_num [tie3, symTol] at c3
    unfold spectrumSymmetric
    rw [if_neg (by simp), h4]
    unfold symLoop
    rcases symStep_spec (n := 3) (by omega) B op with ⟨-, g2⟩ | ⟨g1, -⟩
    · rw [g2]
      simp only
      have hr : symReadOff 3 (symDeflate 3 B) 3 0 = some [-0.0000000001, 0.0000000001, 0] := by
        have e00 := hD 0 0 (by omega) (by omega)
        have e01 := hD 0 1 (by omega) (by omega)
        have e10 := hD 1 0 (by omega) (by omega)
        have e11 := hD 1 1 (by omega) (by omega)
        have e22 := hD 2 2 (by omega) (by omega)
        have hrs : realSpectrum2 (tie3 0 0) (tie3 0 1) (tie3 1 0) (tie3 1 1) = some (-0.0000000001, 0.0000000001) := by
          unfold realSpectrum2
          have : Real.sqrt (0.0000000001 * 0.0000000001) = 0.0000000001 := Real.sqrt_mul_self (by norm_num)
          norm_num [tie3] at this ⊢
          rw [this]
        unfold symReadOff
        rw [if_pos (by omega), if_neg (by rw [Nat.zero_add, e10]; norm_num [tie3]), Nat.zero_add, e00, e01, e10, e11, hrs]
        simp only
        unfold symReadOff
        rw [if_pos (by omega), if_pos (by left; rfl)]
        unfold symReadOff
        rw [if_neg (by omega), e22]
        norm_num [tie3]
      rw [hr]
      simp only [Outcome.done.injEq, List.insertionSort, List.foldr]
      norm_num [List.orderedInsert]
    · omega
  · have : 0 ≤ Real.sqrt (1 + 0.0000000001 ^ 2) := Real.sqrt_nonneg _
    simp
  · rw [Matrix.charpoly, Matrix.det_fin_three]
    simp only [Matrix.charmatrix_apply_eq, Matrix.charmatrix_apply_ne _ _ _ (show (0 : Fin 3) ≠ 1 by decide), Matrix.charmatrix_apply_ne _ _ _ (show (0 : Fin 3) ≠ 2 by decide),
      Matrix.charmatrix_apply_ne _ _ _ (show (1 : Fin 3) ≠ 2 by decide), Matrix.charmatrix_apply_ne _ _ _ (show (1 : Fin 3) ≠ 0 by decide),
      Matrix.charmatrix_apply_ne _ _ _ (show (2 : Fin 3) ≠ 0 by decide), Matrix.charmatrix_apply_ne _ _ _ (show (2 : Fin 3) ≠ 1 by decide), toM_apply]
    have hs : Real.sqrt (1 + 0.0000000001 ^ 2) * Real.sqrt (1 + 0.0000000001 ^ 2) = 1 + 0.0000000001 ^ 2 := Real.mul_self_sqrt (by norm_num)
    set r := Real.sqrt (1 + 0.0000000001 ^ 2) with hr
    have h00 : tie3 ((0 : Fin 3) : Nat) ((0 : Fin 3) : Nat) = 0 := by norm_num [tie3]
    have h11 : tie3 ((1 : Fin 3) : Nat) ((1 : Fin 3) : Nat) = 0 := by norm_num [tie3]
    have h22 : tie3 ((2 : Fin 3) : Nat) ((2 : Fin 3) : Nat) = 0 := by norm_num [tie3]
    have h01 : tie3 ((0 : Fin 3) : Nat) ((1 : Fin 3) : Nat) = 0.0000000001 := by norm_num [tie3]
    have h10 : tie3 ((1 : Fin 3) : Nat) ((0 : Fin 3) : Nat) = 0.0000000001 := by norm_num [tie3]
    have h02 : tie3 ((0 : Fin 3) : Nat) ((2 : Fin 3) : Nat) = 0 := by norm_num [tie3]
    have h20 : tie3 ((2 : Fin 3) : Nat) ((0 : Fin 3) : Nat) = 0 := by norm_num [tie3]
    have h12 : tie3 ((1 : Fin 3) : Nat) ((2 : Fin 3) : Nat) = 1 := by norm_num [tie3]
    have h21 : tie3 ((2 : Fin 3) : Nat) ((1 : Fin 3) : Nat) = 1 := by norm_num [tie3]
    rw [h00, h11, h22, h01, h10, h02, h20, h12, h21]
    simp only [List.map_cons, List.map_nil, List.prod_cons, List.prod_nil, C_0, C_neg, C_1]
    have hC : (C r : ℝ[X]) * C r = 1 + C 0.0000000001 * C 0.0000000001 := by
      rw [← C_mul, hs, C_add, C_1, pow_two, C_mul]
    linear_combination X * hC

/-! ### A concrete case -/

/-- `exWilk` scaled by `t` -/
def exScaled (t : ℝ) : RM := fun i j => t * exWilk i j

theorem sc_givens {t : ℝ} (ht : 0.0000000001 ≤ t) : givens (4 * t) (3 * t) = (4 / 5, -3 / 5) ∧ givens (-(3 / 5) * t) (3 / 5 * t) = (1 / Real.sqrt 2, 1 / Real.sqrt 2) := by
  have h0 : 0 < t := by norm_num at ht; linarith
  constructor
  · unfold givens
    rw [if_neg (by rw [abs_of_pos (by positivity)]; norm_num at ht ⊢; linarith), if_neg (by rw [abs_of_pos (by positivity), abs_of_pos (by positivity)]; linarith)]
    have e : -(3 * t) / (4 * t) = -3 / 4 := by field_simp
    simp only [e]
    have h16 : Real.sqrt (1 + -3 / 4 * (-3 / 4)) = 5 / 4 := by
      rw [show (1 + -3 / 4 * (-3 / 4) : ℝ) = 5 / 4 * (5 / 4) by norm_num, Real.sqrt_mul_self (by norm_num)]
    rw [h16]
    norm_num
  · unfold givens
    rw [if_neg (by rw [abs_of_pos (by positivity)]; norm_num at ht ⊢; linarith), if_neg (by rw [abs_of_pos (show 0 < 3 / 5 * t by positivity), show -(3 / 5) * t = -(3 / 5 * t) by ring, abs_neg, abs_of_pos (by positivity)]; exact lt_irrefl _)]
    have e : -(3 / 5 * t) / (-(3 / 5) * t) = 1 := by field_simp
    simp only [e]
    norm_num

theorem sc_round {t : ℝ} (ht : 0.0000000001 ≤ t) {S : RM} (hS : ∀ i j, i < 3 → j < 3 → S i j = exScaled t i j) :
    wg 3 S 0 = (4 / 5, -3 / 5) ∧ wg 3 S 1 = (1 / Real.sqrt 2, 1 / Real.sqrt 2) ∧ (wst 3 S 2).a 1 0 = -(6 / 5 * t) * (1 / Real.sqrt 2) ∧ (wst 3 S 2).a 2 1 = -(9 / 10) * t ∧ (wst 3 S 2).a 2 2 = -(1 / 10) * t := by
  have h0 : 0 < t := by norm_num at ht; linarith
  obtain ⟨g1, g2⟩ := sc_givens ht
  have e00 : S 0 0 = 3 * t := by rw [hS 0 0 (by omega) (by omega)]; norm_num [exScaled, exWilk]; ring
  have e01 : S 0 1 = 3 * t := by rw [hS 0 1 (by omega) (by omega)]; norm_num [exScaled, exWilk]; ring
  have e02 : S 0 2 = 0 := by rw [hS 0 2 (by omega) (by omega)]; norm_num [exScaled, exWilk]
  have e10 : S 1 0 = 3 * t := by rw [hS 1 0 (by omega) (by omega)]; norm_num [exScaled, exWilk]; ring
  have e11 : S 1 1 = 0 := by rw [hS 1 1 (by omega) (by omega)]; norm_num [exScaled, exWilk]
  have e12 : S 1 2 = t := by rw [hS 1 2 (by omega) (by omega)]; norm_num [exScaled, exWilk]
  have e20 : S 2 0 = 0 := by rw [hS 2 0 (by omega) (by omega)]; norm_num [exScaled, exWilk]
  have e21 : S 2 1 = t := by rw [hS 2 1 (by omega) (by omega)]; norm_num [exScaled, exWilk]
  have e22 : S 2 2 = 0 := by rw [hS 2 2 (by omega) (by omega)]; norm_num [exScaled, exWilk]
  have hinit : wilkInit 3 S = { a := S, x := 4 * t, z := 3 * t, op := fun _ => (0, 0) } := by
    unfold wilkInit
    simp only [show 3 - 2 = 1 from rfl, show 3 - 1 = 2 from rfl, e00, e10, e11, e22, e21]
    have : Real.sqrt (t * t) = t := Real.sqrt_mul_self h0.le
    simp [this]
    field_simp
    norm_num
  have hw0 : wst 3 S 0 = wilkInit 3 S := rfl
  have w0 : wg 3 S 0 = (4 / 5, -3 / 5) := by
    unfold wg
    rw [hw0, hinit]
    exact g1
  have a1 : (wst 3 S 1).a = givCols (givRows S 0 0 3 (4 / 5) (-3 / 5)) 0 0 3 (4 / 5) (-3 / 5) := by
    rw [wst_succ, hw0, hinit]
    unfold wilkRound
    simp only [g1]
    rfl
  have f10 : (wst 3 S 1).a 1 0 = -(3 / 5) * t := by rw [a1]; norm_num [givCols, givRows, e00, e01, e02, e10, e11, e12, e20, e21, e22]; ring
  have f20 : (wst 3 S 1).a 2 0 = 3 / 5 * t := by rw [a1]; norm_num [givCols, givRows, e00, e01, e02, e10, e11, e12, e20, e21, e22]; try ring
  have f11 : (wst 3 S 1).a 1 1 = -(9 / 5) * t := by rw [a1]; norm_num [givCols, givRows, e00, e01, e02, e10, e11, e12, e20, e21, e22]; try ring
  have f12 : (wst 3 S 1).a 1 2 = 4 / 5 * t := by rw [a1]; norm_num [givCols, givRows, e00, e01, e02, e10, e11, e12, e20, e21, e22]; try ring
  have f21 : (wst 3 S 1).a 2 1 = 4 / 5 * t := by rw [a1]; norm_num [givCols, givRows, e00, e01, e02, e10, e11, e12, e20, e21, e22]; try ring
  have f22 : (wst 3 S 1).a 2 2 = 0 := by rw [a1]; norm_num [givCols, givRows, e00, e01, e02, e10, e11, e12, e20, e21, e22]
  have hx : (wst 3 S 1).x = -(3 / 5) * t := by
    rw [← f10, wst_succ, wilkRound_x (by omega)]
  have hz : (wst 3 S 1).z = 3 / 5 * t := by
    rw [← f20, wst_succ, wilkRound_z (by omega)]
  have w1 : wg 3 S 1 = (1 / Real.sqrt 2, 1 / Real.sqrt 2) := by
    unfold wg
    rw [hx, hz]
    exact g2
  have a2 : (wst 3 S 2).a = givCols (givRows (wst 3 S 1).a 1 0 3 (1 / Real.sqrt 2) (1 / Real.sqrt 2)) 1 0 3 (1 / Real.sqrt 2) (1 / Real.sqrt 2) := by
    have : (wst 3 S 2).a = givCols (givRows (wst 3 S 1).a 1 0 3 (wg 3 S 1).1 (wg 3 S 1).2) 1 0 3 (wg 3 S 1).1 (wg 3 S 1).2 := by
      rw [wst_succ]
      rfl
    rw [this, w1]
  have hs : 1 / Real.sqrt 2 * (1 / Real.sqrt 2) = 1 / 2 := by
    rw [div_mul_div_comm, Real.mul_self_sqrt (by norm_num)]
    norm_num
  refine ⟨w0, w1, ?_, ?_, ?_⟩
  · rw [a2]
    generalize 1 / Real.sqrt 2 = c at *
    norm_num [givCols, givRows, f10, f20]
    ring
  · rw [a2]
    generalize 1 / Real.sqrt 2 = c at *
    norm_num [givCols, givRows, f11, f12, f21, f22]
    linear_combination (-(9 / 5) * t) * hs
  · rw [a2]
    generalize 1 / Real.sqrt 2 = c at *
    norm_num [givCols, givRows, f11, f12, f21, f22]
    linear_combination (-(1 / 5) * t) * hs

theorem sc_tri (t : ℝ) : SymTri 3 (exScaled t) := by
  constructor
  · intro i j hi hj
    unfold exScaled
    rw [exWilk_tri.1 i j hi hj]
  · intro r c hr hc hrc
    unfold exScaled
    rw [exWilk_tri.2 r c hr hc hrc, mul_zero]

/-- the block of a round that starts at `exScaled t`, when nothing is rounded -/
theorem sc_block {t : ℝ} (ht : 0.0000000001 < t) {B : RM} (hB : ∀ i j, i < 3 → j < 3 → B i j = exScaled t i j) :
    (∀ i j, i < 3 → j < 3 → symDeflate 3 B i j = exScaled t i j) ∧ symQ 3 (symDeflate 3 B) = 0 ∧ blockEnd 3 B = 3 ∧ blockStart 3 B = 0 := by
  have h0 : 0 < t := by norm_num at ht; linarith
  have b10 : B 1 0 = 3 * t := by rw [hB 1 0 (by omega) (by omega)]; norm_num [exScaled, exWilk]; ring
  have b21 : B 2 1 = t := by rw [hB 2 1 (by omega) (by omega)]; norm_num [exScaled, exWilk]
  have hD : ∀ i j, i < 3 → j < 3 → symDeflate 3 B i j = exScaled t i j := by
    intro i j hi hj
    unfold symDeflate
    rw [if_neg]
    · exact hB i j hi hj
    · have : ∀ k, k + 1 < 3 → ¬ |B (k + 1) k| < symTol := by
        intro k hk
        rcases (by omega : k = 0 ∨ k = 1) with rfl | rfl
        · rw [b10, abs_of_pos (by positivity)]
          unfold symTol
          linarith
        · rw [b21, abs_of_pos h0]
          unfold symTol
          linarith
      rintro (⟨rfl, h5, h3⟩ | ⟨rfl, h5, h3⟩)
      · exact this j h5 h3
      · exact this i h5 h3
  have d10 : symDeflate 3 B 1 0 = 3 * t := by rw [hD 1 0 (by omega) (by omega)]; norm_num [exScaled, exWilk]; ring
  have d21 : symDeflate 3 B 2 1 = t := by rw [hD 2 1 (by omega) (by omega)]; norm_num [exScaled, exWilk]
  have hq : symQ 3 (symDeflate 3 B) = 0 := by
    by_contra hc
    refine (symQ_spec (n := 3) (by omega) (symDeflate 3 B)).2 0 (by omega) (by omega) ⟨?_, ?_⟩
    · show symTol < |symDeflate 3 B 2 1|
      rw [d21, abs_of_pos h0]
      exact ht
    · show symTol < |symDeflate 3 B 1 0|
      rw [d10, abs_of_pos (by positivity)]
      unfold symTol
      linarith
  have hend : blockEnd 3 B = 3 := by
    unfold blockEnd
    rw [hq]
  have h1 := (block_size (n := 3) (by omega) (A := B) (by rw [hq]; omega)).1
  exact ⟨hD, hq, hend, by omega⟩

/-- A concrete case of `c85_ends_partial` and `c85_spectrum_partial`: diagonal `3t, 0, 0`, sub-diagonal `3t, t`, with `t = 1.05e-10`; the loop makes one round, with two proper
rotations, after which both entries of the sub-diagonal are rounded to zero. -/
theorem exSym_good : SymmRM 3 (exScaled 0.000000000105) ∧ GoodRun 3 false (exScaled 0.000000000105) ∧
    (∀ B, Reached 3 (exScaled 0.000000000105) B → RoundProper 3 B ∧ NoTie 3 B) ∧
    ∃ B C op, Start 3 (exScaled 0.000000000105) B ∧ symStep 3 false (B, op) = some (Sum.inr (C, op)) ∧ symStep 3 false (C, op) = some (Sum.inl (symDeflate 3 C, op)) := by
  have ht : (0.0000000001 : ℝ) < 0.000000000105 := by norm_num
  have htri := sc_tri 0.000000000105
  obtain ⟨B, h1, h2, h3⟩ := start_keep (n := 3) (by omega) htri (by
    intro k hk
    obtain rfl : k = 0 := by omega
    norm_num [exScaled, exWilk])
  obtain ⟨hD, hq, hend, hst⟩ := sc_block ht h2
  have hS : ∀ i j, i < 3 → j < 3 → shift 0 (symDeflate 3 B) i j = exScaled 0.000000000105 i j := by
    intro i j hi hj
    unfold shift
    rw [Nat.zero_add, Nat.zero_add]
    exact hD i j hi hj
  obtain ⟨r1, r2, r3, r4, r5⟩ := sc_round ht.le hS
  have hnext : symNext 3 B = putBlock (symDeflate 3 B) 0 3 (wst 3 (shift 0 (symDeflate 3 B)) 2).a := by
    unfold symNext
    rw [if_pos (by rw [hq]; omega), hend, hst]
  set C := symNext 3 B with hC
  have hstep : ∀ op, symStep 3 false (B, op) = some (Sum.inr (C, op)) := by
    intro op
    rcases symStep_spec (n := 3) (by omega) B op with ⟨a, -⟩ | ⟨-, a⟩
    · omega
    · exact a
  have c10 : C 1 0 = -(6 / 5 * 0.000000000105) * (1 / Real.sqrt 2) := by
    rw [hnext, ← r3]
    unfold putBlock
    rw [if_pos (by omega)]
  have c21 : C 2 1 = -(9 / 10) * 0.000000000105 := by
    rw [hnext, ← r4]
    unfold putBlock
    rw [if_pos (by omega)]
  have t21 : |C 2 1| < symTol := by
    rw [c21]
    unfold symTol
    rw [abs_lt]
    norm_num
  have t10 : |C 1 0| < symTol := by
    rw [c10, ← sq_lt_sq₀ (abs_nonneg _) symTol_pos.le, sq_abs, mul_pow, div_pow, Real.sq_sqrt (by norm_num)]
    unfold symTol
    norm_num
  have hstop : symQ 3 (symDeflate 3 C) = 3 := by
    by_contra hc
    have hlt := lt_of_le_of_ne (symQ_le (n := 3) (by omega) (symDeflate 3 C)) hc
    obtain ⟨k1, k2, -⟩ := (symQ_spec (n := 3) (by omega) (symDeflate 3 C)).1 hlt
    rw [show symQ 3 (symDeflate 3 C) = 0 by omega] at k2
    change symTol < |symDeflate 3 C 2 1| at k2
    have := (symDeflate_sub (n := 3) C (i := 2) (by omega) (by omega)).1 t21
    rw [show 2 - 1 = 1 from rfl] at this
    rw [this, abs_zero] at k2
    linarith [symTol_pos]
  have hend2 : ∀ op, symStep 3 false (C, op) = some (Sum.inl (symDeflate 3 C, op)) := by
    intro op
    rcases symStep_spec (n := 3) (by omega) C op with ⟨-, a⟩ | ⟨a, -⟩
    · exact a
    · omega
  have hall : ∀ X, Reached 3 (exScaled 0.000000000105) X → X = B ∨ X = C := by
    intro X hX
    induction hX with
    | start h => exact Or.inl (start_unique h h1)
    | round _ hs ih =>
      rcases ih with rfl | rfl
      · rw [hstep] at hs
        simp only [Option.some.injEq, Sum.inr.injEq, Prod.mk.injEq] at hs
        exact Or.inr hs.1.symm
      · rw [hend2] at hs
        simp at hs
  refine ⟨htri.1, h3, ?_, B, C, B, h1, hstep B, hend2 B⟩
  intro X hX
  rcases hall X hX with rfl | rfl
  · constructor
    · intro f _ hf k hk
      rw [hend, hst] at hf hk
      rw [wilkinson_eq (by omega)] at hf
      injection hf with hf
      rw [← hf, wst_op _ _ _ k (by omega)]
      rcases (by omega : k = 0 ∨ k = 1) with rfl | rfl
      · rw [show (3 - 0 : Nat) = 3 from rfl, r1]
        norm_num
      · rw [show (3 - 0 : Nat) = 3 from rfl, r2]
        simp
    · intro i hi
      rcases (by omega : i = 0 ∨ i = 1) with rfl | rfl
      · rw [h2 _ _ (by omega) (by omega)]
        norm_num [exScaled, exWilk, symTol]
      · rw [h2 _ _ (by omega) (by omega)]
        norm_num [exScaled, exWilk, symTol]
  · constructor
    · intro f h
      omega
    · intro i hi
      rcases (by omega : i = 0 ∨ i = 1) with rfl | rfl
      · exact t10.ne
      · exact t21.ne

/-! ### The transformation -/

/-- the 1 × 1 block `5` and the block `exWilk` -/
def ex4 : RM := fun i j => if i = 0 ∧ j = 0 then 5 else if 1 ≤ i ∧ 1 ≤ j then exWilk (i - 1) (j - 1) else 0

/-- **C85 fails** for the transformation: a round on a block that does not begin in the first row applies its rotations to the wrong rows of `op`.  Starting from the identity, the
result `B` of one round on `[5] ⊕ exWilk` is neither `Q A Qᵀ` nor `Qᵀ A Q` for the `Q` it returns. -/
theorem c85_op_false : ∃ B Q, symStep 4 true (ex4, fun i j => if i = j then 1 else 0) = some (Sum.inr (B, Q)) ∧
    toM 4 B ≠ toM 4 Q * toM 4 ex4 * (toM 4 Q)ᵀ ∧ toM 4 B ≠ (toM 4 Q)ᵀ * toM 4 ex4 * toM 4 Q := by
  have hD : ∀ i j, i < 4 → j < 4 → symDeflate 4 ex4 i j = ex4 i j := by
    intro i j hi hj
    unfold symDeflate symTol
    split
    · rename_i h
      rcases h with ⟨rfl, h2, h3⟩ | ⟨rfl, h2, h3⟩
      · rcases (by omega : j = 0 ∨ j = 1 ∨ j = 2) with rfl | rfl | rfl <;> norm_num [ex4, exWilk] at h3 <;> try norm_num [ex4, exWilk]
      · rcases (by omega : i = 0 ∨ i = 1 ∨ i = 2) with rfl | rfl | rfl <;> norm_num [ex4, exWilk] at h3 <;> try norm_num [ex4, exWilk]
    · rfl
  have d10 : symDeflate 4 ex4 1 0 = 0 := by rw [hD _ _ (by omega) (by omega)]; norm_num [ex4]
  have d21 : symDeflate 4 ex4 2 1 = 3 := by rw [hD _ _ (by omega) (by omega)]; norm_num [ex4, exWilk]
  have d32 : symDeflate 4 ex4 3 2 = 1 := by rw [hD _ _ (by omega) (by omega)]; norm_num [ex4, exWilk]
  have hq : symQ 4 (symDeflate 4 ex4) = 0 := by
    by_contra hc
    refine (symQ_spec (n := 4) (by omega) (symDeflate 4 ex4)).2 0 (by omega) (by omega) ⟨?_, ?_⟩
    · show symTol < |symDeflate 4 ex4 3 2|
      rw [d32]
      norm_num [symTol]
    · show symTol < |symDeflate 4 ex4 2 1|
      rw [d21]
      norm_num [symTol]
  have hp : symP 4 0 (symDeflate 4 ex4) = 1 := by
    obtain ⟨p1, p2⟩ := symP_spec 4 0 (symDeflate 4 ex4)
    have hge : ¬ symP 4 0 (symDeflate 4 ex4) < 1 := by
      intro h
      have := p2 1 h (by omega)
      rw [show 1 - 1 = 0 from rfl, d10, abs_zero] at this
      linarith [symTol_pos]
    obtain ⟨k1, k2⟩ := p1 (by omega)
    by_contra hc
    rcases (by omega : symP 4 0 (symDeflate 4 ex4) = 2 ∨ symP 4 0 (symDeflate 4 ex4) = 3) with h | h
    · rw [h, show 2 - 1 = 1 from rfl, d21] at k2
      norm_num [symTol] at k2
    · rw [h, show 3 - 1 = 2 from rfl, d32] at k2
      norm_num [symTol] at k2
  have hS : ∀ i j, i < 3 → j < 3 → shift 1 (symDeflate 4 ex4) i j = exScaled 1 i j := by
    intro i j hi hj
    unfold shift
    rw [hD _ _ (by omega) (by omega)]
    unfold ex4 exScaled
    rw [if_neg (by omega), if_pos (by omega), Nat.add_sub_cancel_left, Nat.add_sub_cancel_left, one_mul]
  obtain ⟨r1, r2, r3, r4, r5⟩ := sc_round (t := 1) (by norm_num) hS
  refine ⟨putBlock (symDeflate 4 ex4) 1 3 (wst 3 (shift 1 (symDeflate 4 ex4)) 2).a, symOp 4 2 (wst 3 (shift 1 (symDeflate 4 ex4)) 2).op (fun i j => if i = j then 1 else 0), ?_, ?_⟩
  · unfold symStep
    simp only [hq, hp, show 4 - 0 - 1 = 3 from rfl, wilkinson_eq (show 2 ≤ 3 by omega)]
    rfl
  · set Q := symOp 4 2 (wst 3 (shift 1 (symDeflate 4 ex4)) 2).op (fun i j => if i = j then 1 else 0) with hQ
    have hrow : ∀ j, j < 4 → Q 3 j = if j = 3 then 1 else 0 := by
      intro j hj
      rw [hQ]
      unfold symOp
      simp only [List.range_succ, List.range_zero, List.nil_append, List.cons_append, List.foldl_cons, List.foldl_nil]
      rw [givRows_other (by omega) (by omega), givRows_other (by omega) (by omega)]
      exact if_congr eq_comm rfl rfl
    have hcol : ∀ i, i < 4 → Q i 3 = if i = 3 then 1 else 0 := by
      intro i hi
      rw [hQ]
      unfold symOp
      simp only [List.range_succ, List.range_zero, List.nil_append, List.cons_append, List.foldl_cons, List.foldl_nil]
      rcases (by omega : i = 0 ∨ i = 1 ∨ i = 2 ∨ i = 3) with rfl | rfl | rfl | rfl <;> norm_num [givRows]
    have hB : putBlock (symDeflate 4 ex4) 1 3 (wst 3 (shift 1 (symDeflate 4 ex4)) 2).a 3 3 = -1 / 10 := by
      unfold putBlock
      rw [if_pos (by omega)]
      rw [show (3 - 1 : Nat) = 2 from rfl, r5]
      norm_num
    have hA : ex4 3 3 = 0 := by norm_num [ex4, exWilk]
    constructor
    · intro hc
      have := congrFun (congrFun hc 3) 3
      rw [toM_apply, show (((3 : Fin 4) : Nat)) = 3 from rfl, hB] at this
      simp only [Matrix.mul_apply, Matrix.transpose_apply, toM_apply, Fin.sum_univ_four, show (((0 : Fin 4) : Nat)) = 0 from rfl, show (((1 : Fin 4) : Nat)) = 1 from rfl, show (((2 : Fin 4) : Nat)) = 2 from rfl,
        show (((3 : Fin 4) : Nat)) = 3 from rfl, hrow 0 (by omega), hrow 1 (by omega), hrow 2 (by omega), hrow 3 (by omega), hA] at this
      norm_num [hA] at this
    · intro hc
      have := congrFun (congrFun hc 3) 3
      rw [toM_apply, show (((3 : Fin 4) : Nat)) = 3 from rfl, hB] at this
      simp only [Matrix.mul_apply, Matrix.transpose_apply, toM_apply, Fin.sum_univ_four, show (((0 : Fin 4) : Nat)) = 0 from rfl, show (((1 : Fin 4) : Nat)) = 1 from rfl, show (((2 : Fin 4) : Nat)) = 2 from rfl,
        show (((3 : Fin 4) : Nat)) = 3 from rfl, hcol 0 (by omega), hcol 1 (by omega), hcol 2 (by omega), hcol 3 (by omega), hA] at this
      norm_num [hA] at this

end Toppo.RealAlg
