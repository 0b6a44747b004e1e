import Verif.Proof.Wilk
set_option linter.unusedVariables false

/-
C84: the implicit symmetric QR step with Wilkinson's shift; exact real arithmetic.
-/
namespace Toppo.RealAlg
open Finset Matrix

/-! ### Specification

`SymTri n A`: symmetric and tridiagonal.  `rot n i c s`: the rotation `[[c, s], [-s, c]]` in the coordinates `i`, `i + 1`. -/

/-- the product of the rotations recorded by the step, one for each pair of neighbouring rows -/
noncomputable def rotations (n : Nat) (op : Nat → ℝ × ℝ) : Matrix (Fin n) (Fin n) ℝ := ((List.range (n - 1)).map (fun k => rot n k (op k).1 (op k).2)).prod

/-- the shift is well defined: otherwise the code divides zero by zero -/
def ShiftDefined (n : Nat) (A : RM) : Prop := A (n - 1) (n - 2) ≠ 0 ∨ A (n - 2) (n - 2) ≠ A (n - 1) (n - 1)

/-- a symmetric matrix that is tridiagonal up to one pair of entries, of size below `1e-12` -/
def NearlyTri (n : Nat) (B : RM) : Prop :=
  SymmRM n B ∧ ∃ k, ∀ r c, r < n → c < n → c + 2 ≤ r → B r c = 0 ∨ (r = k + 1 ∧ c + 1 = k ∧ |B r c| < 0.000000000001)

/-! ### Proofs -/

theorem wst_op (n : Nat) (A : RM) (i : Nat) : ∀ k, k < i → (wst n A i).op k = wg n A k := by
  induction i with
  | zero => intro k hk; omega
  | succ i ih =>
    intro k hk
    rw [wst_succ]
    show (if k = i then givens (wst n A i).x (wst n A i).z else (wst n A i).op k) = wg n A k
    by_cases h : k = i
    · rw [if_pos h, h]
      rfl
    · rw [if_neg h]
      exact ih k (by omega)

theorem wilkinson_eq {n : Nat} (hn : 2 ≤ n) (A : RM) : wilkinson n A = some (wst n A (n - 1)) := by
  unfold wilkinson
  rw [if_neg (by omega)]
  rfl

theorem rotations_eq {n : Nat} (hn : 2 ≤ n) (A : RM) : rotations n (wst n A (n - 1)).op = wQ n A (n - 1) := by
  unfold rotations wQ
  congr 1
  apply List.map_congr_left
  intro k hk
  rw [List.mem_range] at hk
  rw [wst_op n A (n - 1) k hk]

/-- **C84**: on a symmetric tridiagonal matrix with at least two rows, the step succeeds; the product `Q` of the rotations it records is orthogonal, and the result is exactly `Qᵀ A Q`,
symmetric, and tridiagonal up to one pair of entries below the cut-off of `givens_rotation`. -/
theorem c84_step (n : Nat) (hn : 2 ≤ n) (A : RM) (hA : SymTri n A) (hd : ShiftDefined n A) :
    ∃ f, wilkinson n A = some f ∧ (rotations n f.op)ᵀ * rotations n f.op = 1 ∧ toM n f.a = (rotations n f.op)ᵀ * toM n A * rotations n f.op ∧ NearlyTri n f.a := by
  refine ⟨_, wilkinson_eq hn A, ?_, ?_, ?_⟩
  · rw [rotations_eq hn]
    exact wQ_orth A (by omega)
  · rw [rotations_eq hn]
    exact (wilk_inv hA (n - 1) (by omega)).1
  · obtain ⟨-, h2, h3⟩ := wilk_inv hA (n - 1) (by omega)
    refine ⟨h2, ?_⟩
    rcases h3 with ⟨-, h, -⟩ | ⟨⟨k, k1, k2, k3⟩, -⟩
    · refine ⟨n, fun r c hr hc hrc => Or.inl (h r c hr hc hrc (by omega))⟩
    · refine ⟨k, fun r c hr hc hrc => ?_⟩
      by_cases h : r = k + 1 ∧ c + 1 = k
      · refine Or.inr ⟨h.1, h.2, ?_⟩
        have := k3 (by omega)
        rw [h.1, show c = k - 1 by omega]
        exact this
      · exact Or.inl (k2 r c hr hc hrc h)

theorem noCut_iff {n : Nat} {A : RM} {k : Nat} : NoCut n A k ↔ ∀ i, i < k → (wg n A i).2 ≠ 0 := by
  constructor
  · intro h i hi
    exact wg_ne (h i hi)
  · intro h i hi
    by_contra h2
    rw [not_le] at h2
    have : wg n A i = (1, 0) := (c67_givens _ _).2.2 h2
    exact h i hi (by rw [this])

/-- **C84**: if none of the rotations recorded is the identity, the result is tridiagonal, and the step is a step of the QR algorithm with a shift: `A - m = Q R` with `R` upper
triangular, and the result is `R Q + m`. -/
theorem c84_qr (n : Nat) (hn : 2 ≤ n) (A : RM) (hA : SymTri n A) (f : WState) (h : wilkinson n A = some f) (hrot : ∀ k, k + 1 < n → (f.op k).2 ≠ 0) :
    SymTri n f.a ∧ ∃ R : Matrix (Fin n) (Fin n) ℝ, (∀ i j, j < i → R i j = 0) ∧
      toM n A - wshift n A • (1 : Matrix (Fin n) (Fin n) ℝ) = rotations n f.op * R ∧ toM n f.a = R * rotations n f.op + wshift n A • (1 : Matrix (Fin n) (Fin n) ℝ) := by
  rw [wilkinson_eq hn] at h
  injection h with h
  subst h
  have hc : NoCut n A (n - 1) := noCut_iff.mpr (fun i hi => by
    have := hrot i (by omega)
    rwa [wst_op n A (n - 1) i hi] at this)
  obtain ⟨i1, i2, i3⟩ := wilk_inv hA (n - 1) (by omega)
  obtain ⟨r1, r2⟩ := wr_inv hA (n - 1) (by omega) hc
  refine ⟨⟨i2, ?_⟩, toM n (wr n A (n - 1)), ?_, ?_, ?_⟩
  · rcases i3 with ⟨-, h, -⟩ | ⟨⟨k, k1, k2, k3⟩, -⟩
    · intro r c hr hc hrc
      exact h r c hr hc hrc (by omega)
    · intro r c hr hc' hrc
      by_cases h : r = k + 1 ∧ c + 1 = k
      · -- the entry is zero all the same
        rw [wst_entry hA (by omega) hr hc' (by omega)]
        apply Finset.sum_eq_zero
        intro t ht
        rw [Finset.mem_range] at ht
        rcases lt_or_ge t r with h5 | h5
        · rw [r1 r t hr (by omega) h5, zero_mul]
        · rw [(wq_inv (n := n) A (n - 1) (by omega)).2.1 t c ht hc' (by omega), mul_zero]
      · exact k2 r c hr hc' hrc h
  · intro i j hij
    rw [toM_apply]
    exact r1 i j i.2 (by have := i.2; have : j.1 < i.1 := hij; omega) hij
  · rw [rotations_eq hn, toM_wr A (n - 1) (by omega), ← Matrix.mul_assoc, mul_eq_one_comm.mp (wQ_orth A (show n - 1 < n by omega)), Matrix.one_mul, wr_zero]
  · rw [rotations_eq hn, ← toM_wq A (n - 1) (by omega), ← wst_factor hA (n - 1) (by omega)]
    simp

/-- **C84**, the shift `m`: it is a root of the characteristic polynomial of the last 2 × 2 block `[[e, b], [b, a]]`, and at least as close to `a` as the other root `e + a - m`. -/
theorem c84_shift (n : Nat) (A : RM) (hb : A (n - 1) (n - 2) ≠ 0) :
    (A (n - 2) (n - 2) - wshift n A) * (A (n - 1) (n - 1) - wshift n A) - A (n - 1) (n - 2) ^ 2 = 0 ∧
    |wshift n A - A (n - 1) (n - 1)| ≤ |(A (n - 2) (n - 2) + A (n - 1) (n - 1) - wshift n A) - A (n - 1) (n - 1)| := by
  obtain ⟨h1, -, h3⟩ := wshift_spec hb
  refine ⟨by linarith, ?_⟩
  rw [show A (n - 2) (n - 2) + A (n - 1) (n - 1) - wshift n A - A (n - 1) (n - 1) = A (n - 2) (n - 2) - wshift n A by ring]
  exact sq_le_sq.mp h3

/-- **C84**, convergence: if none of the rotations recorded is the identity, the step at least halves `b⁴ c²`, where `b` and `c` are the last two entries of the sub-diagonal. -/
theorem c84_halves (n : Nat) (hn : 3 ≤ n) (A : RM) (hA : SymTri n A) (hb : A (n - 1) (n - 2) ≠ 0) (f : WState) (h : wilkinson n A = some f) (hrot : ∀ k, k + 1 < n → (f.op k).2 ≠ 0) :
    f.a (n - 1) (n - 2) ^ 4 * f.a (n - 2) (n - 3) ^ 2 ≤ A (n - 1) (n - 2) ^ 4 * A (n - 2) (n - 3) ^ 2 / 2 := by
  rw [wilkinson_eq (by omega)] at h
  injection h with h
  subst h
  obtain ⟨k, rfl⟩ : ∃ k, n = k + 3 := ⟨n - 3, by omega⟩
  rw [show k + 3 - 1 = k + 2 by omega, show k + 3 - 2 = k + 1 by omega, show k + 3 - 3 = k by omega] at *
  refine wilk_halves hA (noCut_iff.mpr (fun i hi => ?_)) hb
  have := hrot i (by omega)
  rwa [wst_op _ A (k + 2) i hi] at this

/-- with fewer than two rows it panics -/
theorem c84_small_panics (n : Nat) (hn : n < 2) (A : RM) : wilkinson n A = none := by
  unfold wilkinson
  rw [if_pos hn]

/-- A concrete case: diagonal `3, 0, 0`, sub-diagonal `3, 1`; the shift is `-1` and both rotations are proper. -/
def exWilk : RM := fun i j => if i = 0 ∧ j = 0 then 3 else if i + j = 1 then 3 else if i + j = 3 then 1 else 0

theorem exWilk_tri : SymTri 3 exWilk := by
  constructor
  · intro i j hi hj
    unfold exWilk
    rw [add_comm j i]
    simp only [and_comm]
  · intro r c hr hc hrc
    obtain ⟨rfl, rfl⟩ : r = 2 ∧ c = 0 := by omega
    norm_num [exWilk]

example : SymTri 3 exWilk ∧ ShiftDefined 3 exWilk ∧ wshift 3 exWilk = -1 ∧ ∃ f, wilkinson 3 exWilk = some f ∧ ∀ k, k + 1 < 3 → (f.op k).2 ≠ 0 := by
  have hinit : wilkInit 3 exWilk = { a := exWilk, x := 4, z := 3, op := fun _ => (0, 0) } := by
    unfold wilkInit
    norm_num [exWilk]
  have hg : givens 4 3 = (4 / 5, -3 / 5) := by
    unfold givens
    rw [if_neg (by norm_num [abs_of_pos]), if_neg (by norm_num [abs_of_pos])]
    have h16 : Real.sqrt 16 = 4 := by rw [show (16 : ℝ) = 4 * 4 by norm_num, Real.sqrt_mul_self (by norm_num)]
    have h25 : Real.sqrt 25 = 5 := by rw [show (25 : ℝ) = 5 * 5 by norm_num, Real.sqrt_mul_self (by norm_num)]
    norm_num
    rw [h16, h25]
    norm_num
  have h0 : (0.000000000001 : ℝ) ≤ |(wst 3 exWilk 0).z| := by
    show _ ≤ |(wilkInit 3 exWilk).z|
    rw [hinit]
    norm_num
  have h1 : (0.000000000001 : ℝ) ≤ |(wst 3 exWilk 1).z| := by
    have : (wst 3 exWilk 1).z = 3 / 5 := by
      rw [wst_succ]
      show (wilkRound 3 (wilkInit 3 exWilk) 0).z = 3 / 5
      rw [hinit]
      unfold wilkRound
      simp only [hg]
      norm_num [givCols, givRows, exWilk]
    rw [this]
    norm_num [abs_of_pos]
  refine ⟨exWilk_tri, Or.inl (by norm_num [exWilk]), ?_, _, wilkinson_eq (by norm_num) exWilk, ?_⟩
  · unfold wshift
    rw [hinit]
    norm_num [exWilk]
  · intro k hk
    rw [wst_op 3 exWilk 2 k (by omega)]
    rcases (by omega : k = 0 ∨ k = 1) with rfl | rfl
    · exact wg_ne h0
    · exact wg_ne h1

end Toppo.RealAlg
