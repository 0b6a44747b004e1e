import Verif.Props.Smith
import Verif.Proof.Minors
set_option linter.unusedVariables false

/-
C136: what the diagonal of `Matrix::smith_normal_form` is. The result is determined by the minors of the input, so it is the same, up
to signs, for any two matrices that differ by invertible integer matrices on both sides; and for no other two of the same size.
-/
namespace Toppo.Smith
open Toppo Toppo.PIDProps Toppo.Minors Finset

variable {n m : Nat}

theorem diag_chain {fuel : Nat} {a : M} {st : St} (h : snf fuel n m a = some st) :
    ∀ i j, i ≤ j → j < min n m → st.a i i ∣ st.a j j := by
  obtain ⟨R, h1, h2, h3, h4, h5, h6⟩ := c35_shape h
  intro i j hij hj
  rcases Nat.lt_or_ge j R with hr | hr
  · rcases Nat.eq_or_lt_of_le hij with rfl | hlt
    · exact dvd_rfl
    · exact h6 i j hlt hr
  · rw [h5 j hr (by omega) (by omega)]
    exact dvd_zero _

theorem diag_entries {fuel : Nat} {a : M} {st : St} (h : snf fuel n m a = some st) :
    ∀ (i : Fin n) (j : Fin m), mat n m st.a i j = if i.val = j.val then st.a i i else 0 := by
  obtain ⟨R, h1, h2, h3, h4, h5, h6⟩ := c35_shape h
  intro i j
  simp only [mat, Matrix.of_apply]
  split
  · next e => rw [← e]
  · next e => exact h3 i j i.2 j.2 e

/-- **C136.** The product of the first `k` diagonal entries of the result is, up to sign, the greatest common divisor of all `k`-by-`k`
minors of the input: an integer divides it exactly if it divides the determinant of every matrix made of `k` rows and `k` columns of
the input. For every non-empty integer matrix and every `k` up to the smaller side. -/
theorem c136_minors {fuel : Nat} {a : M} {st : St} (h : snf fuel n m a = some st) {k : Nat} (hk : k ≤ min n m) (d : ℤ) :
    d ∣ ∏ i ∈ range k, st.a i i ↔ ∀ (r : Fin k → Fin n) (c : Fin k → Fin m), d ∣ ((mat n m a).submatrix r c).det := by
  obtain ⟨t1, t2, t3, t4⟩ := c33_transform h
  rw [← divMinors_diag (fun i => st.a i i) (diag_chain h) (mat n m st.a) (diag_entries h) hk d, ← t1]
  exact divMinors_equiv ⟨⟨_, _, t2, t3⟩, rfl⟩ t4 _ d

/-- **C136**, one row and one column: the first diagonal entry is, up to sign, the greatest common divisor of all entries. -/
theorem c136_gcd {fuel : Nat} {a : M} {st : St} (h : snf fuel n m a = some st) (d : ℤ) :
    d ∣ st.a 0 0 ↔ ∀ i j, i < n → j < m → d ∣ a i j := by
  obtain ⟨hn, hm⟩ := snf_nonempty h
  have := c136_minors h (k := 1) (by omega) d
  rw [prod_range_one] at this
  rw [this]
  constructor
  · intro h1 i j hi hj
    have := h1 (fun _ => ⟨i, hi⟩) (fun _ => ⟨j, hj⟩)
    simpa [mat] using this
  · intro h1 r c
    simpa [mat] using h1 (r 0) (c 0) (r 0).2 (c 0).2

/-- **C136**, all rows and all columns: for a square matrix the product of the diagonal entries is the determinant up to sign. -/
theorem c136_det {fuel : Nat} {a : M} {st : St} (h : snf fuel n n a = some st) :
    (∏ i ∈ range n, st.a i i).natAbs = (mat n n a).det.natAbs := by
  refine Int.natAbs_eq_of_dvd_dvd ?_ ?_
  · have := (c136_minors h (k := n) (by simp) _).mp dvd_rfl id id
    simpa using this
  · refine (c136_minors h (k := n) (by simp) _).mpr (fun r c => ?_)
    have : DivMinors n (1 * mat n n a * 1) (mat n n a).det := by
      intro r c
      have e : ((1 * mat n n a * 1 : Matrix (Fin n) (Fin n) ℤ).submatrix r c) =
          (1 : Matrix (Fin n) (Fin n) ℤ).submatrix r id * mat n n a * (1 : Matrix (Fin n) (Fin n) ℤ).submatrix id c := by
        rw [Matrix.submatrix_mul _ _ r id c Function.bijective_id, Matrix.submatrix_mul _ _ r id id Function.bijective_id]
        simp
      rw [e, Matrix.det_mul, Matrix.det_mul]
      exact Dvd.dvd.mul_right (Dvd.intro_left _ rfl) _
    have := this r c
    rwa [Matrix.one_mul, Matrix.mul_one] at this

/-- **C136**, the result is an invariant: if `B = U A V` with invertible integer matrices `U` and `V` (for instance `B` is `A` with rows
and columns permuted, signs changed, or multiples of rows added to other rows), the results for `A` and `B` have the same diagonal up
to signs. -/
theorem c136_invariant {fa fb : Nat} {a b : M} {sa sb : St} (ha : snf fa n m a = some sa) (hb : snf fb n m b = some sb)
    (U : Matrix (Fin n) (Fin n) ℤ) (V : Matrix (Fin m) (Fin m) ℤ) (hU : IsUnit U) (hV : IsUnit V)
    (e : mat n m b = U * mat n m a * V) : ∀ i, i < min n m → (sa.a i i).natAbs = (sb.a i i).natAbs := by
  refine chain_abs (min n m) (fun i => sa.a i i) (fun i => sb.a i i) (diag_chain ha) (diag_chain hb) (fun k hk => ?_)
  have key : ∀ d, d ∣ ∏ i ∈ range k, sa.a i i ↔ d ∣ ∏ i ∈ range k, sb.a i i := by
    intro d
    rw [c136_minors ha hk d, c136_minors hb hk d, e]
    exact (divMinors_equiv hU hV _ d).symm
  exact Int.natAbs_eq_of_dvd_dvd ((key _).mp dvd_rfl) ((key _).mpr dvd_rfl)

/-- **C136**, transposing the input does not change the diagonal (up to signs). -/
theorem c136_transpose {fa fb : Nat} {a : M} {sa sb : St} (ha : snf fa n m a = some sa) (hb : snf fb m n (fun i j => a j i) = some sb) :
    ∀ i, i < min n m → (sa.a i i).natAbs = (sb.a i i).natAbs := by
  have hb' := diag_chain hb
  rw [Nat.min_comm] at hb'
  refine chain_abs (min n m) (fun i => sa.a i i) (fun i => sb.a i i) (diag_chain ha) hb' (fun k hk => ?_)
  have et : mat m n (fun i j => a j i) = (mat n m a).transpose := by ext i j; rfl
  have key : ∀ d, d ∣ ∏ i ∈ range k, sa.a i i ↔ d ∣ ∏ i ∈ range k, sb.a i i := by
    intro d
    rw [c136_minors ha hk d, c136_minors hb (by omega) d, et]
    refine ⟨fun h => divMinors_transpose h, fun h => ?_⟩
    have := divMinors_transpose (A := (mat n m a).transpose) h
    rwa [Matrix.transpose_transpose] at this
  exact Int.natAbs_eq_of_dvd_dvd ((key _).mp dvd_rfl) ((key _).mpr dvd_rfl)

/-- **C136**, the result is a complete invariant: if the diagonals for `A` and `B` of one size agree up to signs, then `B = U A V` for
some invertible integer matrices. -/
theorem c136_complete {fa fb : Nat} {a b : M} {sa sb : St} (ha : snf fa n m a = some sa) (hb : snf fb n m b = some sb)
    (h : ∀ i, i < min n m → (sa.a i i).natAbs = (sb.a i i).natAbs) :
    ∃ (U : Matrix (Fin n) (Fin n) ℤ) (V : Matrix (Fin m) (Fin m) ℤ), IsUnit U ∧ IsUnit V ∧ mat n m b = U * mat n m a * V := by
  obtain ⟨a1, a2, a3, a4⟩ := c33_transform ha
  obtain ⟨b1, b2, b3, b4⟩ := c33_transform hb
  -- signs
  let s : Fin n → ℤ := fun i => if sb.a i i = sa.a i i then 1 else -1
  let D : Matrix (Fin n) (Fin n) ℤ := Matrix.diagonal s
  have hD : D * D = 1 := by
    rw [Matrix.diagonal_mul_diagonal, ← Matrix.diagonal_one]
    congr 1
    funext i
    simp only [s]
    split <;> simp
  have hS : mat n m sb.a = D * mat n m sa.a := by
    ext i j
    rw [Matrix.diagonal_mul, diag_entries ha, diag_entries hb]
    split
    · next e =>
      have := h i (by have := i.2; have := j.2; omega)
      simp only [s]
      split
      · next e2 => rw [e2, one_mul]
      · next e2 =>
        rcases Int.natAbs_eq_natAbs_iff.mp this with e3 | e3
        · exact absurd e3.symm e2
        · rw [e3]; ring
    · rw [mul_zero]
  obtain ⟨⟨Q, Q', q1, q2⟩, hq⟩ := b4
  have hq : Q = mat m m sb.q := hq
  refine ⟨mat n n sb.pinv * D * mat n n sa.p, mat m m sa.q * Q', ?_, ?_, ?_⟩
  · exact (IsUnit.mul ⟨⟨_, _, b3, b2⟩, rfl⟩ ⟨⟨D, D, hD, hD⟩, rfl⟩).mul ⟨⟨_, _, a2, a3⟩, rfl⟩
  · exact a4.mul ⟨⟨Q', Q, q2, q1⟩, rfl⟩
  · have h1 : mat n n sb.pinv * D * mat n n sa.p * mat n m a * (mat m m sa.q * Q') =
        mat n n sb.pinv * (D * (mat n n sa.p * mat n m a * mat m m sa.q)) * Q' := by
      simp only [Matrix.mul_assoc]
    rw [h1, a1, ← hS, ← b1, ← hq]
    have h2 : mat n n sb.pinv * (mat n n sb.p * mat n m b * Q) * Q' =
        (mat n n sb.pinv * mat n n sb.p) * mat n m b * (Q * Q') := by simp only [Matrix.mul_assoc]
    rw [h2, b3, q1, Matrix.one_mul, Matrix.mul_one]

/-! ### concrete cases -/

/-- `[[2, 4], [6, 3]]` and its transpose with the rows swapped: both calls return, with the same diagonal up to sign -/
def exB : M := fun i j => if i = 0 then (if j = 0 then 4 else 3) else (if j = 0 then 2 else 6)
example : (snf 20 2 2 exB).map (fun st => (st.a 0 0, st.a 1 1)) = some (1, -18) ∨
    (snf 20 2 2 exB).map (fun st => (st.a 0 0, st.a 1 1)) = some (1, 18) := by decide +kernel
/-- the hypotheses of `c136_minors` for `diag(2, 3)`, whose entries are not the result: gcd of the entries 1, product 6 -/
example : (snf 20 2 2 exD).map (fun st => (∏ i ∈ range 1, st.a i i, ∏ i ∈ range 2, st.a i i)) = some (1, 6) := by decide +kernel

end Toppo.Smith
