import Mathlib.LinearAlgebra.Matrix.Determinant.Basic
import Mathlib.LinearAlgebra.Matrix.NonsingularInverse
import Mathlib.Data.Finset.Sort
set_option linter.unusedVariables false

/-
Minors of integer matrices: an integer that divides all minors of a given size keeps doing so when the matrix is multiplied by
other matrices; and the minors of a diagonal matrix whose diagonal is a chain of divisors. Mathematics only, no code.
-/
namespace Toppo.Minors
open Finset

/-- `d` divides every `k`-by-`k` minor of `A`: the determinant of every matrix got by picking `k` rows and `k` columns -/
def DivMinors (k : Nat) {n m : Nat} (A : Matrix (Fin n) (Fin m) ℤ) (d : ℤ) : Prop :=
  ∀ (r : Fin k → Fin n) (c : Fin k → Fin m), d ∣ (A.submatrix r c).det

theorem divMinors_transpose {k n m : Nat} {A : Matrix (Fin n) (Fin m) ℤ} {d : ℤ} (h : DivMinors k A d) : DivMinors k A.transpose d := by
  intro r c
  rw [← Matrix.transpose_submatrix, Matrix.det_transpose]
  exact h c r

theorem divMinors_left {k n m l : Nat} (P : Matrix (Fin l) (Fin n) ℤ) {A : Matrix (Fin n) (Fin m) ℤ} {d : ℤ} (h : DivMinors k A d) :
    DivMinors k (P * A) d := by
  intro r c
  have e : ((P * A).submatrix r c) = fun i => ∑ j : Fin n, P (r i) j • (fun x => A j (c x)) := by
    ext i x
    simp [Matrix.mul_apply, Finset.sum_apply]
  have e2 : ((P * A).submatrix r c).det = ∑ f : Fin k → Fin n, (∏ i, P (r i) (f i)) • (A.submatrix f c).det := by
    rw [e]
    change Matrix.detRowAlternating.toMultilinearMap _ = _
    rw [MultilinearMap.map_sum]
    refine Finset.sum_congr rfl (fun f _ => ?_)
    rw [MultilinearMap.map_smul_univ]
    rfl
  rw [e2]
  exact Finset.dvd_sum (fun f _ => Dvd.dvd.mul_left (h f c) _)

theorem divMinors_right {k n m l : Nat} (Q : Matrix (Fin m) (Fin l) ℤ) {A : Matrix (Fin n) (Fin m) ℤ} {d : ℤ} (h : DivMinors k A d) :
    DivMinors k (A * Q) d := by
  have := divMinors_transpose (divMinors_left Q.transpose (divMinors_transpose h))
  rwa [← Matrix.transpose_mul, Matrix.transpose_transpose] at this

/-- multiplying by invertible matrices on both sides does not change which integers divide all minors -/
theorem divMinors_equiv {k n m : Nat} {P : Matrix (Fin n) (Fin n) ℤ} {Q : Matrix (Fin m) (Fin m) ℤ} (hP : IsUnit P) (hQ : IsUnit Q)
    (A : Matrix (Fin n) (Fin m) ℤ) (d : ℤ) : DivMinors k (P * A * Q) d ↔ DivMinors k A d := by
  constructor
  · intro h
    obtain ⟨⟨P, P', p1, p2⟩, rfl⟩ := hP
    obtain ⟨⟨Q, Q', q1, q2⟩, rfl⟩ := hQ
    have := divMinors_right Q' (divMinors_left P' h)
    have e : P' * (P * A * Q) * Q' = A := by
      rw [Matrix.mul_assoc P A Q, ← Matrix.mul_assoc P' P, p2, Matrix.one_mul, Matrix.mul_assoc, q1, Matrix.mul_one]
    rwa [e] at this
  · intro h
    exact divMinors_right Q (divMinors_left P h)

theorem le_strict {k N : Nat} (f : Fin k ↪o Fin N) (i : Fin k) : i.val ≤ (f i).val := by
  obtain ⟨i, hi⟩ := i
  induction i with
  | zero => exact Nat.zero_le _
  | succ i ih =>
    have h1 := ih (by omega)
    have h2 : f ⟨i, by omega⟩ < f ⟨i + 1, hi⟩ := f.lt_iff_lt.mpr (by simp [Fin.lt_def])
    have h3 : (f ⟨i, by omega⟩).val < (f ⟨i + 1, hi⟩).val := h2
    simp only at h1 ⊢
    omega

/-- in a chain of divisors the product of the first `k` divides every product of `k` different ones -/
theorem chain_prod {N k : Nat} (s : Nat → ℤ) (hs : ∀ i j, i ≤ j → j < N → s i ∣ s j) (c : Fin k → Fin N) (hc : Function.Injective c) :
    (∏ i ∈ range k, s i) ∣ ∏ i : Fin k, s (c i) := by
  have hcard : (univ.image c).card = k := by rw [Finset.card_image_of_injective _ hc]; simp
  have e : ∏ i : Fin k, s (c i) = ∏ i : Fin k, s ((univ.image c).orderEmbOfFin hcard i) := by
    have h1 : ∏ i : Fin k, s (c i) = ∏ x ∈ univ.image c, s x := by
      rw [Finset.prod_image (fun x _ y _ h => hc h)]
    have h2 : ∏ x ∈ univ.image c, s x = ∏ i : Fin k, s ((univ.image c).orderEmbOfFin hcard i) := by
      conv_lhs => rw [← Finset.map_orderEmbOfFin_univ (univ.image c) hcard]
      rw [Finset.prod_map]
      rfl
    rw [h1, h2]
  rw [e, Finset.prod_range]
  exact Finset.prod_dvd_prod_of_dvd _ _ (fun i _ => hs _ _ (le_strict _ i) (Fin.is_lt _))

/-- the minors of a diagonal matrix with a chain of divisors on the diagonal: their common divisors are the divisors of the product of
the first `k` diagonal entries -/
theorem divMinors_diag {n m k : Nat} (s : Nat → ℤ) (hs : ∀ i j, i ≤ j → j < min n m → s i ∣ s j) (S : Matrix (Fin n) (Fin m) ℤ)
    (hS : ∀ i j, S i j = if i.val = j.val then s i else 0) (hk : k ≤ min n m) (d : ℤ) :
    DivMinors k S d ↔ d ∣ ∏ i ∈ range k, s i := by
  constructor
  · intro h
    have := h (Fin.castLE (by omega)) (Fin.castLE (by omega))
    have e : S.submatrix (Fin.castLE (by omega : k ≤ n)) (Fin.castLE (by omega : k ≤ m)) = Matrix.diagonal (fun i : Fin k => s i) := by
      ext i j
      simp [hS, Matrix.diagonal, Fin.ext_iff]
    rw [e, Matrix.det_diagonal] at this
    rwa [Finset.prod_range]
  · intro h r c
    refine h.trans ?_
    by_cases hc : Function.Injective c
    · rw [Matrix.det_apply']
      refine Finset.dvd_sum (fun σ _ => ?_)
      refine Dvd.dvd.mul_left ?_ _
      by_cases hz : ∃ i, (S.submatrix r c) (σ i) i = 0
      · obtain ⟨i, hi⟩ := hz
        have e0 : ∏ i, (S.submatrix r c) (σ i) i = 0 := Finset.prod_eq_zero (f := fun i => (S.submatrix r c) (σ i) i) (Finset.mem_univ i) hi
        rw [e0]
        exact dvd_zero _
      · push Not at hz
        have hv : ∀ i, (r (σ i)).val = (c i).val := by
          intro i
          by_contra hne
          exact hz i (by simp [hS, hne])
        have hlt : ∀ i, (c i).val < min n m := fun i => by
          have h1 := (r (σ i)).is_lt
          have h2 := (c i).is_lt
          rw [hv i] at h1
          omega
        have e : ∏ i, (S.submatrix r c) (σ i) i = ∏ i : Fin k, s ((⟨(c i).val, hlt i⟩ : Fin (min n m)) : Nat) :=
          Finset.prod_congr rfl (fun i _ => by simp [hS, hv i])
        rw [e]
        exact chain_prod s hs (fun i => ⟨(c i).val, hlt i⟩) (fun a b hab => hc (Fin.ext (by simpa using hab)))
    · obtain ⟨a, b, hab, hne⟩ : ∃ a b, c a = c b ∧ a ≠ b := by
        unfold Function.Injective at hc
        push Not at hc
        exact hc
      rw [Matrix.det_zero_of_column_eq hne (fun x => by simp [hab])]
      exact dvd_zero _

/-- two chains of divisors whose first `k` entries have equal products up to sign, for all `k ≤ N`, agree up to sign -/
theorem chain_abs (N : Nat) (s t : Nat → ℤ) (hs : ∀ i j, i ≤ j → j < N → s i ∣ s j) (ht : ∀ i j, i ≤ j → j < N → t i ∣ t j)
    (h : ∀ k, k ≤ N → (∏ i ∈ range k, s i).natAbs = (∏ i ∈ range k, t i).natAbs) : ∀ i, i < N → (s i).natAbs = (t i).natAbs := by
  intro i
  induction i using Nat.strong_induction_on with
  | _ i ih =>
    intro hi
    have h1 := h i hi.le
    have h2 := h (i + 1) hi
    rw [prod_range_succ, prod_range_succ, Int.natAbs_mul, Int.natAbs_mul, h1] at h2
    rcases Nat.eq_zero_or_pos (∏ j ∈ range i, t j).natAbs with h0 | h0
    · have hz : ∃ j, j < i ∧ t j = 0 := by
        have := Int.natAbs_eq_zero.mp h0
        obtain ⟨j, hj, e⟩ := Finset.prod_eq_zero_iff.mp this
        exact ⟨j, Finset.mem_range.mp hj, e⟩
      obtain ⟨j, hj, e⟩ := hz
      have e' : s j = 0 := Int.natAbs_eq_zero.mp ((ih j hj (by omega)).trans (by simp [e]))
      have t0 := ht j i hj.le hi
      have s0 := hs j i hj.le hi
      rw [e] at t0
      rw [e'] at s0
      rw [zero_dvd_iff.mp t0, zero_dvd_iff.mp s0]
    · exact Nat.eq_of_mul_eq_mul_left h0 h2

end Toppo.Minors
