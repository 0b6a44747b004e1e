import Verif.Proof.SmithField
import Mathlib.LinearAlgebra.Matrix.NonsingularInverse
import Mathlib.LinearAlgebra.Matrix.Rank
import Mathlib.Algebra.Order.Field.Rat
import Mathlib.Tactic.NormNum
set_option linter.unusedVariables false
set_option linter.unusedSectionVars false

/-
C102: the generic `PID` code at a field type with exact arithmetic: `euclid_div`, `divides`, `bezout_identity`, `gcd` and
`smith_normal_form`, for every field, every matrix and every size.

Vocabulary: `mat n m f` is the Mathlib matrix with the entries of `f`; `snf (exact K) n m a = some st` says that the call with the
`n × m` matrix `a` returns the tuple `(st.pinv, st.p, st.a, st.q, st.qinv)`; `none` is a panic.
-/
namespace Toppo.SmithF
open Toppo Finset

variable {K : Type} [Field K] [DecidableEq K]

/-- the `n × m` matrix with entries `f` -/
def mat (n m : Nat) (f : Nat → Nat → K) : Matrix (Fin n) (Fin m) K := Matrix.of fun i j => f i j

theorem mat_mul (n k m : Nat) (f g : Nat → Nat → K) : mat n m (mul k f g) = mat n k f * mat k m g := by
  ext i j
  simp only [mat, Matrix.mul_apply, Matrix.of_apply, mul, Finset.sum_range]

theorem mat_ident (n : Nat) : mat n n (identK (K := K)) = 1 := by
  ext i j
  simp only [mat, Matrix.of_apply, identK, Matrix.one_apply, Fin.ext_iff]

theorem mat_congr {n m : Nat} {f g : Nat → Nat → K} (h : ∀ i j, i < n → j < m → f i j = g i j) : mat n m f = mat n m g := by
  ext i j; exact h i j i.2 j.2

theorem mat_inv {n : Nat} {f g : Nat → Nat → K} (h : Inv n f g) : mat n n f * mat n n g = 1 := by
  rw [← mat_mul, ← mat_ident]; exact mat_congr h

variable {n m : Nat}

theorem rank_diag {R : Nat} {s : Nat → Nat → K} (h : DiagS n m R s) : (mat n m s).rank = R := by
  set S := mat n m s with hS
  have hSe : ∀ i j, S i j = if i.1 = j.1 then s i j else 0 := by
    intro i j
    simp only [hS, mat, Matrix.of_apply]
    split
    · rfl
    · rename_i hne; rw [h.off i j i.2 j.2 hne]
  let e1 : Fin R → Fin n := Fin.castLE h.hn
  let e2 : Fin R → Fin m := Fin.castLE h.hm
  have hle : S.rank ≤ R := by
    have : S = (Matrix.of fun (i : Fin n) (k : Fin R) => if i.1 = k.1 then s k k else 0) *
        (Matrix.of fun (k : Fin R) (j : Fin m) => if k.1 = j.1 then (1 : K) else 0) := by
      ext i j
      rw [hSe, Matrix.mul_apply]
      simp only [Matrix.of_apply]
      by_cases hj : j.1 < R
      · rw [Finset.sum_eq_single ⟨j.1, hj⟩]
        · by_cases hij : i.1 = j.1 <;> simp [hij]
        · intro b _ hb
          have : b.1 ≠ j.1 := fun e => hb (Fin.ext e)
          simp [this]
        · simp
      · rw [Finset.sum_eq_zero]
        · split
          · rename_i e
            rw [← e, h.zr i (by omega) i.2 (by omega)]
          · rfl
        · intro b _
          have : b.1 ≠ j.1 := by have := b.2; omega
          simp [this]
    rw [this]
    refine (Matrix.rank_mul_le_left _ _).trans ?_
    simpa using Matrix.rank_le_width (Matrix.of fun (i : Fin n) (k : Fin R) => if i.1 = k.1 then s k k else 0)
  have hge : R ≤ S.rank := by
    let D : Matrix (Fin R) (Fin R) K := Matrix.diagonal fun k => s k k
    have hD : D.rank = R := by
      have hu : IsUnit D := by
        rw [Matrix.isUnit_iff_isUnit_det, Matrix.det_diagonal, isUnit_iff_ne_zero, Finset.prod_ne_zero_iff]
        intro k _
        exact h.nz k k.2
      rw [Matrix.rank_of_isUnit _ hu, Fintype.card_fin]
    have hD2 : D = (Matrix.of fun (k : Fin R) (i : Fin n) => if i.1 = k.1 then (1 : K) else 0) * S *
        (Matrix.of fun (j : Fin m) (k : Fin R) => if j.1 = k.1 then (1 : K) else 0) := by
      ext k l
      have hx : ∀ j, ((Matrix.of fun (k : Fin R) (i : Fin n) => if i.1 = k.1 then (1 : K) else 0) * S) k j = S (e1 k) j := by
        intro j
        rw [Matrix.mul_apply, Finset.sum_eq_single (e1 k)]
        · simp [e1]
        · intro b _ hb
          have : b.1 ≠ k.1 := fun e => hb (Fin.ext e)
          simp [this]
        · simp
      rw [Matrix.mul_apply, Finset.sum_eq_single (e2 l)]
      · rw [hx, hSe]
        simp only [Matrix.of_apply, e1, e2, Fin.val_castLE, if_true, mul_one, D, Matrix.diagonal_apply, Fin.ext_iff]
        split
        · rename_i e; rw [e]
        · rfl
      · intro b _ hb
        have : b.1 ≠ l.1 := fun e => hb (Fin.ext e)
        simp [this]
      · simp
    calc R = D.rank := hD.symm
      _ ≤ S.rank := by
        rw [hD2]
        exact (Matrix.rank_mul_le_left _ _).trans (Matrix.rank_mul_le_right _ _)
  omega

theorem guardDiag_exact {R : Nat} {a : Nat → Nat → K} (h : ∀ i < R, a i i ≠ 0) : guardDiag (exact K) R a = some true := by
  have key : ∀ l : List Nat, (∀ i ∈ l, i < R) →
      l.allM (fun i => (rng (i + 1) R).allM (fun k => divides (exact K) (a i i) (a k k))) = some true := by
    intro l
    induction l with
    | nil => intro _; rfl
    | cons x l ih =>
      intro hl
      rw [List.allM, allM_divides _ _ _ (h x (hl x (by simp))), ih (fun i hi => hl i (List.mem_cons_of_mem _ hi))]; rfl
  exact key _ (fun i hi => (mem_rng.mp hi).2)

theorem snf_total (hn : 0 < n) (hm : 0 < m) (a : Nat → Nat → K) : ∃ st R, snf (exact K) n m a = some st ∧ DiagS n m R st.a ∧ Sync n m a st := by
  have h0 : MI n m 0 0 a id { a := a, p := identK, pinv := identK, q := identK, qinv := identK } := by
    refine ⟨by omega, fun _ _ _ _ h => absurd h (Nat.not_lt_zero _), fun _ h => absurd h (Nat.not_lt_zero _), fun _ h => absurd h (Nat.not_lt_zero _),
      fun _ h => absurd h (Nat.not_lt_zero _), fun _ _ _ h => absurd h (Nat.not_lt_zero _), ⟨?_, ident_inv n, ident_inv m⟩⟩
    intro i j hi hj
    have e1 : ∀ c < m, mul n (identK (K := K)) a i c = a i c := by
      intro c _; simp only [mul, identK, ite_mul, one_mul, zero_mul, Finset.sum_ite_eq, Finset.mem_range, if_pos hi]
    have : mul m (mul n identK a) identK i j = mul m a identK i j := mul_congr_left (f := a) (i' := i) e1 j
    show mul m (mul n identK a) identK i j = a i j
    rw [this]
    simp [mul, identK, hj]
  obtain ⟨st1, R, piv, e1, e2⟩ := mainLoop_spec n m a n 0 0 id _ (by omega) h0
  obtain ⟨d1, d2⟩ := diagLoop_spec (n := n) (m := m) (min n m) 0 piv st1 (by omega) (by omega) e2 (fun q hq => absurd hq (Nat.not_lt_zero _))
  refine ⟨diagLoop (exact K) m (rng 0 (min n m)) st1, R, ?_, d1, d2⟩
  have hg := guardDiag_exact d1.nz
  simp only [snf, if_neg (show ¬ (n = 0 ∨ m = 0) by omega), ident_exact, e1, Option.bind_eq_bind, Option.bind_some, rankOf_eq d1, hg, if_true]
  rfl

/-- **C102** (Smith normal form over a field). For every field and every non-empty matrix `A` the function returns - no bound on the number
of rounds is needed - a tuple `(P_inv, P, S, Q, Q_inv)` with `P * A * Q = S`, with `P_inv` and `Q_inv` the two-sided inverses of `P` and
`Q` (over the integers the second fails, C34), with `S` zero off the diagonal, and with exactly the first `rank A` diagonal entries
non-zero. -/
theorem c102_snf (hn : 0 < n) (hm : 0 < m) (a : Nat → Nat → K) : ∃ st, snf (exact K) n m a = some st ∧
    mat n n st.p * mat n m a * mat m m st.q = mat n m st.a ∧
    (mat n n st.p * mat n n st.pinv = 1 ∧ mat n n st.pinv * mat n n st.p = 1) ∧
    (mat m m st.q * mat m m st.qinv = 1 ∧ mat m m st.qinv * mat m m st.q = 1) ∧
    (∀ i j, i < n → j < m → i ≠ j → st.a i j = 0) ∧
    (∀ i, i < n → i < m → (st.a i i ≠ 0 ↔ i < (mat n m a).rank)) := by
  obtain ⟨st, R, h, hD, hS⟩ := snf_total hn hm a
  have hp := mat_inv hS.invP
  have hq := mat_inv hS.invQ
  have heq : mat n n st.p * mat n m a * mat m m st.q = mat n m st.a := by
    rw [← mat_mul, ← mat_mul]; exact mat_congr hS.eq
  have hr : (mat n m a).rank = R := by
    rw [← rank_diag hD, ← heq,
      Matrix.rank_mul_eq_left_of_isUnit_det _ _ ((Matrix.isUnit_iff_isUnit_det _).mp ⟨⟨_, _, mul_eq_one_comm.mp hq, hq⟩, rfl⟩),
      Matrix.rank_mul_eq_right_of_isUnit_det _ _ ((Matrix.isUnit_iff_isUnit_det _).mp ⟨⟨_, _, hp, mul_eq_one_comm.mp hp⟩, rfl⟩)]
  refine ⟨st, h, heq, ⟨hp, mul_eq_one_comm.mp hp⟩, ⟨mul_eq_one_comm.mp hq, hq⟩, hD.off, fun i hi1 hi2 => ?_⟩
  rw [hr]
  constructor
  · intro hne; by_contra hh; exact hne (hD.zr i (by omega) hi1 hi2)
  · exact hD.nz i

/-- **C102**, the boundary: an empty matrix is rejected -/
theorem c102_empty (a : Nat → Nat → K) (h : n = 0 ∨ m = 0) : snf (exact K) n m a = none := by
  simp [snf, h]

/-- **C102** (division with remainder, divisibility). Over a field the division panics exactly for the divisor zero and leaves no remainder;
everything non-zero divides everything. -/
theorem c102_euclid (x d : K) : (euclidDiv (exact K) x d = none ↔ d = 0) ∧ (divides (exact K) d x = none ↔ d = 0) ∧
    ∀ q r, euclidDiv (exact K) x d = some (q, r) → x = q * d + r ∧ r = 0 ∧ divides (exact K) d x = some true := by
  by_cases h : d = 0
  · subst h; simp [euclidDiv, divides, exact]
  · simp only [euclidDiv_exact h, divides_exact h, Option.some.injEq, Prod.mk.injEq, h, iff_false]
    refine ⟨by simp, by simp, ?_⟩
    rintro q r ⟨rfl, rfl⟩
    exact ⟨by rw [div_mul_cancel₀ _ h, add_zero], rfl, trivial⟩

/-- **C102** (greatest common divisor and Bezout identity). For all `a`, `b` of a field both functions return after at most two rounds, with
the same `g`; `a * x + b * y = g`; and `g` is zero only if `a` and `b` both are, i.e. `g` divides `a` and `b` and is divided by every common
divisor. -/
theorem c102_bezout (a b : K) : ∃ g x y, (∀ fuel, 2 ≤ fuel → bezoutIdentity (exact K) fuel a b = some (g, x, y) ∧ gcd (exact K) fuel a b = some g) ∧
    a * x + b * y = g ∧ (g = 0 ↔ a = 0 ∧ b = 0) := by
  by_cases ha : a = 0
  · subst ha
    refine ⟨b, 0, 1, ?_, by ring, by simp⟩
    intro fuel hf
    obtain ⟨k, rfl⟩ : ∃ k, fuel = k + 1 := ⟨fuel - 1, by omega⟩
    simp [bezoutIdentity, bezoutRec, gcd, simplify, euclidDiv, exact]
  · refine ⟨a, 1, 0, ?_, by ring, by simp [ha]⟩
    intro fuel hf
    obtain ⟨k, rfl⟩ : ∃ k, fuel = k + 2 := ⟨fuel - 2, by omega⟩
    simp [bezoutIdentity, bezoutRec, gcd, simplify, euclidDiv, exact, ha]

/-- **C11 fails over fields too**: `is_prime` says `true` (and `n_prime_factors` 1) for every element of a field, although no element of a field
is prime. -/
theorem c11_field_false (x : K) : isPrime x = true ∧ nPrimeFactors x = 1 ∧ ¬ Prime x := by
  refine ⟨rfl, rfl, fun h => ?_⟩
  exact h.not_unit (isUnit_iff_ne_zero.mpr h.ne_zero)

/-! ### concrete cases -/

/-- `[[0, 2, 1], [3, 0, 0], [3, 2, 1]]`, of rank 2 -/
def exA : Nat → Nat → ℚ := fun i j => ([ [0, 2, 1], [3, 0, 0], [3, 2, 1] ].getD i []).getD j 0

example : ((snf (exact ℚ) 3 3 exA).map fun st => ([0, 1, 2].map fun i => [0, 1, 2].map fun j => st.a i j)) =
    some [ [3, 0, 0], [0, 2, 0], [0, 0, 0] ] := by decide +kernel

example : bezoutIdentity (exact ℚ) 2 4 6 = some (4, 1, 0) := by decide +kernel

example : euclidDiv (exact ℚ) 7 2 = some (7 / 2, 0) ∧ euclidDiv (exact ℚ) 7 0 = none := by decide +kernel

end Toppo.SmithF
