import Verif.Proof.SmithQInv
import Mathlib.LinearAlgebra.Matrix.NonsingularInverse
import Mathlib.LinearAlgebra.Matrix.Rank
set_option linter.unusedVariables false

/-
C33 - C36: `Matrix::smith_normal_form`, for all integer matrices of all sizes.

Vocabulary: `mat n m f` is the Mathlib matrix with the entries of `f`; `snf fuel n m a = some st` says that the call with the
`n × m` matrix `a` returns (within `fuel` loop rounds) the tuple `(st.pinv, st.p, st.a, st.q, st.qinv)`.
-/
namespace Toppo.Smith
open Toppo Toppo.PIDProps Finset

/-- the `n × m` matrix with entries `f` -/
def mat (n m : Nat) (f : M) : Matrix (Fin n) (Fin m) Int := Matrix.of fun i j => f i j

theorem mat_mul (n k m : Nat) (f g : M) : mat n m (mul k f g) = mat n k f * mat k m g := by
  ext i j
  simp only [mat, Matrix.mul_apply, Matrix.of_apply, mul, Finset.sum_range]

theorem mat_ident (n : Nat) : mat n n ident = 1 := by
  ext i j
  simp only [mat, Matrix.of_apply, ident, Matrix.one_apply, Fin.ext_iff]

theorem mat_congr {n m : Nat} {f g : M} (h : ∀ i j, i < n → j < m → f i j = g i j) : mat n m f = mat n m g := by
  ext i j; exact h i j i.2 j.2

theorem mat_inv {n : Nat} {f g : M} (h : Inv n f g) : mat n n f * mat n n g = 1 := by
  rw [← mat_mul, ← mat_ident]; exact mat_congr h

variable {n m : Nat}

theorem snf_nonempty {fuel : Nat} {a : M} {st : St} (h : snf fuel n m a = some st) : 0 < n ∧ 0 < m := by
  rcases Nat.eq_zero_or_pos n with h1 | h1
  · simp [snf, snfDiag, h1] at h
  · rcases Nat.eq_zero_or_pos m with h2 | h2
    · simp [snf, snfDiag, h2] at h
    · exact ⟨h1, h2⟩

theorem snf_all {fuel : Nat} {a : M} {st : St} (h : snf fuel n m a = some st) : ∃ R, DiagS n m R st.a ∧ SyncW n m a st ∧
    (∀ q t, q < t → t < R → st.a q q ∣ st.a t t) := by
  obtain ⟨hn, hm⟩ := snf_nonempty h
  obtain ⟨f, st', R, h1, h2, h3, h4⟩ := snf_total hn hm a
  rw [snf_unique h h1]
  exact ⟨R, h2, h3, h4⟩

/-- **C33.** Whenever `smith_normal_form(A)` returns `(P_inv, P, S, Q, Q_inv)`: `P * A * Q = S`, `P * P_inv = P_inv * P = 1`,
and `Q` is invertible over the integers (whether `Q_inv` is its inverse is C34). -/
theorem c33_transform {fuel : Nat} {a : M} {st : St} (h : snf fuel n m a = some st) :
    mat n n st.p * mat n m a * mat m m st.q = mat n m st.a ∧
    mat n n st.p * mat n n st.pinv = 1 ∧ mat n n st.pinv * mat n n st.p = 1 ∧
    IsUnit (mat m m st.q) := by
  obtain ⟨R, h1, h2, h3⟩ := snf_all h
  refine ⟨?_, mat_inv h2.invP, mul_eq_one_comm.mp (mat_inv h2.invP), ?_⟩
  · rw [← mat_mul, ← mat_mul]; exact mat_congr h2.eq
  · obtain ⟨g, hg⟩ := h2.unimQ
    exact ⟨⟨_, _, mul_eq_one_comm.mp (mat_inv hg), mat_inv hg⟩, rfl⟩

/-- **C35.** The shape of `S`: there is a rank `R` such that the first `R` diagonal entries are non-zero and each divides all later
ones, all other diagonal entries are zero, and everything off the diagonal is zero. -/
theorem c35_shape {fuel : Nat} {a : M} {st : St} (h : snf fuel n m a = some st) :
    ∃ R, R ≤ n ∧ R ≤ m ∧
      (∀ i j, i < n → j < m → i ≠ j → st.a i j = 0) ∧
      (∀ i, i < R → st.a i i ≠ 0) ∧
      (∀ i, R ≤ i → i < n → i < m → st.a i i = 0) ∧
      (∀ i j, i < j → j < R → st.a i i ∣ st.a j j) := by
  obtain ⟨R, h1, h2, h3⟩ := snf_all h
  exact ⟨R, h1.hn, h1.hm, h1.off, h1.nz, h1.zr, h3⟩

/-- **C36.** Termination without a panic: for every non-empty integer matrix there is a number of loop rounds within which the
function returns, and every larger bound gives the same result. -/
theorem c36_terminates (hn : 0 < n) (hm : 0 < m) (a : M) : ∃ fuel st, ∀ fuel', fuel ≤ fuel' → snf fuel' n m a = some st := by
  obtain ⟨f, st, R, h, _⟩ := snf_total hn hm a
  exact ⟨f, st, fun f' hf => snf_mono hf h⟩

/-- **C36**, the boundary case: an empty matrix is rejected (debug assertion, matrix_impl.rs:822-823) - no result for any bound. -/
theorem c36_empty (fuel : Nat) (a : M) (h : n = 0 ∨ m = 0) : snf fuel n m a = none := by
  simp [snf, snfDiag, h]

/-- **C34**, what holds: if the diagonal obtained before the divisibility phase already is a divisibility chain, then
`Q * Q_inv = Q_inv * Q = 1`.  The full claim fails, see `c34_false`. -/
theorem c34_chain_partial {fuel : Nat} {a : M} {st st1 : St} (h : snf fuel n m a = some st) (h1 : snfDiag fuel n m a = some st1)
    (hc : ∀ q t, q < t → t < rankOf n m st1.a → st1.a q q ∣ st1.a t t) :
    mat m m st.q * mat m m st.qinv = 1 ∧ mat m m st.qinv * mat m m st.q = 1 := by
  obtain ⟨hn, hm⟩ := snf_nonempty h
  obtain ⟨f, st', R, e1, e2, e3⟩ := snfDiag_total hn hm a
  have e : st1 = st' := snfDiag_unique h1 e1
  subst e
  rw [rankOf_eq e2] at hc
  have hfix := fixLoop_id e2 hc
  have : st = st1 := by
    simp only [snf, h1, Option.bind_eq_bind, Option.bind_some, rankOf_eq e2, hfix] at h
    cases hall : (rng 0 R).allM (fun i => (rng (i + 1) R).allM (fun k => divides ideal (st1.a i i) (st1.a k k))) with
    | none => rw [hall] at h; cases h
    | some b =>
      rw [hall] at h
      cases b with
      | true => exact (Option.some.inj h).symm
      | false => cases h
  subst this
  exact ⟨mul_eq_one_comm.mp (mat_inv e3.invQ), mat_inv e3.invQ⟩

/-- **C34** for one-row and one-column matrices: the claim holds in full. -/
theorem c34_vector_partial {fuel : Nat} {a : M} {st : St} (h : snf fuel n m a = some st) (hnm : n = 1 ∨ m = 1) :
    mat m m st.q * mat m m st.qinv = 1 ∧ mat m m st.qinv * mat m m st.q = 1 := by
  obtain ⟨hn, hm⟩ := snf_nonempty h
  obtain ⟨f, st', R, e1, e2, e3⟩ := snfDiag_total hn hm a
  cases hd : snfDiag fuel n m a with
  | none => simp [snf, hd] at h
  | some st1 =>
    have e : st1 = st' := snfDiag_unique hd e1
    subst e
    refine c34_chain_partial h hd ?_
    intro q t h1 h2
    rw [rankOf_eq e2] at h2
    have := e2.hn; have := e2.hm
    omega

/-- **C34**, the exact condition: the returned `Q_inv` is the inverse of `Q` *if and only if* the diagonal obtained before the
divisibility phase (lines 820-1016) already is a divisibility chain, i.e. the divisibility phase has nothing to do. -/
theorem c34_iff {fuel : Nat} {a : M} {st st1 : St} (h : snf fuel n m a = some st) (h1 : snfDiag fuel n m a = some st1) :
    mat m m st.q * mat m m st.qinv = 1 ↔ ∀ q t, q < t → t < rankOf n m st1.a → st1.a q q ∣ st1.a t t := by
  refine ⟨fun hone => ?_, fun hc => (c34_chain_partial h h1 hc).1⟩
  obtain ⟨hn, hm⟩ := snf_nonempty h
  obtain ⟨f, st', R, e1, e2, e3⟩ := snfDiag_total hn hm a
  have e : st1 = st' := snfDiag_unique h1 e1
  subst e
  rw [rankOf_eq e2]
  obtain ⟨s', hfix, hor⟩ := fixLoop_qinv e2 ⟨e3.eq, e3.invP, _, e3.invQ⟩ e3.invQ
  rcases hor with ⟨_, hc⟩ | ⟨i, j, hij, hj, hne⟩
  · exact hc
  · exfalso
    have : st = s' := by
      simp only [snf, h1, Option.bind_eq_bind, Option.bind_some, rankOf_eq e2, hfix] at h
      cases hall : (rng 0 R).allM (fun i => (rng (i + 1) R).allM (fun k => divides ideal (s'.a i i) (s'.a k k))) with
      | none => rw [hall] at h; cases h
      | some b =>
        rw [hall] at h
        cases b with
        | true => exact (Option.some.inj h).symm
        | false => cases h
    subst this
    have hR := e2.hm
    have hcon := mul_eq_one_comm.mp hone
    rw [← mat_mul] at hcon
    have h01 := congrFun (congrFun hcon ⟨i, by omega⟩) ⟨j, by omega⟩
    rw [Matrix.one_apply_ne (by simp; omega)] at h01
    exact hne h01

/-- **C34 fails in general.**  Whenever the diagonal before the divisibility phase has rank two and its first entry does not divide
the second, the returned `Q_inv` is *not* the inverse of `Q` (the last update of `c_op_inv`, line 1061, changes the wrong row). -/
theorem c34_false {fuel : Nat} {a : M} {st st1 : St} (h : snf fuel n m a = some st) (h1 : snfDiag fuel n m a = some st1)
    (hr : rankOf n m st1.a = 2) (hnd : ¬ st1.a 0 0 ∣ st1.a 1 1) :
    mat m m st.q * mat m m st.qinv ≠ 1 := by
  obtain ⟨hn, hm⟩ := snf_nonempty h
  obtain ⟨f, st', R, e1, e2, e3⟩ := snfDiag_total hn hm a
  have e : st1 = st' := snfDiag_unique h1 e1
  subst e
  have hR : R = 2 := by rw [rankOf_eq e2] at hr; exact hr
  subst hR
  obtain ⟨s', g, z, w, y, f1, f2, f3, f4, f5, f6, f7, f8, f9, fq, fqi⟩ := fixStep_spec e2 ⟨e3.eq, e3.invP, _, e3.invQ⟩ (show 0 < 1 by omega) (by omega) hnd
  have hfix : fixLoop 2 st1 = some s' := by
    simp [fixLoop, rng, List.range', f1]
  have : st = s' := by
    simp only [snf, h1, Option.bind_eq_bind, Option.bind_some, rankOf_eq e2, hfix] at h
    cases hall : (rng 0 2).allM (fun i => (rng (i + 1) 2).allM (fun k => divides ideal (s'.a i i) (s'.a k k))) with
    | none => rw [hall] at h; cases h
    | some b =>
      rw [hall] at h
      cases b with
      | true => exact (Option.some.inj h).symm
      | false => cases h
  subst this
  intro hcon
  have hcon' := mul_eq_one_comm.mp hcon
  rw [← mat_mul] at hcon'
  have h2m := e2.hm
  have h01 := congrFun (congrFun hcon' ⟨0, by omega⟩) ⟨1, by omega⟩
  have hne : (⟨0, by omega⟩ : Fin m) ≠ ⟨1, by omega⟩ := by simp
  rw [Matrix.one_apply_ne hne] at h01
  simp only [mat, Matrix.of_apply] at h01
  have k1 : mul m st.qinv st.q 0 1 = mul m st1.qinv st.q 0 1 := by
    apply mul_congr_left; intro c hc; rw [fqi]; simp [rowOp]
  have hq1 : ∀ c < m, st.q c 1 = (-w * y) * st1.q c 0 + (1 + -w * y) * st1.q c 1 := by
    intro c hc; rw [fq]; simp [colOp]; ring
  rw [k1, mul_comb_right (i := 0) hq1, e3.invQ 0 0 (by omega) (by omega), e3.invQ 0 1 (by omega) (by omega)] at h01
  simp [ident] at h01
  rcases h01 with h | h
  · exact f5 (by rw [h]; ring)
  · exact f5 (by rw [h]; ring)

theorem rank_diag {R : Nat} {s : M} (h : DiagS n m R s) : ((mat n m s).map (Int.castRingHom ℚ)).rank = R := by
  set S := (mat n m s).map (Int.castRingHom ℚ) with hS
  have hSe : ∀ i j, S i j = if i.1 = j.1 then (s i j : ℚ) else 0 := by
    intro i j
    simp only [hS, mat, Matrix.map_apply, Matrix.of_apply]
    split
    · rfl
    · rename_i hne; rw [h.off i j i.2 j.2 hne]; simp
  let e1 : Fin R → Fin n := Fin.castLE h.hn
  let e2 : Fin R → Fin m := Fin.castLE h.hm
  have hle : S.rank ≤ R := by
    have : S = (Matrix.of fun (i : Fin n) (k : Fin R) => if i.1 = k.1 then (s k k : ℚ) else 0) *
        (Matrix.of fun (k : Fin R) (j : Fin m) => if k.1 = j.1 then (1 : ℚ) else 0) := by
      ext i j
      rw [hSe, Matrix.mul_apply]
      simp only [Matrix.of_apply]
      by_cases hj : j.1 < R
      · rw [Finset.sum_eq_single ⟨j.1, hj⟩]
        · by_cases hij : i.1 = j.1 <;> simp [hij]
        · intro b _ hb
          have : b.1 ≠ j.1 := fun e => hb (Fin.ext e)
          simp [this]
        · simp
      · rw [Finset.sum_eq_zero]
        · split
          · rename_i e
            rw [← e, h.zr i (by omega) i.2 (by omega)]; simp
          · rfl
        · intro b _
          have : b.1 ≠ j.1 := by have := b.2; omega
          simp [this]
    rw [this]
    refine (Matrix.rank_mul_le_left _ _).trans ?_
    simpa using Matrix.rank_le_width (Matrix.of fun (i : Fin n) (k : Fin R) => if i.1 = k.1 then (s k k : ℚ) else 0)
  have hge : R ≤ S.rank := by
    let D : Matrix (Fin R) (Fin R) ℚ := Matrix.diagonal fun k => (s k k : ℚ)
    have hD : D.rank = R := by
      have hu : IsUnit D := by
        rw [Matrix.isUnit_iff_isUnit_det, Matrix.det_diagonal, isUnit_iff_ne_zero, Finset.prod_ne_zero_iff]
        intro k _
        exact_mod_cast h.nz k k.2
      rw [Matrix.rank_of_isUnit _ hu, Fintype.card_fin]
    have hD2 : D = (Matrix.of fun (k : Fin R) (i : Fin n) => if i.1 = k.1 then (1 : ℚ) else 0) * S *
        (Matrix.of fun (j : Fin m) (k : Fin R) => if j.1 = k.1 then (1 : ℚ) else 0) := by
      ext k l
      have hx : ∀ j, ((Matrix.of fun (k : Fin R) (i : Fin n) => if i.1 = k.1 then (1 : ℚ) else 0) * S) k j = S (e1 k) j := by
        intro j
        rw [Matrix.mul_apply, Finset.sum_eq_single (e1 k)]
        · simp [e1]
        · intro b _ hb
          have : b.1 ≠ k.1 := fun e => hb (Fin.ext e)
          simp [this]
        · simp
      rw [Matrix.mul_apply, Finset.sum_eq_single (e2 l)]
      · rw [hx, hSe]
        simp only [Matrix.of_apply, e1, e2, Fin.val_castLE, if_true, mul_one, D, Matrix.diagonal_apply, Fin.ext_iff]
        split
        · rename_i e; rw [e]
        · rfl
      · intro b _ hb
        have : b.1 ≠ l.1 := fun e => hb (Fin.ext e)
        simp [this]
      · simp
    calc R = D.rank := hD.symm
      _ ≤ S.rank := by
        rw [hD2]
        exact (Matrix.rank_mul_le_left _ _).trans (Matrix.rank_mul_le_right _ _)
  omega

/-- **C35**, the rank: the number of non-zero diagonal entries of `S` (what the function computes at lines 1020-1023 and
`IntegralHomology` reads off) is the rank of the input matrix over the rationals. -/
theorem c35_rank {fuel : Nat} {a : M} {st : St} (h : snf fuel n m a = some st) :
    rankOf n m st.a = ((mat n m a).map (Int.castRingHom ℚ)).rank := by
  obtain ⟨R, h1, h2, h3⟩ := snf_all h
  obtain ⟨t1, t2, t3, t4⟩ := c33_transform h
  rw [rankOf_eq h1, ← rank_diag h1, ← t1, Matrix.map_mul, Matrix.map_mul]
  have hP : IsUnit ((mat n n st.p).map (Int.castRingHom ℚ)) := by
    have : IsUnit (mat n n st.p) := ⟨⟨_, _, t2, t3⟩, rfl⟩
    exact this.map (Int.castRingHom ℚ).mapMatrix
  have hQ : IsUnit ((mat m m st.q).map (Int.castRingHom ℚ)) := t4.map (Int.castRingHom ℚ).mapMatrix
  rw [Matrix.rank_mul_eq_left_of_isUnit_det _ _ ((Matrix.isUnit_iff_isUnit_det _).mp hQ),
    Matrix.rank_mul_eq_right_of_isUnit_det _ _ ((Matrix.isUnit_iff_isUnit_det _).mp hP)]

/-! ### concrete cases -/

/-- `[[2, 4], [6, 3]]`: needs pivot improvement, elimination; and the call returns -/
def exA : M := fun i j => if i = 0 then (if j = 0 then 2 else 4) else (if j = 0 then 6 else 3)
/-- `diag(2, 3)`: needs the divisibility phase -/
def exD : M := fun i j => if i = j then (if i = 0 then 2 else 3) else 0

example : (snf 20 2 2 exA).map (fun st => (st.a 0 0, st.a 0 1, st.a 1 0, st.a 1 1)) = some (1, 0, 0, -18) := by decide +kernel
example : (snf 20 2 2 exD).map (fun st => (st.a 0 0, st.a 0 1, st.a 1 0, st.a 1 1)) = some (1, 0, 0, 6) := by decide +kernel
/-- the hypotheses of `c34_false` are met by `diag(2, 3)` -/
example : (snfDiag 20 2 2 exD).map (fun st => (rankOf 2 2 st.a, st.a 0 0, st.a 1 1)) = some (2, 2, 3) := by decide +kernel
/-- the hypotheses of `c34_chain_partial` are met by `[[2, 5], [5, 2]]` -/
def exC : M := fun i j => if i = j then 2 else 5
example : (snfDiag 20 2 2 exC).map (fun st => (rankOf 2 2 st.a, st.a 0 0, st.a 1 1)) = some (2, 1, -21) := by decide +kernel

end Toppo.Smith
