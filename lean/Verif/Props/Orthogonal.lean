import Verif.Props.Hessenberg
import Mathlib.Data.Fin.Tuple.Basic
set_option linter.unusedVariables false

/-
C82: orthogonal matrices made of Householder reflections: `random_orthogonal` and `extract_householder_vecs`; exact real arithmetic.
-/
namespace Toppo.RealAlg
open Finset Matrix

theorem toM_congr' {n : Nat} {A B : RM} (h : ∀ i j, i < n → j < n → A i j = B i j) : toM n A = toM n B := by
  ext i j
  exact h i j i.2 j.2

/-- a matrix bordered by a row and a column of the identity matrix -/
def bord {n : Nat} (M : Matrix (Fin n) (Fin n) ℝ) : Matrix (Fin (n + 1)) (Fin (n + 1)) ℝ :=
  Matrix.of (fun i j => Fin.cases (Fin.cases 1 (fun _ => 0) j) (fun i' => Fin.cases 0 (fun j' => M i' j') j) i)

@[simp] theorem bord_zz {n : Nat} (M : Matrix (Fin n) (Fin n) ℝ) : bord M 0 0 = 1 := rfl
@[simp] theorem bord_zs {n : Nat} (M : Matrix (Fin n) (Fin n) ℝ) (j : Fin n) : bord M 0 j.succ = 0 := rfl
@[simp] theorem bord_sz {n : Nat} (M : Matrix (Fin n) (Fin n) ℝ) (i : Fin n) : bord M i.succ 0 = 0 := rfl
@[simp] theorem bord_ss {n : Nat} (M : Matrix (Fin n) (Fin n) ℝ) (i j : Fin n) : bord M i.succ j.succ = M i j := rfl

theorem bord_mul {n : Nat} (M N : Matrix (Fin n) (Fin n) ℝ) : bord (M * N) = bord M * bord N := by
  ext i j
  rw [Matrix.mul_apply, Fin.sum_univ_succ]
  refine Fin.cases ?_ (fun i => ?_) i <;> refine Fin.cases ?_ (fun j => ?_) j <;> simp [Matrix.mul_apply]

theorem bord_one {n : Nat} : bord (1 : Matrix (Fin n) (Fin n) ℝ) = 1 := by
  ext i j
  refine Fin.cases ?_ (fun i => ?_) i <;> refine Fin.cases ?_ (fun j => ?_) j <;> simp [Matrix.one_apply, Fin.ext_iff]

theorem bord_transpose {n : Nat} (M : Matrix (Fin n) (Fin n) ℝ) : (bord M)ᵀ = bord Mᵀ := by
  ext i j
  refine Fin.cases ?_ (fun i => ?_) i <;> refine Fin.cases ?_ (fun j => ?_) j <;> simp [Matrix.transpose_apply]

theorem bord_orth {n : Nat} {M : Matrix (Fin n) (Fin n) ℝ} (h : Mᵀ * M = 1) : (bord M)ᵀ * bord M = 1 := by
  rw [bord_transpose, ← bord_mul, h, bord_one]

theorem bord_refl {n : Nat} (w : Nat → ℝ) (b : ℝ) : bord (refl n w b) = refl (n + 1) (fun i => if i = 0 then 0 else w (i - 1)) b := by
  ext i j
  refine Fin.cases ?_ (fun i => ?_) i <;> refine Fin.cases ?_ (fun j => ?_) j
  · simp [refl]
  · simp [refl, (Fin.succ_ne_zero j).symm]
  · simp [refl, Fin.succ_ne_zero i]
  · simp [refl]

/-! ### random_orthogonal -/

/-- a reflection that maps the unit vector `u` to the first unit vector has `u` as its first column -/
theorem hvec_unit {m : Nat} {u : Nat → ℝ} (hgood : GoodVec m u) (hu : ∑ t ∈ range (m + 1), u t * u t = 1) (i : Nat) (hi : i < m + 1) :
    u i = (if i = 0 then 1 else 0) - (hvec m u).2 * (hvec m u).1 i := by
  obtain ⟨g1, g2⟩ := hvec_good hgood
  have hv0 := hvec_zero m u
  set v := (hvec m u).1 with hv
  set b := (hvec m u).2 with hb
  rw [hu, Real.sqrt_one] at g2
  set S := ∑ t ∈ range (m + 1), v t * u t with hS
  set V := ∑ t ∈ range (m + 1), v t * v t with hV
  have h1 : S - V * S * b = 1 := by
    have h2 : ∑ t ∈ range (m + 1), v t * (u t - v t * S * b) = ∑ t ∈ range (m + 1), v t * (if t = 0 then 1 else 0) :=
      Finset.sum_congr rfl (fun t ht => by rw [g2 t (Finset.mem_range.mp ht)])
    have h3 : ∑ t ∈ range (m + 1), v t * (u t - v t * S * b) = S - V * S * b := by
      rw [hS, hV, Finset.sum_mul, Finset.sum_mul, ← Finset.sum_sub_distrib]
      apply Finset.sum_congr rfl
      intro t _
      ring
    have h4 : ∑ t ∈ range (m + 1), v t * (if t = 0 then (1 : ℝ) else 0) = 1 := by
      rw [Finset.sum_eq_single 0]
      · rw [if_pos rfl, hv0, one_mul]
      · intro t _ ht
        rw [if_neg ht, mul_zero]
      · intro h
        exact absurd (Finset.mem_range.mpr (by omega)) h
    rw [← h3, h2, h4]
  have h5 : b * S = -b := by linear_combination (-b) * h1 - S * g1
  have h6 := g2 i hi
  linear_combination h6 + v i * h5

theorem random_run {n : Nat} (x : Nat → Nat → ℝ) (hpos : ∀ i t, 0 ≤ x i t) (hne : ∀ i, i < n → ∃ t, t < n - i ∧ x i t ≠ 0) (m : Nat) : ∀ k, k + m = n - 1 → 0 < n →
    (∀ r c, (c ≤ k → ((List.range' k m).reverse.foldl (randomStep n) (randomInit n x)) r c = randomInit n x r c) ∧
      (k ≤ c → r < k → ((List.range' k m).reverse.foldl (randomStep n) (randomInit n x)) r c = 0)) ∧
    (toM (n - k) (shift k ((List.range' k m).reverse.foldl (randomStep n) (randomInit n x))))ᵀ * toM (n - k) (shift k ((List.range' k m).reverse.foldl (randomStep n) (randomInit n x))) = 1 := by
  have hS : ∀ c, c < n → 0 < ∑ t ∈ range (n - c), x c t * x c t := by
    intro c hc
    obtain ⟨t, h1, h2⟩ := hne c hc
    exact Finset.sum_pos' (fun t _ => mul_self_nonneg _) ⟨t, Finset.mem_range.mpr h1, mul_self_pos.mpr h2⟩
  have hunit : ∀ c, c < n → ∑ t ∈ range (n - c), randomInit n x (c + t) c * randomInit n x (c + t) c = 1 := by
    intro c hc
    have : ∀ t ∈ range (n - c), randomInit n x (c + t) c * randomInit n x (c + t) c = (x c t * x c t) / (∑ t ∈ range (n - c), x c t * x c t) := by
      intro t ht
      rw [Finset.mem_range] at ht
      unfold randomInit
      rw [if_pos ⟨by omega, by omega⟩, Nat.add_sub_cancel_left, div_mul_div_comm, Real.mul_self_sqrt (hS c hc).le]
    rw [Finset.sum_congr rfl this, ← Finset.sum_div, div_self (hS c hc).ne']
  have hnn : ∀ r c, 0 ≤ randomInit n x r c := by
    intro r c
    unfold randomInit
    split
    · exact div_nonneg (hpos _ _) (Real.sqrt_nonneg _)
    · exact le_rfl
  induction m with
  | zero =>
    intro k hk hn
    simp only [List.range'_zero, List.reverse_nil, List.foldl_nil, implies_true, true_and]
    refine ⟨fun r c h1 h2 => by unfold randomInit; rw [if_neg (by omega)], ?_⟩
    have h1 := hunit k (by omega)
    rw [show n - k = 1 by omega] at h1 ⊢
    ext i j
    rw [Matrix.mul_apply, Fin.sum_univ_one]
    have hi : i = 0 := Subsingleton.elim _ _
    have hj : j = 0 := Subsingleton.elim _ _
    subst hi; subst hj
    rw [Finset.sum_range_one] at h1
    simpa [toM, shift] using h1
  | succ m ih =>
    intro k hk hn
    obtain ⟨i1, i2⟩ := ih (k + 1) (by omega) hn
    have hfold : (List.range' k (m + 1)).reverse.foldl (randomStep n) (randomInit n x) = randomStep n ((List.range' (k + 1) m).reverse.foldl (randomStep n) (randomInit n x)) k := by
      rw [List.range'_succ, List.reverse_cons, List.foldl_append]
      rfl
    rw [hfold]
    clear hfold
    set B := (List.range' (k + 1) m).reverse.foldl (randomStep n) (randomInit n x) with hB
    set u : Nat → ℝ := fun t => B (k + t) k with hu
    have hu' : ∀ t, u t = randomInit n x (k + t) k := fun t => (i1 (k + t) k).1 (by omega)
    have hgood : GoodVec (n - k - 1) u := by
      rintro ⟨-, h⟩
      rw [hu'] at h
      linarith [hnn (k + 0) k]
    have hu1 : ∑ t ∈ range (n - k - 1 + 1), u t * u t = 1 := by
      rw [show n - k - 1 + 1 = n - k by omega, ← hunit k (by omega)]
      exact Finset.sum_congr rfl (fun t _ => by rw [hu'])
    have hcol := hvec_unit hgood hu1
    have hv0 := hvec_zero (n - k - 1) u
    have hg := (hvec_good hgood).1
    have hstep : randomStep n B k = rowsRefl B k (n - k) (k + 1) n (hvec (n - k - 1) u).1 (hvec (n - k - 1) u).2 := rfl
    rw [hstep]
    set v := (hvec (n - k - 1) u).1 with hv
    set b := (hvec (n - k - 1) u).2 with hb
    have hz : ∀ c, k + 1 ≤ c → B k c = 0 := fun c hc => (i1 k c).2 hc (by omega)
    refine ⟨fun r c => ⟨fun h1 => ?_, fun h1 h2 => ?_⟩, ?_⟩
    · unfold rowsRefl
      rw [if_neg (by omega)]
      exact (i1 r c).1 (by omega)
    · unfold rowsRefl
      rw [if_neg (by omega)]
      by_cases hc : k + 1 ≤ c
      · exact (i1 r c).2 hc (by omega)
      · rw [(i1 r c).1 (by omega)]
        unfold randomInit
        rw [if_neg (by omega)]
    · obtain ⟨N, hN⟩ : ∃ N, n = k + (N + 1) := ⟨n - k - 1, by omega⟩
      rw [show n - k = N + 1 by omega] at hg hcol ⊢
      rw [show n - (k + 1) = N by omega] at i2
      rw [show N + 1 - 1 = N by omega] at hg hcol
      have hM : toM (N + 1) (shift k (rowsRefl B k (N + 1) (k + 1) n v b)) = refl (N + 1) (ext 0 (N + 1) v) b * bord (toM N (shift (k + 1) B)) := by
        have hbord : bord (toM N (shift (k + 1) B)) = toM (N + 1) (fun t j => if j = 0 then (if t = 0 then 1 else 0) else B (k + t) (k + j)) := by
          ext i j
          refine Fin.cases ?_ (fun i => ?_) i <;> refine Fin.cases ?_ (fun j => ?_) j
          · simp [toM]
          · simp only [bord_zs, toM_apply, Fin.val_succ, Nat.succ_ne_zero, if_false, Fin.val_zero, Nat.add_zero]
            exact (hz _ (by omega)).symm
          · simp [toM]
          · simp only [bord_ss, toM_apply, Fin.val_succ, Nat.succ_ne_zero, if_false, shift]
            congr 1 <;> omega
        rw [hbord, ← rows_eq (n := N + 1) (lo := 0) (len := N + 1) (c0 := 0) (c1 := N + 1) (by omega) (by intro i j _ _ h1 h2; omega)]
        ext i j
        have hi := i.2
        have hj := j.2
        simp only [toM_apply, shift, rowsRefl, Nat.zero_add]
        rw [if_pos (show 0 ≤ i.1 ∧ i.1 < N + 1 ∧ 0 ≤ j.1 ∧ j.1 < N + 1 by omega)]
        by_cases hj0 : j.1 = 0
        · rw [if_neg (by omega), hj0]
          simp only [if_true, Nat.add_zero, Nat.sub_zero]
          have h4 : ∑ t ∈ range (N + 1), v t * (if t = 0 then (1 : ℝ) else 0) = 1 := by
            rw [Finset.sum_eq_single 0]
            · rw [if_pos rfl, hv0, one_mul]
            · intro t _ ht
              rw [if_neg ht, mul_zero]
            · intro h
              exact absurd (Finset.mem_range.mpr (by omega)) h
          rw [h4, mul_one, mul_comm]
          exact hcol i hi
        · rw [if_pos (by omega)]
          simp only [if_neg hj0, Nat.add_sub_cancel_left, Nat.sub_zero]
      rw [hM, Matrix.transpose_mul, refl_symm, Matrix.mul_assoc, ← Matrix.mul_assoc (refl _ _ _), refl_sq (by omega) hg, Matrix.one_mul]
      exact bord_orth i2

/-- **C82**: `random_orthogonal` returns an orthogonal matrix, whatever non-negative numbers are drawn (the generator draws from `[0, 1)`), as long as no column drawn is zero. -/
theorem c82_random (n : Nat) (hn : 0 < n) (x : Nat → Nat → ℝ) (hpos : ∀ i t, 0 ≤ x i t) (hne : ∀ i, i < n → ∃ t, t < n - i ∧ x i t ≠ 0) :
    ∃ Q, randomOrthogonal n x = some Q ∧ (toM n Q)ᵀ * toM n Q = 1 := by
  unfold randomOrthogonal
  rw [if_neg (by omega)]
  refine ⟨_, rfl, ?_⟩
  have := (random_run x hpos hne (n - 1) 0 (by omega) hn).2
  rw [← List.range_eq_range', Nat.sub_zero] at this
  have hs : ∀ B, toM n (shift 0 B) = toM n B := fun B => toM_congr' (fun i j _ _ => by simp [shift])
  rw [hs] at this
  exact this

/-- for the size 0 it panics -/
theorem c82_random_zero (x : Nat → Nat → ℝ) : randomOrthogonal 0 x = none := rfl

/-- the hypotheses are met by all columns `(1, ..., 1)` -/
example : ∃ Q, randomOrthogonal 3 (fun _ _ => 1) = some Q ∧ (toM 3 Q)ᵀ * toM 3 Q = 1 :=
  c82_random 3 (by omega) _ (fun _ _ => zero_le_one) (fun i hi => ⟨0, by omega, one_ne_zero⟩)

/-! ### extract_householder_vecs -/

/-- the vector stored in column `k` below the diagonal, with the implicit 1 in front of it: coordinate `k` is 1, coordinate `r + 1` is the entry `(r, k)` -/
def storedVec (A : RM) (k : Nat) : Nat → ℝ := fun i => if i = k then 1 else if k < i then A (i - 1) k else 0

/-- the reflection along a vector: `I - 2 w wᵀ / (wᵀ w)` -/
noncomputable def reflAlong (n : Nat) (w : Nat → ℝ) : Matrix (Fin n) (Fin n) ℝ := refl n w (2 / ∑ t ∈ range n, w t * w t)

theorem refl_congr {n : Nat} {w w' : Nat → ℝ} {b b' : ℝ} (h : ∀ i, i < n → w i = w' i) (hb : b = b') : refl n w b = refl n w' b' := by
  ext i j
  simp only [refl, Matrix.of_apply, h i i.2, h j j.2, hb]

theorem reflAlong_orth {n : Nat} {w : Nat → ℝ} (h : ∑ t ∈ range n, w t * w t ≠ 0) : (reflAlong n w)ᵀ * reflAlong n w = 1 := by
  unfold reflAlong
  rw [refl_congr (w' := ext 0 n w) (b' := 2 / ∑ t ∈ range n, w t * w t) (fun i hi => by simp [ext, hi]) rfl]
  refine refl_orth (lo := 0) (len := n) (by omega) ?_
  field_simp

theorem bord_reflAlong {n : Nat} {w w' : Nat → ℝ} (h0 : w' 0 = 0) (h : ∀ i, i < n → w' (i + 1) = w i) : bord (reflAlong n w) = reflAlong (n + 1) w' := by
  unfold reflAlong
  rw [bord_refl]
  apply refl_congr
  · intro i hi
    by_cases h1 : i = 0
    · rw [if_pos h1, h1, h0]
    · rw [if_neg h1, ← h (i - 1) (by omega), show i - 1 + 1 = i by omega]
  · rw [Finset.sum_range_succ' _ n, h0, mul_zero, add_zero]
    congr 1
    exact Finset.sum_congr rfl (fun t ht => by rw [h t (Finset.mem_range.mp ht)])

theorem bord_prod {n : Nat} (l : List (Matrix (Fin n) (Fin n) ℝ)) : bord l.prod = (l.map bord).prod := by
  induction l with
  | nil => simp [bord_one]
  | cons a l ih => rw [List.prod_cons, bord_mul, ih, List.map_cons, List.prod_cons]

theorem extract_step (n : Nat) (A q : RM) (h : extractHouseholder (n + 1) (shift 1 A) = some q) :
    ∃ E, extractHouseholder (n + 2) A = some E ∧ toM (n + 3) E = bord (toM (n + 2) q) * reflAlong (n + 3) (storedVec A 0) := by
  have hsum : ∑ t ∈ range (n + 3), storedVec A 0 t * storedVec A 0 t = (∑ t ∈ range (n + 2), A t 0 * A t 0) + 1 := by
    rw [Finset.sum_range_succ']
    simp [storedVec]
  refine ⟨_, by unfold extractHouseholder; rw [h], ?_⟩
  unfold reflAlong
  rw [hsum]
  set s := 2 / ((∑ t ∈ range (n + 2), A t 0 * A t 0) + 1) with hs
  have hqv : ∀ (i : Fin (n + 2)), ∑ t ∈ range (n + 2), q i t * A t 0 = ∑ t : Fin (n + 2), q i t * A t 0 := fun i => (Finset.sum_range (fun t => q i t * A t 0))
  ext i j
  rw [Matrix.mul_apply, Fin.sum_univ_succ]
  refine Fin.cases ?_ (fun i => ?_) i
  · simp only [bord_zz, bord_zs, one_mul, zero_mul, Finset.sum_const_zero, add_zero, toM_apply, Fin.val_zero, if_true, refl, Matrix.of_apply]
    refine Fin.cases ?_ (fun j => ?_) j
    · simp [storedVec]
    · simp only [Fin.val_succ, Nat.succ_ne_zero, if_false, (Fin.succ_ne_zero j).symm, storedVec, if_true, Nat.succ_pos, Nat.add_sub_cancel]
      ring
  · have hb : ∀ t : Fin (n + 2), bord (toM (n + 2) q) i.succ t.succ * refl (n + 3) (storedVec A 0) s t.succ j = q i t * (if t.succ = j then 1 else 0) - (q i t * A t 0) * (s * storedVec A 0 j) := by
      intro t
      simp only [bord_ss, toM_apply, refl, Matrix.of_apply, Fin.val_succ]
      rw [show storedVec A 0 (t.1 + 1) = A t 0 by simp [storedVec]]
      ring
    rw [Finset.sum_congr rfl (fun t _ => hb t), Finset.sum_sub_distrib, ← Finset.sum_mul, bord_sz, zero_mul, zero_add, ← hqv]
    simp only [toM_apply, Fin.val_succ, Nat.succ_ne_zero, if_false, Nat.add_sub_cancel]
    refine Fin.cases ?_ (fun j => ?_) j
    · simp only [Fin.val_zero, if_true, Fin.succ_ne_zero, if_false, mul_zero, Finset.sum_const_zero, storedVec]
      ring
    · simp only [Fin.val_succ, Nat.succ_ne_zero, if_false, Nat.add_sub_cancel, Fin.succ_inj, mul_ite, mul_one, mul_zero, Finset.sum_ite_eq', Finset.mem_univ, if_true, storedVec, Nat.succ_pos]
      ring

/-- **C82**: `extract_householder_vecs` of an `n × n` matrix, `n ≥ 1`, is the product, the last column first, of the reflections along the vectors stored in the columns; it panics for `n = 0`. -/
theorem c82_extract (n : Nat) (hn : 0 < n) (A : RM) :
    ∃ E, extractHouseholder n A = some E ∧ toM (n + 1) E = ((List.range n).reverse.map (fun k => reflAlong (n + 1) (storedVec A k))).prod := by
  induction n generalizing A with
  | zero => omega
  | succ n ih =>
    cases n with
    | zero =>
      refine ⟨_, rfl, ?_⟩
      rw [show (List.range (0 + 1)).reverse = [0] from rfl, List.map_cons, List.map_nil, List.prod_cons, List.prod_nil, mul_one]
      unfold reflAlong
      have hsum : ∑ t ∈ range (0 + 1 + 1), storedVec A 0 t * storedVec A 0 t = A 0 0 * A 0 0 + 1 := by
        rw [Finset.sum_range_succ, Finset.sum_range_one]
        simp [storedVec]
        ring
      rw [hsum]
      ext i j
      refine Fin.cases ?_ (fun i => ?_) i <;> refine Fin.cases ?_ (fun j => ?_) j
      · simp [toM, refl, storedVec]
      · simp [toM, refl, storedVec, (Fin.succ_ne_zero _).symm]
      · simp [toM, refl, storedVec]
      · have hi : i = 0 := Subsingleton.elim _ _
        have hj : j = 0 := Subsingleton.elim _ _
        subst hi; subst hj
        simp [toM, refl, storedVec]
        ring
    | succ n =>
      obtain ⟨q, h1, h2⟩ := ih (by omega) (shift 1 A)
      obtain ⟨E, h3, h4⟩ := extract_step n A q h1
      refine ⟨E, h3, ?_⟩
      rw [h4, h2, bord_prod, List.range_succ_eq_map (n := n + 1), List.reverse_cons, List.map_append, List.prod_append, List.map_cons, List.map_nil, List.prod_cons, List.prod_nil, mul_one]
      congr 2
      rw [← List.map_reverse, List.map_map, List.map_map]
      apply List.map_congr_left
      intro k hk
      simp only [Function.comp]
      apply bord_reflAlong
      · simp [storedVec]
      · intro i hi
        simp only [storedVec, shift, Nat.add_right_cancel_iff, Nat.add_lt_add_iff_right, Nat.add_sub_cancel, Nat.succ_eq_add_one]
        by_cases h5 : i = k
        · rw [if_pos h5, if_pos h5]
        · rw [if_neg h5, if_neg h5]
          by_cases h6 : k < i
          · rw [if_pos h6, if_pos h6, show 1 + (i - 1) = i by omega, Nat.add_comm 1 k]
          · rw [if_neg h6, if_neg h6]

theorem list_orth {n : Nat} (l : List (Matrix (Fin n) (Fin n) ℝ)) (h : ∀ M ∈ l, Mᵀ * M = 1) : (l.prod)ᵀ * l.prod = 1 := by
  induction l with
  | nil => simp
  | cons a l ih =>
    rw [List.prod_cons, Matrix.transpose_mul, Matrix.mul_assoc, ← Matrix.mul_assoc aᵀ, h a (by simp), Matrix.one_mul]
    exact ih (fun M hM => h M (by simp [hM]))

/-- so it is always orthogonal -/
theorem c82_extract_orthogonal (n : Nat) (A E : RM) (h : extractHouseholder n A = some E) : (toM (n + 1) E)ᵀ * toM (n + 1) E = 1 := by
  have hn : 0 < n := by
    rcases Nat.eq_zero_or_pos n with h0 | h0
    · subst h0; cases h
    · exact h0
  obtain ⟨E', h1, h2⟩ := c82_extract n hn A
  rw [h] at h1
  injection h1 with h1
  subst h1
  rw [h2]
  apply list_orth
  intro M hM
  rw [List.mem_map] at hM
  obtain ⟨k, hk, rfl⟩ := hM
  apply reflAlong_orth
  rw [List.mem_reverse, List.mem_range] at hk
  have : 0 < ∑ t ∈ range (n + 1), storedVec A k t * storedVec A k t :=
    Finset.sum_pos' (fun t _ => mul_self_nonneg _) ⟨k, Finset.mem_range.mpr (by omega), by simp [storedVec]⟩
  exact this.ne'

theorem c82_extract_zero (A : RM) : extractHouseholder 0 A = none := rfl

/-- a concrete case: the stored entry 1 gives the reflection that exchanges the axes and changes their signs -/
example : ∃ E, extractHouseholder 1 (fun _ _ => 1) = some E ∧ E 0 0 = 0 ∧ E 0 1 = -1 ∧ E 1 0 = -1 ∧ E 1 1 = 0 :=
  ⟨_, rfl, by norm_num, by norm_num, by norm_num, by norm_num⟩

end Toppo.RealAlg
