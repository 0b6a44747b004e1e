import Verif.Model.EigVec
import Verif.Props.LinAlg
import Verif.Props.SymSpectrumBad
import Verif.Props.QR
set_option linter.unusedVariables false

/-
C87: eigenvectors by inverse iteration; exact real arithmetic.
-/
namespace Toppo.RealAlg
open Finset Matrix Polynomial

/-! ### Specification -/

/-- `u` is an eigenvector of the `n × n` matrix `A` for `x` (or zero) -/
def EigenVec (n : Nat) (A : RM) (x : ℝ) (u : Nat → ℝ) : Prop := ∀ i, i < n → ∑ j ∈ range n, A i j * u j = x * u i

/-- the square of the length of `A v - x v` -/
noncomputable def resid2 (n : Nat) (A : RM) (x : ℝ) (v : Nat → ℝ) : ℝ := ∑ i ∈ range n, (∑ j ∈ range n, A i j * v j - x * v i) ^ 2

/-! ### Proofs -/

theorem mulVec_shift (n : Nat) (A : RM) (x : ℝ) (v : Nat → ℝ) (i : Fin n) :
    Matrix.mulVec (LinAlg.mat n n (shiftDiag A x)) (fun i => v i) i = ∑ j ∈ range n, A i j * v j - x * v i := by
  rw [Matrix.mulVec, dotProduct, ← Fin.sum_univ_eq_sum_range (fun j => A i j * v j) n]
  have : x * v i = ∑ j : Fin n, if i = j then x * v j else 0 := by simp
  rw [this, ← Finset.sum_sub_distrib]
  refine Finset.sum_congr rfl fun j _ => ?_
  simp only [LinAlg.mat, Matrix.of_apply, shiftDiag]
  by_cases h : i = j
  · subst h; simp; ring
  · rw [if_neg (fun h' => h (Fin.ext h')), if_neg h]; ring

theorem sum_range_sq (n : Nat) (v : Nat → ℝ) : ∑ t ∈ range n, v t * v t = (fun i : Fin n => v i) ⬝ᵥ (fun i : Fin n => v i) := by
  rw [dotProduct, ← Fin.sum_univ_eq_sum_range (fun t => v t * v t) n]

/-- one step: the new vector is the normalised solution -/
theorem invStep_spec {n : Nat} {A : RM} {x : ℝ} {v w : Nat → ℝ} (h : invStep n A x v = some w) (hv : (∑ t ∈ range n, v t * v t) ≠ 0) :
    ∃ y : Nat → ℝ, ∃ s : ℝ, 0 < s ∧ s * s = ∑ t ∈ range n, y t * y t ∧ (∀ i, w i = y i / s) ∧
      Matrix.mulVec (LinAlg.mat n n (shiftDiag A x)) (fun i => y i) = fun i : Fin n => v i := by
  unfold invStep at h
  rw [Option.map_eq_some_iff] at h
  obtain ⟨y, h1, rfl⟩ := h
  have hy := LinAlg.c38_solve h1
  have hpos : 0 < ∑ t ∈ range n, y t * y t := by
    refine lt_of_le_of_ne (Finset.sum_nonneg fun t _ => mul_self_nonneg _) ?_
    intro h0
    have hz : ∀ t, t < n → y t = 0 := by
      intro t ht
      have := (Finset.sum_eq_zero_iff_of_nonneg (fun t _ => mul_self_nonneg (y t))).mp h0.symm t (Finset.mem_range.mpr ht)
      exact mul_self_eq_zero.mp this
    apply hv
    refine Finset.sum_eq_zero fun t ht => ?_
    have h2 := congrFun hy ⟨t, Finset.mem_range.mp ht⟩
    rw [mulVec_shift] at h2
    have : v t = 0 := by
      rw [← h2]
      simp only
      rw [hz t (Finset.mem_range.mp ht), Finset.sum_eq_zero fun j hj => by rw [hz j (Finset.mem_range.mp hj), mul_zero]]
      ring
    rw [this, mul_zero]
  exact ⟨y, Real.sqrt (∑ t ∈ range n, y t * y t), Real.sqrt_pos.mpr hpos, Real.mul_self_sqrt hpos.le, fun i => rfl, hy⟩

theorem unit_of {n : Nat} {y w : Nat → ℝ} {s : ℝ} (hs : 0 < s) (h : s * s = ∑ t ∈ range n, y t * y t) (hw : ∀ i, w i = y i / s) : ∑ t ∈ range n, w t * w t = 1 := by
  have : ∀ t ∈ range n, w t * w t = y t * y t / (s * s) := by
    intro t _
    rw [hw]
    field_simp
  rw [Finset.sum_congr rfl this, ← Finset.sum_div, ← h]
  exact div_self (by positivity)

theorem start_unit {n : Nat} (hn : 0 < n) : ∑ t ∈ range n, (1 / Real.sqrt n) * (1 / Real.sqrt n) = 1 := by
  have h0 : (0 : ℝ) < n := by exact_mod_cast hn
  have : (1 / Real.sqrt n) * (1 / Real.sqrt n) = 1 / (n : ℝ) := by
    rw [div_mul_div_comm, Real.mul_self_sqrt h0.le, one_mul]
  rw [Finset.sum_const, this, card_range, nsmul_eq_mul]
  field_simp

theorem invIter_pos {n : Nat} {A : RM} {x : ℝ} {v : Nat → ℝ} (h : invIter n A x = some v) : 0 < n := by
  unfold invIter invStep at h
  rw [Option.bind_eq_some_iff] at h
  obtain ⟨w, h1, -⟩ := h
  rw [Option.map_eq_some_iff] at h1
  obtain ⟨y, h1, -⟩ := h1
  exact ((LinAlg.c38_solve_iff _ _).mp ⟨y, h1⟩).1

/-- the two steps -/
theorem invIter_spec {n : Nat} {A : RM} {x : ℝ} {v : Nat → ℝ} (h : invIter n A x = some v) :
    ∃ (y1 y2 : Nat → ℝ) (s1 s2 : ℝ), 0 < s1 ∧ 0 < s2 ∧ s1 * s1 = ∑ t ∈ range n, y1 t * y1 t ∧ s2 * s2 = ∑ t ∈ range n, y2 t * y2 t ∧ (∀ i, v i = y2 i / s2) ∧
      Matrix.mulVec (LinAlg.mat n n (shiftDiag A x)) (fun i => y1 i) = (fun i : Fin n => 1 / Real.sqrt n) ∧
      Matrix.mulVec (LinAlg.mat n n (shiftDiag A x)) (fun i => y2 i) = (fun i : Fin n => y1 i / s1) := by
  have hn := invIter_pos h
  unfold invIter at h
  rw [Option.bind_eq_some_iff] at h
  obtain ⟨w, h1, h2⟩ := h
  obtain ⟨y1, s1, a1, a2, a3, a4⟩ := invStep_spec h1 (by rw [start_unit hn]; norm_num)
  obtain ⟨y2, s2, b1, b2, b3, b4⟩ := invStep_spec h2 (by rw [unit_of a1 a2 a3]; norm_num)
  refine ⟨y1, y2, s1, s2, a1, b1, a2, b2, b3, a4, ?_⟩
  rw [b4]
  funext i
  exact a3 i

/-- **C87**: a column of numbers is a unit vector -/
theorem invIter_unit {n : Nat} {A : RM} {x : ℝ} {v : Nat → ℝ} (h : invIter n A x = some v) : ∑ t ∈ range n, v t * v t = 1 := by
  obtain ⟨y1, y2, s1, s2, h1, h2, h3, h4, h5, -⟩ := invIter_spec h
  exact unit_of h2 h4 h5

theorem resid_core {n : Nat} {M : Matrix (Fin n) (Fin n) ℝ} (hM : M.transpose = M) {b y1 y2 u : Fin n → ℝ} {s1 s2 d : ℝ} (h1 : 0 < s1) (h2 : 0 < s2)
    (q1 : s1 * s1 = y1 ⬝ᵥ y1) (q2 : s2 * s2 = y2 ⬝ᵥ y2) (hb : b ⬝ᵥ b = 1) (e1 : M.mulVec y1 = b) (e2 : M.mulVec y2 = fun i => y1 i / s1) (hu : M.mulVec u = d • u) :
    (u ⬝ᵥ b) ^ 2 ≤ d ^ 2 * (u ⬝ᵥ u) * (s2 * s2) := by
  have sym : ∀ p q : Fin n → ℝ, p ⬝ᵥ M.mulVec q = M.mulVec p ⬝ᵥ q := by
    intro p q
    rw [Matrix.dotProduct_mulVec, ← Matrix.mulVec_transpose, hM]
  have cs : ∀ p q : Fin n → ℝ, (p ⬝ᵥ q) ^ 2 ≤ (p ⬝ᵥ p) * (q ⬝ᵥ q) := by
    intro p q
    have := Finset.sum_mul_sq_le_sq_mul_sq Finset.univ p q
    simpa [dotProduct, pow_two] using this
  have k1 : u ⬝ᵥ b = d * (u ⬝ᵥ y1) := by
    rw [← e1, sym, hu, smul_dotProduct, smul_eq_mul]
  have k2 : s1 = y2 ⬝ᵥ b := by
    rw [← e1, sym, e2]
    have : (fun i => y1 i / s1) = s1⁻¹ • y1 := by
      funext i
      simp [div_eq_inv_mul]
    rw [this, smul_dotProduct, ← q1, smul_eq_mul]
    field_simp
  have k3 : s1 * s1 ≤ s2 * s2 := by
    have := cs y2 b
    rw [← k2, hb, ← q2] at this
    nlinarith
  have k4 : (u ⬝ᵥ y1) ^ 2 ≤ (u ⬝ᵥ u) * (s2 * s2) := by
    refine (cs u y1).trans ?_
    rw [← q1]
    refine mul_le_mul_of_nonneg_left k3 ?_
    rw [dotProduct]
    exact Finset.sum_nonneg fun i _ => mul_self_nonneg _
  rw [k1, mul_pow, mul_assoc]
  exact mul_le_mul_of_nonneg_left k4 (sq_nonneg d)

theorem invIter_resid {n : Nat} {A : RM} (hA : SymmRM n A) {x : ℝ} {v : Nat → ℝ} (h : invIter n A x = some v) {e : ℝ} {u : Nat → ℝ} (hu : EigenVec n A e u) :
    resid2 n A x v * (∑ t ∈ range n, u t) ^ 2 ≤ n * (e - x) ^ 2 * ∑ t ∈ range n, u t * u t := by
  have hn := invIter_pos h
  have hn0 : (0 : ℝ) < n := by exact_mod_cast hn
  obtain ⟨y1, y2, s1, s2, h1, h2, q1, q2, hv, e1, e2⟩ := invIter_spec h
  have hM : (LinAlg.mat n n (shiftDiag A x)).transpose = LinAlg.mat n n (shiftDiag A x) := by
    ext i j
    simp only [Matrix.transpose_apply, LinAlg.mat, Matrix.of_apply, shiftDiag]
    rw [hA j i j.2 i.2]
    by_cases hij : (i : Nat) = j
    · rw [if_pos hij, if_pos hij.symm]
    · rw [if_neg hij, if_neg (fun h => hij h.symm)]
  have hue : Matrix.mulVec (LinAlg.mat n n (shiftDiag A x)) (fun i : Fin n => u i) = (e - x) • (fun i : Fin n => u i) := by
    funext i
    rw [mulVec_shift, hu i i.2]
    simp
    ring
  have hb : (fun _ : Fin n => 1 / Real.sqrt n) ⬝ᵥ (fun _ : Fin n => 1 / Real.sqrt n) = 1 := by
    rw [← sum_range_sq n (fun _ => 1 / Real.sqrt n)]
    exact start_unit hn
  have core := resid_core hM h1 h2 (by rw [q1, sum_range_sq]) (by rw [q2, sum_range_sq]) hb e1 e2 hue
  have hub : (fun i : Fin n => u i) ⬝ᵥ (fun _ : Fin n => 1 / Real.sqrt n) = (∑ t ∈ range n, u t) / Real.sqrt n := by
    rw [dotProduct, ← Finset.sum_mul, Fin.sum_univ_eq_sum_range (fun t => u t) n]
    ring
  rw [hub, div_pow, Real.sq_sqrt hn0.le, div_le_iff₀ hn0, ← sum_range_sq] at core
  have hr : resid2 n A x v * (s2 * s2) = 1 := by
    have hi : ∀ i, i < n → ∑ j ∈ range n, A i j * v j - x * v i = y1 i / s1 / s2 := by
      intro i hi
      have h3 := congrFun e2 ⟨i, hi⟩
      rw [mulVec_shift] at h3
      simp only at h3
      rw [← h3, sub_div, Finset.sum_div]
      congr 1
      · exact Finset.sum_congr rfl fun j _ => by rw [hv]; ring
      · rw [hv]; ring
    unfold resid2
    rw [Finset.sum_congr rfl (g := fun i => (y1 i * y1 i) / (s1 * s1) / (s2 * s2)) (fun i hi' => by
      rw [hi i (Finset.mem_range.mp hi')]
      field_simp), ← Finset.sum_div, ← Finset.sum_div, ← q1]
    field_simp
  have hr0 : 0 ≤ resid2 n A x v := Finset.sum_nonneg fun i _ => sq_nonneg _
  calc _ ≤ resid2 n A x v * ((e - x) ^ 2 * (∑ t ∈ range n, u t * u t) * (s2 * s2) * n) := mul_le_mul_of_nonneg_left core hr0
    _ = (resid2 n A x v * (s2 * s2)) * (n * (e - x) ^ 2 * ∑ t ∈ range n, u t * u t) := by ring
    _ = _ := by rw [hr, one_mul]

theorem invIter_singular {n : Nat} {A : RM} {x : ℝ} {u : Nat → ℝ} (hu : EigenVec n A x u) (h0 : ∃ i, i < n ∧ u i ≠ 0) : invIter n A x = none := by
  by_contra hc
  obtain ⟨v, hv⟩ := Option.ne_none_iff_exists'.mp hc
  have hs : ∃ y, LinAlg.solve n (shiftDiag A x) (fun _ => 1 / Real.sqrt n) = some y := by
    unfold invIter invStep at hv
    rw [Option.bind_eq_some_iff] at hv
    obtain ⟨w, h1, -⟩ := hv
    rw [Option.map_eq_some_iff] at h1
    exact ⟨_, h1.choose_spec.1⟩
  obtain ⟨hn, hd⟩ := (LinAlg.c38_solve_iff _ _).mp hs
  have hdet := hd n hn le_rfl
  apply hdet
  rw [← Matrix.exists_mulVec_eq_zero_iff]
  obtain ⟨i, hi, hui⟩ := h0
  refine ⟨fun i => u i, fun h => hui (congrFun h ⟨i, hi⟩), ?_⟩
  funext j
  rw [mulVec_shift, hu j j.2]
  simp

theorem withVecs_done {n k : Nat} {A : RM} {r : Outcome (List ℝ)} {l : List ℝ} {cs : List (Option (Nat → ℝ))} (h : withVecs n k A r = .done (l, cs)) :
    r = .done l ∧ k ≤ l.length ∧ cs = (List.range k).map (fun i => invIter n A (l.getD i 0)) := by
  unfold withVecs at h
  cases r with
  | running => cases h
  | panic => cases h
  | done l' =>
    simp only at h
    split at h
    · cases h
    · rename_i hk
      simp only [Outcome.done.injEq, Prod.mk.injEq] at h
      obtain ⟨rfl, rfl⟩ := h
      exact ⟨rfl, by omega, rfl⟩

/-- **C87**: for a symmetric matrix with at least two rows, asking for `k` columns panics exactly when the matrix is not square or (once the values are known) `k` is more than the number of rows. -/
theorem c87_panics (fuel n m : Nat) (hn : 2 ≤ n) (A : RM) (hA : SymmRM n A) (k : Nat) :
    spectrumSmallest fuel n m A k = .panic ↔ n ≠ m ∨ (n < k ∧ spectrumSymmetric fuel n n A ≠ .running) := by
  obtain ⟨h1, h2⟩ := c85_shape fuel n hn A hA
  unfold spectrumSmallest
  by_cases hm : n = m
  · subst hm
    simp only [ne_eq, not_true, if_false, false_or]
    cases hs : spectrumSymmetric fuel n n A with
    | running => simp [withVecs]
    | panic => exact absurd hs h1
    | done l =>
      obtain ⟨-, h3⟩ := h2 l hs
      simp [withVecs, h3]
  · simp [hm]

/-- **C87**: what is returned: the values of `spectrum_symmetric`, and `k` columns, each of which is a unit vector if its entries are numbers. -/
theorem c87_columns (fuel n m : Nat) (A : RM) (k : Nat) (l : List ℝ) (cs : List (Option (Nat → ℝ))) (h : spectrumSmallest fuel n m A k = .done (l, cs)) :
    n = m ∧ spectrumSymmetric fuel n m A = .done l ∧ cs.length = k ∧ ∀ v, some v ∈ cs → ∑ t ∈ range n, v t * v t = 1 := by
  unfold spectrumSmallest at h
  split at h
  · cases h
  · rename_i hm
    obtain rfl : n = m := by simpa using hm
    obtain ⟨h1, h2, rfl⟩ := withVecs_done h
    refine ⟨rfl, h1, by simp, ?_⟩
    intro v hv
    obtain ⟨i, -, hi⟩ := List.mem_map.mp hv
    exact invIter_unit hi

/-- **C87**: `spectrum_with_n_th_eigenvec_symmetric` gives the value and the column that `spectrum_with_n_smallest_eigenvecs_symmetric` gives in that place. -/
theorem c87_nth (fuel n m : Nat) (A : RM) (i k : Nat) (hik : i < k) (l : List ℝ) (cs : List (Option (Nat → ℝ))) (h : spectrumSmallest fuel n m A k = .done (l, cs)) :
    ∃ x c, l[i]? = some x ∧ cs[i]? = some c ∧ spectrumNth fuel n m A i = .done (x, c) := by
  unfold spectrumSmallest at h
  split at h
  · cases h
  · rename_i hm
    obtain rfl : n = m := by simpa using hm
    obtain ⟨h1, h2, rfl⟩ := withVecs_done h
    have hil : i < l.length := by omega
    refine ⟨l[i], invIter n A l[i], by simp [hil], by simp [hik, hil], ?_⟩
    unfold spectrumNth
    rw [if_neg (by simp), h1]
    simp only
    rw [if_neg (by omega)]
    simp [hil]

/-- **C87**: and it panics exactly when the matrix is not square or (once the values are known) there is no value with that number. -/
theorem c87_nth_panics (fuel n m : Nat) (hn : 2 ≤ n) (A : RM) (hA : SymmRM n A) (k : Nat) :
    spectrumNth fuel n m A k = .panic ↔ n ≠ m ∨ (n ≤ k ∧ spectrumSymmetric fuel n n A ≠ .running) := by
  obtain ⟨h1, h2⟩ := c85_shape fuel n hn A hA
  unfold spectrumNth
  by_cases hm : n = m
  · subst hm
    simp only [ne_eq, not_true, if_false, false_or]
    cases hs : spectrumSymmetric fuel n n A with
    | running => simp
    | panic => exact absurd hs h1
    | done l =>
      obtain ⟨-, h3⟩ := h2 l hs
      simp [h3]
  · simp [hm]

/-- **C87**: the same for `spectrum_with_invariant_space`: it panics when `spectrum` does, or the matrix is not square; otherwise there is one column per row, and a column is a unit vector, next to its
value, if its entries are numbers; they are not if the value is exactly an eigenvalue. -/
theorem c87_general (fuel n m : Nat) (A : RM) (l : List ℝ) (cs : List (Option (Nat → ℝ))) (h : spectrumVecs fuel n m A = .done (l, cs)) :
    n = m ∧ spectrum fuel n m A = .done l ∧ cs.length = n ∧ (∀ v, some v ∈ cs → ∑ t ∈ range n, v t * v t = 1) ∧
    ∀ i x (u : Nat → ℝ), i < n → l[i]? = some x → EigenVec n A x u → (∃ j, j < n ∧ u j ≠ 0) → cs[i]? = some none := by
  unfold spectrumVecs at h
  split at h
  · cases h
  · rename_i hm
    obtain rfl : n = m := by simpa using hm
    obtain ⟨h1, h2, rfl⟩ := withVecs_done h
    refine ⟨rfl, h1, by simp, ?_, ?_⟩
    · intro v hv
      obtain ⟨i, -, hi⟩ := List.mem_map.mp hv
      exact invIter_unit hi
    · intro i x u hi hx hu h0
      have : l.getD i 0 = x := by rw [List.getD_eq_getElem?_getD, hx]; rfl
      simp only [List.getElem?_map, List.getElem?_range hi, Option.map_some, this, invIter_singular hu h0]

/-- the values and columns are paired up -/
theorem cols_at {fuel n m : Nat} {A : RM} {k : Nat} {l : List ℝ} {cs : List (Option (Nat → ℝ))} (h : spectrumSmallest fuel n m A k = .done (l, cs)) {i : Nat} {x : ℝ} {c : Option (Nat → ℝ)}
    (hx : l[i]? = some x) (hc : cs[i]? = some c) : c = invIter n A x := by
  unfold spectrumSmallest at h
  split at h
  · cases h
  · obtain ⟨h1, h2, rfl⟩ := withVecs_done h
    rw [List.getElem?_map, Option.map_eq_some_iff] at hc
    obtain ⟨j, h3, rfl⟩ := hc
    have hj : j = i := by
      rw [List.getElem?_eq_some_iff] at h3
      obtain ⟨h4, h5⟩ := h3
      simpa using h5.symm
    subst hj
    rw [List.getD_eq_getElem?_getD, hx]
    rfl

/-- **C87**: for a symmetric matrix, a value `x` and the column `v` next to it: for every eigenvector `u`, of the eigenvalue `e`, `‖A v - x v‖ |∑ u| ≤ √n |e - x| ‖u‖` (squared).
So if the value is close to an eigenvalue with an eigenvector whose entries do not sum to 0, `v` nearly is an eigenvector. -/
theorem c87_residual (fuel n m : Nat) (A : RM) (hA : SymmRM n A) (k : Nat) (l : List ℝ) (cs : List (Option (Nat → ℝ))) (h : spectrumSmallest fuel n m A k = .done (l, cs))
    (i : Nat) (x : ℝ) (v : Nat → ℝ) (hx : l[i]? = some x) (hv : cs[i]? = some (some v)) (e : ℝ) (u : Nat → ℝ) (hu : EigenVec n A e u) :
    resid2 n A x v * (∑ t ∈ range n, u t) ^ 2 ≤ n * (e - x) ^ 2 * ∑ t ∈ range n, u t * u t :=
  invIter_resid hA (cols_at h hx hv).symm hu

/-- **C87**: the same with the accuracy of the values (C85): the eigenvector in the same place bounds the residual. -/
theorem c87_accurate_partial (fuel n m : Nat) (hn : 2 ≤ n) (A : RM) (hA : SymmRM n A) (hg : GoodRun n false A) (hp : ∀ B, Reached n A B → RoundProper n B) (ht : ∀ B, Reached n A B → NoTie n B)
    (k : Nat) (l es : List ℝ) (cs : List (Option (Nat → ℝ))) (h : spectrumSmallest fuel n m A k = .done (l, cs)) (he : IsSpectrum n A es)
    (i : Nat) (x e : ℝ) (v u : Nat → ℝ) (hx : l[i]? = some x) (hei : es[i]? = some e) (hv : cs[i]? = some (some v)) (hu : EigenVec n A e u) :
    resid2 n A x v * (∑ t ∈ range n, u t) ^ 2 ≤ n * ((n - 1 : ℕ) * 0.0000000001) ^ 2 * ∑ t ∈ range n, u t * u t := by
  refine (c87_residual fuel n m A hA k l cs h i x v hx hv e u hu).trans ?_
  obtain ⟨rfl, hs, -⟩ := c87_columns fuel n m A k l cs h
  obtain ⟨h1, h2, h3⟩ := c85_spectrum_partial fuel n hn A hA hg hp ht l es hs he
  obtain ⟨g1, rfl⟩ := List.getElem?_eq_some_iff.mp hx
  obtain ⟨g2, rfl⟩ := List.getElem?_eq_some_iff.mp hei
  have h4 := h3 i g1 g2
  refine mul_le_mul_of_nonneg_right (mul_le_mul_of_nonneg_left ?_ (Nat.cast_nonneg n)) (Finset.sum_nonneg fun t _ => mul_self_nonneg _)
  rw [show (es[i] - l[i]) ^ 2 = |l[i] - es[i]| ^ 2 by rw [sq_abs]; ring]
  exact pow_le_pow_left₀ (abs_nonneg _) h4 2

/-! ### Where it fails -/

/-- **C87 fails**: if a value returned is exactly an eigenvalue, the column next to it has no numbers in it (`solve` divides by zero): the more accurate the values, the worse the columns. -/
theorem c87_exact_false (fuel n m : Nat) (A : RM) (k : Nat) (l : List ℝ) (cs : List (Option (Nat → ℝ))) (h : spectrumSmallest fuel n m A k = .done (l, cs))
    (i : Nat) (x : ℝ) (c : Option (Nat → ℝ)) (hx : l[i]? = some x) (hc : cs[i]? = some c) (u : Nat → ℝ) (hu : EigenVec n A x u) (h0 : ∃ i, i < n ∧ u i ≠ 0) : c = none := by
  rw [cols_at h hx hc]
  exact invIter_singular hu h0

theorem invIter_rows {n : Nat} {A : RM} {x s : ℝ} {v : Nat → ℝ} (hs : EigenVec n A s (fun _ => 1)) (h : invIter n A x = some v) :
    (∀ i, i < n → v i = 1 / Real.sqrt n) ∨ (∀ i, i < n → v i = -(1 / Real.sqrt n)) := by
  have hn := invIter_pos h
  have hn0 : (0 : ℝ) < n := by exact_mod_cast hn
  have hr : 0 < Real.sqrt n := Real.sqrt_pos.mpr hn0
  obtain ⟨y1, y2, s1, s2, h1, h2, q1, q2, hv, e1, e2⟩ := invIter_spec h
  -- the only solution for a right-hand side with equal entries has equal entries
  have hdet : (LinAlg.mat n n (shiftDiag A x)).det ≠ 0 := by
    unfold invIter invStep at h
    rw [Option.bind_eq_some_iff] at h
    obtain ⟨w, h3, -⟩ := h
    rw [Option.map_eq_some_iff] at h3
    exact ((LinAlg.c38_solve_iff _ _).mp ⟨_, h3.choose_spec.1⟩).2 n hn le_rfl
  have hsx : s - x ≠ 0 := by
    intro h0
    apply hdet
    rw [← Matrix.exists_mulVec_eq_zero_iff]
    refine ⟨fun _ => 1, fun h => one_ne_zero (congrFun h ⟨0, hn⟩), ?_⟩
    funext j
    rw [mulVec_shift n A x (fun _ => 1) j, hs j j.2]
    simpa using h0
  have key : ∀ (y : Nat → ℝ) (b : ℝ), Matrix.mulVec (LinAlg.mat n n (shiftDiag A x)) (fun i => y i) = (fun _ : Fin n => b) → ∀ i, i < n → y i = b / (s - x) := by
    intro y b hy i hi
    by_contra hne
    apply hdet
    rw [← Matrix.exists_mulVec_eq_zero_iff]
    refine ⟨fun i => y i - b / (s - x), fun h => hne (sub_eq_zero.mp (congrFun h ⟨i, hi⟩)), ?_⟩
    funext j
    have h3 := congrFun hy j
    rw [mulVec_shift] at h3
    rw [mulVec_shift n A x (fun i => y i - b / (s - x)) j]
    have h4 : ∑ t ∈ range n, A j t * (y t - b / (s - x)) = ∑ t ∈ range n, A j t * y t - (b / (s - x)) * ∑ t ∈ range n, A j t * 1 := by
      rw [Finset.mul_sum, ← Finset.sum_sub_distrib]
      exact Finset.sum_congr rfl fun t _ => by ring
    rw [h4, hs j j.2]
    simp only [Pi.zero_apply]
    have : b / (s - x) * (s - x) = b := by field_simp
    linear_combination h3 - this
  have hy1 := key y1 _ e1
  have e2' : Matrix.mulVec (LinAlg.mat n n (shiftDiag A x)) (fun i => y2 i) = (fun _ : Fin n => 1 / Real.sqrt n / (s - x) / s1) := by
    rw [e2]
    funext i
    rw [hy1 i i.2]
  have hy2 := key y2 _ e2'
  set c := 1 / Real.sqrt n / (s - x) / s1 / (s - x) / s2 with hc
  have hvc : ∀ i, i < n → v i = c := fun i hi => by rw [hv, hy2 i hi]
  have hu := invIter_unit h
  rw [Finset.sum_congr rfl (fun t ht => by rw [hvc t (Finset.mem_range.mp ht)]), Finset.sum_const, card_range, nsmul_eq_mul] at hu
  have hsq : Real.sqrt n * Real.sqrt n = n := Real.mul_self_sqrt hn0.le
  have h5 : (c - 1 / Real.sqrt n) * (c + 1 / Real.sqrt n) = 0 := by
    have : (1 / Real.sqrt n) * (1 / Real.sqrt n) = 1 / (n : ℝ) := by rw [div_mul_div_comm, hsq, one_mul]
    have h6 : c * c = 1 / (n : ℝ) := by field_simp; linarith
    linear_combination h6 - this
  rcases mul_eq_zero.mp h5 with h6 | h6
  · left
    intro i hi
    rw [hvc i hi]
    linarith
  · right
    intro i hi
    rw [hvc i hi]
    linarith

/-- **C87 fails**: if all rows of the matrix have the same sum (the Laplacian of a graph, say), every column of numbers is the start vector `(1/√n, …, 1/√n)` or its negative, whatever
the value next to it. -/
theorem c87_rows_false (fuel n m : Nat) (A : RM) (k : Nat) (l : List ℝ) (cs : List (Option (Nat → ℝ))) (h : spectrumSmallest fuel n m A k = .done (l, cs))
    (s : ℝ) (hs : ∀ i, i < n → ∑ j ∈ range n, A i j = s) (v : Nat → ℝ) (hv : some v ∈ cs) :
    (∀ i, i < n → v i = 1 / Real.sqrt n) ∨ (∀ i, i < n → v i = -(1 / Real.sqrt n)) := by
  unfold spectrumSmallest at h
  split at h
  · cases h
  · obtain ⟨h1, h2, rfl⟩ := withVecs_done h
    obtain ⟨i, -, hi⟩ := List.mem_map.mp hv
    exact invIter_rows (s := s) (fun i hi => by simpa using hs i hi) hi

/-! ### Concrete cases -/

def ex21 : RM := fun i j => if i = j then 2 else 1

theorem ex21_tri : SymTri 2 ex21 := by
  constructor
  · intro i j hi hj
    interval_cases i <;> interval_cases j <;> norm_num [ex21]
  · intro r c hr hc hrc
    omega

theorem ex21_spectrum (fuel : Nat) : spectrumSymmetric (fuel + 1) 2 2 ex21 = .done [1, 3] := by
  obtain ⟨B, h1, h2, -⟩ := start_keep (n := 2) (by omega) ex21_tri (by intro k hk; omega)
  obtain ⟨B', op, h3, h4⟩ := symmetricQr_eq (fuel := fuel + 1) (n := 2) (by omega) ex21
  obtain rfl := start_unique h1 h3
  have hD : ∀ i j, i < 2 → j < 2 → symDeflate 2 B i j = ex21 i j := by
    intro i j hi hj
    unfold symDeflate
    rw [if_neg]
    · exact h2 i j hi hj
    · rintro (⟨rfl, h5, h3⟩ | ⟨rfl, h5, h3⟩)
      · rw [h2 _ _ (by omega) (by omega)] at h3
        norm_num [ex21, symTol] at h3
      · rw [h2 _ _ (by omega) (by omega)] at h3
        norm_num [ex21, symTol] at h3
  have hq : symQ 2 (symDeflate 2 B) = 2 := by simp [symQ]
  unfold spectrumSymmetric
  rw [if_neg (by simp), h4]
  unfold symLoop
  rcases symStep_spec (n := 2) (by omega) B op with ⟨-, g2⟩ | ⟨g1, -⟩
  · rw [g2]
    simp only
    have hr : symReadOff 2 (symDeflate 2 B) 2 0 = some [1, 3] := by
      have e00 := hD 0 0 (by omega) (by omega)
      have e01 := hD 0 1 (by omega) (by omega)
      have e10 := hD 1 0 (by omega) (by omega)
      have e11 := hD 1 1 (by omega) (by omega)
      have hrs : realSpectrum2 (ex21 0 0) (ex21 0 1) (ex21 1 0) (ex21 1 1) = some (1, 3) := by
        unfold realSpectrum2
        norm_num [ex21]
      unfold symReadOff
      rw [if_pos (by omega), if_neg (by rw [Nat.zero_add, e10]; norm_num [ex21]), Nat.zero_add, e00, e01, e10, e11, hrs]
      simp only
      unfold symReadOff
      rw [if_neg (by omega)]
      rfl
    rw [hr]
    simp only [Outcome.done.injEq, List.insertionSort, List.foldr]
    norm_num [List.orderedInsert]
  · omega

/-- **C87 fails** on `[[2,1],[1,2]]`: the values are right, and neither column has numbers in it. -/
theorem c87_two_false (fuel : Nat) : spectrumVecsSym (fuel + 1) 2 2 ex21 = .done ([1, 3], [none, none]) := by
  unfold spectrumVecsSym spectrumSmallest
  rw [if_neg (by simp), ex21_spectrum]
  have i1 : invIter 2 ex21 1 = none := invIter_singular (u := fun i => if i = 0 then 1 else -1) (by
    intro i hi
    interval_cases i <;> norm_num [ex21, Finset.sum_range_succ]) ⟨0, by omega, by norm_num⟩
  have i3 : invIter 2 ex21 3 = none := invIter_singular (u := fun i => 1) (by
    intro i hi
    interval_cases i <;> norm_num [ex21, Finset.sum_range_succ]) ⟨0, by omega, by norm_num⟩
  simp [withVecs, List.range_succ, i1, i3]

/-- the hypotheses of `c87_general` are met -/
example (fuel : Nat) : spectrumVecs (fuel + 1) 2 2 ex21 = .done ([1, 3], [none, none]) := by
  have h : spectrum2 (ex21 0 0) (ex21 0 1) (ex21 1 0) (ex21 1 1) = some (1, 3) := by
    unfold spectrum2 realSpectrum2
    norm_num [ex21]
  have h1 : spectrum (fuel + 1) 2 2 ex21 = .done [1, 3] := by rw [c81_two, h]
  have i1 : invIter 2 ex21 1 = none := invIter_singular (u := fun i => if i = 0 then 1 else -1) (by
    intro i hi
    interval_cases i <;> norm_num [ex21, Finset.sum_range_succ]) ⟨0, by omega, by norm_num⟩
  have i3 : invIter 2 ex21 3 = none := invIter_singular (u := fun i => 1) (by
    intro i hi
    interval_cases i <;> norm_num [ex21, Finset.sum_range_succ]) ⟨0, by omega, by norm_num⟩
  unfold spectrumVecs
  rw [if_neg (by simp), h1]
  simp [withVecs, List.range_succ, i1, i3]

/-- a tridiagonal matrix with a small entry next to the first row -/
noncomputable def tri3 (a e b w c : ℝ) : RM := fun i j =>
  if i = 0 ∧ j = 0 then a else if i + j = 1 then e else if i = 1 ∧ j = 1 then b else if i + j = 3 ∧ 1 ≤ i ∧ 1 ≤ j then w else if i = 2 ∧ j = 2 then c else 0

theorem tri3_tri (a e b w c : ℝ) : SymTri 3 (tri3 a e b w c) := by
  constructor
  · intro i j hi hj
    interval_cases i <;> interval_cases j <;> norm_num [tri3]
  · intro r d hr hd hrd
    interval_cases r <;> interval_cases d <;> first | omega | norm_num [tri3]

/-- the loop ends in the first round, by rounding the small entry -/
theorem tri3_run {a e b w c : ℝ} (he0 : 0 ≤ e) (he : e < symTol) (hw : symTol < w) : GoodRun 3 false (tri3 a e b w c) ∧
    (∀ B, Reached 3 (tri3 a e b w c) B → RoundProper 3 B ∧ NoTie 3 B) ∧
    ∀ fuel, spectrumSymmetric (fuel + 1) 3 3 (tri3 a e b w c) =
      .done ([a, (b + c) / 2 - Real.sqrt ((b + c) / 2 * ((b + c) / 2) - (b * c - w * w)), (b + c) / 2 + Real.sqrt ((b + c) / 2 * ((b + c) / 2) - (b * c - w * w))].insertionSort (· ≤ ·)) := by
  have hw0 : 0 < w := symTol_pos.trans hw
  obtain ⟨B, h1, h2, hg⟩ := start_keep (n := 3) (by omega) (tri3_tri a e b w c) (by
    intro k hk
    obtain rfl : k = 0 := by omega
    simpa [tri3] using he0)
  have b10 : B 1 0 = e := by rw [h2 1 0 (by omega) (by omega)]; simp [tri3]
  have b21 : B 2 1 = w := by rw [h2 2 1 (by omega) (by omega)]; simp [tri3]
  have b12 : B 1 2 = w := by rw [h2 1 2 (by omega) (by omega)]; simp [tri3]
  have hnw : ¬ |w| < symTol := by rw [abs_of_pos hw0]; linarith
  have d10 : symDeflate 3 B 1 0 = 0 := by
    unfold symDeflate
    rw [if_pos (Or.inl ⟨rfl, by omega, by rw [b10, abs_of_nonneg he0]; exact he⟩)]
  have d21 : symDeflate 3 B 2 1 = w := by
    unfold symDeflate
    rw [if_neg (by rintro (⟨-, -, h⟩ | ⟨h, -⟩) <;> first | omega | (rw [b21] at h; exact hnw h)), b21]
  have d12 : symDeflate 3 B 1 2 = w := by
    unfold symDeflate
    rw [if_neg (by rintro (⟨h, -⟩ | ⟨-, -, h⟩) <;> first | omega | (rw [b21] at h; exact hnw h)), b12]
  have dd : ∀ i, i < 3 → symDeflate 3 B i i = tri3 a e b w c i i := by
    intro i hi
    unfold symDeflate
    rw [if_neg (by omega)]
    exact h2 i i hi hi
  have hq : symQ 3 (symDeflate 3 B) = 3 := by
    by_contra hc
    have hlt := lt_of_le_of_ne (symQ_le (n := 3) (by omega) (symDeflate 3 B)) hc
    obtain ⟨c1, -, c3⟩ := (symQ_spec (n := 3) (by omega) (symDeflate 3 B)).1 hlt
    rw [show symQ 3 (symDeflate 3 B) = 0 by omega, show 3 - 0 - 2 = 1 from rfl, show 3 - 0 - 3 = 0 from rfl, d10, abs_zero] at c3
    linarith [symTol_pos]
  have hstep : ∀ op, symStep 3 false (B, op) = some (Sum.inl (symDeflate 3 B, op)) := by
    intro op
    rcases symStep_spec (n := 3) (by omega) B op with ⟨-, a⟩ | ⟨a, -⟩
    · exact a
    · omega
  refine ⟨hg, ?_, ?_⟩
  · have hall : ∀ X, Reached 3 (tri3 a e b w c) X → X = B := by
      intro X hX
      induction hX with
      | start h => exact start_unique h h1
      | round _ hs ih =>
        rw [ih, hstep] at hs
        simp at hs
    intro X hX
    obtain rfl := hall X hX
    constructor
    · intro f h
      omega
    · intro i hi
      rcases (by omega : i = 0 ∨ i = 1) with rfl | rfl
      · rw [Nat.zero_add, b10, abs_of_nonneg he0]
        exact he.ne
      · rw [b21, abs_of_pos hw0]
        exact hw.ne'
  · intro fuel
    obtain ⟨B', op, h3, h4⟩ := symmetricQr_eq (fuel := fuel + 1) (n := 3) (by omega) (tri3 a e b w c)
    obtain rfl := start_unique h1 h3
    unfold spectrumSymmetric
    rw [if_neg (by simp), h4]
    unfold symLoop
    rw [hstep]
    simp only
    have hr : symReadOff 3 (symDeflate 3 B) 3 0 =
        some [a, (b + c) / 2 - Real.sqrt ((b + c) / 2 * ((b + c) / 2) - (b * c - w * w)), (b + c) / 2 + Real.sqrt ((b + c) / 2 * ((b + c) / 2) - (b * c - w * w))] := by
      have e00 : symDeflate 3 B 0 0 = a := by rw [dd 0 (by omega)]; simp [tri3]
      have e11 : symDeflate 3 B 1 1 = b := by rw [dd 1 (by omega)]; simp [tri3]
      have e22 : symDeflate 3 B 2 2 = c := by rw [dd 2 (by omega)]; simp [tri3]
      have hrs : realSpectrum2 b w w c = some ((b + c) / 2 - Real.sqrt ((b + c) / 2 * ((b + c) / 2) - (b * c - w * w)), (b + c) / 2 + Real.sqrt ((b + c) / 2 * ((b + c) / 2) - (b * c - w * w))) := by
        unfold realSpectrum2
        simp only
        rw [if_pos (by nlinarith [sq_nonneg (b - c)])]
      have hlt : ¬ (1 = 3 - 1 ∨ |w| < 0.00000000000001) := by
        rw [abs_of_pos hw0]
        unfold symTol at hw
        rintro (h | h)
        · omega
        · norm_num at h hw
          linarith
      unfold symReadOff
      rw [if_pos (by omega), if_pos (by right; rw [Nat.zero_add, d10]; norm_num), Nat.zero_add, e00]
      unfold symReadOff
      rw [if_pos (by omega), d21, if_neg hlt, e11, d12, e22, hrs]
      simp only
      unfold symReadOff
      rw [if_neg (by omega)]
      rfl
    rw [hr]

/-- the columns for the eigenvalues of the lower block -/
theorem tri3_col {a e b w c x : ℝ} (he : e ≠ 0) (h1 : a - x ≠ 0) (h2 : (a - x) * (b - x) - e * e ≠ 0) (h3 : c - x ≠ 0) (h4 : (b - x) * (c - x) = w * w) :
    ∃ v, invIter 3 (tri3 a e b w c) x = some v := by
  have hs : ∀ r, ∃ y, LinAlg.solve 3 (shiftDiag (tri3 a e b w c) x) r = some y := by
    intro r
    refine (LinAlg.c38_solve_iff _ _).mpr ⟨by omega, ?_⟩
    intro k g1 g2
    interval_cases k
    · simpa [LinAlg.mat, shiftDiag, tri3] using h1
    · rw [Matrix.det_fin_two]
      simpa [LinAlg.mat, shiftDiag, tri3] using h2
    · rw [Matrix.det_fin_three]
      simp [LinAlg.mat, shiftDiag, tri3]
      intro h0
      have : e * e * (c - x) = 0 := by linear_combination -h0 + (a - x) * h4
      exact mul_ne_zero (mul_ne_zero he he) h3 this
  unfold invIter invStep
  obtain ⟨y, hy⟩ := hs (fun _ => 1 / Real.sqrt (3 : ℕ))
  obtain ⟨z, hz⟩ := hs (unitVec 3 y)
  exact ⟨unitVec 3 z, by simp only [hy, Option.map_some, Option.bind_some, hz]⟩

/-- the hypotheses of `c87_columns`, `c87_nth`, `c87_residual`, `c87_accurate_partial` are met, with two columns of numbers, on the matrix with the rows `5, ε, 0`; `ε, 0, 1`; `0, 1, 0` -/
example (fuel : Nat) : SymmRM 3 (tri3 5 0.00000000001 0 1 0) ∧ GoodRun 3 false (tri3 5 0.00000000001 0 1 0) ∧ (∀ B, Reached 3 (tri3 5 0.00000000001 0 1 0) B → RoundProper 3 B ∧ NoTie 3 B) ∧
    ∃ v w, spectrumSmallest (fuel + 1) 3 3 (tri3 5 0.00000000001 0 1 0) 2 = .done ([-1, 1, 5], [some v, some w]) := by
  obtain ⟨h1, h2, h3⟩ := tri3_run (a := 5) (e := 0.00000000001) (b := 0) (w := 1) (c := 0) (by norm_num) (by norm_num [symTol]) (by norm_num [symTol])
  obtain ⟨v, hv⟩ := tri3_col (a := 5) (e := 0.00000000001) (b := 0) (w := 1) (c := 0) (x := -1) (by norm_num) (by norm_num) (by norm_num) (by norm_num) (by norm_num)
  obtain ⟨w, hw⟩ := tri3_col (a := 5) (e := 0.00000000001) (b := 0) (w := 1) (c := 0) (x := 1) (by norm_num) (by norm_num) (by norm_num) (by norm_num) (by norm_num)
  refine ⟨fun i j hi hj => (tri3_tri _ _ _ _ _).1 i j hi hj, h1, h2, v, w, ?_⟩
  have hsort : ([(5 : ℝ), (0 + 0) / 2 - Real.sqrt ((0 + 0) / 2 * ((0 + 0) / 2) - (0 * 0 - 1 * 1)), (0 + 0) / 2 + Real.sqrt ((0 + 0) / 2 * ((0 + 0) / 2) - (0 * 0 - 1 * 1))].insertionSort (· ≤ ·)) = [-1, 1, 5] := by
    norm_num [List.insertionSort, List.orderedInsert]
  unfold spectrumSmallest
  rw [if_neg (by simp), h3, hsort]
  simp [withVecs, List.range_succ, hv, hw]

/-- the hypotheses of `c87_rows_false` are met, with a column of numbers: all rows of the matrix sum to 5, the value is about 3, and the column is still that of 5 -/
example (fuel : Nat) : ∃ l v, spectrumSmallest (fuel + 1) 3 3 (tri3 (5 - 0.00000000001) 0.00000000001 (4 - 0.00000000001) 1 4) 1 = .done (l, [some v]) ∧ l.head? = some (l.getD 0 0) ∧ l.getD 0 0 < 4 ∧
    ∀ i, i < 3 → ∑ j ∈ range 3, tri3 (5 - 0.00000000001) 0.00000000001 (4 - 0.00000000001) 1 4 i j = 5 := by
  obtain ⟨-, -, h3⟩ := tri3_run (a := 5 - 0.00000000001) (e := 0.00000000001) (b := 4 - 0.00000000001) (w := 1) (c := 4) (by norm_num) (by norm_num [symTol]) (by norm_num [symTol])
  set m : ℝ := (4 - 0.00000000001 + 4) / 2 with hm
  set r : ℝ := Real.sqrt (m * m - ((4 - 0.00000000001) * 4 - 1 * 1)) with hr
  have hrr : r * r = m * m - ((4 - 0.00000000001) * 4 - 1 * 1) := Real.mul_self_sqrt (by rw [hm]; norm_num)
  have hr0 : 0 ≤ r := Real.sqrt_nonneg _
  have hm' : m = 4 - 0.000000000005 := by rw [hm]; norm_num
  have hr1 : r * r = 1 + 0.000000000005 * 0.000000000005 := by rw [hrr, hm']; norm_num
  have hr2 : 1 < r := by by_contra hc; have : r * r ≤ 1 := by nlinarith
                         norm_num at hr1; linarith
  have hr3 : r < 2 := by by_contra hc; have : 4 ≤ r * r := by nlinarith
                         norm_num at hr1; linarith
  obtain ⟨v, hv⟩ := tri3_col (a := 5 - 0.00000000001) (e := 0.00000000001) (b := 4 - 0.00000000001) (w := 1) (c := 4) (x := m - r) (by norm_num)
    (by rw [hm']; norm_num; intro h; linarith)
    (by
      rw [hm']
      intro h
      have : 1 * (1 / 2) ≤ (5 - 0.00000000001 - (4 - 0.000000000005 - r)) * (4 - 0.00000000001 - (4 - 0.000000000005 - r)) :=
        mul_le_mul (by norm_num; linarith) (by norm_num; linarith) (by norm_num) (by norm_num; linarith)
      norm_num at h this
      linarith)
    (by rw [hm']; norm_num; intro h; linarith)
    (by rw [hm']; norm_num at hr1 ⊢; nlinarith)
  have c1 : ¬ (m + r ≤ 5 - 0.00000000001) := by
    rw [hm']
    intro h
    norm_num at h
    linarith
  have c2 : m - r ≤ 5 - 0.00000000001 := by rw [hm']; norm_num; linarith
  have hsort : ([5 - 0.00000000001, m - r, m + r].insertionSort (· ≤ ·)) = [m - r, 5 - 0.00000000001, m + r] := by
    have c3 : m - r ≤ m + r := by linarith
    have c4 : 5 - 0.00000000001 ≤ m + r := by linarith
    simp only [List.insertionSort, List.foldr, List.orderedInsert]
    by_cases h5 : 5 - 0.00000000001 ≤ m - r
    · exfalso
      rw [hm'] at h5
      norm_num at h5
      linarith
    · simp [c3, c4, h5, List.orderedInsert]
  refine ⟨[m - r, 5 - 0.00000000001, m + r], v, ?_, rfl, ?_, ?_⟩
  · unfold spectrumSmallest
    rw [if_neg (by simp), h3, hsort]
    simp [withVecs, List.range_succ, hv]
  · simp only [List.getD_cons_zero]
    rw [hm']
    norm_num
    linarith
  · intro i hi
    interval_cases i <;> norm_num [tri3, Finset.sum_range_succ]

end Toppo.RealAlg
