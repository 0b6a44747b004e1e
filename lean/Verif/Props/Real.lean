import Verif.Model.Real
import Mathlib.LinearAlgebra.LinearIndependent.Basic
import Mathlib.LinearAlgebra.Matrix.DotProduct
import Mathlib.LinearAlgebra.Matrix.Notation
import Mathlib.LinearAlgebra.Matrix.Determinant.Basic
import Mathlib.Algebra.BigOperators.Fin
import Mathlib.Algebra.BigOperators.Field
import Mathlib.Algebra.Order.BigOperators.Ring.Finset
import Mathlib.LinearAlgebra.Matrix.Trace
import Mathlib.Tactic.LinearCombination
import Mathlib.Tactic.FieldSimp
import Mathlib.Tactic.Positivity
import Mathlib.Tactic.Linarith
set_option linter.unusedVariables false

/-
C65 - C69: Householder vectors, Gram-Schmidt, Givens rotations, spectra of 2 × 2 matrices, norms; exact real arithmetic.
-/
namespace Toppo.RealAlg
open Finset Matrix

variable {n : Nat}

/-! ## C65 -/

/-- the reflection `I - β v vᵀ` a caller forms from the result -/
noncomputable def reflector (p : (Fin (n + 1) → ℝ) × ℝ) : Matrix (Fin (n + 1)) (Fin (n + 1)) ℝ :=
  1 - p.2 • vecMulVec p.1 p.1

theorem reflector_orth {v : Fin (n + 1) → ℝ} {β : ℝ} (h : β * (β * (v ⬝ᵥ v)) = 2 * β) :
    (reflector (v, β))ᵀ * reflector (v, β) = 1 := by
  have h1 : (vecMulVec v v)ᵀ = vecMulVec v v := by ext i j; simp [vecMulVec_apply, mul_comm]
  have h2 : vecMulVec v v * vecMulVec v v = (v ⬝ᵥ v) • vecMulVec v v := by
    ext i j
    simp only [Matrix.mul_apply, vecMulVec_apply, Matrix.smul_apply, dotProduct, smul_eq_mul, Finset.sum_mul]
    apply sum_congr rfl; intro k _; ring
  have h3 : (β * (β * (v ⬝ᵥ v))) • vecMulVec v v = (2 * β) • vecMulVec v v := by rw [h]
  simp only [reflector, transpose_sub, transpose_one, transpose_smul, h1, sub_mul, mul_sub, one_mul, mul_one, smul_mul_assoc, mul_smul_comm, h2, smul_smul, smul_sub]
  rw [show β * (β * (v ⬝ᵥ v)) = 2 * β from h, two_mul, add_smul]
  abel

theorem reflector_mulVec (v : Fin (n + 1) → ℝ) (β : ℝ) (x : Fin (n + 1) → ℝ) :
    reflector (v, β) *ᵥ x = fun i => x i - β * (v ⬝ᵥ x) * v i := by
  funext i
  simp only [reflector, sub_mulVec, one_mulVec, smul_mulVec, Pi.sub_apply, Pi.smul_apply, smul_eq_mul, vecMulVec_mulVec]
  simp; ring

theorem sq_sum_eq_zero {x : Fin n → ℝ} (h : ∑ k, x k * x k = 0) (k : Fin n) : x k = 0 := by
  rw [Finset.sum_eq_zero_iff_of_nonneg (fun i _ => mul_self_nonneg _)] at h
  exact mul_self_eq_zero.mp (h k (mem_univ k))

/-- the non-degenerate case: the formulas, with `v0 = b - ‖x‖` in both branches -/
theorem householder_main {x : Fin (n + 1) → ℝ} (ha : ∑ k : Fin n, x k.succ * x k.succ ≠ 0) :
    (reflector (householderVec x))ᵀ * reflector (householderVec x) = 1 ∧
    reflector (householderVec x) *ᵥ x = Pi.single 0 (Real.sqrt (x ⬝ᵥ x)) := by
  set a := ∑ k : Fin n, x k.succ * x k.succ with hadef
  have ha0 : 0 ≤ a := sum_nonneg fun i _ => mul_self_nonneg _
  have hapos : 0 < a := lt_of_le_of_ne ha0 (Ne.symm ha)
  set b := x 0 with hb
  have hxx : x ⬝ᵥ x = a + b * b := by
    simp only [dotProduct, Fin.sum_univ_succ]; rw [add_comm]
  set u := Real.sqrt (a + b * b) with hu
  have hu2 : u * u = a + b * b := Real.mul_self_sqrt (by nlinarith [mul_self_nonneg b])
  have hupos : 0 < u := Real.sqrt_pos.mpr (by nlinarith [mul_self_nonneg b])
  have hub : |b| < u := by
    rw [← Real.sqrt_mul_self_eq_abs, hu]; exact Real.sqrt_lt_sqrt (mul_self_nonneg b) (by linarith)
  have hbu : b < u := lt_of_le_of_lt (le_abs_self b) hub
  have hbu' : 0 < b + u := by have := neg_abs_le b; linarith
  have hv0 : (if b ≤ 0 then b - u else -a / (b + u)) = b - u := by
    split
    · rfl
    · rw [div_eq_iff hbu'.ne']; linear_combination hu2
  have hw : b - u ≠ 0 := by linarith
  have heq : householderVec x = (fun i => Function.update x 0 (b - u) i / (b - u), 2 * ((b - u) * (b - u)) / (a + (b - u) * (b - u))) := by
    simp only [householderVec, ← hadef, ← hb, ← hu]
    rw [if_neg (by simp [ha]), if_neg (by simp [ha]), hv0]
  set w := b - u with hwdef
  set v : Fin (n + 1) → ℝ := fun i => Function.update x 0 w i / w with hv
  have hv0' : v 0 = 1 := by simp [hv, hw]
  have hvs : ∀ k : Fin n, v k.succ = x k.succ / w := by intro k; simp [hv]
  have hvv : v ⬝ᵥ v = 1 + a / (w * w) := by
    simp only [dotProduct, Fin.sum_univ_succ, hv0', hvs, hadef, Finset.sum_div]
    congr 1
    · norm_num
    · apply sum_congr rfl; intro k _; field_simp
  have hvx : v ⬝ᵥ x = b + a / w := by
    simp only [dotProduct, Fin.sum_univ_succ, hv0', hvs, hadef, Finset.sum_div, ← hb]
    congr 1
    · ring
    · apply sum_congr rfl; intro k _; field_simp
  have hden : a + w * w ≠ 0 := by nlinarith [mul_self_nonneg w]
  have hroot : w * w = 2 * w * b + a := by rw [hwdef]; linear_combination hu2
  rw [heq]
  constructor
  · apply reflector_orth
    rw [hvv]; field_simp; ring
  · rw [reflector_mulVec]
    have hβ : 2 * (w * w) / (a + w * w) * (v ⬝ᵥ x) = w := by
      rw [hvx, div_mul_eq_mul_div, div_eq_iff hden]
      field_simp
      first | linear_combination (-w) * hroot | linear_combination -hroot | linear_combination hroot | linear_combination w * hroot
    funext i
    refine Fin.cases ?_ (fun k => ?_) i
    · rw [hβ, hv0', hxx, ← hu]; simp [hwdef, ← hb]
    · rw [hβ, hvs]; simp; field_simp; ring

/-- **C65**, what holds: unless `x` is a negative multiple of the first unit vector, `householder_vec(x) = (v, β)` gives an
orthogonal matrix `I - β v vᵀ` that maps `x` to `‖x‖ e₁`.  The excluded case fails: `c65_false`. -/
theorem c65_householder_partial (x : Fin (n + 1) → ℝ) (h : ¬ ((∀ k : Fin n, x k.succ = 0) ∧ x 0 < 0)) :
    (reflector (householderVec x))ᵀ * reflector (householderVec x) = 1 ∧
    reflector (householderVec x) *ᵥ x = Pi.single 0 (Real.sqrt (x ⬝ᵥ x)) := by
  by_cases ha : ∑ k : Fin n, x k.succ * x k.succ = 0
  · have hz : ∀ k : Fin n, x k.succ = 0 := fun k => sq_sum_eq_zero (x := fun k => x k.succ) ha k
    have hb : 0 ≤ x 0 := by
      by_contra hb; exact h ⟨hz, not_le.mp hb⟩
    have heq : householderVec x = (Function.update x 0 1, 0) := by
      simp only [householderVec]; rw [if_pos ⟨ha, hb⟩]
    rw [heq]
    refine ⟨reflector_orth (by ring), ?_⟩
    rw [reflector_mulVec]
    have hxx : x ⬝ᵥ x = x 0 * x 0 := by
      simp only [dotProduct, Fin.sum_univ_succ, hz]; simp
    funext i
    refine Fin.cases ?_ (fun k => ?_) i
    · simp [hxx, hb]
    · simp [hz]
  · exact householder_main ha

/-- **C65 fails** on every negative multiple of the first unit vector: `β = -2` has the wrong sign (line 1274), so the matrix is not
orthogonal and triples `x` instead of reflecting it. -/
theorem c65_false (x : Fin (n + 1) → ℝ) (hz : ∀ k : Fin n, x k.succ = 0) (hb : x 0 < 0) :
    (reflector (householderVec x))ᵀ * reflector (householderVec x) ≠ 1 ∧
    reflector (householderVec x) *ᵥ x = 3 • x := by
  have ha : ∑ k : Fin n, x k.succ * x k.succ = 0 := by simp [hz]
  have heq : householderVec x = (Function.update x 0 1, -2) := by
    simp only [householderVec]; rw [if_neg (by simp [not_le.mpr hb]), if_pos ⟨ha, hb⟩]
  have hv : Function.update x 0 1 = (Pi.single 0 1 : Fin (n + 1) → ℝ) := by
    funext i
    refine Fin.cases ?_ (fun k => ?_) i
    · simp
    · simp [hz]
  have h3 : reflector (householderVec x) *ᵥ x = 3 • x := by
    rw [heq, reflector_mulVec, hv]
    funext i
    refine Fin.cases ?_ (fun k => ?_) i
    · simp; ring
    · simp [hz]
  refine ⟨?_, h3⟩
  intro hcon
  have h1 : (reflector (householderVec x) *ᵥ x) ⬝ᵥ (reflector (householderVec x) *ᵥ x) = x ⬝ᵥ x := by
    rw [dotProduct_mulVec, ← mulVec_transpose, mulVec_mulVec, hcon, one_mulVec]
  rw [h3] at h1
  have hxx : x ⬝ᵥ x = x 0 * x 0 := by
    simp only [dotProduct, Fin.sum_univ_succ, hz]; simp
  have h9 : (3 • x) ⬝ᵥ (3 • x) = 9 * (x ⬝ᵥ x) := by
    simp only [smul_dotProduct, dotProduct_smul]; simp; ring
  rw [h9, hxx] at h1
  nlinarith

/-- a vector in the covered case of C65 -/
example : ¬ ((∀ k : Fin 2, (![3, 4, 0] : Fin 3 → ℝ) k.succ = 0) ∧ (![3, 4, 0] : Fin 3 → ℝ) 0 < 0) := by
  intro h; have := h.2; norm_num at this

/-! ## C66 -/

/-- What `gram_schmidt` owes for the first `i` of the columns `v`, with result columns `w`. -/
structure GS (v w : Nat → Fin n → ℝ) (i : Nat) : Prop where
  rest : ∀ k, i ≤ k → w k = v k
  orth : ∀ k l, k < i → l < i → k ≠ l → w k ⬝ᵥ w l = 0
  nz : ∀ k < i, w k ⬝ᵥ w k ≠ 0
  span : ∀ k ≤ i, Submodule.span ℝ (w '' {l | l < k}) = Submodule.span ℝ (v '' {l | l < k})

/-- the inner loop, for any coefficient rule that projects -/
theorem inner_spec (c : (Fin n → ℝ) → (Fin n → ℝ) → ℝ) (w : Nat → Fin n → ℝ) (i : Nat)
    (horth : ∀ k l, k < i → l < i → k ≠ l → w k ⬝ᵥ w l = 0)
    (hc : ∀ u k, k < i → c u (w k) * (w k ⬝ᵥ w k) = u ⬝ᵥ w k) : ∀ j, j ≤ i →
    let w' := (List.range j).foldl (fun v j => Function.update v i (v i - c (v i) (v j) • v j)) w
    (∀ k, k ≠ i → w' k = w k) ∧ (∀ k < j, w' i ⬝ᵥ w k = 0) ∧ w i - w' i ∈ Submodule.span ℝ (w '' {l | l < i}) := by
  intro j
  induction j with
  | zero => intro _; simp
  | succ j ih =>
    intro hj
    obtain ⟨h1, h2, h3⟩ := ih (by omega)
    rw [List.range_succ, List.foldl_append]
    set w' := (List.range j).foldl (fun v j => Function.update v i (v i - c (v i) (v j) • v j)) w
    simp only [List.foldl_cons, List.foldl_nil]
    have hwj : w' j = w j := h1 j (by omega)
    refine ⟨?_, ?_, ?_⟩
    · intro k hk
      rw [Function.update_of_ne hk]; exact h1 k hk
    · intro k hk
      rw [Function.update_self, hwj, sub_dotProduct, smul_dotProduct, smul_eq_mul]
      by_cases e : k = j
      · subst e; rw [hc _ k (by omega)]; ring
      · rw [h2 k (by omega), horth j k (by omega) (by omega) (Ne.symm e)]; ring
    · rw [Function.update_self, hwj]
      have : w i - (w' i - c (w' i) (w j) • w j) = (w i - w' i) + c (w' i) (w j) • w j := by abel
      rw [this]
      exact Submodule.add_mem _ h3 (Submodule.smul_mem _ _ (Submodule.subset_span ⟨j, by simp; omega, rfl⟩))

theorem image_succ (v : Nat → Fin n → ℝ) (i : Nat) : v '' {l | l < i + 1} = insert (v i) (v '' {l | l < i}) := by
  ext x
  simp only [Set.mem_image, Set.mem_setOf_eq, Set.mem_insert_iff]
  constructor
  · rintro ⟨l, hl, rfl⟩
    by_cases e : l = i
    · subst e; exact Or.inl rfl
    · exact Or.inr ⟨l, by omega, rfl⟩
  · rintro (rfl | ⟨l, hl, rfl⟩)
    · exact ⟨i, by omega, rfl⟩
    · exact ⟨l, by omega, rfl⟩

theorem span_step {S : Submodule ℝ (Fin n → ℝ)} {x y : Fin n → ℝ} {s : Set (Fin n → ℝ)} {c : ℝ} (hc : c ≠ 0)
    (h : x - y ∈ Submodule.span ℝ s) : Submodule.span ℝ (insert (c • y) s) = Submodule.span ℝ (insert x s) := by
  apply le_antisymm
  · rw [Submodule.span_le]
    rintro z (rfl | hz)
    · apply Submodule.smul_mem
      have : y = x - (x - y) := by abel
      rw [this]
      exact Submodule.sub_mem _ (Submodule.subset_span (Set.mem_insert _ _)) (Submodule.span_mono (Set.subset_insert _ _) h)
    · exact Submodule.subset_span (Set.mem_insert_of_mem _ hz)
  · rw [Submodule.span_le]
    rintro z (rfl | hz)
    · have : z = (z - y) + c⁻¹ • c • y := by rw [smul_smul, inv_mul_cancel₀ hc, one_smul]; abel
      rw [this]
      exact Submodule.add_mem _ (Submodule.span_mono (Set.subset_insert _ _) h) (Submodule.smul_mem _ _ (Submodule.subset_span (Set.mem_insert _ _)))
    · exact Submodule.subset_span (Set.mem_insert_of_mem _ hz)

/-- one column: project, then scale by a non-zero factor -/
theorem outer_step {v w w' : Nat → Fin n → ℝ} {i : Nat} {c : ℝ} {y : Fin n → ℝ} (h : GS v w i) (hind : v i ∉ Submodule.span ℝ (v '' {l | l < i}))
    (h1 : ∀ k, k ≠ i → w' k = w k) (h2 : ∀ k < i, y ⬝ᵥ w k = 0) (h3 : w i - y ∈ Submodule.span ℝ (w '' {l | l < i}))
    (hw : w' i = c • y) (hc : y ⬝ᵥ y ≠ 0 → c ≠ 0) : GS v w' (i + 1) := by
  have hy : y ⬝ᵥ y ≠ 0 := by
    intro hy
    rw [dotProduct_self_eq_zero] at hy
    rw [hy, sub_zero, h.rest i le_rfl, h.span i le_rfl] at h3
    exact hind h3
  have hc := hc hy
  have himg : ∀ k, k ≤ i → w' '' {l | l < k} = w '' {l | l < k} := by
    intro k hk
    apply Set.image_congr
    intro l hl
    exact h1 l (by simp at hl; omega)
  refine ⟨?_, ?_, ?_, ?_⟩
  · intro k hk; rw [h1 k (by omega)]; exact h.rest k (by omega)
  · intro k l hk hl hkl
    by_cases e1 : k = i
    · subst e1
      rw [hw, h1 l (by omega), smul_dotProduct, h2 l (by omega), smul_zero]
    · by_cases e2 : l = i
      · subst e2
        rw [hw, h1 k e1, dotProduct_smul, dotProduct_comm, h2 k (by omega), smul_zero]
      · rw [h1 k e1, h1 l e2]; exact h.orth k l (by omega) (by omega) hkl
  · intro k hk
    by_cases e : k = i
    · subst e
      rw [hw, smul_dotProduct, dotProduct_smul, smul_eq_mul, smul_eq_mul]
      exact mul_ne_zero hc (mul_ne_zero hc hy)
    · rw [h1 k e]; exact h.nz k (by omega)
  · intro k hk
    by_cases e : k = i + 1
    · subst e
      rw [image_succ, image_succ, himg i le_rfl, hw, span_step (S := ⊤) hc h3, h.rest i le_rfl]
      rw [Submodule.span_insert, Submodule.span_insert, h.span i le_rfl]
    · rw [himg k (by omega)]; exact h.span k (by omega)

/-- "the first `m` columns are linearly independent", said step by step -/
theorem indep_notMem {v : Nat → Fin n → ℝ} {m : Nat} (h : LinearIndependent ℝ (fun i : Fin m => v i)) {i : Nat} (hi : i < m) :
    v i ∉ Submodule.span ℝ (v '' {l | l < i}) := by
  have := h.notMem_span_image (s := {l : Fin m | l.1 < i}) (x := ⟨i, hi⟩) (by simp)
  intro hmem
  apply this
  refine Submodule.span_mono ?_ hmem
  rintro _ ⟨l, hl, rfl⟩
  exact ⟨⟨l, by simp at hl; omega⟩, by simpa using hl, rfl⟩

/-- **C66**, `gram_schmidt_without_normalize`: for linearly independent columns the result is pairwise orthogonal, non-zero, and
its first `k` columns span the same space as the first `k` input columns, for every `k`. -/
theorem c66_unnormalized (m : Nat) (v : Nat → Fin n → ℝ) (h : LinearIndependent ℝ (fun i : Fin m => v i)) :
    (∀ k l, k < m → l < m → k ≠ l → gramSchmidt' m v k ⬝ᵥ gramSchmidt' m v l = 0) ∧
    (∀ k, k < m → gramSchmidt' m v k ≠ 0) ∧
    (∀ k, k ≤ m → Submodule.span ℝ (gramSchmidt' m v '' {l | l < k}) = Submodule.span ℝ (v '' {l | l < k})) := by
  rcases Nat.eq_zero_or_pos m with h0 | h0
  · subst h0
    refine ⟨fun k l hk => by omega, fun k hk => by omega, fun k hk => ?_⟩
    have : k = 0 := by omega
    subst this; simp
  have main : ∀ i, 1 ≤ i → i ≤ m → GS v ((List.range' 1 (i - 1)).foldl (fun v i => (List.range i).foldl (gsStep' i) v) v) i := by
    intro i
    induction i with
    | zero => intro h; omega
    | succ i ih =>
      intro _ hi
      by_cases e : i = 0
      · subst e
        simp only [Nat.reduceAdd, Nat.sub_self, List.range'_zero, List.foldl_nil]
        refine ⟨fun _ _ => rfl, fun k l hk hl hkl => by omega, fun k hk => ?_, fun _ _ => rfl⟩
        have : k = 0 := by omega
        subst this
        intro hz
        rw [dotProduct_self_eq_zero] at hz
        exact indep_notMem h h0 (by rw [hz]; exact Submodule.zero_mem _)
      · have hG := ih (by omega) (by omega)
        rw [show i + 1 - 1 = (i - 1) + 1 by omega, List.range'_concat, List.foldl_append]
        set w := (List.range' 1 (i - 1)).foldl (fun v i => (List.range i).foldl (gsStep' i) v) v
        rw [show 1 + 1 * (i - 1) = i by omega]
        simp only [List.foldl_cons, List.foldl_nil]
        have hstep : gsStep' (n := n) i = (fun v j => Function.update v i (v i - ((v j ⬝ᵥ v j)⁻¹ * (v i ⬝ᵥ v j)) • v j)) := by
          funext v j; simp only [gsStep', smul_smul]
        rw [hstep]
        obtain ⟨h1, h2, h3⟩ := inner_spec (fun u x => (x ⬝ᵥ x)⁻¹ * (u ⬝ᵥ x)) w i hG.orth
          (fun u k hk => by have := hG.nz k hk; field_simp) i le_rfl
        exact outer_step hG (indep_notMem h (by omega)) h1 h2 h3 (one_smul ℝ _).symm (fun _ => one_ne_zero)
  have hG := main m (by omega) le_rfl
  refine ⟨hG.orth, fun k hk hz => hG.nz k hk ?_, hG.span⟩
  rw [gramSchmidt'] at hz
  rw [hz]; simp

/-- **C66**, `gram_schmidt`: for linearly independent columns (at least one) it returns orthonormal columns whose first `k` span the
same space as the first `k` input columns, for every `k`. -/
theorem c66_normalized (m : Nat) (hm : 0 < m) (v : Nat → Fin n → ℝ) (h : LinearIndependent ℝ (fun i : Fin m => v i)) :
    ∃ w, gramSchmidt m v = some w ∧
    (∀ k l, k < m → l < m → w k ⬝ᵥ w l = if k = l then 1 else 0) ∧
    (∀ k, k ≤ m → Submodule.span ℝ (w '' {l | l < k}) = Submodule.span ℝ (v '' {l | l < k})) := by
  have hnorm : ∀ y : Fin n → ℝ, y ⬝ᵥ y ≠ 0 → (Real.sqrt (y ⬝ᵥ y))⁻¹ ≠ 0 ∧
      ((Real.sqrt (y ⬝ᵥ y))⁻¹ • y) ⬝ᵥ ((Real.sqrt (y ⬝ᵥ y))⁻¹ • y) = 1 := by
    intro y hy
    have hpos : 0 < y ⬝ᵥ y := lt_of_le_of_ne (by simp only [dotProduct]; exact sum_nonneg fun i _ => mul_self_nonneg _) (Ne.symm hy)
    have hs : Real.sqrt (y ⬝ᵥ y) ≠ 0 := (Real.sqrt_pos.mpr hpos).ne'
    refine ⟨inv_ne_zero hs, ?_⟩
    rw [smul_dotProduct, dotProduct_smul, smul_eq_mul, smul_eq_mul]
    have := Real.mul_self_sqrt hpos.le
    field_simp
    rw [pow_two, this]
  have main : ∀ i, 1 ≤ i → i ≤ m →
      let w := (List.range' 1 (i - 1)).foldl (fun v i => normalize ((List.range i).foldl (gsStep i) v) i) (normalize v 0)
      GS v w i ∧ ∀ k < i, w k ⬝ᵥ w k = 1 := by
    intro i
    induction i with
    | zero => intro h; omega
    | succ i ih =>
      intro _ hi
      by_cases e : i = 0
      · subst e
        simp only [Nat.reduceAdd, Nat.sub_self, List.range'_zero, List.foldl_nil]
        have h00 : GS v v 0 := ⟨fun _ _ => rfl, fun k l hk => by omega, fun k hk => by omega, fun k hk => rfl⟩
        have hv0 : v 0 ⬝ᵥ v 0 ≠ 0 := by
          intro hz
          rw [dotProduct_self_eq_zero] at hz
          exact indep_notMem h hm (by rw [hz]; exact Submodule.zero_mem _)
        refine ⟨outer_step h00 (indep_notMem h hm) (y := v 0) (c := (Real.sqrt (v 0 ⬝ᵥ v 0))⁻¹) (fun k hk => Function.update_of_ne hk _ _)
          (fun k hk => by omega) (by simp) (by simp [normalize]) (fun h => (hnorm _ h).1), ?_⟩
        intro k hk
        have : k = 0 := by omega
        subst this
        rw [normalize, Function.update_self]; exact (hnorm _ hv0).2
      · obtain ⟨hG, hU⟩ := ih (by omega) (by omega)
        rw [show i + 1 - 1 = (i - 1) + 1 by omega, List.range'_concat, List.foldl_append]
        set w := (List.range' 1 (i - 1)).foldl (fun v i => normalize ((List.range i).foldl (gsStep i) v) i) (normalize v 0)
        rw [show 1 + 1 * (i - 1) = i by omega]
        simp only [List.foldl_cons, List.foldl_nil]
        obtain ⟨h1, h2, h3⟩ := inner_spec (fun u x => u ⬝ᵥ x) w i hG.orth
          (fun u k hk => by rw [hU k hk, mul_one]) i le_rfl
        have hstep : gsStep (n := n) i = (fun v j => Function.update v i (v i - (v i ⬝ᵥ v j) • v j)) := by
          funext v j; rfl
        rw [hstep]
        set w1 := (List.range i).foldl (fun v j => Function.update v i (v i - (v i ⬝ᵥ v j) • v j)) w
        have hG' : GS v (normalize w1 i) (i + 1) :=
          outer_step hG (indep_notMem h (by omega)) (y := w1 i) (c := (Real.sqrt (w1 i ⬝ᵥ w1 i))⁻¹)
            (fun k hk => by rw [normalize, Function.update_of_ne hk]; exact h1 k hk) h2 h3 (by simp [normalize]) (fun h => (hnorm _ h).1)
        refine ⟨hG', ?_⟩
        intro k hk
        by_cases e : k = i
        · subst e
          rw [normalize, Function.update_self]
          apply (hnorm _ _).2
          intro hz
          have := hG'.nz k hk
          rw [normalize, Function.update_self, smul_dotProduct, dotProduct_smul, hz] at this
          simp at this
        · rw [normalize, Function.update_of_ne e, h1 k e]; exact hU k (by omega)
  obtain ⟨hG, hU⟩ := main m (by omega) le_rfl
  refine ⟨_, by rw [gramSchmidt, if_neg (by omega)], ?_, hG.span⟩
  intro k l hk hl
  split
  · rename_i e; subst e; exact hU k hk
  · rename_i e; exact hG.orth k l hk hl e

/-- a matrix without columns is rejected -/
theorem c66_empty (v : Nat → Fin n → ℝ) : gramSchmidt 0 v = none := by simp [gramSchmidt]

/-! ## C67 -/

/-- **C67.** `givens_rotation(a, b) = (x, y)`: `x² + y² = 1`, and unless `b` is below the cut-off `10⁻¹²` (where the identity rotation is
returned) the rotation annihilates: `a y + b x = 0`. -/
theorem c67_givens (a b : ℝ) : (givens a b).1 ^ 2 + (givens a b).2 ^ 2 = 1 ∧
    (0.000000000001 ≤ |b| → a * (givens a b).2 + b * (givens a b).1 = 0) ∧
    (|b| < 0.000000000001 → givens a b = (1, 0)) := by
  have key : ∀ c : ℝ, (c * (1 / Real.sqrt (1 + c * c))) ^ 2 + (1 / Real.sqrt (1 + c * c)) ^ 2 = 1 := by
    intro c
    have hp : 0 < 1 + c * c := by nlinarith [mul_self_nonneg c]
    have h1 : Real.sqrt (1 + c * c) ≠ 0 := (Real.sqrt_pos.mpr hp).ne'
    have h2 := Real.sq_sqrt hp.le
    field_simp
    rw [← pow_two] at h2
    rw [h2]; ring
  by_cases hb : |b| < 0.000000000001
  · have e : givens a b = (1, 0) := by rw [givens, if_pos hb]
    rw [e]
    exact ⟨by norm_num, fun h => absurd hb (not_lt.mpr h), fun _ => rfl⟩
  · refine ⟨?_, fun _ => ?_, fun h => absurd h hb⟩
    · by_cases hab : |a| < |b|
      · simp only [givens, if_neg hb, if_pos hab]; exact key _
      · simp only [givens, if_neg hb, if_neg hab]; rw [add_comm]; exact key _
    · have hb0 : b ≠ 0 := by rintro rfl; apply hb; norm_num
      by_cases hab : |a| < |b|
      · simp only [givens, if_neg hb, if_pos hab]; field_simp; ring
      · have ha0 : a ≠ 0 := by
          rintro rfl; apply hab; rw [abs_zero]; exact abs_pos.mpr hb0
        simp only [givens, if_neg hb, if_neg hab]; field_simp; ring

/-! ## C68 -/

/-- **C68**, the formula: two values are returned exactly when the characteristic polynomial has two different real roots, and they are
these roots in increasing order. -/
theorem c68_real_spectrum (a b c d : ℝ) :
    (∀ l r, realSpectrum2 a b c d = some (l, r) → l < r ∧ ∀ t, Matrix.det !![a - t, b; c, d - t] = 0 ↔ t = l ∨ t = r) ∧
    ((∃ l r : ℝ, l ≠ r ∧ Matrix.det !![a - l, b; c, d - l] = 0 ∧ Matrix.det !![a - r, b; c, d - r] = 0) →
      (realSpectrum2 a b c d).isSome) := by
  simp only [Matrix.det_fin_two_of]
  constructor
  · intro l r h
    simp only [realSpectrum2] at h
    split at h
    · rename_i hp
      have hs := Real.sqrt_pos.mpr hp
      have hq := Real.mul_self_sqrt hp.le
      set rad := Real.sqrt ((a + d) / 2 * ((a + d) / 2) - (a * d - b * c))
      obtain ⟨h1, h2⟩ := Prod.mk.inj (Option.some.inj h)
      subst h1; subst h2
      refine ⟨by linarith, fun t => ?_⟩
      have hfac : (a - t) * (d - t) - b * c = (t - ((a + d) / 2 - rad)) * (t - ((a + d) / 2 + rad)) := by
        linear_combination hq
      rw [hfac, mul_eq_zero, sub_eq_zero, sub_eq_zero]
    · cases h
  · rintro ⟨l, r, hne, hl, hr⟩
    have hsum : l + r = a + d := by
      have : (l - r) * (l + r - (a + d)) = 0 := by linear_combination hl - hr
      rcases mul_eq_zero.mp this with h | h
      · exact absurd (sub_eq_zero.mp h) hne
      · linarith
    have hpos : 0 < (a + d) / 2 * ((a + d) / 2) - (a * d - b * c) := by
      have h1 : (a + d) / 2 * ((a + d) / 2) - (a * d - b * c) = ((l - r) / 2) * ((l - r) / 2) := by
        have : d = l + r - a := by linarith
        subst this
        linear_combination -hl
      rw [h1]
      exact mul_self_pos.mpr (by intro h; apply hne; linarith)
    simp [realSpectrum2, hpos]

/-- **C68**, `spectrum` on 2 × 2 matrices whose sub-diagonal entry is not negligible: it returns exactly the matrices' two
eigenvalues, increasing, when they are real and different. -/
theorem c68_spectrum_partial (a b c d : ℝ) (hc : 0.00000000001 ≤ |c|) (hc' : 0.000000000000001 * (|a| + |d|) ≤ |c|)
    (hd : ∃ l r : ℝ, l ≠ r ∧ Matrix.det !![a - l, b; c, d - l] = 0 ∧ Matrix.det !![a - r, b; c, d - r] = 0) :
    ∃ l r, spectrum2 a b c d = some (l, r) ∧ l < r ∧ ∀ t, Matrix.det !![a - t, b; c, d - t] = 0 ↔ t = l ∨ t = r := by
  obtain ⟨h1, h2⟩ := c68_real_spectrum a b c d
  obtain ⟨⟨l, r⟩, h3⟩ := Option.isSome_iff_exists.mp (h2 hd)
  obtain ⟨h4, h5⟩ := h1 l r h3
  refine ⟨l, r, ?_, h4, h5⟩
  simp only [spectrum2, if_neg (not_lt.mpr hc'), if_neg (not_lt.mpr hc), h3, Option.map_some, if_pos h4.le]

/-- **C68** for triangular matrices: the diagonal, sorted. -/
theorem c68_triangular (a b d : ℝ) : spectrum2 a b 0 d = some (min a d, max a d) := by
  have h1 : |(0 : ℝ)| < 0.00000000001 := by norm_num
  simp only [spectrum2, ite_self, if_pos h1, Option.map_some]
  split
  · rename_i h; simp [h]
  · rename_i h; have := (not_le.mp h).le; simp [this]

/-- **C68 fails** for a repeated real eigenvalue with a non-zero sub-diagonal: `spectrum` panics on every matrix
`[[t + s, -s], [s, t - s]]` with `s ≥ 10⁻¹¹` not negligible, although its only eigenvalue is the real number `t`. -/
theorem c68_false (t s : ℝ) (hs : 0.00000000001 ≤ |s|) (hs' : 0.000000000000001 * (|t + s| + |t - s|) ≤ |s|) :
    spectrum2 (t + s) (-s) s (t - s) = none ∧ ∀ x, Matrix.det !![t + s - x, -s; s, t - s - x] = 0 ↔ x = t := by
  constructor
  · simp only [spectrum2, if_neg (not_lt.mpr hs'), if_neg (not_lt.mpr hs), realSpectrum2]
    rw [if_neg]
    · rfl
    · have : (t + s + (t - s)) / 2 * ((t + s + (t - s)) / 2) - ((t + s) * (t - s) - -s * s) = 0 := by ring
      rw [this]; exact lt_irrefl _
  · intro x
    rw [Matrix.det_fin_two_of]
    constructor
    · intro h
      have : (x - t) * (x - t) = 0 := by linear_combination h
      have := mul_self_eq_zero.mp this
      linarith
    · rintro rfl; ring

/-- the hypotheses of `c68_false` and `c68_spectrum_partial` are satisfiable -/
example : (0.00000000001 : ℝ) ≤ |1| ∧ (0.000000000000001 : ℝ) * (|2 + 1| + |2 - 1|) ≤ |1| := by norm_num
example : ∃ l r : ℝ, l ≠ r ∧ Matrix.det !![1 - l, 1; 1, 1 - l] = 0 ∧ Matrix.det !![1 - r, 1; 1, 1 - r] = 0 :=
  ⟨0, 2, by norm_num, by rw [Matrix.det_fin_two_of]; norm_num, by rw [Matrix.det_fin_two_of]; norm_num⟩
/-- the hypothesis of C66 is satisfiable -/
example : LinearIndependent ℝ (fun i : Fin 1 => (fun _ => ![(3 : ℝ), 4]) i.1) := by
  rw [linearIndependent_unique_iff]
  intro h
  have := congrFun h 0
  norm_num at this

/-! ## C69 -/

theorem foldl_max (l : List ℝ) (c : ℝ) : (∀ x ∈ l, x ≤ l.foldl (fun mx v => if mx ≤ v then v else mx) c) ∧
    c ≤ l.foldl (fun mx v => if mx ≤ v then v else mx) c ∧
    (l.foldl (fun mx v => if mx ≤ v then v else mx) c = c ∨ l.foldl (fun mx v => if mx ≤ v then v else mx) c ∈ l) := by
  induction l generalizing c with
  | nil => simp
  | cons y l ih =>
    rw [List.foldl_cons]
    obtain ⟨h1, h2, h3⟩ := ih (if c ≤ y then y else c)
    have hy : y ≤ (if c ≤ y then y else c) ∧ c ≤ (if c ≤ y then y else c) := by
      split
      · exact ⟨le_rfl, by assumption⟩
      · rename_i h; exact ⟨(not_le.mp h).le, le_rfl⟩
    refine ⟨?_, hy.2.trans h2, ?_⟩
    · intro x hx
      rcases List.mem_cons.mp hx with rfl | hx
      · exact hy.1.trans h2
      · exact h1 x hx
    · rcases h3 with h3 | h3
      · rw [h3]
        split
        · exact Or.inr (List.mem_cons_self ..)
        · exact Or.inl rfl
      · exact Or.inr (List.mem_cons_of_mem _ h3)

theorem sum_list (n : Nat) (g : Nat → ℝ) : ((List.range n).map g).sum = ∑ i ∈ range n, g i := by
  induction n with
  | zero => simp
  | succ n ih => rw [List.range_succ, List.map_append, List.sum_append, ih, sum_range_succ]; simp

/-- **C69**, `one_norm`: it is the largest absolute column sum (0 for a matrix without columns). -/
theorem c69_one_norm (n m : Nat) (f : Nat → Nat → ℝ) :
    (∀ j, j < m → ∑ i ∈ range n, |f i j| ≤ oneNorm n m f) ∧
    (m = 0 → oneNorm n m f = 0) ∧ (0 < m → ∃ j, j < m ∧ oneNorm n m f = ∑ i ∈ range n, |f i j|) := by
  simp only [oneNorm, sum_list]
  obtain ⟨h1, h2, h3⟩ := foldl_max ((List.range m).map (fun j => ∑ i ∈ range n, |f i j|)) 0
  refine ⟨fun j hj => h1 _ (List.mem_map.mpr ⟨j, List.mem_range.mpr hj, rfl⟩), fun h => by simp [h], fun hm => ?_⟩
  rcases h3 with h3 | h3
  · refine ⟨0, hm, le_antisymm ?_ (h1 _ (List.mem_map.mpr ⟨0, List.mem_range.mpr hm, rfl⟩))⟩
    rw [h3]; exact sum_nonneg fun i _ => abs_nonneg _
  · obtain ⟨j, hj, hj'⟩ := List.mem_map.mp h3
    exact ⟨j, List.mem_range.mp hj, hj'.symm⟩

/-- **C69**, `inf_norm` is the one-norm of the transpose, hence the largest absolute row sum. -/
theorem c69_inf_norm (n m : Nat) (f : Nat → Nat → ℝ) :
    (∀ i, i < n → ∑ j ∈ range m, |f i j| ≤ infNorm n m f) ∧
    (n = 0 → infNorm n m f = 0) ∧ (0 < n → ∃ i, i < n ∧ infNorm n m f = ∑ j ∈ range m, |f i j|) :=
  c69_one_norm m n (fun i j => f j i)

/-- **C69**, the one-norm bounds the growth of vectors: `‖A x‖₁ ≤ ‖A‖₁ ‖x‖₁`. -/
theorem c69_one_norm_bound (n m : Nat) (f : Nat → Nat → ℝ) (x : Nat → ℝ) :
    ∑ i ∈ range n, |∑ j ∈ range m, f i j * x j| ≤ oneNorm n m f * ∑ j ∈ range m, |x j| := by
  calc ∑ i ∈ range n, |∑ j ∈ range m, f i j * x j| ≤ ∑ i ∈ range n, ∑ j ∈ range m, |f i j| * |x j| := by
        apply sum_le_sum; intro i _
        refine (abs_sum_le_sum_abs _ _).trans (le_of_eq ?_)
        apply sum_congr rfl; intro j _; exact abs_mul _ _
    _ = ∑ j ∈ range m, (∑ i ∈ range n, |f i j|) * |x j| := by
        rw [sum_comm]; apply sum_congr rfl; intro j _; rw [sum_mul]
    _ ≤ ∑ j ∈ range m, oneNorm n m f * |x j| := by
        apply sum_le_sum; intro j hj
        exact mul_le_mul_of_nonneg_right ((c69_one_norm n m f).1 j (mem_range.mp hj)) (abs_nonneg _)
    _ = oneNorm n m f * ∑ j ∈ range m, |x j| := by rw [mul_sum]

/-- **C69**, `frobenius_norm`: its square is the trace of `Aᵀ A`, and it vanishes only for the zero matrix. -/
theorem c69_frobenius (n m : Nat) (f : Nat → Nat → ℝ) :
    frobeniusNorm n m f ^ 2 = Matrix.trace ((Matrix.of fun (i : Fin n) (j : Fin m) => f i j)ᵀ * (Matrix.of fun (i : Fin n) (j : Fin m) => f i j)) ∧
    0 ≤ frobeniusNorm n m f ∧ (frobeniusNorm n m f = 0 ↔ ∀ i j, i < n → j < m → f i j = 0) := by
  have hs : ((List.range n).map (fun i => ((List.range m).map (fun j => f i j * f i j)).sum)).sum = ∑ i ∈ range n, ∑ j ∈ range m, f i j * f i j := by
    rw [sum_list]; apply sum_congr rfl; intro i _; rw [sum_list]
  have h0 : 0 ≤ ∑ i ∈ range n, ∑ j ∈ range m, f i j * f i j := sum_nonneg fun i _ => sum_nonneg fun j _ => mul_self_nonneg _
  refine ⟨?_, Real.sqrt_nonneg _, ?_⟩
  · rw [frobeniusNorm, hs, Real.sq_sqrt h0, sum_comm]
    simp only [Matrix.trace, Matrix.diag, Matrix.mul_apply, Matrix.transpose_apply, Matrix.of_apply, Finset.sum_range]
  · rw [frobeniusNorm, hs, Real.sqrt_eq_zero h0, sum_eq_zero_iff_of_nonneg (fun i _ => sum_nonneg fun j _ => mul_self_nonneg _)]
    constructor
    · intro h i j hi hj
      have := h i (mem_range.mpr hi)
      rw [sum_eq_zero_iff_of_nonneg (fun j _ => mul_self_nonneg _)] at this
      exact mul_self_eq_zero.mp (this j (mem_range.mpr hj))
    · intro h i hi
      apply sum_eq_zero; intro j hj
      rw [h i j (mem_range.mp hi) (mem_range.mp hj)]; ring

end Toppo.RealAlg
