import Mathlib.Analysis.Matrix.Spectrum
import Mathlib.Analysis.Matrix.PosDef
import Mathlib.Analysis.Real.Sqrt
import Mathlib.Algebra.Order.Star.Real
import Mathlib.LinearAlgebra.Matrix.Charpoly.Basic
import Mathlib.LinearAlgebra.Matrix.Rank
set_option linter.unusedVariables false

/-
Weighted Laplacians `W⁻¹ Bᵀ Wl B + C Wh C ᵀ W` of two real matrices with `B C = 0` and positive diagonal weights: their null space
and their characteristic polynomial. Mathematics only, no code.
-/
namespace Toppo.Hodge
open Matrix Finset Module

variable {n m l : Nat}

/-- `W⁻¹ Bᵀ Wl B + C Wh Cᵀ W` for diagonal weights given by their entries (`wh` are the entries as they are multiplied in) -/
noncomputable def lap (B : Matrix (Fin n) (Fin m) ℝ) (C : Matrix (Fin m) (Fin l) ℝ) (w : Fin m → ℝ) (wl : Fin n → ℝ) (wh : Fin l → ℝ) :
    Matrix (Fin m) (Fin m) ℝ :=
  diagonal (fun i => 1 / w i) * Bᵀ * diagonal wl * B + C * diagonal wh * Cᵀ * diagonal w

variable (B : Matrix (Fin n) (Fin m) ℝ) (C : Matrix (Fin m) (Fin l) ℝ) (w : Fin m → ℝ) (wl : Fin n → ℝ) (wh : Fin l → ℝ)

theorem diag_mul_inv (hw : ∀ i, 0 < w i) : diagonal w * diagonal (fun i => 1 / w i) = 1 := by
  rw [diagonal_mul_diagonal, ← diagonal_one]
  congr 1; funext i
  have := (hw i).ne'
  field_simp

/-- the weighted quadratic form -/
theorem quad (hw : ∀ i, 0 < w i) (x : Fin m → ℝ) :
    (w * x) ⬝ᵥ (lap B C w wl wh).mulVec x = ∑ i, wl i * ((B.mulVec x) i) ^ 2 + ∑ k, wh k * ((Cᵀ.mulVec (w * x)) k) ^ 2 := by
  have hwx : w * x = (diagonal w).mulVec x := by funext i; simp [mulVec_diagonal]
  have hq : ∀ {p : Nat} (D : Fin p → ℝ) (y : Fin p → ℝ), y ⬝ᵥ (diagonal D).mulVec y = ∑ i, D i * y i ^ 2 := by
    intro p D y
    simp only [dotProduct, mulVec_diagonal]
    exact Finset.sum_congr rfl (fun i _ => by ring)
  rw [lap, add_mulVec, dotProduct_add]
  congr 1
  · rw [← hq wl]
    have e1 : (w * x) ⬝ᵥ ((diagonal (fun i => 1 / w i) * Bᵀ * diagonal wl * B).mulVec x) = x ⬝ᵥ ((Bᵀ * diagonal wl * B).mulVec x) := by
      have : diagonal (fun i => 1 / w i) * Bᵀ * diagonal wl * B = diagonal (fun i => 1 / w i) * (Bᵀ * diagonal wl * B) := by
        simp only [Matrix.mul_assoc]
      rw [this, ← mulVec_mulVec]
      generalize (Bᵀ * diagonal wl * B).mulVec x = z
      simp only [dotProduct, mulVec_diagonal, Pi.mul_apply]
      refine Finset.sum_congr rfl (fun i _ => ?_)
      have := (hw i).ne'
      field_simp
    rw [e1, Matrix.mul_assoc, ← mulVec_mulVec, ← mulVec_mulVec, dotProduct_mulVec, vecMul_transpose]
  · have : C * diagonal wh * Cᵀ * diagonal w = C * (diagonal wh * (Cᵀ * diagonal w)) := by simp only [Matrix.mul_assoc]
    rw [← hq wh, this, ← mulVec_mulVec, ← mulVec_mulVec, ← mulVec_mulVec, ← hwx, dotProduct_mulVec, ← mulVec_transpose]

/-- the null space: cycles that are orthogonal to the boundaries -/
theorem ker_iff (hw : ∀ i, 0 < w i) (hl : ∀ i, 0 < wl i) (hh : ∀ i, 0 < wh i) (x : Fin m → ℝ) :
    (lap B C w wl wh).mulVec x = 0 ↔ B.mulVec x = 0 ∧ Cᵀ.mulVec (w * x) = 0 := by
  constructor
  · intro h
    have q := quad B C w wl wh hw x
    rw [h, dotProduct_zero] at q
    have h1 : 0 ≤ ∑ i, wl i * ((B.mulVec x) i) ^ 2 := Finset.sum_nonneg (fun i _ => mul_nonneg (hl i).le (sq_nonneg _))
    have h2 : 0 ≤ ∑ k, wh k * ((Cᵀ.mulVec (w * x)) k) ^ 2 := Finset.sum_nonneg (fun i _ => mul_nonneg (hh i).le (sq_nonneg _))
    have e1 : ∑ i, wl i * ((B.mulVec x) i) ^ 2 = 0 := by linarith
    have e2 : ∑ k, wh k * ((Cᵀ.mulVec (w * x)) k) ^ 2 = 0 := by linarith
    constructor
    · funext i
      have := (Finset.sum_eq_zero_iff_of_nonneg (fun i _ => mul_nonneg (hl i).le (sq_nonneg _))).mp e1 i (mem_univ i)
      have hl := (hl i).ne'
      simpa [hl] using this
    · funext i
      have := (Finset.sum_eq_zero_iff_of_nonneg (fun i _ => mul_nonneg (hh i).le (sq_nonneg _))).mp e2 i (mem_univ i)
      have hl := (hh i).ne'
      simpa [hl] using this
  · rintro ⟨h1, h2⟩
    have hwx : w * x = (diagonal w).mulVec x := by funext i; simp [mulVec_diagonal]
    rw [lap, add_mulVec, ← mulVec_mulVec, h1, mulVec_zero, zero_add, ← mulVec_mulVec, ← hwx, ← mulVec_mulVec, h2, mulVec_zero]

/-- the dimension of the null space -/
theorem finrank_ker (hw : ∀ i, 0 < w i) (hl : ∀ i, 0 < wl i) (hh : ∀ i, 0 < wh i) (hBC : B * C = 0) :
    finrank ℝ (LinearMap.ker (lap B C w wl wh).mulVecLin) + B.rank + C.rank = m := by
  let Z := LinearMap.ker B.mulVecLin
  let U := LinearMap.range C.mulVecLin
  let P := LinearMap.ker (Cᵀ * diagonal w).mulVecLin
  have hwx : ∀ x : Fin m → ℝ, w * x = (diagonal w).mulVec x := fun x => by funext i; simp [mulVec_diagonal]
  have hk : LinearMap.ker (lap B C w wl wh).mulVecLin = Z ⊓ P := by
    ext x
    rw [Submodule.mem_inf, LinearMap.mem_ker, LinearMap.mem_ker, LinearMap.mem_ker, mulVecLin_apply, mulVecLin_apply, mulVecLin_apply,
      ker_iff B C w wl wh hw hl hh, hwx, mulVec_mulVec]
  have hUZ : U ≤ Z := by
    rintro x ⟨y, rfl⟩
    rw [LinearMap.mem_ker, mulVecLin_apply, mulVecLin_apply, mulVec_mulVec, hBC, zero_mulVec]
  have hUP : U ⊓ P = ⊥ := by
    rw [eq_bot_iff]
    intro x hx
    obtain ⟨y, rfl⟩ := (Submodule.mem_inf.mp hx).1
    have h2 := LinearMap.mem_ker.mp (Submodule.mem_inf.mp hx).2
    rw [mulVecLin_apply, mulVecLin_apply, ← mulVec_mulVec] at h2
    have h3 : (C.mulVec y) ⬝ᵥ ((diagonal w).mulVec (C.mulVec y)) = 0 := by
      have : y ⬝ᵥ (Cᵀ.mulVec ((diagonal w).mulVec (C.mulVec y))) = 0 := by rw [h2, dotProduct_zero]
      rwa [dotProduct_mulVec, vecMul_transpose] at this
    simp only [dotProduct, mulVec_diagonal] at h3
    have h4 := (Finset.sum_eq_zero_iff_of_nonneg (fun i _ => by
      have := mul_nonneg (hw i).le (sq_nonneg ((C.mulVec y) i)); linarith [this, mul_comm ((C.mulVec y) i) (w i * (C.mulVec y) i), sq ((C.mulVec y) i), mul_assoc (w i) ((C.mulVec y) i) ((C.mulVec y) i)])).mp h3
    rw [Submodule.mem_bot, mulVecLin_apply]
    funext i
    have h5 := h4 i (mem_univ i)
    have := (hw i).ne'
    simpa [this] using h5
  have r1 := LinearMap.finrank_range_add_finrank_ker B.mulVecLin
  have r2 := LinearMap.finrank_range_add_finrank_ker (Cᵀ * diagonal w).mulVecLin
  rw [Module.finrank_fin_fun] at r1 r2
  have b1 : finrank ℝ (LinearMap.range B.mulVecLin) = B.rank := rfl
  have b2 : finrank ℝ (LinearMap.range (Cᵀ * diagonal w).mulVecLin) ≤ C.rank := by
    have : (Cᵀ * diagonal w).rank ≤ Cᵀ.rank := rank_mul_le_left _ _
    rwa [rank_transpose] at this
  have b3 : finrank ℝ U = C.rank := rfl
  have b4 : finrank ℝ Z = finrank ℝ (LinearMap.ker B.mulVecLin) := rfl
  have b5 : finrank ℝ P = finrank ℝ (LinearMap.ker (Cᵀ * diagonal w).mulVecLin) := rfl
  have s1 := Submodule.finrank_sup_add_finrank_inf_eq Z P
  have s2 := Submodule.finrank_le (Z ⊔ P)
  rw [Module.finrank_fin_fun] at s2
  have s3 := Submodule.finrank_sup_add_finrank_inf_eq U (Z ⊓ P)
  have hz : U ⊓ (Z ⊓ P) = ⊥ := by
    rw [eq_bot_iff, ← hUP]
    exact inf_le_inf_left _ inf_le_right
  rw [hz, finrank_bot] at s3
  have s4 : finrank ℝ (U ⊔ (Z ⊓ P) : Submodule ℝ (Fin m → ℝ)) ≤ finrank ℝ Z := Submodule.finrank_mono (sup_le hUZ inf_le_left)
  rw [hk]
  omega

/-- the characteristic polynomial splits with roots that are not negative; the number of zeros is the dimension of the null space -/
theorem charpoly (hw : ∀ i, 0 < w i) (hl : ∀ i, 0 < wl i) (hh : ∀ i, 0 < wh i) :
    ∃ ev : Fin m → ℝ, (∀ j, 0 ≤ ev j) ∧ (lap B C w wl wh).charpoly = ∏ j, (Polynomial.X - Polynomial.C (ev j)) ∧
      (univ.filter (fun j => ev j = 0)).card = finrank ℝ (LinearMap.ker (lap B C w wl wh).mulVecLin) := by
  let s : Fin m → ℝ := fun i => Real.sqrt (w i)
  have hs : ∀ i, 0 < s i := fun i => Real.sqrt_pos.mpr (hw i)
  have hss : ∀ i, s i * s i = w i := fun i => Real.mul_self_sqrt (hw i).le
  let D : Matrix (Fin m) (Fin m) ℝ := diagonal s
  let E : Matrix (Fin m) (Fin m) ℝ := diagonal (fun i => 1 / s i)
  have hDE : D * E = 1 := diag_mul_inv s hs
  have hED : E * D = 1 := mul_eq_one_comm.mp hDE
  let P : Matrix (Fin n) (Fin m) ℝ := diagonal (fun i => Real.sqrt (wl i)) * B * E
  let Q : Matrix (Fin l) (Fin m) ℝ := diagonal (fun i => Real.sqrt (wh i)) * Cᵀ * D
  let M := Pᴴ * P + Qᴴ * Q
  have sq1 : ∀ {p : Nat} (v : Fin p → ℝ), (∀ i, 0 < v i) → diagonal (fun i => Real.sqrt (v i)) * diagonal (fun i => Real.sqrt (v i)) = diagonal v := by
    intro p v hv
    rw [diagonal_mul_diagonal]
    congr 1; funext i; exact Real.mul_self_sqrt (hv i).le
  have eP : Pᴴ * P = E * Bᵀ * diagonal wl * B * E := by
    have : Pᴴ = E * Bᵀ * diagonal (fun i => Real.sqrt (wl i)) := by
      simp only [P, E, conjTranspose_eq_transpose_of_trivial, transpose_mul, diagonal_transpose, Matrix.mul_assoc]
    rw [this, ← sq1 wl hl]
    simp only [P, Matrix.mul_assoc]
  have eQ : Qᴴ * Q = D * C * diagonal wh * Cᵀ * D := by
    have : Qᴴ = D * C * diagonal (fun i => Real.sqrt (wh i)) := by
      simp only [Q, D, conjTranspose_eq_transpose_of_trivial, transpose_mul, diagonal_transpose, transpose_transpose, Matrix.mul_assoc]
    rw [this, ← sq1 wh hh]
    simp only [Q, Matrix.mul_assoc]
  have eW : diagonal w = D * D := by
    rw [diagonal_mul_diagonal]; congr 1; funext i; exact (hss i).symm
  have eWi : diagonal (fun i => 1 / w i) = E * E := by
    rw [diagonal_mul_diagonal]; congr 1; funext i
    rw [← hss i]; have := (hs i).ne'; field_simp
  have eM : M = D * lap B C w wl wh * E := by
    have t1 : D * (diagonal (fun i => 1 / w i) * Bᵀ * diagonal wl * B) * E = E * Bᵀ * diagonal wl * B * E := by
      rw [eWi]
      have : D * (E * E * Bᵀ * diagonal wl * B) * E = (D * E) * (E * Bᵀ * diagonal wl * B * E) := by simp only [Matrix.mul_assoc]
      rw [this, hDE, Matrix.one_mul]
    have t2 : D * (C * diagonal wh * Cᵀ * diagonal w) * E = D * C * diagonal wh * Cᵀ * D := by
      rw [eW]
      have : D * (C * diagonal wh * Cᵀ * (D * D)) * E = D * C * diagonal wh * Cᵀ * D * (D * E) := by simp only [Matrix.mul_assoc]
      rw [this, hDE, Matrix.mul_one]
    rw [lap, Matrix.mul_add, Matrix.add_mul, t1, t2, ← eP, ← eQ]
  have hM : M.PosSemidef := (posSemidef_conjTranspose_mul_self P).add (posSemidef_conjTranspose_mul_self Q)
  have hc : M.charpoly = (lap B C w wl wh).charpoly := by
    rw [eM, charpoly_mul_comm, ← Matrix.mul_assoc, hED, Matrix.one_mul]
  have hr : M.rank = (lap B C w wl wh).rank := by
    have hD : IsUnit D.det := (isUnit_iff_isUnit_det _).mp ⟨⟨D, E, hDE, hED⟩, rfl⟩
    have hE : IsUnit E.det := (isUnit_iff_isUnit_det _).mp ⟨⟨E, D, hED, hDE⟩, rfl⟩
    rw [eM, rank_mul_eq_left_of_isUnit_det _ _ hE, rank_mul_eq_right_of_isUnit_det _ _ hD]
  refine ⟨hM.1.eigenvalues, hM.eigenvalues_nonneg, ?_, ?_⟩
  · rw [← hc, hM.1.charpoly_eq]; rfl
  · have r := LinearMap.finrank_range_add_finrank_ker (lap B C w wl wh).mulVecLin
    rw [Module.finrank_fin_fun] at r
    have r1 : finrank ℝ (LinearMap.range (lap B C w wl wh).mulVecLin) = (lap B C w wl wh).rank := rfl
    have r2 := hM.1.rank_eq_card_non_zero_eigs
    rw [Fintype.card_subtype] at r2
    have r3 := Finset.card_filter_add_card_filter_not (s := (univ : Finset (Fin m))) (fun j => hM.1.eigenvalues j = 0)
    rw [Finset.card_univ, Fintype.card_fin] at r3
    simp only [ne_eq] at r2
    omega

end Toppo.Hodge
