import Mathlib.Analysis.Matrix.Spectrum
import Mathlib.LinearAlgebra.FiniteDimensional.Lemmas
set_option linter.unusedVariables false

/-
Weyl's inequality for the eigenvalues of symmetric matrices (not in Mathlib).
-/
namespace Toppo.RealAlg
open Finset Matrix Polynomial

section
variable {E : Type*} [NormedAddCommGroup E] [InnerProductSpace ℝ E] [FiniteDimensional ℝ E]

theorem eig_quad {T : E →ₗ[ℝ] E} (hT : T.IsSymmetric) {N : Nat} (hN : Module.finrank ℝ E = N) (v : E) :
    inner ℝ (T v) v = ∑ i, hT.eigenvalues hN i * ((hT.eigenvectorBasis hN).repr v i) ^ 2 ∧ inner ℝ v v = ∑ i, ((hT.eigenvectorBasis hN).repr v i) ^ 2 := by
  constructor
  · rw [← (hT.eigenvectorBasis hN).sum_inner_mul_inner (T v) v]
    apply Finset.sum_congr rfl
    intro i _
    have h := hT.eigenvectorBasis_apply_self_apply hN v i
    rw [OrthonormalBasis.repr_apply_apply, OrthonormalBasis.repr_apply_apply] at h
    rw [real_inner_comm, h, OrthonormalBasis.repr_apply_apply]
    simp only [RCLike.ofReal_real_eq_id, id_eq]
    ring
  · rw [← (hT.eigenvectorBasis hN).sum_inner_mul_inner v v]
    apply Finset.sum_congr rfl
    intro i _
    rw [real_inner_comm, OrthonormalBasis.repr_apply_apply]
    ring

theorem repr_span {N : Nat} (u : OrthonormalBasis (Fin N) ℝ E) (P : Fin N → Prop) {v : E} (hv : v ∈ Submodule.span ℝ (Set.range (fun i : {i // P i} => u i))) (j : Fin N) (hj : ¬ P j) :
    u.repr v j = 0 := by
  induction hv using Submodule.span_induction with
  | mem x hx =>
    obtain ⟨⟨i, hi⟩, rfl⟩ := hx
    simp only [OrthonormalBasis.repr_self]
    rw [EuclideanSpace.single_apply, if_neg]
    intro h
    exact hj (h ▸ hi)
  | zero => simp
  | add x y _ _ hx hy => simp [hx, hy]
  | smul a x _ hx => simp [hx]

/-- Weyl's inequality, one direction -/
theorem weyl_le {T S : E →ₗ[ℝ] E} (hT : T.IsSymmetric) (hS : S.IsSymmetric) {N : Nat} (hN : Module.finrank ℝ E = N) {ε : ℝ}
    (h : ∀ v, inner ℝ (T v) v ≤ inner ℝ (S v) v + ε * inner ℝ v v) (k : Fin N) : hT.eigenvalues hN k ≤ hS.eigenvalues hN k + ε := by
  classical
  set u := hT.eigenvectorBasis hN with hu
  set w := hS.eigenvectorBasis hN with hw
  set V := Submodule.span ℝ (Set.range (fun i : {i : Fin N // i ≤ k} => u i)) with hV
  set W := Submodule.span ℝ (Set.range (fun i : {i : Fin N // k ≤ i} => w i)) with hW
  have dV : Module.finrank ℝ V = k.1 + 1 := by
    rw [hV, finrank_span_eq_card]
    · rw [Fintype.card_subtype]
      have : (Finset.univ.filter (fun i : Fin N => i ≤ k)) = Finset.Iic k := by
        ext i; simp
      rw [this, Fin.card_Iic]
    · exact (u.orthonormal.linearIndependent).comp _ Subtype.val_injective
  have dW : Module.finrank ℝ W = N - k.1 := by
    rw [hW, finrank_span_eq_card]
    · rw [Fintype.card_subtype]
      have : (Finset.univ.filter (fun i : Fin N => k ≤ i)) = Finset.Ici k := by
        ext i; simp
      rw [this, Fin.card_Ici]
    · exact (w.orthonormal.linearIndependent).comp _ Subtype.val_injective
  have hsum := Submodule.finrank_sup_add_finrank_inf_eq V W
  have hsup : Module.finrank ℝ ↑(V ⊔ W) ≤ N := by
    rw [← hN]
    exact Submodule.finrank_le _
  have hinf : Module.finrank ℝ ↑(V ⊓ W) ≠ 0 := by
    have := k.2
    omega
  have hne : V ⊓ W ≠ ⊥ := by
    intro h0
    rw [h0] at hinf
    simp at hinf
  obtain ⟨v, hv, hv0⟩ := Submodule.exists_mem_ne_zero_of_ne_bot hne
  rw [Submodule.mem_inf] at hv
  have hpos : 0 < inner ℝ v v := real_inner_self_pos.mpr hv0
  obtain ⟨q1, q2⟩ := eig_quad hT hN v
  obtain ⟨q3, q4⟩ := eig_quad hS hN v
  have low : hT.eigenvalues hN k * inner ℝ v v ≤ inner ℝ (T v) v := by
    rw [q1, q2, Finset.mul_sum]
    apply Finset.sum_le_sum
    intro i _
    by_cases hi : i ≤ k
    · exact mul_le_mul_of_nonneg_right (hT.eigenvalues_antitone hN hi) (sq_nonneg _)
    · rw [← hu, repr_span u (fun i => i ≤ k) hv.1 i hi]
      simp
  have high : inner ℝ (S v) v ≤ hS.eigenvalues hN k * inner ℝ v v := by
    rw [q3, q4, Finset.mul_sum]
    apply Finset.sum_le_sum
    intro i _
    by_cases hi : k ≤ i
    · exact mul_le_mul_of_nonneg_right (hS.eigenvalues_antitone hN hi) (sq_nonneg _)
    · rw [← hw, repr_span w (fun i => k ≤ i) hv.2 i hi]
      simp
  have hb := h v
  have : hT.eigenvalues hN k * inner ℝ v v ≤ (hS.eigenvalues hN k + ε) * inner ℝ v v := by linarith
  exact le_of_mul_le_mul_right this hpos
end

/-- sorted roots of the characteristic polynomial are the eigenvalues in order -/
theorem sorted_eig {n : Nat} {A : Matrix (Fin n) (Fin n) ℝ} (hA : A.IsHermitian) {l : List ℝ} (hl : l.Pairwise (· ≤ ·)) (hp : A.charpoly = (l.map (fun a => X - C a)).prod) :
    l.reverse = List.ofFn hA.eigenvalues₀ := by
  rw [← hA.sort_roots_charpoly_eq_eigenvalues₀, hp]
  have hr : ((l.map (fun a => X - C a)).prod).roots = (l : Multiset ℝ) := by
    have := Polynomial.roots_multiset_prod_X_sub_C (l : Multiset ℝ)
    rw [Multiset.map_coe, Multiset.prod_coe] at this
    exact this
  rw [hr]
  have hm : ((l : Multiset ℝ).map (RCLike.re : ℝ → ℝ)) = (l.reverse : Multiset ℝ) := by
    rw [Multiset.coe_reverse]
    simp
  rw [hm, Multiset.coe_sort]
  symm
  apply List.mergeSort_of_pairwise
  simp only [decide_eq_true_eq]
  rw [List.pairwise_reverse]
  exact hl

/-- **Weyl's inequality** in terms of sorted lists of eigenvalues -/
theorem weyl_lists {n : Nat} {A E : Matrix (Fin n) (Fin n) ℝ} (hA : Aᵀ = A) (hE : Eᵀ = E) {ε : ℝ} (hb : ∀ v, |v ⬝ᵥ E *ᵥ v| ≤ ε * (v ⬝ᵥ v)) {l l' : List ℝ}
    (hl : l.Pairwise (· ≤ ·)) (hl' : l'.Pairwise (· ≤ ·)) (hp : A.charpoly = (l.map (fun a => X - C a)).prod) (hp' : (A + E).charpoly = (l'.map (fun a => X - C a)).prod) :
    l.length = n ∧ l'.length = n ∧ ∀ i (h : i < l.length) (h' : i < l'.length), |l'[i] - l[i]| ≤ ε := by
  have hA1 : A.IsHermitian := by rw [Matrix.IsHermitian, Matrix.conjTranspose_eq_transpose_of_trivial, hA]
  have hA2 : (A + E).IsHermitian := by rw [Matrix.IsHermitian, Matrix.conjTranspose_eq_transpose_of_trivial, Matrix.transpose_add, hA, hE]
  have e1 := sorted_eig hA1 hl hp
  have e2 := sorted_eig hA2 hl' hp'
  have n1 : l.length = n := by rw [← List.length_reverse, e1, List.length_ofFn, Fintype.card_fin]
  have n2 : l'.length = n := by rw [← List.length_reverse, e2, List.length_ofFn, Fintype.card_fin]
  have hin : ∀ (M : Matrix (Fin n) (Fin n) ℝ) (v : EuclideanSpace ℝ (Fin n)), inner ℝ (Matrix.toEuclideanLin M v) v = (v : Fin n → ℝ) ⬝ᵥ M *ᵥ (v : Fin n → ℝ) := by
    intro M v
    rw [EuclideanSpace.inner_eq_star_dotProduct]
    simp [Matrix.toEuclideanLin]
  have hin1 : ∀ v : EuclideanSpace ℝ (Fin n), inner ℝ v v = (v : Fin n → ℝ) ⬝ᵥ (v : Fin n → ℝ) := by
    intro v
    rw [EuclideanSpace.inner_eq_star_dotProduct]
    simp
  have key : ∀ k : Fin (Fintype.card (Fin n)), |hA2.eigenvalues₀ k - hA1.eigenvalues₀ k| ≤ ε := by
    intro k
    rw [abs_le]
    constructor
    · have := weyl_le (isSymmetric_toEuclideanLin_iff.mpr hA1) (isSymmetric_toEuclideanLin_iff.mpr hA2) finrank_euclideanSpace (ε := ε) (by
        intro v
        rw [hin, hin, hin1, Matrix.add_mulVec, dotProduct_add]
        have := abs_le.mp (hb v)
        linarith [this.1]) k
      have h1 : hA1.eigenvalues₀ k ≤ hA2.eigenvalues₀ k + ε := this
      linarith
    · have := weyl_le (isSymmetric_toEuclideanLin_iff.mpr hA2) (isSymmetric_toEuclideanLin_iff.mpr hA1) finrank_euclideanSpace (ε := ε) (by
        intro v
        rw [hin, hin, hin1, Matrix.add_mulVec, dotProduct_add]
        have := abs_le.mp (hb v)
        linarith [this.2]) k
      have h1 : hA2.eigenvalues₀ k ≤ hA1.eigenvalues₀ k + ε := this
      linarith
  refine ⟨n1, n2, ?_⟩
  intro i h h'
  have hc : n - 1 - i < Fintype.card (Fin n) := by rw [Fintype.card_fin]; omega
  have f1 : l[i] = hA1.eigenvalues₀ ⟨n - 1 - i, hc⟩ := by
    have : l[i] = l.reverse[n - 1 - i]'(by rw [List.length_reverse]; omega) := by
      rw [List.getElem_reverse]
      congr 1
      omega
    rw [this]
    simp only [e1, List.getElem_ofFn]
  have f2 : l'[i] = hA2.eigenvalues₀ ⟨n - 1 - i, hc⟩ := by
    have : l'[i] = l'.reverse[n - 1 - i]'(by rw [List.length_reverse]; omega) := by
      rw [List.getElem_reverse]
      congr 1
      omega
    rw [this]
    simp only [e2, List.getElem_ofFn]
  rw [f1, f2]
  exact key _

end Toppo.RealAlg
