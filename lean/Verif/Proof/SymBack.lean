import Verif.Proof.SymQR
import Verif.Proof.Weyl
set_option linter.unusedVariables false

/-
The error of `symmetric_qr`: the eigenvalues move only when entries are rounded to zero, by at most the tolerance for each of them.
-/
namespace Toppo.RealAlg
open Finset Matrix Polynomial

/-- the ordered eigenvalues of `A` and `B` differ by at most `ε` each -/
def EigClose {n : Nat} (ε : ℝ) (A B : Matrix (Fin n) (Fin n) ℝ) : Prop :=
  ∀ l l' : List ℝ, l.Pairwise (· ≤ ·) → l'.Pairwise (· ≤ ·) → A.charpoly = (l.map (fun a => X - C a)).prod → B.charpoly = (l'.map (fun a => X - C a)).prod →
    l.length = n ∧ l'.length = n ∧ ∀ i (h : i < l.length) (h' : i < l'.length), |l'[i] - l[i]| ≤ ε

theorem exists_sorted {n : Nat} {A : Matrix (Fin n) (Fin n) ℝ} (hA : Aᵀ = A) : ∃ l : List ℝ, l.Pairwise (· ≤ ·) ∧ A.charpoly = (l.map (fun a => X - C a)).prod := by
  have hA1 : A.IsHermitian := by rw [Matrix.IsHermitian, Matrix.conjTranspose_eq_transpose_of_trivial, hA]
  refine ⟨((Finset.univ.val.map hA1.eigenvalues).sort (· ≤ ·)), Multiset.pairwise_sort _ _, ?_⟩
  rw [hA1.charpoly_eq]
  have : ((((Finset.univ.val.map hA1.eigenvalues).sort (· ≤ ·)).map (fun a => (X - C a : ℝ[X]))).prod) = (((Finset.univ.val.map hA1.eigenvalues)).map (fun a => (X - C a : ℝ[X]))).prod := by
    conv_rhs => rw [← Multiset.sort_eq (Finset.univ.val.map hA1.eigenvalues) (· ≤ ·)]
    rw [Multiset.map_coe, Multiset.prod_coe]
  rw [this, Multiset.map_map]
  rfl

theorem EigClose.trans {n : Nat} {ε δ : ℝ} {A B D : Matrix (Fin n) (Fin n) ℝ} (hB : Bᵀ = B) (h1 : EigClose ε A B) (h2 : EigClose δ B D) : EigClose (ε + δ) A D := by
  intro l l' s1 s2 p1 p2
  obtain ⟨m, sm, pm⟩ := exists_sorted hB
  obtain ⟨a1, a2, a3⟩ := h1 l m s1 sm p1 pm
  obtain ⟨b1, b2, b3⟩ := h2 m l' sm s2 pm p2
  refine ⟨a1, b2, ?_⟩
  intro i h h'
  have hm : i < m.length := by omega
  have e1 := a3 i h hm
  have e2 := b3 i hm h'
  calc |l'[i] - l[i]| = |(m[i] - l[i]) + (l'[i] - m[i])| := by congr 1; ring
    _ ≤ |m[i] - l[i]| + |l'[i] - m[i]| := abs_add_le _ _
    _ ≤ ε + δ := by linarith

theorem eigClose_perturb {n : Nat} {ε : ℝ} {A B : Matrix (Fin n) (Fin n) ℝ} (hA : Aᵀ = A) (hB : Bᵀ = B) (hb : ∀ v, |v ⬝ᵥ (B - A) *ᵥ v| ≤ ε * (v ⬝ᵥ v)) : EigClose ε A B := by
  intro l l' s1 s2 p1 p2
  have hE : (B - A)ᵀ = B - A := by rw [Matrix.transpose_sub, hA, hB]
  exact weyl_lists hA hE hb s1 s2 p1 (by rw [← p2]; congr 1; abel)

theorem eigClose_charpoly {n : Nat} {A B : Matrix (Fin n) (Fin n) ℝ} (hA : Aᵀ = A) (h : B.charpoly = A.charpoly) : EigClose 0 A B := by
  intro l l' s1 s2 p1 p2
  have hz : (0 : Matrix (Fin n) (Fin n) ℝ)ᵀ = 0 := Matrix.transpose_zero
  exact weyl_lists hA hz (by intro v; simp) s1 s2 p1 (by rw [add_zero, ← h]; exact p2)

theorem EigClose.mono {n : Nat} {ε δ : ℝ} {A B : Matrix (Fin n) (Fin n) ℝ} (h : EigClose ε A B) (hle : ε ≤ δ) : EigClose δ A B := by
  intro l l' s1 s2 p1 p2
  obtain ⟨a1, a2, a3⟩ := h l l' s1 s2 p1 p2
  exact ⟨a1, a2, fun i h h' => (a3 i h h').trans hle⟩

/-! ### rounding to zero -/

open Classical in
/-- the entries of the sub-diagonal that are not zero, `i` standing for `(i + 1, i)` -/
noncomputable def nzSub (n : Nat) (A : RM) : Finset Nat := (range (n - 1)).filter (fun i => A (i + 1) i ≠ 0)

open Classical in
/-- the entries of the sub-diagonal that are rounded to zero -/
noncomputable def rounded (n : Nat) (A : RM) : Finset Nat := (range (n - 1)).filter (fun i => A (i + 1) i ≠ 0 ∧ |A (i + 1) i| < symTol)

theorem nzSub_deflate (n : Nat) (A : RM) : (nzSub n A).card = (rounded n A).card + (nzSub n (symDeflate n A)).card := by
  classical
  rw [← Finset.card_union_of_disjoint]
  · congr 1
    ext i
    simp only [nzSub, rounded, mem_union, mem_filter, mem_range]
    constructor
    · rintro ⟨h1, h2⟩
      obtain ⟨a1, a2⟩ := symDeflate_sub (n := n) A (i := i + 1) (by omega) (by omega)
      rw [Nat.add_sub_cancel] at a1 a2
      by_cases h : |A (i + 1) i| < symTol
      · exact Or.inl ⟨h1, h2, h⟩
      · right
        rw [a2 (not_lt.mp h)]
        exact ⟨h1, h2⟩
    · rintro (⟨h1, h2, -⟩ | ⟨h1, h2⟩)
      · exact ⟨h1, h2⟩
      · refine ⟨h1, ?_⟩
        obtain ⟨a1, a2⟩ := symDeflate_sub (n := n) A (i := i + 1) (by omega) (by omega)
        rw [Nat.add_sub_cancel] at a1 a2
        by_cases h : |A (i + 1) i| < symTol
        · exact absurd (a1 h) h2
        · rw [a2 (not_lt.mp h)] at h2
          exact h2
  · rw [Finset.disjoint_left]
    intro i h1 h2
    simp only [nzSub, rounded, mem_filter, mem_range] at h1 h2
    obtain ⟨a1, -⟩ := symDeflate_sub (n := n) A (i := i + 1) (by omega) (by omega)
    rw [Nat.add_sub_cancel] at a1
    exact h2.2 (a1 h1.2.2)

/-- the quadratic form of a difference that lives on the rounded entries -/
theorem quad_rounded {n : Nat} {A : RM} (hA : SymmRM n A) (v : Fin n → ℝ) : |v ⬝ᵥ (toM n (symDeflate n A) - toM n A) *ᵥ v| ≤ (rounded n A).card * symTol * (v ⬝ᵥ v) := by
  classical
  set u : Nat → ℝ := fun i => if h : i < n then v ⟨i, h⟩ else 0 with hu
  have huv : ∀ i : Fin n, v i = u i := by intro i; rw [hu]; simp
  set e : Nat → Nat → ℝ := fun i j => symDeflate n A i j - A i j with he
  have hform : v ⬝ᵥ (toM n (symDeflate n A) - toM n A) *ᵥ v = ∑ i ∈ range n, ∑ j ∈ range n, u i * (e i j * u j) := by
    rw [dotProduct, ← Fin.sum_univ_eq_sum_range (fun i => ∑ j ∈ range n, u i * (e i j * u j))]
    apply Finset.sum_congr rfl
    intro i _
    rw [Matrix.mulVec, dotProduct, Finset.mul_sum, ← Fin.sum_univ_eq_sum_range (fun j => u i * (e i j * u j))]
    apply Finset.sum_congr rfl
    intro j _
    rw [huv i, huv j]
    rfl
  have hnorm : v ⬝ᵥ v = ∑ i ∈ range n, u i * u i := by
    rw [dotProduct, ← Fin.sum_univ_eq_sum_range (fun i => u i * u i)]
    exact Finset.sum_congr rfl (fun i _ => by rw [huv i])
  have hsupp : ∀ i j, i < n → j < n → u i * (e i j * u j) =
      (∑ k ∈ rounded n A, if i = k + 1 ∧ j = k then -(A (k + 1) k) * (u (k + 1) * u k) else 0) + ∑ k ∈ rounded n A, if i = k ∧ j = k + 1 then -(A (k + 1) k) * (u (k + 1) * u k) else 0 := by
    intro i j hi hj
    by_cases h1 : i = j + 1
    · subst h1
      have z2 : (∑ k ∈ rounded n A, if j + 1 = k ∧ j = k + 1 then -(A (k + 1) k) * (u (k + 1) * u k) else 0) = 0 :=
        Finset.sum_eq_zero (fun k _ => if_neg (by omega))
      rw [z2, add_zero]
      obtain ⟨a1, a2⟩ := symDeflate_sub (n := n) A (i := j + 1) hi (by omega)
      rw [Nat.add_sub_cancel] at a1 a2
      by_cases hr : j ∈ rounded n A
      · rw [Finset.sum_eq_single j (fun k _ hk => if_neg (by omega)) (fun h => absurd hr h), if_pos ⟨rfl, rfl⟩, he]
        simp only
        rw [a1 (by simp only [rounded, mem_filter] at hr; exact hr.2.2)]
        ring
      · rw [Finset.sum_eq_zero (fun k hk => if_neg (by rintro ⟨-, rfl⟩; exact hr hk)), he]
        simp only
        have : symDeflate n A (j + 1) j = A (j + 1) j := by
          by_cases h : |A (j + 1) j| < symTol
          · rw [a1 h]
            by_contra h5
            exact hr (by simp only [rounded, mem_filter, mem_range]; exact ⟨by omega, fun h6 => h5 h6.symm, h⟩)
          · exact a2 (not_lt.mp h)
        rw [this]
        ring
    · by_cases h2 : j = i + 1
      · subst h2
        have z2 : (∑ k ∈ rounded n A, if i = k + 1 ∧ i + 1 = k then -(A (k + 1) k) * (u (k + 1) * u k) else 0) = 0 :=
          Finset.sum_eq_zero (fun k _ => if_neg (by omega))
        rw [z2, zero_add]
        obtain ⟨a1, a2⟩ := symDeflate_sub (n := n) A (i := i + 1) hj (by omega)
        rw [Nat.add_sub_cancel] at a1 a2
        have hsd : symDeflate n A i (i + 1) = symDeflate n A (i + 1) i := symDeflate_symm hA i (i + 1) hi hj
        have hsa : A i (i + 1) = A (i + 1) i := hA i (i + 1) hi hj
        by_cases hr : i ∈ rounded n A
        · rw [Finset.sum_eq_single i (fun k _ hk => if_neg (by omega)) (fun h => absurd hr h), if_pos ⟨rfl, rfl⟩, he]
          simp only
          rw [hsd, hsa, a1 (by simp only [rounded, mem_filter] at hr; exact hr.2.2)]
          ring
        · rw [Finset.sum_eq_zero (fun k hk => if_neg (by rintro ⟨rfl, -⟩; exact hr hk)), he]
          simp only
          have : symDeflate n A (i + 1) i = A (i + 1) i := by
            by_cases h : |A (i + 1) i| < symTol
            · rw [a1 h]
              by_contra h5
              exact hr (by simp only [rounded, mem_filter, mem_range]; exact ⟨by omega, fun h6 => h5 h6.symm, h⟩)
            · exact a2 (not_lt.mp h)
          rw [hsd, hsa, this]
          ring
      · rw [Finset.sum_eq_zero (fun k hk => if_neg (by omega)), Finset.sum_eq_zero (fun k hk => if_neg (by omega)), he]
        simp only
        unfold symDeflate
        rw [if_neg (by omega)]
        ring
  have hdbl : ∀ (a b : Nat), a < n → b < n → ∀ x : ℝ, (∑ i ∈ range n, ∑ j ∈ range n, if i = a ∧ j = b then x else 0) = x := by
    intro a b ha hb x
    rw [Finset.sum_eq_single a, Finset.sum_eq_single b, if_pos ⟨rfl, rfl⟩]
    · intro j _ hj; rw [if_neg (by omega)]
    · intro h; exact absurd (mem_range.mpr hb) h
    · intro i _ hi; exact Finset.sum_eq_zero (fun j _ => if_neg (by omega))
    · intro h; exact absurd (mem_range.mpr ha) h
  have htot : (∑ i ∈ range n, ∑ j ∈ range n, u i * (e i j * u j)) = ∑ k ∈ rounded n A, -(A (k + 1) k) * (2 * (u (k + 1) * u k)) := by
    have s1 : (∑ i ∈ range n, ∑ j ∈ range n, u i * (e i j * u j)) = (∑ k ∈ rounded n A, ∑ i ∈ range n, ∑ j ∈ range n, if i = k + 1 ∧ j = k then -(A (k + 1) k) * (u (k + 1) * u k) else 0) +
        ∑ k ∈ rounded n A, ∑ i ∈ range n, ∑ j ∈ range n, if i = k ∧ j = k + 1 then -(A (k + 1) k) * (u (k + 1) * u k) else 0 := by
      have sw : ∀ f : Nat → Nat → Nat → ℝ, ∑ k ∈ rounded n A, ∑ i ∈ range n, ∑ j ∈ range n, f k i j = ∑ i ∈ range n, ∑ j ∈ range n, ∑ k ∈ rounded n A, f k i j := by
        intro f
        rw [Finset.sum_comm]
        exact Finset.sum_congr rfl (fun i _ => Finset.sum_comm)
      rw [sw, sw, ← Finset.sum_add_distrib]
      apply Finset.sum_congr rfl
      intro i hi
      rw [← Finset.sum_add_distrib]
      apply Finset.sum_congr rfl
      intro j hj
      exact hsupp i j (mem_range.mp hi) (mem_range.mp hj)
    rw [s1, ← Finset.sum_add_distrib]
    apply Finset.sum_congr rfl
    intro k hk
    simp only [rounded, mem_filter, mem_range] at hk
    rw [hdbl (k + 1) k (by omega) (by omega), hdbl k (k + 1) (by omega) (by omega)]
    ring
  rw [hform, htot, hnorm]
  refine (Finset.abs_sum_le_sum_abs _ _).trans ?_
  have hone : ∀ k ∈ rounded n A, |-(A (k + 1) k) * (2 * (u (k + 1) * u k))| ≤ symTol * ∑ i ∈ range n, u i * u i := by
    intro k hk
    simp only [rounded, mem_filter, mem_range] at hk
    rw [abs_mul, abs_neg]
    have hs : u (k + 1) * u (k + 1) + u k * u k ≤ ∑ i ∈ range n, u i * u i := by
      have : ({k + 1, k} : Finset Nat) ⊆ range n := by
        intro i hi
        simp only [mem_insert, mem_singleton] at hi
        rw [mem_range]
        omega
      have h3 := Finset.sum_le_sum_of_subset_of_nonneg this (f := fun i => u i * u i) (fun i _ _ => mul_self_nonneg _)
      rwa [Finset.sum_pair (by omega)] at h3
    have h2 : |2 * (u (k + 1) * u k)| ≤ u (k + 1) * u (k + 1) + u k * u k := by
      rw [abs_le]
      constructor <;> nlinarith [sq_nonneg (u (k + 1) - u k), sq_nonneg (u (k + 1) + u k)]
    exact mul_le_mul hk.2.2.le (h2.trans hs) (abs_nonneg _) symTol_pos.le
  refine (Finset.sum_le_sum hone).trans ?_
  rw [Finset.sum_const, nsmul_eq_mul, mul_assoc]

theorem deflate_close {n : Nat} {A : RM} (hA : SymmRM n A) : EigClose ((rounded n A).card * symTol) (toM n A) (toM n (symDeflate n A)) :=
  eigClose_perturb (toM_symm.mp hA) (toM_symm.mp (symDeflate_symm hA)) (quad_rounded hA)

/-! ### a round -/

/-- no entry of the sub-diagonal is exactly as large as the tolerance -/
def NoTie (n : Nat) (A : RM) : Prop := ∀ i, i + 1 < n → |A (i + 1) i| ≠ symTol

theorem deflate_noTie {n : Nat} {A : RM} (h : NoTie n A) {i : Nat} (hi : i + 1 < n) : symDeflate n A (i + 1) i = 0 ∨ symTol < |symDeflate n A (i + 1) i| := by
  obtain ⟨a1, a2⟩ := symDeflate_sub (n := n) A (i := i + 1) hi (by omega)
  rw [Nat.add_sub_cancel] at a1 a2
  by_cases h2 : |A (i + 1) i| < symTol
  · exact Or.inl (a1 h2)
  · right
    rw [a2 (not_lt.mp h2)]
    exact lt_of_le_of_ne (not_lt.mp h2) (Ne.symm (h i hi))

theorem symTri_hess {n : Nat} {A : RM} (h : SymTri n A) : ∀ i j, i < n → j + 1 < i → A i j = 0 := by
  intro i j hi hj
  exact h.2 i j hi (by omega) (by omega)

theorem symNext_charpoly {n : Nat} (hn : 2 ≤ n) {A : RM} (hA : SymTri n A) (hp : ProperRound n A) (ht : NoTie n A) (hq : symQ n (symDeflate n A) < n) :
    (toM n (symNext n A)).charpoly = (toM n (symDeflate n A)).charpoly := by
  obtain ⟨h1, h2, h3, h4, h5⟩ := block_size hn hq
  have hD := symDeflate_tri hA
  set p := blockStart n A with hpd
  obtain ⟨m, hm⟩ : ∃ m, blockEnd n A = p + m := ⟨blockEnd n A - p, by omega⟩
  have hc := hp hq
  rw [show blockEnd n A - blockStart n A = m by omega] at hc
  have hS : SymTri m (shift p (symDeflate n A)) := shift_tri (n := n) (by omega) hD
  have hnext : symNext n A = putBlock (symDeflate n A) p m (wst m (shift p (symDeflate n A)) (m - 1)).a := by
    unfold symNext
    rw [if_pos hq]
    rw [show blockEnd n A - blockStart n A = m by omega]
  rw [hnext]
  apply putBlock_charpoly (by omega) (symTri_hess hD) (symTri_hess (wst_tri (by omega) hS hc)) _ _ (by omega)
  · -- the block
    have hb : shift p (symDeflate n A) (m - 1) (m - 2) ≠ 0 := by
      intro h0
      unfold shift at h0
      rw [show p + (m - 1) = blockEnd n A - 1 by omega, show p + (m - 2) = blockEnd n A - 2 by omega] at h0
      rw [h0, abs_zero] at h4
      linarith [symTol_pos]
    obtain ⟨f, f1, f2, f3, -⟩ := c84_step m (by omega) _ hS (Or.inl hb)
    rw [wilkinson_eq (by omega)] at f1
    injection f1 with f1
    rw [f1]
    exact OrthSimilar.charpoly ⟨rotations m f.op, f2, f3⟩
  · by_cases hp0 : p = 0
    · exact Or.inl hp0
    · right
      obtain ⟨p1, -⟩ := symP_spec n (symQ n (symDeflate n A)) (symDeflate n A)
      have h6 := (p1 hp0).2
      rcases deflate_noTie ht (i := p - 1) (by omega) with h7 | h7
      · rwa [show p - 1 + 1 = p by omega] at h7
      · rw [show p - 1 + 1 = p by omega] at h7
        have : |symDeflate n A p (p - 1)| < symTol := h6
        linarith
  · by_cases hpn : p + m = n
    · exact Or.inl hpn
    · right
      rcases deflate_noTie ht (i := p + m - 1) (by omega) with h7 | h7
      · rwa [show p + m - 1 + 1 = p + m by omega] at h7
      · exfalso
        rw [show p + m - 1 + 1 = p + m by omega] at h7
        have hend : blockEnd n A = n - symQ n (symDeflate n A) := rfl
        refine (symQ_spec hn (symDeflate n A)).2 (symQ n (symDeflate n A) - 1) (by omega) (by omega) ⟨?_, ?_⟩
        · rw [show n - (symQ n (symDeflate n A) - 1) - 1 = p + m by omega, show n - (symQ n (symDeflate n A) - 1) - 2 = p + m - 1 by omega]
          exact h7
        · rw [show n - (symQ n (symDeflate n A) - 1) - 2 = blockEnd n A - 1 by omega, show n - (symQ n (symDeflate n A) - 1) - 3 = blockEnd n A - 2 by omega]
          exact h4

/-- a round makes no entry of the sub-diagonal non-zero -/
theorem nzSub_next {n : Nat} (hn : 2 ≤ n) {A : RM} (hq : symQ n (symDeflate n A) < n) : nzSub n (symNext n A) ⊆ nzSub n (symDeflate n A) := by
  obtain ⟨h1, h2, h3, -⟩ := block_size hn hq
  intro i hi
  simp only [nzSub, mem_filter, mem_range] at hi ⊢
  refine ⟨hi.1, ?_⟩
  by_cases hb : blockStart n A ≤ i ∧ i + 1 < blockEnd n A
  · have := h3 (i + 1) (by omega) (by omega)
    rw [Nat.add_sub_cancel] at this
    intro h0
    rw [h0, abs_zero] at this
    linarith [symTol_pos]
  · rw [← symNext_out hq (by omega)]
    exact hi.2

/-- **the error of the loop**: as long as all rotations are proper and there is no tie, the eigenvalues of the result differ from those of the input by at most the tolerance for
each entry of the sub-diagonal that the loop has made zero. -/
theorem symLoop_close {n : Nat} (hn : 2 ≤ n) (op : RM) (fuel : Nat) : ∀ {A : RM}, SymTri n A → (∀ k, ProperRound n ((symNext n)^[k] A)) → (∀ k, NoTie n ((symNext n)^[k] A)) →
    ∀ B o, symLoop n false fuel (A, op) = .done (B, o) →
      SymTri n B ∧ (∀ i, i + 1 < n → B (i + 1) i = 0 ∨ symTol < |B (i + 1) i|) ∧ EigClose ((((nzSub n A).card : ℝ) - (nzSub n B).card) * symTol) (toM n A) (toM n B) := by
  induction fuel with
  | zero => intro A _ _ _ B o h; simp [symLoop] at h
  | succ fuel ih =>
    intro A hA hP hT B o h
    have hdef := deflate_close hA.1
    have hcard : ((nzSub n A).card : ℝ) = (rounded n A).card + (nzSub n (symDeflate n A)).card := by
      rw [nzSub_deflate]
      push_cast
      rfl
    unfold symLoop at h
    rcases symStep_spec hn A op with ⟨h1, h2⟩ | ⟨h1, h2⟩
    · rw [h2] at h
      simp only [Outcome.done.injEq, Prod.mk.injEq] at h
      obtain ⟨rfl, -⟩ := h
      refine ⟨symDeflate_tri hA, fun i hi => deflate_noTie (hT 0) hi, ?_⟩
      rw [hcard, add_sub_cancel_right]
      exact hdef
    · rw [h2] at h
      obtain ⟨i1, i2, i3⟩ := ih (symNext_tri hn hA (hP 0)) (fun k => hP (k + 1)) (fun k => hT (k + 1)) B o h
      refine ⟨i1, i2, ?_⟩
      have hle : (((nzSub n (symNext n A)).card : ℝ)) ≤ (nzSub n (symDeflate n A)).card := by exact_mod_cast Finset.card_le_card (nzSub_next hn h1)
      have hmid : EigClose 0 (toM n (symDeflate n A)) (toM n (symNext n A)) := eigClose_charpoly (toM_symm.mp (symDeflate_symm hA.1)) (symNext_charpoly hn hA (hP 0) (hT 0) h1)
      have h5 := (hdef.trans (toM_symm.mp (symDeflate_symm hA.1)) hmid).trans (toM_symm.mp (symNext_symm hn hA.1)) i3
      refine h5.mono ?_
      have := symTol_pos
      rw [hcard]
      nlinarith

/-! ### reading off the eigenvalues -/

theorem symReadOff_some {n : Nat} {B : RM} (hB : SymmRM n B) (fuel : Nat) : ∀ i, ∃ l, symReadOff n B fuel i = some l := by
  induction fuel with
  | zero => intro i; exact ⟨_, rfl⟩
  | succ fuel ih =>
    intro i
    unfold symReadOff
    by_cases hin : i < n
    · rw [if_pos hin]
      by_cases hc : i = n - 1 ∨ |B (i + 1) i| < 0.00000000000001
      · rw [if_pos hc]
        obtain ⟨l, hl⟩ := ih (i + 1)
        exact ⟨_, by rw [hl]; rfl⟩
      · rw [if_neg hc]
        rw [not_or, not_lt] at hc
        obtain ⟨l, hl⟩ := ih (i + 2)
        have hs := hB i (i + 1) hin (by omega)
        have hb : B (i + 1) i ≠ 0 := by
          intro h0
          rw [h0, abs_zero] at hc
          norm_num at hc
        unfold realSpectrum2
        simp only
        rw [if_pos]
        · exact ⟨_, by rw [hl]; rfl⟩
        · rw [hs]
          nlinarith [sq_nonneg (B i i - B (i + 1) (i + 1)), mul_self_pos.mpr hb]
    · rw [if_neg hin]
      exact ⟨_, rfl⟩

theorem symReadOff_spec {n : Nat} (hn : 2 ≤ n) {B : RM} (hB : SymTri n B) (hz : ∀ i, i + 1 < n → B (i + 1) i = 0 ∨ symTol < |B (i + 1) i|) (hq : symQ n B = n) (fuel : Nat) :
    ∀ i, i ≤ n → n ≤ i + fuel → ∀ l, symReadOff n B fuel i = some l → (toM (n - i) (shift i B)).charpoly = (l.map (fun a => X - C a)).prod := by
  have split1 : ∀ i m, i + m + 1 ≤ n → m ≠ 0 → (m + i = n ∨ B (i + m) (i + m - 1) = 0) →
      (toM (n - i) (shift i B)).charpoly = (toM m (shift i B)).charpoly * (toM (n - (i + m)) (shift (i + m) B)).charpoly := by
    intro i m h1 h2 h3
    rw [show n - i = m + (n - (i + m)) by omega, charpoly_split m (n - (i + m)) (shift i B)]
    · congr 2
      exact toM_congr (fun a b _ _ => by unfold shift; rw [Nat.add_assoc, Nat.add_assoc])
    · intro a b a1 a2 a3
      unfold shift
      by_cases h : b + 1 < a
      · exact hB.2 _ _ (by omega) (by omega) (by omega)
      · rcases h3 with h3 | h3
        · omega
        · rw [show a = m by omega, show i + b = i + m - 1 by omega]
          exact h3
  induction fuel with
  | zero =>
    intro i h1 h2 l hl
    simp only [symReadOff, Option.some.injEq] at hl
    subst hl
    rw [show n - i = 0 by omega, List.map_nil, List.prod_nil]
    exact charpoly_empty _
  | succ fuel ih =>
    intro i h1 h2 l hl
    unfold symReadOff at hl
    by_cases hin : i < n
    · rw [if_pos hin] at hl
      by_cases hc : i = n - 1 ∨ |B (i + 1) i| < 0.00000000000001
      · rw [if_pos hc] at hl
        have hcp : (toM (n - i) (shift i B)).charpoly = (X - C (B i i)) * (toM (n - (i + 1)) (shift (i + 1) B)).charpoly := by
          by_cases hlast : i + 1 = n
          · rw [show n - i = 1 by omega, show n - (i + 1) = 0 by omega, charpoly_one, charpoly_empty, mul_one]
            rfl
          · rw [split1 i 1 (by omega) (by omega) (Or.inr ?_), charpoly_one]
            · rfl
            · rw [Nat.add_sub_cancel]
              rcases hz i (by omega) with h | h
              · exact h
              · exfalso
                unfold symTol at h
                rcases hc with hc | hc
                · omega
                · norm_num at hc h
                  linarith
        rw [Option.map_eq_some_iff] at hl
        obtain ⟨l', hl', rfl⟩ := hl
        rw [hcp, ih (i + 1) (by omega) (by omega) l' hl', List.map_cons, List.prod_cons]
      · rw [if_neg hc] at hl
        rw [not_or, not_lt] at hc
        have hb0 : B (i + 1) i ≠ 0 := by
          intro h0
          rw [h0, abs_zero] at hc
          norm_num at hc
        have hbig : symTol < |B (i + 1) i| := by
          rcases hz i (by omega) with h | h
          · exact absurd h hb0
          · exact h
        have hcp : (toM (n - i) (shift i B)).charpoly = (X ^ 2 - C (B i i + B (i + 1) (i + 1)) * X + C (B i i * B (i + 1) (i + 1) - B i (i + 1) * B (i + 1) i)) *
            (toM (n - (i + 2)) (shift (i + 2) B)).charpoly := by
          by_cases hlast : i + 2 = n
          · rw [show n - i = 2 by omega, show n - (i + 2) = 0 by omega, charpoly_two, charpoly_empty, mul_one]
            rfl
          · rw [split1 i 2 (by omega) (by omega) (Or.inr ?_), charpoly_two]
            · rfl
            · rw [show i + 2 - 1 = i + 1 by omega]
              rcases hz (i + 1) (by omega) with h | h
              · exact h
              · exfalso
                refine (symQ_spec hn B).2 (n - i - 3) (by omega) (by omega) ⟨?_, ?_⟩
                · rw [show n - (n - i - 3) - 1 = i + 1 + 1 by omega, show n - (n - i - 3) - 2 = i + 1 by omega]
                  exact h
                · rw [show n - (n - i - 3) - 2 = i + 1 by omega, show n - (n - i - 3) - 3 = i by omega]
                  exact hbig
        unfold realSpectrum2 at hl
        simp only at hl
        by_cases hdisc : 0 < (B i i + B (i + 1) (i + 1)) / 2 * ((B i i + B (i + 1) (i + 1)) / 2) - (B i i * B (i + 1) (i + 1) - B i (i + 1) * B (i + 1) i)
        · rw [if_pos hdisc] at hl
          simp only at hl
          rw [Option.map_eq_some_iff] at hl
          obtain ⟨l', hl', rfl⟩ := hl
          rw [hcp, ih (i + 2) (by omega) (by omega) l' hl', List.map_cons, List.prod_cons, List.map_cons, List.prod_cons, ← mul_assoc]
          congr 1
          set m := (B i i + B (i + 1) (i + 1)) / 2 with hm
          set D := B i i * B (i + 1) (i + 1) - B i (i + 1) * B (i + 1) i with hD
          set r := Real.sqrt (m * m - D) with hr
          have hr2 : r * r = m * m - D := Real.mul_self_sqrt hdisc.le
          rw [show B i i + B (i + 1) (i + 1) = 2 * m by rw [hm]; ring, show D = m * m - r * r by rw [hr2]; ring]
          simp only [C_add, C_sub, C_mul, show (C (2 : ℝ) : ℝ[X]) = 2 from rfl]
          ring
        · rw [if_neg hdisc] at hl
          cases hl
    · rw [if_neg hin] at hl
      injection hl with hl
      subst hl
      rw [show n - i = 0 by omega, List.map_nil, List.prod_nil]
      exact charpoly_empty _

end Toppo.RealAlg
