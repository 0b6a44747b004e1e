import Verif.Model.Lattice
import Verif.Props.Real
set_option linter.unusedVariables false

/-
Lattice basis reduction: Gram-Schmidt orthogonalisations up to uniqueness, and how they change.
-/
namespace Toppo.RealAlg
open Finset Matrix

variable {n : Nat}

/-- `o` is the Gram-Schmidt orthogonalisation of the first `m` columns of `v` -/
structure GSO (m : Nat) (v o : Nat → Fin n → ℝ) : Prop where
  orth : ∀ k l, k < m → l < m → k ≠ l → o k ⬝ᵥ o l = 0
  nz : ∀ k, k < m → o k ≠ 0
  resid : ∀ k, k < m → v k - o k ∈ Submodule.span ℝ (o '' {l | l < k})

/-- the coefficient of `v i` along `o j` -/
noncomputable def gmu (v o : Nat → Fin n → ℝ) (i j : Nat) : ℝ := (v i ⬝ᵥ o j) / (o j ⬝ᵥ o j)

theorem self_pos {x : Fin n → ℝ} (h : x ≠ 0) : 0 < x ⬝ᵥ x := by
  have h1 : 0 ≤ x ⬝ᵥ x := by simp only [dotProduct]; exact sum_nonneg fun i _ => mul_self_nonneg _
  rcases lt_or_eq_of_le h1 with h2 | h2
  · exact h2
  · exact absurd (dotProduct_self_eq_zero.mp h2.symm) h

/-- a vector orthogonal to generators is orthogonal to their span -/
theorem span_orth {y : Fin n → ℝ} {s : Set (Fin n → ℝ)} (h : ∀ x ∈ s, x ⬝ᵥ y = 0) {x : Fin n → ℝ} (hx : x ∈ Submodule.span ℝ s) : x ⬝ᵥ y = 0 := by
  induction hx using Submodule.span_induction with
  | mem x hx => exact h x hx
  | zero => exact zero_dotProduct y
  | add a b _ _ ha hb => rw [add_dotProduct, ha, hb, add_zero]
  | smul c a _ ha => rw [smul_dotProduct, ha, smul_zero]

theorem span_lt_mono {o : Nat → Fin n → ℝ} {a b : Nat} (h : a ≤ b) : Submodule.span ℝ (o '' {l | l < a}) ≤ Submodule.span ℝ (o '' {l | l < b}) := by
  apply Submodule.span_mono
  apply Set.image_mono
  intro l hl
  exact lt_of_lt_of_le hl h

namespace GSO

variable {m : Nat} {v o : Nat → Fin n → ℝ}

theorem pos (h : GSO m v o) {k : Nat} (hk : k < m) : 0 < o k ⬝ᵥ o k := self_pos (h.nz k hk)

theorem span_perp (h : GSO m v o) {k l : Nat} (hl : l < m) (hkl : k ≤ l) {x : Fin n → ℝ} (hx : x ∈ Submodule.span ℝ (o '' {l | l < k})) : x ⬝ᵥ o l = 0 := by
  refine span_orth ?_ hx
  rintro _ ⟨t, ht, rfl⟩
  have ht : t < k := ht
  exact h.orth t l (by omega) hl (by omega)

theorem mem_span (h : GSO m v o) {k : Nat} (hk : k < m) : v k ∈ Submodule.span ℝ (o '' {l | l < k + 1}) := by
  have h1 : v k = (v k - o k) + o k := by abel
  rw [h1]
  exact Submodule.add_mem _ (span_lt_mono (by omega) (h.resid k hk)) (Submodule.subset_span ⟨k, by simp, rfl⟩)

theorem dot_high (h : GSO m v o) {k l : Nat} (hl : l < m) (hkl : k < l) : v k ⬝ᵥ o l = 0 := h.span_perp hl (by omega) (h.mem_span (by omega))

theorem dot_self (h : GSO m v o) {k : Nat} (hk : k < m) : v k ⬝ᵥ o k = o k ⬝ᵥ o k := by
  have := h.span_perp hk le_rfl (h.resid k hk)
  rw [sub_dotProduct] at this
  linarith

theorem span_le (h : GSO m v o) {k : Nat} (hk : k ≤ m) : Submodule.span ℝ (v '' {l | l < k}) ≤ Submodule.span ℝ (o '' {l | l < k}) := by
  rw [Submodule.span_le]
  rintro _ ⟨l, hl, rfl⟩
  have hl : l < k := hl
  exact span_lt_mono (by omega) (h.mem_span (k := l) (by omega))

theorem notMem (h : GSO m v o) {k : Nat} (hk : k < m) : v k ∉ Submodule.span ℝ (v '' {l | l < k}) := by
  intro hm
  have h1 := h.span_perp hk le_rfl (h.span_le (k := k) (by omega) hm)
  rw [h.dot_self hk] at h1
  exact (h.pos hk).ne' h1

theorem unique {o' : Nat → Fin n → ℝ} (h : GSO m v o) (h' : GSO m v o') : ∀ k, k < m → o k = o' k := by
  intro k
  induction k using Nat.strong_induction_on with
  | _ k ih =>
    intro hk
    have himg : o' '' {l | l < k} = o '' {l | l < k} := by
      apply Set.image_congr
      intro l hl
      have hl : l < k := hl
      exact (ih l hl (by omega)).symm
    have hd : o k - o' k ∈ Submodule.span ℝ (o '' {l | l < k}) := by
      have e : o k - o' k = (v k - o' k) - (v k - o k) := by abel
      rw [e]
      exact Submodule.sub_mem _ (by rw [← himg]; exact h'.resid k hk) (h.resid k hk)
    have h1 : (o k - o' k) ⬝ᵥ o k = 0 := h.span_perp hk le_rfl hd
    have h2 : (o k - o' k) ⬝ᵥ o' k = 0 := h'.span_perp hk le_rfl (by rw [himg]; exact hd)
    have h3 : (o k - o' k) ⬝ᵥ (o k - o' k) = 0 := by rw [dotProduct_sub, h1, h2, sub_zero]
    exact sub_eq_zero.mp (dotProduct_self_eq_zero.mp h3)

end GSO

/-- the code computes it -/
theorem gso_code {m : Nat} {v : Nat → Fin n → ℝ} (h : ∀ k, k < m → v k ∉ Submodule.span ℝ (v '' {l | l < k})) : GSO m v (gramSchmidt' m v) := by
  rcases Nat.eq_zero_or_pos m with h0 | h0
  · subst h0
    exact ⟨fun k l hk => by omega, fun k hk => by omega, fun k hk => by omega⟩
  have main : ∀ i, 1 ≤ i → i ≤ m → GS v ((List.range' 1 (i - 1)).foldl (fun v i => (List.range i).foldl (gsStep' i) v) v) i ∧
      GSO i v ((List.range' 1 (i - 1)).foldl (fun v i => (List.range i).foldl (gsStep' i) v) v) := by
    intro i
    induction i with
    | zero => intro h; omega
    | succ i ih =>
      intro _ hi
      by_cases e : i = 0
      · subst e
        simp only [Nat.reduceAdd, Nat.sub_self, List.range'_zero, List.foldl_nil]
        have hz : v 0 ≠ 0 := by
          intro hz
          exact h 0 h0 (by rw [hz]; exact Submodule.zero_mem _)
        refine ⟨⟨fun _ _ => rfl, fun k l hk hl hkl => by omega, fun k hk => ?_, fun _ _ => rfl⟩, ⟨fun k l hk hl hkl => by omega, fun k hk => ?_, fun k hk => ?_⟩⟩
        · have : k = 0 := by omega
          subst this
          exact (self_pos hz).ne'
        · have : k = 0 := by omega
          subst this
          exact hz
        · rw [sub_self]
          exact Submodule.zero_mem _
      · obtain ⟨hG, hO⟩ := ih (by omega) (by omega)
        rw [show i + 1 - 1 = (i - 1) + 1 by omega, List.range'_concat, List.foldl_append]
        set w := (List.range' 1 (i - 1)).foldl (fun v i => (List.range i).foldl (gsStep' i) v) v
        rw [show 1 + 1 * (i - 1) = i by omega]
        simp only [List.foldl_cons, List.foldl_nil]
        have hstep : gsStep' (n := n) i = (fun v j => Function.update v i (v i - ((v j ⬝ᵥ v j)⁻¹ * (v i ⬝ᵥ v j)) • v j)) := by
          funext v j; simp only [gsStep', smul_smul]
        rw [hstep]
        obtain ⟨h1, h2, h3⟩ := inner_spec (fun u x => (x ⬝ᵥ x)⁻¹ * (u ⬝ᵥ x)) w i hG.orth
          (fun u k hk => by have := hG.nz k hk; field_simp) i le_rfl
        have hnew := outer_step hG (h i (by omega)) h1 h2 h3 (one_smul ℝ _).symm (fun _ => one_ne_zero)
        refine ⟨hnew, ⟨hnew.orth, fun k hk hz => hnew.nz k hk (by rw [hz]; simp), ?_⟩⟩
        intro k hk
        set w' := (List.range i).foldl (fun v j => Function.update v i (v i - ((v j ⬝ᵥ v j)⁻¹ * (v i ⬝ᵥ v j)) • v j)) w with hw'
        have himg : ∀ k, k ≤ i → w' '' {l | l < k} = w '' {l | l < k} := by
          intro k hk
          apply Set.image_congr
          intro l hl
          have hl : l < k := hl
          exact h1 l (by omega)
        rw [himg k (by omega)]
        by_cases e2 : k = i
        · subst e2
          have := h3
          rw [hG.rest k le_rfl] at this
          exact this
        · rw [h1 k e2]
          exact hO.resid k (by omega)
  exact (main m (by omega) le_rfl).2

/-- so if there is any, the code finds it -/
theorem gso_eq {m : Nat} {v o : Nat → Fin n → ℝ} (h : GSO m v o) : GSO m v (gramSchmidt' m v) ∧ ∀ k, k < m → gramSchmidt' m v k = o k := by
  have h1 := gso_code (m := m) (v := v) (fun k hk => h.notMem hk)
  exact ⟨h1, fun k hk => h1.unique h k hk⟩

/-! ### subtracting a multiple of an earlier column -/

theorem gso_sub {m : Nat} {v o : Nat → Fin n → ℝ} (h : GSO m v o) {i j : Nat} (hi : i < m) (hj : j < i) (r : ℝ) : GSO m (Function.update v i (v i - r • v j)) o := by
  refine ⟨h.orth, h.nz, ?_⟩
  intro k hk
  by_cases e : k = i
  · subst e
    rw [Function.update_self]
    have : v k - r • v j - o k = (v k - o k) - r • v j := by abel
    rw [this]
    exact Submodule.sub_mem _ (h.resid k hk) (Submodule.smul_mem _ _ (span_lt_mono (by omega) (h.mem_span (k := j) (by omega))))
  · rw [Function.update_of_ne e]
    exact h.resid k hk

theorem gmu_sub {m : Nat} {v o : Nat → Fin n → ℝ} {i j : Nat} (r : ℝ) (l : Nat) :
    gmu (Function.update v i (v i - r • v j)) o i l = gmu v o i l - r * gmu v o j l := by
  unfold gmu
  rw [Function.update_self, sub_dotProduct, smul_dotProduct, smul_eq_mul]
  ring

theorem GSO.gmu_self {m : Nat} {v o : Nat → Fin n → ℝ} (h : GSO m v o) {k : Nat} (hk : k < m) : gmu v o k k = 1 := by
  unfold gmu
  rw [h.dot_self hk, div_self (h.pos hk).ne']

theorem GSO.gmu_high {m : Nat} {v o : Nat → Fin n → ℝ} (h : GSO m v o) {k l : Nat} (hl : l < m) (hkl : k < l) : gmu v o k l = 0 := by
  unfold gmu
  rw [h.dot_high hl hkl, zero_div]

theorem rround_near (x : ℝ) : |x - rround x| ≤ 1 / 2 := by
  unfold rround
  rw [abs_le]
  split
  · have h1 := Int.floor_le (x + 1 / 2)
    have h2 := Int.lt_floor_add_one (x + 1 / 2)
    constructor <;> linarith
  · have h1 := Int.le_ceil (x - 1 / 2)
    have h2 := Int.ceil_lt_add_one (x - 1 / 2)
    constructor <;> linarith

/-! ### swapping two columns -/

/-- the orthogonalisation after swapping the columns `i` and `i + 1` -/
noncomputable def swapO (v o : Nat → Fin n → ℝ) (i : Nat) : Nat → Fin n → ℝ :=
  let a := o (i + 1) + gmu v o (i + 1) i • o i
  fun k => if k = i then a else if k = i + 1 then o i - ((o i ⬝ᵥ a) / (a ⬝ᵥ a)) • a else o k

theorem swapCols_eq (v : Nat → Fin n → ℝ) (i k : Nat) : swapCols v (i + 1) k = if k = i then v (i + 1) else if k = i + 1 then v i else v k := by
  unfold swapCols
  rw [Nat.add_sub_cancel]

theorem gso_swap {m : Nat} {v o : Nat → Fin n → ℝ} (h : GSO m v o) {i : Nat} (hi : i + 1 < m) :
    GSO m (swapCols v (i + 1)) (swapO v o i) ∧
    swapO v o i i ⬝ᵥ swapO v o i i = o (i + 1) ⬝ᵥ o (i + 1) + gmu v o (i + 1) i ^ 2 * (o i ⬝ᵥ o i) ∧
    (swapO v o i i ⬝ᵥ swapO v o i i) * (swapO v o i (i + 1) ⬝ᵥ swapO v o i (i + 1)) = (o i ⬝ᵥ o i) * (o (i + 1) ⬝ᵥ o (i + 1)) := by
  set μ := gmu v o (i + 1) i with hμ
  set a := o (i + 1) + μ • o i with ha
  set ν := (o i ⬝ᵥ a) / (a ⬝ᵥ a) with hν
  set b := o i - ν • a with hb
  have sa : swapO v o i i = a := by unfold swapO; simp [ha, hμ]
  have sb : swapO v o i (i + 1) = b := by unfold swapO; simp [hb, hν, ha, hμ]
  have so : ∀ k, k ≠ i → k ≠ i + 1 → swapO v o i k = o k := by
    intro k h1 h2
    unfold swapO
    simp [h1, h2]
  have o10 : o (i + 1) ⬝ᵥ o i = 0 := h.orth _ _ (by omega) (by omega) (by omega)
  have o01 : o i ⬝ᵥ o (i + 1) = 0 := h.orth _ _ (by omega) (by omega) (by omega)
  have p0 := h.pos (k := i) (by omega)
  have p1 := h.pos (k := i + 1) (by omega)
  have oa : o i ⬝ᵥ a = μ * (o i ⬝ᵥ o i) := by rw [ha, dotProduct_add, o01, dotProduct_smul, zero_add, smul_eq_mul]
  have aa : a ⬝ᵥ a = o (i + 1) ⬝ᵥ o (i + 1) + μ ^ 2 * (o i ⬝ᵥ o i) := by
    conv_lhs => rw [ha]
    rw [add_dotProduct, dotProduct_add, dotProduct_add, smul_dotProduct, dotProduct_smul, dotProduct_smul, smul_dotProduct, o10, o01]
    simp only [smul_eq_mul]
    ring
  have apos : 0 < a ⬝ᵥ a := by rw [aa]; positivity
  have ao : a ⬝ᵥ o i = μ * (o i ⬝ᵥ o i) := by rw [dotProduct_comm, oa]
  have ba : b ⬝ᵥ a = 0 := by
    rw [hb, sub_dotProduct, smul_dotProduct, smul_eq_mul, hν]
    field_simp
    ring
  have bb : b ⬝ᵥ b = o i ⬝ᵥ o i - ν * (μ * (o i ⬝ᵥ o i)) := by
    conv_lhs => rhs; rw [hb]
    rw [dotProduct_sub, dotProduct_smul, ba, smul_zero, sub_zero, hb, sub_dotProduct, smul_dotProduct, ao, smul_eq_mul]
  have prod : (a ⬝ᵥ a) * (b ⬝ᵥ b) = (o i ⬝ᵥ o i) * (o (i + 1) ⬝ᵥ o (i + 1)) := by
    rw [bb, hν, oa]
    field_simp
    rw [aa]
    ring
  have bpos : 0 < b ⬝ᵥ b := by
    have h1 : 0 < (a ⬝ᵥ a) * (b ⬝ᵥ b) := by rw [prod]; positivity
    exact (mul_pos_iff_of_pos_left apos).mp h1
  have perp : ∀ l, l < m → l ≠ i → l ≠ i + 1 → o l ⬝ᵥ a = 0 ∧ o l ⬝ᵥ b = 0 := by
    intro l hl h1 h2
    have e1 : o l ⬝ᵥ a = 0 := by rw [ha, dotProduct_add, dotProduct_smul, h.orth l (i + 1) hl (by omega) h2, h.orth l i hl (by omega) h1]; simp
    refine ⟨e1, ?_⟩
    rw [hb, dotProduct_sub, dotProduct_smul, e1, h.orth l i hl (by omega) h1]
    simp
  -- the spans
  have hsub : ∀ k, i + 2 ≤ k → Submodule.span ℝ (o '' {l | l < k}) ≤ Submodule.span ℝ (swapO v o i '' {l | l < k}) := by
    intro k hk
    have ma : a ∈ Submodule.span ℝ (swapO v o i '' {l | l < k}) := Submodule.subset_span ⟨i, by simp; omega, sa⟩
    have mb : b ∈ Submodule.span ℝ (swapO v o i '' {l | l < k}) := Submodule.subset_span ⟨i + 1, by simp; omega, sb⟩
    have m0 : o i ∈ Submodule.span ℝ (swapO v o i '' {l | l < k}) := by
      have : o i = b + ν • a := by rw [hb]; abel
      rw [this]
      exact Submodule.add_mem _ mb (Submodule.smul_mem _ _ ma)
    rw [Submodule.span_le]
    rintro _ ⟨l, hl, rfl⟩
    by_cases h1 : l = i
    · rw [h1]; exact m0
    · by_cases h2 : l = i + 1
      · rw [h2]
        have : o (i + 1) = a - μ • o i := by rw [ha]; abel
        rw [this]
        exact Submodule.sub_mem _ ma (Submodule.smul_mem _ _ m0)
      · exact Submodule.subset_span ⟨l, hl, so l h1 h2⟩
  have himg : ∀ k, k ≤ i → swapO v o i '' {l | l < k} = o '' {l | l < k} := by
    intro k hk
    apply Set.image_congr
    intro l hl
    have hl : l < k := hl
    exact so l (by omega) (by omega)
  refine ⟨⟨?_, ?_, ?_⟩, by rw [sa, aa], by rw [sa, sb, prod]⟩
  · intro k l hk hl hkl
    by_cases k1 : k = i
    · rw [k1, sa]
      by_cases l2 : l = i + 1
      · rw [l2, sb, dotProduct_comm, ba]
      · rw [so l (by omega) l2, dotProduct_comm]
        exact (perp l hl (by omega) l2).1
    · by_cases k2 : k = i + 1
      · rw [k2, sb]
        by_cases l1 : l = i
        · rw [l1, sa, ba]
        · rw [so l l1 (by omega), dotProduct_comm]
          exact (perp l hl l1 (by omega)).2
      · rw [so k k1 k2]
        by_cases l1 : l = i
        · rw [l1, sa]
          exact (perp k hk k1 k2).1
        · by_cases l2 : l = i + 1
          · rw [l2, sb]
            exact (perp k hk k1 k2).2
          · rw [so l l1 l2]
            exact h.orth k l hk hl hkl
  · intro k hk
    by_cases k1 : k = i
    · rw [k1, sa]; intro h0; rw [h0] at apos; simp at apos
    · by_cases k2 : k = i + 1
      · rw [k2, sb]; intro h0; rw [h0] at bpos; simp at bpos
      · rw [so k k1 k2]
        exact h.nz k hk
  · intro k hk
    rw [swapCols_eq]
    by_cases k1 : k = i
    · rw [if_pos k1, k1, sa, himg i le_rfl]
      -- v (i+1) - o (i+1) - μ o i lies in the span of the earlier ones
      have hr := h.resid (i + 1) hi
      rw [image_succ, Submodule.mem_span_insert] at hr
      obtain ⟨t, z, hz, hzt⟩ := hr
      have ht : t = μ := by
        have e1 : (v (i + 1) - o (i + 1)) ⬝ᵥ o i = t * (o i ⬝ᵥ o i) := by
          rw [hzt, add_dotProduct, smul_dotProduct, h.span_perp (by omega) le_rfl hz, add_zero, smul_eq_mul]
        rw [sub_dotProduct, o10, sub_zero] at e1
        rw [hμ]
        unfold gmu
        rw [e1]
        field_simp
      have e2 : v (i + 1) - a = z := by
        rw [ha, ← sub_sub, hzt, ht]
        abel
      rw [e2]
      exact hz
    · rw [if_neg k1]
      by_cases k2 : k = i + 1
      · rw [if_pos k2, k2, sb]
        have e : v i - b = (v i - o i) + ν • a := by rw [hb]; abel
        rw [e]
        refine Submodule.add_mem _ ?_ (Submodule.smul_mem _ _ (Submodule.subset_span ⟨i, by simp, sa⟩))
        refine span_lt_mono (a := i) (by omega) ?_
        rw [himg i le_rfl]
        exact h.resid i (by omega)
      · rw [if_neg k2, so k k1 k2]
        rcases Nat.lt_or_ge k i with h5 | h5
        · rw [himg k (by omega)]
          exact h.resid k hk
        · exact hsub k (by omega) (h.resid k hk)

end Toppo.RealAlg
