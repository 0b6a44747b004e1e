import Mathlib.LinearAlgebra.Dimension.Finite
import Mathlib.LinearAlgebra.Dimension.Constructions
import Verif.Proof.LLL
set_option linter.unusedVariables false

/-
C86: lattice basis reduction (`lll_lattice_reduce`); exact real arithmetic.
-/
namespace Toppo.RealAlg
open Finset Matrix

variable {n : Nat}

/-! ### Specification

`GSO m v o`: the `o k` are orthogonal, not zero, and `v k - o k` is a combination of the earlier ones.  `gmu v o i j = ⟨v i, o j⟩ / ⟨o j, o j⟩`. -/

/-- the integer combinations of the first `m` columns -/
def lattice (m : Nat) (v : Nat → Fin n → ℝ) : AddSubgroup (Fin n → ℝ) := AddSubgroup.closure (v '' {l | l < m})

/-- the first `m` columns are linearly independent -/
def Indep (m : Nat) (v : Nat → Fin n → ℝ) : Prop := LinearIndependent ℝ (fun i : Fin m => v i)

/-- LLL-reduced with the parameter `δ`: size-reduced, and Lovász's condition for neighbouring columns -/
def LLLReduced (m : Nat) (δ : ℝ) (v : Nat → Fin n → ℝ) : Prop :=
  ∃ o, GSO m v o ∧ (∀ i j, i < m → j < i → |gmu v o i j| ≤ 1 / 2) ∧ ∀ i, i + 1 < m → (δ - gmu v o (i + 1) i ^ 2) * (o i ⬝ᵥ o i) < o (i + 1) ⬝ᵥ o (i + 1)

/-! ### Proofs -/

/-- the state is up to date -/
def Good (m : Nat) (s : LState n) : Prop := s = lllFresh m s.v ∧ GSO m s.v s.o

theorem good_c {m : Nat} {s : LState n} (h : Good m s) (i j : Nat) : s.c i j = gmu s.v s.o i j := by
  rw [h.1]
  rfl

theorem good_fresh {m : Nat} {v o : Nat → Fin n → ℝ} (h : GSO m v o) : Good m (lllFresh m v) ∧ ∀ k, k < m → (lllFresh m v).o k = o k := by
  obtain ⟨h1, h2⟩ := gso_eq h
  exact ⟨⟨rfl, h1⟩, h2⟩

theorem gmu_congr {v v' o o' : Nat → Fin n → ℝ} {i j : Nat} (hv : v i = v' i) (ho : o j = o' j) : gmu v o i j = gmu v' o' i j := by
  unfold gmu
  rw [hv, ho]

theorem lattice_sub {m : Nat} {v : Nat → Fin n → ℝ} {i j : Nat} (hi : i < m) (hj : j < m) (hij : j ≠ i) (r : ℤ) :
    lattice m (Function.update v i (v i - (r : ℝ) • v j)) = lattice m v := by
  have hz : ((r : ℝ) • v j) = r • v j := Int.cast_smul_eq_zsmul ℝ r (v j)
  unfold lattice
  apply le_antisymm
  · rw [AddSubgroup.closure_le]
    rintro _ ⟨l, hl, rfl⟩
    by_cases e : l = i
    · subst e
      rw [Function.update_self, hz]
      have hjm : v j ∈ AddSubgroup.closure (v '' {l | l < m}) := AddSubgroup.subset_closure ⟨j, hj, rfl⟩
      exact AddSubgroup.sub_mem _ (AddSubgroup.subset_closure ⟨l, hl, rfl⟩) (AddSubgroup.zsmul_mem _ hjm r)
    · rw [Function.update_of_ne e]
      exact AddSubgroup.subset_closure ⟨l, hl, rfl⟩
  · rw [AddSubgroup.closure_le]
    rintro _ ⟨l, hl, rfl⟩
    have hjm : v j ∈ AddSubgroup.closure ((Function.update v i (v i - (r : ℝ) • v j)) '' {l | l < m}) :=
      AddSubgroup.subset_closure ⟨j, hj, Function.update_of_ne hij _ _⟩
    by_cases e : l = i
    · subst e
      have e2 : v l = (v l - (r : ℝ) • v j) + r • v j := by rw [hz]; abel
      have hlm : v l - (r : ℝ) • v j ∈ AddSubgroup.closure ((Function.update v l (v l - (r : ℝ) • v j)) '' {l | l < m}) :=
        AddSubgroup.subset_closure ⟨l, hl, Function.update_self _ _ _⟩
      have := AddSubgroup.add_mem _ hlm (AddSubgroup.zsmul_mem _ hjm r)
      rw [← e2] at this
      exact this
    · exact AddSubgroup.subset_closure ⟨l, hl, Function.update_of_ne e _ _⟩

theorem lattice_swap {m : Nat} {v : Nat → Fin n → ℝ} {i : Nat} (hi : i + 1 < m) : lattice m (swapCols v (i + 1)) = lattice m v := by
  unfold lattice
  congr 1
  ext x
  simp only [Set.mem_image]
  constructor
  · rintro ⟨l, hl, rfl⟩
    have hl : l < m := hl
    rw [swapCols_eq]
    by_cases h1 : l = i
    · exact ⟨i + 1, hi, by rw [if_pos h1]⟩
    · by_cases h2 : l = i + 1
      · exact ⟨i, by show i < m; omega, by rw [if_neg h1, if_pos h2]⟩
      · exact ⟨l, hl, by rw [if_neg h1, if_neg h2]⟩
  · rintro ⟨l, hl, rfl⟩
    have hl : l < m := hl
    by_cases h1 : l = i
    · refine ⟨i + 1, hi, ?_⟩
      rw [swapCols_eq, if_neg (by omega), if_pos rfl, h1]
    · by_cases h2 : l = i + 1
      · refine ⟨i, by show i < m; omega, ?_⟩
        rw [swapCols_eq, if_pos rfl, h2]
      · refine ⟨l, hl, ?_⟩
        rw [swapCols_eq, if_neg h1, if_neg h2]

/-- one size reduction -/
theorem lllSize_spec {m i j : Nat} (hi : i < m) (hj : j < i) {s : LState n} (h : Good m s) :
    Good m (lllSize m i s j) ∧ (∀ k, k < m → (lllSize m i s j).o k = s.o k) ∧ (∀ k, k ≠ i → (lllSize m i s j).v k = s.v k) ∧
    lattice m (lllSize m i s j).v = lattice m s.v ∧ |gmu (lllSize m i s j).v s.o i j| ≤ 1 / 2 ∧ ∀ l, j < l → l < m → gmu (lllSize m i s j).v s.o i l = gmu s.v s.o i l := by
  unfold lllSize
  split
  · rename_i hc
    rw [good_c h] at hc
    refine ⟨h, fun _ _ => rfl, fun _ _ => rfl, rfl, ?_, fun _ _ _ => rfl⟩
    norm_num at hc ⊢
    exact hc
  · obtain ⟨g1, g2⟩ := good_fresh (gso_sub h.2 hi hj (rround (s.c i j)))
    refine ⟨g1, g2, fun k hk => Function.update_of_ne hk _ _, lattice_sub hi (by omega) (by omega) _, ?_, ?_⟩
    · show |gmu (Function.update s.v i _) s.o i j| ≤ 1 / 2
      rw [gmu_sub (m := m), h.2.gmu_self (by omega), mul_one, good_c h]
      exact rround_near _
    · intro l h1 h2
      show gmu (Function.update s.v i _) s.o i l = _
      rw [gmu_sub (m := m), h.2.gmu_high h2 h1, mul_zero, sub_zero]

/-- the inner loop -/
theorem lllSizes_spec {m i : Nat} (hi : i < m) : ∀ j, j ≤ i → ∀ s : LState n, Good m s → (∀ l, j ≤ l → l < i → |gmu s.v s.o i l| ≤ 1 / 2) →
    Good m ((List.range j).reverse.foldl (lllSize m i) s) ∧ (∀ k, k < m → ((List.range j).reverse.foldl (lllSize m i) s).o k = s.o k) ∧
    (∀ k, k ≠ i → ((List.range j).reverse.foldl (lllSize m i) s).v k = s.v k) ∧ lattice m ((List.range j).reverse.foldl (lllSize m i) s).v = lattice m s.v ∧
    ∀ l, l < i → |gmu ((List.range j).reverse.foldl (lllSize m i) s).v s.o i l| ≤ 1 / 2 := by
  intro j
  induction j with
  | zero =>
    intro _ s h hl
    exact ⟨h, fun _ _ => rfl, fun _ _ => rfl, rfl, fun l h1 => hl l (by omega) h1⟩
  | succ j ih =>
    intro hj s h hl
    rw [List.range_succ, List.reverse_append, List.reverse_singleton, List.singleton_append, List.foldl_cons]
    obtain ⟨a1, a2, a3, a4, a5, a6⟩ := lllSize_spec hi (show j < i by omega) h
    have hg : ∀ l, l < m → ∀ v : Nat → Fin n → ℝ, gmu v (lllSize m i s j).o i l = gmu v s.o i l := fun l h1 v => gmu_congr rfl (a2 l h1)
    obtain ⟨b1, b2, b3, b4, b5⟩ := ih (by omega) (lllSize m i s j) a1 (by
      intro l h1 h2
      rw [hg l (by omega)]
      by_cases e : l = j
      · rw [e]; exact a5
      · rw [a6 l (by omega) (by omega)]
        exact hl l (by omega) h2)
    refine ⟨b1, fun k hk => (b2 k hk).trans (a2 k hk), fun k hk => (b3 k hk).trans (a3 k hk), b4.trans a4, ?_⟩
    intro l h1
    rw [← hg l (by omega)]
    exact b5 l h1

/-- the part before `i` is reduced -/
def ReducedTo (m i : Nat) (δ : ℝ) (v o : Nat → Fin n → ℝ) : Prop :=
  (∀ k l, k < m → k < i → l < k → |gmu v o k l| ≤ 1 / 2) ∧ ∀ k, k + 1 < m → k + 1 < i → (δ - gmu v o (k + 1) k ^ 2) * (o k ⬝ᵥ o k) < o (k + 1) ⬝ᵥ o (k + 1)

/-- one round of the outer loop, at column `i + 1` -/
theorem lllStep_spec {m i : Nat} (hi : i + 1 < m) {δ : ℝ} {s : LState n} (h : Good m s) (hr : ReducedTo m (i + 1) δ s.v s.o) :
    Good m (lllStep m δ s (i + 1)).1 ∧ lattice m (lllStep m δ s (i + 1)).1.v = lattice m s.v ∧
    ReducedTo m (lllStep m δ s (i + 1)).2 δ (lllStep m δ s (i + 1)).1.v (lllStep m δ s (i + 1)).1.o ∧
    (((lllStep m δ s (i + 1)).2 = i + 2 ∧ ∀ k, k < m → (lllStep m δ s (i + 1)).1.o k = s.o k) ∨
     (1 ≤ (lllStep m δ s (i + 1)).2 ∧ (lllStep m δ s (i + 1)).2 ≤ i + 1 ∧ (∀ k, k < m → k ≠ i → k ≠ i + 1 → (lllStep m δ s (i + 1)).1.o k = s.o k) ∧
      s.o (i + 1) ⬝ᵥ s.o (i + 1) ≤ (lllStep m δ s (i + 1)).1.o i ⬝ᵥ (lllStep m δ s (i + 1)).1.o i ∧
      (lllStep m δ s (i + 1)).1.o i ⬝ᵥ (lllStep m δ s (i + 1)).1.o i ≤ δ * (s.o i ⬝ᵥ s.o i) ∧
      ((lllStep m δ s (i + 1)).1.o i ⬝ᵥ (lllStep m δ s (i + 1)).1.o i) * ((lllStep m δ s (i + 1)).1.o (i + 1) ⬝ᵥ (lllStep m δ s (i + 1)).1.o (i + 1)) =
        (s.o i ⬝ᵥ s.o i) * (s.o (i + 1) ⬝ᵥ s.o (i + 1)))) := by
  obtain ⟨a1, a2, a3, a4, a5⟩ := lllSizes_spec (m := m) (i := i + 1) hi (i + 1) le_rfl s h (fun l h1 h2 => by omega)
  unfold lllStep
  simp only
  set t := (List.range (i + 1)).reverse.foldl (lllSize m (i + 1)) s with ht
  rw [Nat.add_sub_cancel]
  have hgm : ∀ k l, k ≠ i + 1 → l < m → gmu t.v t.o k l = gmu s.v s.o k l := fun k l h1 h2 => gmu_congr (a3 k h1) (a2 l h2)
  split
  · rename_i hc
    rw [good_c a1] at hc
    refine ⟨a1, a4, ⟨?_, ?_⟩, Or.inl ⟨rfl, a2⟩⟩
    · intro k l h1 h2 h3
      by_cases e : k = i + 1
      · rw [e, gmu_congr (v' := t.v) rfl (a2 l (by omega))]
        exact a5 l (by omega)
      · rw [hgm k l e (by omega)]
        exact hr.1 k l h1 (by omega) h3
    · intro k h1 h2
      by_cases e : k = i
      · rw [e, mul_comm]
        exact hc
      · rw [hgm (k + 1) k (by omega) (by omega), a2 k (by omega), a2 (k + 1) h1]
        exact hr.2 k h1 (by omega)
  · rename_i hc
    rw [good_c a1] at hc
    obtain ⟨b1, b2, b3⟩ := gso_swap a1.2 hi
    obtain ⟨c1, c2⟩ := good_fresh b1
    have hso : ∀ k, k ≠ i → k ≠ i + 1 → swapO t.v t.o i k = t.o k := by
      intro k h1 h2
      unfold swapO
      simp [h1, h2]
    refine ⟨c1, (lattice_swap hi).trans a4, ⟨?_, ?_⟩, Or.inr ⟨le_max_right _ _, by omega, ?_, ?_, ?_, ?_⟩⟩
    · intro k l h1 h2 h3
      have hk : k < i := by omega
      rw [gmu_congr (v' := s.v) (o' := s.o)]
      · exact hr.1 k l h1 (by omega) h3
      · show swapCols t.v (i + 1) k = _
        rw [swapCols_eq, if_neg (by omega), if_neg (by omega)]
        exact a3 k (by omega)
      · rw [c2 l (by omega), hso l (by omega) (by omega)]
        exact a2 l (by omega)
    · intro k h1 h2
      have hk : k + 1 < i := by omega
      have e1 : (lllFresh m (swapCols t.v (i + 1))).o k = s.o k := by rw [c2 k (by omega), hso k (by omega) (by omega)]; exact a2 k (by omega)
      have e2 : (lllFresh m (swapCols t.v (i + 1))).o (k + 1) = s.o (k + 1) := by rw [c2 (k + 1) (by omega), hso (k + 1) (by omega) (by omega)]; exact a2 (k + 1) (by omega)
      rw [gmu_congr (v' := s.v) (o' := s.o) _ e1, e1, e2]
      · exact hr.2 k h1 (by omega)
      · show swapCols t.v (i + 1) (k + 1) = _
        rw [swapCols_eq, if_neg (by omega), if_neg (by omega)]
        exact a3 (k + 1) (by omega)
    · intro k h1 h2 h3
      rw [c2 k h1, hso k h2 h3]
      exact a2 k h1
    · rw [c2 i (by omega), b2, ← a2 (i + 1) hi]
      have := a1.2.pos (k := i) (by omega)
      nlinarith [sq_nonneg (gmu t.v t.o (i + 1) i), mul_nonneg (sq_nonneg (gmu t.v t.o (i + 1) i)) this.le]
    · rw [c2 i (by omega), b2, ← a2 i (by omega)]
      linarith
    · rw [c2 i (by omega), c2 (i + 1) hi, b3, a2 i (by omega), a2 (i + 1) hi]

theorem lllLoop_spec {m : Nat} {δ : ℝ} (fuel : Nat) : ∀ (s : LState n) (i : Nat), 1 ≤ i → Good m s → ReducedTo m i δ s.v s.o → ∀ w, lllLoop m δ fuel s i = .done w →
    lattice m w = lattice m s.v ∧ LLLReduced m δ w := by
  induction fuel with
  | zero => intro s i _ _ _ w h; simp [lllLoop] at h
  | succ fuel ih =>
    intro s i h1 hg hr w h
    unfold lllLoop at h
    by_cases hi : i < m
    · rw [if_pos hi] at h
      obtain ⟨j, rfl⟩ : ∃ j, i = j + 1 := ⟨i - 1, by omega⟩
      obtain ⟨g1, g2, g3, g4⟩ := lllStep_spec hi hg hr
      obtain ⟨r1, r2⟩ := ih _ _ (by rcases g4 with g4 | g4 <;> omega) g1 g3 w h
      exact ⟨r1.trans g2, r2⟩
    · rw [if_neg hi] at h
      simp only [Outcome.done.injEq] at h
      subst h
      exact ⟨rfl, s.o, hg.2, fun i j a b => hr.1 i j a (by omega) b, fun i a => hr.2 i a (by omega)⟩

theorem indep_good {m : Nat} {v : Nat → Fin n → ℝ} (h : Indep m v) : Good m (lllFresh m v) := ⟨rfl, gso_code (fun k hk => indep_notMem h hk)⟩

theorem reducedTo_one (m : Nat) (δ : ℝ) (v o : Nat → Fin n → ℝ) : ReducedTo m 1 δ v o := ⟨fun k l _ h1 h2 => by omega, fun k _ h1 => by omega⟩

theorem lllReduce_loop {fuel m : Nat} {v : Nat → Fin n → ℝ} {δ : ℝ} {w : Nat → Fin n → ℝ} (h : lllReduce fuel m v δ = .done w) :
    m ≤ n ∧ 0.25 < δ ∧ δ < 1 ∧ lllLoop m δ fuel (lllFresh m v) 1 = .done w := by
  unfold lllReduce at h
  split at h
  · cases h
  · split at h
    · cases h
    · rename_i h1 h2
      rw [not_not] at h2
      exact ⟨by omega, h2.1, h2.2, h⟩

/-- **C86**: with linearly independent columns, what is returned generates the same lattice, … -/
theorem c86_lattice (fuel m : Nat) (v w : Nat → Fin n → ℝ) (δ : ℝ) (hv : Indep m v) (h : lllReduce fuel m v δ = .done w) : lattice m w = lattice m v :=
  (lllLoop_spec fuel _ 1 le_rfl (indep_good hv) (reducedTo_one m δ _ _) w (lllReduce_loop h).2.2.2).1

/-- … and is LLL-reduced. -/
theorem c86_reduced (fuel m : Nat) (v w : Nat → Fin n → ℝ) (δ : ℝ) (hv : Indep m v) (h : lllReduce fuel m v δ = .done w) : LLLReduced m δ w :=
  (lllLoop_spec fuel _ 1 le_rfl (indep_good hv) (reducedTo_one m δ _ _) w (lllReduce_loop h).2.2.2).2

/-! ### termination -/

/-- the potential: the product of the Gram determinants of the leading parts -/
noncomputable def gramPot (m : Nat) (N : Nat → ℝ) : ℝ := ∏ k ∈ range m, ∏ j ∈ range k, N j

theorem gramPot_lower {m : Nat} {N : Nat → ℝ} {c : ℝ} (hc : 0 < c) (h : ∀ k, k < m → c ≤ N k) : ∏ k ∈ range m, c ^ k ≤ gramPot m N := by
  unfold gramPot
  apply Finset.prod_le_prod
  · intro k _
    positivity
  · intro k hk
    rw [mem_range] at hk
    have : c ^ k = ∏ j ∈ range k, c := by rw [Finset.prod_const, card_range]
    rw [this]
    apply Finset.prod_le_prod
    · intro j _; exact hc.le
    · intro j hj
      rw [mem_range] at hj
      exact h j (by omega)

theorem gramPot_swap {m i : Nat} (hi : i + 1 < m) {N N' : Nat → ℝ} {δ : ℝ} (hpos : ∀ k, k < m → 0 < N k) (hpos' : ∀ k, k < m → 0 < N' k) (h1 : ∀ k, k < m → k ≠ i → k ≠ i + 1 → N' k = N k)
    (h2 : N' i ≤ δ * N i) (h3 : N' i * N' (i + 1) = N i * N (i + 1)) : gramPot m N' ≤ δ * gramPot m N := by
  have hD : ∀ k, k < m → k ≠ i + 1 → ∏ j ∈ range k, N' j = ∏ j ∈ range k, N j := by
    intro k hk hne
    rcases Nat.lt_or_ge k (i + 1) with h5 | h5
    · apply Finset.prod_congr rfl
      intro j hj
      rw [mem_range] at hj
      exact h1 j (by omega) (by omega) (by omega)
    · obtain ⟨r, rfl⟩ : ∃ r, k = i + 2 + r := ⟨k - (i + 2), by omega⟩
      have hsplit : ∀ f : Nat → ℝ, ∏ j ∈ range (i + 2 + r), f j = ((∏ j ∈ range i, f j) * (f i * f (i + 1))) * ∏ x ∈ range r, f (i + 2 + x) := by
        intro f
        rw [Finset.prod_range_add f (i + 2) r, Finset.prod_range_succ, Finset.prod_range_succ, mul_assoc (∏ j ∈ range i, f j)]
      rw [hsplit, hsplit, h3]
      congr 1
      · congr 1
        apply Finset.prod_congr rfl
        intro j hj
        rw [mem_range] at hj
        exact h1 j (by omega) (by omega) (by omega)
      · apply Finset.prod_congr rfl
        intro j hj
        rw [mem_range] at hj
        exact h1 _ (by omega) (by omega) (by omega)
  have hmem : i + 1 ∈ range m := mem_range.mpr hi
  unfold gramPot
  rw [← Finset.mul_prod_erase _ _ hmem, ← Finset.mul_prod_erase _ _ hmem, ← mul_assoc]
  have herase : ∏ k ∈ (range m).erase (i + 1), ∏ j ∈ range k, N' j = ∏ k ∈ (range m).erase (i + 1), ∏ j ∈ range k, N j := by
    apply Finset.prod_congr rfl
    intro k hk
    rw [mem_erase, mem_range] at hk
    exact hD k hk.2 hk.1
  rw [herase]
  apply mul_le_mul_of_nonneg_right
  · rw [Finset.prod_range_succ, Finset.prod_range_succ, hD i (by omega) (by omega)]
    have hp : 0 ≤ ∏ j ∈ range i, N j := Finset.prod_nonneg (fun j hj => (hpos j (by rw [mem_range] at hj; omega)).le)
    calc (∏ j ∈ range i, N j) * N' i ≤ (∏ j ∈ range i, N j) * (δ * N i) := mul_le_mul_of_nonneg_left h2 hp
      _ = δ * ((∏ j ∈ range i, N j) * N i) := by ring
  · apply Finset.prod_nonneg
    intro k hk
    rw [mem_erase, mem_range] at hk
    exact Finset.prod_nonneg (fun j hj => (hpos j (by rw [mem_range] at hj; omega)).le)

theorem lllLoop_ends {m : Nat} {δ c : ℝ} (hδ0 : 0 < δ) (hδ : δ < 1) (hc : 0 < c) : ∀ (N d : Nat) (s : LState n) (i : Nat), 1 ≤ i → m - i ≤ d → Good m s → ReducedTo m i δ s.v s.o →
    (∀ k, k < m → c ≤ s.o k ⬝ᵥ s.o k) → gramPot m (fun k => s.o k ⬝ᵥ s.o k) * δ ^ N < ∏ k ∈ range m, c ^ k → ∃ fuel w, lllLoop m δ fuel s i = .done w := by
  intro N
  induction N with
  | zero =>
    intro d s i h1 _ hg hr hlow hlt
    have := gramPot_lower hc hlow
    rw [pow_zero, mul_one] at hlt
    linarith
  | succ N ihN =>
    intro d
    induction d with
    | zero =>
      intro s i h1 hd hg hr hlow hlt
      refine ⟨1, s.v, ?_⟩
      unfold lllLoop
      rw [if_neg (by omega)]
    | succ d ihd =>
      intro s i h1 hd hg hr hlow hlt
      by_cases hi : i < m
      · obtain ⟨j, rfl⟩ : ∃ j, i = j + 1 := ⟨i - 1, by omega⟩
        obtain ⟨g1, g2, g3, g4⟩ := lllStep_spec hi hg hr
        have fin : (∃ fuel w, lllLoop m δ fuel (lllStep m δ s (j + 1)).1 (lllStep m δ s (j + 1)).2 = .done w) → ∃ fuel w, lllLoop m δ fuel s (j + 1) = .done w := by
          rintro ⟨fuel, w, h⟩
          refine ⟨fuel + 1, w, ?_⟩
          unfold lllLoop
          rw [if_pos hi]
          exact h
        apply fin
        rcases g4 with ⟨e1, e2⟩ | ⟨e1, e2, e3, e4, e5, e6⟩
        · apply ihd _ _ (by omega) (by omega) g1 g3
          · intro k hk
            rw [e2 k hk]
            exact hlow k hk
          · have : gramPot m (fun k => (lllStep m δ s (j + 1)).1.o k ⬝ᵥ (lllStep m δ s (j + 1)).1.o k) = gramPot m (fun k => s.o k ⬝ᵥ s.o k) := by
              unfold gramPot
              apply Finset.prod_congr rfl
              intro k hk
              apply Finset.prod_congr rfl
              intro l hl
              rw [mem_range] at hk hl
              simp only
              rw [e2 l (by omega)]
            rw [this]
            exact hlt
        · have p0 := hg.2.pos (k := j) (by omega)
          have p1 := hg.2.pos (k := j + 1) hi
          have q0 := g1.2.pos (k := j) (by omega)
          have q1 := g1.2.pos (k := j + 1) hi
          apply ihN m _ _ e1 (by omega) g1 g3
          · intro k hk
            by_cases k1 : k = j
            · rw [k1]
              exact (hlow (j + 1) hi).trans e4
            · by_cases k2 : k = j + 1
              · rw [k2]
                refine (hlow (j + 1) hi).trans ?_
                have h6 : (lllStep m δ s (j + 1)).1.o j ⬝ᵥ (lllStep m δ s (j + 1)).1.o j ≤ s.o j ⬝ᵥ s.o j := by nlinarith
                by_contra hcon
                rw [not_le] at hcon
                have : ((lllStep m δ s (j + 1)).1.o j ⬝ᵥ (lllStep m δ s (j + 1)).1.o j) * ((lllStep m δ s (j + 1)).1.o (j + 1) ⬝ᵥ (lllStep m δ s (j + 1)).1.o (j + 1)) <
                    (s.o j ⬝ᵥ s.o j) * (s.o (j + 1) ⬝ᵥ s.o (j + 1)) := mul_lt_mul' h6 hcon q1.le p0
                linarith
              · rw [e3 k hk k1 k2]
                exact hlow k hk
          · have h7 := gramPot_swap hi (N := fun k => s.o k ⬝ᵥ s.o k) (N' := fun k => (lllStep m δ s (j + 1)).1.o k ⬝ᵥ (lllStep m δ s (j + 1)).1.o k) (δ := δ)
              (fun k hk => hg.2.pos hk) (fun k hk => g1.2.pos hk) (fun k h1 h2 h3 => by rw [e3 k h1 h2 h3]) e5 e6
            refine lt_of_le_of_lt ?_ hlt
            calc _ ≤ (δ * gramPot m (fun k => s.o k ⬝ᵥ s.o k)) * δ ^ N := mul_le_mul_of_nonneg_right h7 (by positivity)
              _ = _ := by ring
      · refine ⟨1, s.v, ?_⟩
        unfold lllLoop
        rw [if_neg hi]

/-- **C86**: with linearly independent columns and a valid parameter it ends. -/
theorem c86_ends (m : Nat) (v : Nat → Fin n → ℝ) (δ : ℝ) (hv : Indep m v) (h1 : 0.25 < δ) (h2 : δ < 1) : ∃ fuel w, lllReduce fuel m v δ = .done w := by
  have hmn : m ≤ n := by
    have := LinearIndependent.fintype_card_le_finrank (R := ℝ) (M := Fin n → ℝ) hv
    simpa using this
  have hg := indep_good hv
  have hδ0 : 0 < δ := by norm_num at h1; linarith
  obtain ⟨c, hc, hlow⟩ : ∃ c : ℝ, 0 < c ∧ ∀ k, k < m → c ≤ (lllFresh m v).o k ⬝ᵥ (lllFresh m v).o k := by
    have : ∀ j, j ≤ m → ∃ c : ℝ, 0 < c ∧ ∀ k, k < j → c ≤ (lllFresh m v).o k ⬝ᵥ (lllFresh m v).o k := by
      intro j
      induction j with
      | zero => intro _; exact ⟨1, one_pos, fun k hk => by omega⟩
      | succ j ih =>
        intro hj
        obtain ⟨c, c1, c2⟩ := ih (by omega)
        refine ⟨min c ((lllFresh m v).o j ⬝ᵥ (lllFresh m v).o j), lt_min c1 (hg.2.pos (by omega)), ?_⟩
        intro k hk
        by_cases e : k = j
        · rw [e]; exact min_le_right _ _
        · exact (min_le_left _ _).trans (c2 k (by omega))
    exact this m le_rfl
  obtain ⟨N, hN⟩ : ∃ N : Nat, gramPot m (fun k => (lllFresh m v).o k ⬝ᵥ (lllFresh m v).o k) * δ ^ N < ∏ k ∈ range m, c ^ k := by
    have hK : 0 < ∏ k ∈ range m, c ^ k := Finset.prod_pos (fun k _ => by positivity)
    have hP : 0 < gramPot m (fun k => (lllFresh m v).o k ⬝ᵥ (lllFresh m v).o k) := lt_of_lt_of_le hK (gramPot_lower hc hlow)
    obtain ⟨N, hN⟩ := exists_pow_lt_of_lt_one (div_pos hK hP) h2
    refine ⟨N, ?_⟩
    rw [lt_div_iff₀ hP] at hN
    linarith
  obtain ⟨fuel, w, h⟩ := lllLoop_ends hδ0 h2 hc N m (lllFresh m v) 1 le_rfl (by omega) hg (reducedTo_one m δ _ _) hlow hN
  refine ⟨fuel, w, ?_⟩
  unfold lllReduce
  rw [if_neg (by omega), if_neg (by rw [not_not]; exact ⟨h1, h2⟩)]
  exact h

/-- the checks: it panics exactly with more columns than rows or a parameter outside `(0.25, 1)` -/
theorem c86_panics (fuel m : Nat) (v : Nat → Fin n → ℝ) (δ : ℝ) : lllReduce fuel m v δ = .panic ↔ n < m ∨ ¬ (0.25 < δ ∧ δ < 1) := by
  have hnp : ∀ fuel (s : LState n) i, lllLoop m δ fuel s i ≠ .panic := by
    intro fuel
    induction fuel with
    | zero => intro s i; simp [lllLoop]
    | succ fuel ih =>
      intro s i
      unfold lllLoop
      split
      · exact ih _ _
      · simp
  unfold lllReduce
  by_cases h1 : n < m
  · simp [h1]
  · rw [if_neg h1]
    by_cases h2 : ¬ (0.25 < δ ∧ δ < 1)
    · rw [if_pos h2]
      simp [h2]
    · rw [if_neg h2]
      constructor
      · intro h; exact absurd h (hnp _ _ _)
      · rintro (h | h)
        · exact absurd h h1
        · exact absurd h h2

/-! ### the first column is short -/

/-- a lattice vector is an integer combination -/
theorem lattice_comb {m : Nat} {v : Nat → Fin n → ℝ} {x : Fin n → ℝ} (h : x ∈ lattice m v) : ∃ z : Nat → ℤ, x = ∑ k ∈ range m, (z k : ℝ) • v k := by
  unfold lattice at h
  induction h using AddSubgroup.closure_induction with
  | mem x hx =>
    obtain ⟨l, hl, rfl⟩ := hx
    have hl : l < m := hl
    refine ⟨fun k => if k = l then 1 else 0, ?_⟩
    rw [Finset.sum_eq_single l]
    · simp
    · intro b _ hb; simp [hb]
    · intro hb; exact absurd (mem_range.mpr hl) hb
  | zero => exact ⟨fun _ => 0, by simp⟩
  | add x y _ _ hx hy =>
    obtain ⟨a, rfl⟩ := hx
    obtain ⟨b, rfl⟩ := hy
    refine ⟨fun k => a k + b k, ?_⟩
    rw [← Finset.sum_add_distrib]
    apply Finset.sum_congr rfl
    intro k _
    push_cast
    rw [add_smul]
  | neg x _ hx =>
    obtain ⟨a, rfl⟩ := hx
    refine ⟨fun k => - a k, ?_⟩
    rw [← Finset.sum_neg_distrib]
    apply Finset.sum_congr rfl
    intro k _
    push_cast
    rw [neg_smul]

/-- a non-zero lattice vector is at least as long as one of the orthogonalised columns -/
theorem lattice_long {m : Nat} {v o : Nat → Fin n → ℝ} (h : GSO m v o) {x : Fin n → ℝ} (hx : x ∈ lattice m v) (h0 : x ≠ 0) : ∃ k, k < m ∧ o k ⬝ᵥ o k ≤ x ⬝ᵥ x := by
  classical
  obtain ⟨z, hz⟩ := lattice_comb hx
  have hne : ((range m).filter (fun k => z k ≠ 0)).Nonempty := by
    by_contra hc
    rw [Finset.not_nonempty_iff_eq_empty, Finset.filter_eq_empty_iff] at hc
    apply h0
    rw [hz]
    apply Finset.sum_eq_zero
    intro k hk
    have := hc hk
    rw [not_not] at this
    rw [this]
    simp
  set k := ((range m).filter (fun k => z k ≠ 0)).max' hne with hk
  have hmem := Finset.max'_mem _ hne
  rw [← hk, mem_filter, mem_range] at hmem
  have hmax : ∀ l, l < m → k < l → z l = 0 := by
    intro l h1 h2
    by_contra h3
    have h4 : l ∈ (range m).filter (fun k => z k ≠ 0) := mem_filter.mpr ⟨mem_range.mpr h1, h3⟩
    have := Finset.le_max' _ l h4
    omega
  refine ⟨k, hmem.1, ?_⟩
  have hp := h.pos hmem.1
  have hdot : x ⬝ᵥ o k = z k * (o k ⬝ᵥ o k) := by
    rw [hz, sum_dotProduct, Finset.sum_eq_single k]
    · rw [smul_dotProduct, h.dot_self hmem.1, smul_eq_mul]
    · intro l hl hlk
      rw [mem_range] at hl
      rw [smul_dotProduct]
      rcases lt_or_gt_of_ne hlk with h1 | h1
      · rw [h.dot_high hmem.1 h1, smul_zero]
      · rw [hmax l hl h1]; simp
    · intro hb
      exact absurd (mem_range.mpr hmem.1) hb
  have hz1 : (1 : ℝ) ≤ (z k : ℝ) ^ 2 := by
    have : (1 : ℤ) ≤ z k ^ 2 := by
      have := sq_pos_of_ne_zero hmem.2
      omega
    exact_mod_cast this
  -- Cauchy-Schwarz: the component along `o k`
  have hcs : 0 ≤ (x - (z k : ℝ) • o k) ⬝ᵥ (x - (z k : ℝ) • o k) := by
    simp only [dotProduct]
    exact sum_nonneg fun i _ => mul_self_nonneg _
  rw [sub_dotProduct, dotProduct_sub, dotProduct_sub, smul_dotProduct, dotProduct_smul, smul_dotProduct, dotProduct_smul, dotProduct_comm (o k) x, hdot] at hcs
  simp only [smul_eq_mul] at hcs
  nlinarith

/-- **C86**, what the user is after: the first column returned is short — its square length is at most `1/(δ - 1/4)^(m-1)` times that of any non-zero vector of the lattice. -/
theorem c86_short (fuel m : Nat) (hm : 0 < m) (v w : Nat → Fin n → ℝ) (δ : ℝ) (hv : Indep m v) (h : lllReduce fuel m v δ = .done w) (x : Fin n → ℝ) (hx : x ∈ lattice m v) (h0 : x ≠ 0) :
    (δ - 1 / 4) ^ (m - 1) * (w 0 ⬝ᵥ w 0) ≤ x ⬝ᵥ x := by
  obtain ⟨-, hδ, hδ1, -⟩ := lllReduce_loop h
  obtain ⟨o, g1, g2, g3⟩ := c86_reduced fuel m v w δ hv h
  rw [← c86_lattice fuel m v w δ hv h] at hx
  obtain ⟨k, hk, hlow⟩ := lattice_long g1 hx h0
  have hα : 0 < δ - 1 / 4 := by norm_num at hδ; linarith
  have hα1 : δ - 1 / 4 < 1 := by linarith
  have hw0 : w 0 = o 0 := by
    have := g1.resid 0 hm
    have he : o '' {l | l < 0} = ∅ := by
      rw [Set.image_eq_empty]
      ext l
      simp
    rw [he, Submodule.span_empty, Submodule.mem_bot, sub_eq_zero] at this
    exact this
  have hchain : ∀ k, k < m → (δ - 1 / 4) ^ k * (o 0 ⬝ᵥ o 0) ≤ o k ⬝ᵥ o k := by
    intro k
    induction k with
    | zero => intro _; rw [pow_zero, one_mul]
    | succ k ih =>
      intro hk
      have h1 := ih (by omega)
      have h2 := g3 k hk
      have h3 := abs_le.mp (g2 (k + 1) k hk (by omega))
      have h4 : gmu w o (k + 1) k ^ 2 ≤ 1 / 4 := by nlinarith
      have h5 := g1.pos (k := k) (by omega)
      have h6 : (δ - 1 / 4) * (o k ⬝ᵥ o k) ≤ (δ - gmu w o (k + 1) k ^ 2) * (o k ⬝ᵥ o k) := mul_le_mul_of_nonneg_right (by linarith) h5.le
      calc (δ - 1 / 4) ^ (k + 1) * (o 0 ⬝ᵥ o 0) = (δ - 1 / 4) * ((δ - 1 / 4) ^ k * (o 0 ⬝ᵥ o 0)) := by ring
        _ ≤ (δ - 1 / 4) * (o k ⬝ᵥ o k) := mul_le_mul_of_nonneg_left h1 hα.le
        _ ≤ _ := by linarith
  rw [hw0]
  have h0p := g1.pos (k := 0) hm
  calc (δ - 1 / 4) ^ (m - 1) * (o 0 ⬝ᵥ o 0) ≤ (δ - 1 / 4) ^ k * (o 0 ⬝ᵥ o 0) :=
        mul_le_mul_of_nonneg_right (pow_le_pow_of_le_one hα.le hα1.le (by omega)) h0p.le
    _ ≤ o k ⬝ᵥ o k := hchain k hk
    _ ≤ x ⬝ᵥ x := hlow

/-- A concrete case: the columns `(2, 0)`, `(5, 1)` with `δ = 3/4`; `c86_ends` applies, and the first column returned has square length at most `2 · 2`. -/
def exLat : Nat → Fin 2 → ℝ := fun k => if k = 0 then ![2, 0] else ![5, 1]

theorem exLat_indep : Indep 2 exLat := by
  unfold Indep
  rw [Fintype.linearIndependent_iff]
  intro g hg
  rw [Fin.sum_univ_two] at hg
  have h0 := congrFun hg 0
  have h1 := congrFun hg 1
  simp [exLat] at h0 h1
  intro i
  fin_cases i
  · simp only [Fin.zero_eta]
    rw [h1] at h0
    linarith
  · exact h1

example : ∃ fuel w, lllReduce fuel 2 exLat (3 / 4) = .done w ∧ (1 / 2) * (w 0 ⬝ᵥ w 0) ≤ 2 := by
  obtain ⟨fuel, w, h⟩ := c86_ends 2 exLat (3 / 4) exLat_indep (by norm_num) (by norm_num)
  refine ⟨fuel, w, h, ?_⟩
  have hx : exLat 1 - exLat 0 - exLat 0 ∈ lattice 2 exLat := by
    have m0 : exLat 0 ∈ lattice 2 exLat := AddSubgroup.subset_closure ⟨0, by show 0 < 2; omega, rfl⟩
    have m1 : exLat 1 ∈ lattice 2 exLat := AddSubgroup.subset_closure ⟨1, by show 1 < 2; omega, rfl⟩
    exact AddSubgroup.sub_mem _ (AddSubgroup.sub_mem _ m1 m0) m0
  have hv : exLat 1 - exLat 0 - exLat 0 = ![1, 1] := by
    funext i
    fin_cases i <;> norm_num [exLat]
  have := c86_short fuel 2 (by omega) exLat w (3 / 4) exLat_indep h _ hx (by
    rw [hv]
    intro h0
    have := congrFun h0 0
    simp at this)
  rw [hv] at this
  norm_num [dotProduct, Fin.sum_univ_two] at this ⊢
  linarith

end Toppo.RealAlg
