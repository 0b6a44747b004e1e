import Verif.Proof.FloatLU
set_option linter.unusedVariables false

/-!
Square roots, order and absolute values of `f64`.
-/
namespace Toppo.F64

section
variable {K : Type} [Field K] [LinearOrder K] [IsStrictOrderedRing K] [FloorRing K]

theorem eta_le_u {x : K} (h : (2 : K) ^ (-1022 : ℤ) ≤ x) : (eta : K) ≤ (u : K) * x := by
  have e : (eta : K) = (u : K) * 2 ^ (-1022 : ℤ) := by
    rw [eta_cast, u_cast, ← zpow_add₀ (by norm_num)]; norm_num
  rw [e]
  exact mul_le_mul_of_nonneg_left h (by exact_mod_cast u_pos.le)

/-- rounding in the range of the normal numbers -/
theorem rnd_normal {x : K} (h : (2 : K) ^ (-1022 : ℤ) ≤ x) : ((rnd x : ℚ) : K) ≤ (1 + (u : K)) * x ∧ x ≤ (1 + (u : K)) * ((rnd x : ℚ) : K) := by
  have hp := two_zpow_pos (K := K) (-1022)
  have hx : 0 < x := lt_of_lt_of_le hp h
  have hr : (2 : K) ^ (-1022 : ℤ) ≤ ((rnd x : ℚ) : K) := by
    have h1 := rnd_mono hp h
    have h2 : ((rnd ((2 : K) ^ (-1022 : ℤ)) : ℚ) : K) = 2 ^ (-1022 : ℤ) :=
      rnd_fixed ⟨1, -1022, by norm_num, by norm_num, by simp⟩ hp
    rw [← h2]
    exact_mod_cast h1
  constructor
  · have h1 : |((rnd x : ℚ) : K) - x| ≤ (u : K) * x := by
      rcases rnd_err_cases hx with h1 | ⟨-, h1⟩
      · exact h1
      · exact h1.trans (eta_le_u h)
    have := le_of_abs_le h1
    linarith
  · have h1 : |((rnd x : ℚ) : K) - x| ≤ (u : K) * ((rnd x : ℚ) : K) := by
      rcases rnd_err_cases' hx with h1 | ⟨-, h1⟩
      · exact h1
      · exact h1.trans (eta_le_u hr)
    have := neg_le_of_abs_le h1
    linarith

end

theorem rep_lt {s : Bool} {m : ℚ} (h : Rep (num s m)) : m < 2 ^ 1024 := by
  obtain ⟨k, e, h1, h2, h3, h4⟩ := h
  rw [h4]
  have a1 : (k : ℚ) < 2 ^ 53 := by exact_mod_cast h1
  have a2 : (2 : ℚ) ^ e ≤ 2 ^ 971 := by
    rw [← zpow_natCast]
    exact zpow_le_zpow_right₀ (by norm_num) (by push_cast; exact h3)
  calc (k : ℚ) * 2 ^ e < 2 ^ 53 * 2 ^ e := mul_lt_mul_of_pos_right a1 (two_zpow_pos e)
    _ ≤ 2 ^ 53 * 2 ^ 971 := mul_le_mul_of_nonneg_left a2 (by positivity)
    _ = 2 ^ 1024 := by rw [← pow_add]

theorem rep_ge {s : Bool} {m : ℚ} (h : Rep (num s m)) (h0 : m ≠ 0) : (2 : ℚ) ^ (-1074 : ℤ) ≤ m := by
  obtain ⟨k, e, h1, h2, h3, h4⟩ := h
  have hk : k ≠ 0 := by rintro rfl; apply h0; rw [h4]; simp
  have a1 : (1 : ℚ) ≤ k := by exact_mod_cast Nat.one_le_iff_ne_zero.mpr hk
  rw [h4]
  calc (2 : ℚ) ^ (-1074 : ℤ) ≤ 2 ^ e := zpow_le_zpow_right₀ (by norm_num) h2
    _ ≤ k * 2 ^ e := le_mul_of_one_le_left (two_zpow_pos e).le a1

/-- `sqrt` of a number that is not negative -/
theorem sqrt_spec {x : F64} (hr : Rep x) (hf : x.isFinite = true) (h0 : 0 ≤ val x) : (sqrt x).isFinite = true ∧ Rep (sqrt x) ∧ 0 ≤ val (sqrt x) ∧
    val (sqrt x) ^ 2 ≤ (1 + u) ^ 2 * val x ∧ val x ≤ (1 + u) ^ 2 * val (sqrt x) ^ 2 := by
  obtain ⟨s, m, rfl⟩ := fin_iff.mp hf
  simp only [sqrt]
  split_ifs with h1 h2
  · subst h1
    have : val (num s 0) = 0 := by rw [val_num]; split <;> simp
    rw [this]
    exact ⟨rfl, rep_zero s, le_rfl, by norm_num, by norm_num⟩
  · exfalso
    subst h2
    have : val (num true m) = -m := rfl
    rw [this] at h0
    have := rep_nonneg hr
    exact h1 (by linarith)
  · have hs : s = false := by cases s <;> simp at h2 ⊢
    subst hs
    have hm := rep_nonneg hr
    have hmpos : (0 : ℝ) < (m : ℝ) := by exact_mod_cast lt_of_le_of_ne hm (Ne.symm h1)
    have hsq : (2 : ℝ) ^ (-537 : ℤ) ≤ Real.sqrt m := by
      refine Real.le_sqrt_of_sq_le ?_
      rw [← zpow_natCast, ← zpow_mul]
      have := rep_ge hr h1
      have h3 : (((2 : ℚ) ^ (-1074 : ℤ) : ℚ) : ℝ) ≤ (m : ℝ) := by exact_mod_cast this
      push_cast at h3
      norm_num at h3 ⊢
      exact h3
    have hpos : 0 < Real.sqrt m := Real.sqrt_pos.mpr hmpos
    have hn : (2 : ℝ) ^ (-1022 : ℤ) ≤ Real.sqrt m := (zpow_le_zpow_right₀ (by norm_num) (by norm_num)).trans hsq
    obtain ⟨n1, n2⟩ := rnd_normal hn
    have hlt : rnd (Real.sqrt m) < 2 ^ 1024 := by
      have h3 : Real.sqrt m ≤ 2 ^ (512 : ℤ) := by
        refine Real.sqrt_le_iff.mpr ⟨(two_zpow_pos _).le, ?_⟩
        have h4 : ((m : ℚ) : ℝ) < ((2 ^ 1024 : ℚ) : ℝ) := by exact_mod_cast rep_lt hr
        push_cast at h4
        have e : ((2 : ℝ) ^ (512 : ℤ)) ^ 2 = 2 ^ 1024 := by
          rw [← zpow_natCast, ← zpow_mul, ← zpow_natCast]; norm_num
        rw [e]; exact h4.le
      have h5 := rnd_mono hpos h3
      have h6 : ((rnd ((2 : ℝ) ^ (512 : ℤ)) : ℚ) : ℝ) = 2 ^ (512 : ℤ) :=
        rnd_fixed ⟨1, 512, by norm_num, by norm_num, by simp⟩ (two_zpow_pos _)
      have h7 : ((rnd (Real.sqrt m) : ℚ) : ℝ) ≤ 2 ^ (512 : ℤ) := by rw [← h6]; exact_mod_cast h5
      have h8 : (2 : ℝ) ^ (512 : ℤ) < ((2 ^ 1024 : ℚ) : ℝ) := by
        push_cast
        rw [← zpow_natCast]
        exact zpow_lt_zpow_right₀ (by norm_num) (by norm_num)
      exact_mod_cast lt_of_le_of_lt h7 h8
    have hr0 := rnd_nonneg hpos
    refine ⟨rfl, rep_of_repM ?_ hlt, hr0, ?_, ?_⟩
    · obtain ⟨k, e, a, b, c⟩ := rnd_rep hpos
      exact ⟨k, e, a, b, by simpa using c⟩
    · have e1 : val (num false m) = m := rfl
      have e2 : val (num false (rnd (Real.sqrt m))) = rnd (Real.sqrt m) := rfl
      rw [e1, e2]
      have : ((rnd (Real.sqrt m) : ℚ) : ℝ) ^ 2 ≤ ((1 + (u : ℝ)) * Real.sqrt m) ^ 2 := pow_le_pow_left₀ (by exact_mod_cast hr0) n1 2
      rw [mul_pow, Real.sq_sqrt hmpos.le] at this
      exact_mod_cast this
    · have e1 : val (num false m) = m := rfl
      have e2 : val (num false (rnd (Real.sqrt m))) = rnd (Real.sqrt m) := rfl
      rw [e1, e2]
      have := pow_le_pow_left₀ hpos.le n2 2
      rw [mul_pow, Real.sq_sqrt hmpos.le] at this
      exact_mod_cast this

/-- a result in the range of the normal numbers -/
theorem ofExact_normal {s : Bool} {x : ℚ} (h : (2 : ℚ) ^ (-1022 : ℤ) ≤ x) (hf : (ofExact s x).isFinite = true) :
    val (ofExact s x) ≤ (1 + u) * x ∧ x ≤ (1 + u) * val (ofExact s x) := by
  have hx : 0 < x := lt_of_lt_of_le (two_zpow_pos _) h
  have h1 := rnd_normal h
  unfold ofExact at *
  rw [if_neg hx.ne'] at *
  split_ifs at * with h2
  · cases hf
  · rw [decide_eq_false (not_lt.mpr hx.le), abs_of_pos hx, val]
    simpa using h1

/-! ### absolute values and comparisons -/

theorem abs_finite (x : F64) : x.abs.isFinite = x.isFinite := by cases x <;> rfl

theorem val_abs {x : F64} (h : Rep x) : val x.abs = |val x| := by
  cases x with
  | nan => simp [abs, val]
  | inf s => simp [abs, val]
  | num s m => rw [abs_val_num s (rep_nonneg h)]; rfl

theorem rep_abs {x : F64} (h : Rep x) : Rep x.abs := by
  cases x with
  | nan => trivial
  | inf s => trivial
  | num s m => exact h

theorem lt_fin {x y : F64} (hx : x.isFinite = true) (hy : y.isFinite = true) : x.lt y = true ↔ val x < val y := by
  obtain ⟨s, m, rfl⟩ := fin_iff.mp hx
  obtain ⟨t, n, rfl⟩ := fin_iff.mp hy
  simp [lt]

theorem le_fin {x y : F64} (hx : x.isFinite = true) (hy : y.isFinite = true) : x.le y = true ↔ val x ≤ val y := by
  obtain ⟨s, m, rfl⟩ := fin_iff.mp hx
  obtain ⟨t, n, rfl⟩ := fin_iff.mp hy
  simp [le]

end Toppo.F64
