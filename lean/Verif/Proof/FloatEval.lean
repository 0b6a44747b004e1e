import Verif.Proof.FloatSqrt
import Mathlib.Data.Nat.Sqrt
set_option linter.unusedVariables false

/-!
An executable form of the square root of `f64`, for evaluating closed terms.
-/
namespace Toppo.F64

/-- the rounded square root of a rational number, by an integer square root -/
def sqrtRnd (m : ℚ) : ℚ :=
  let e := max (Int.log 2 m / 2 - 52) (-1074)
  let y := m / 2 ^ (2 * e)
  let n := Nat.sqrt ⌊y⌋₊
  let k : ℕ := if y < ((n : ℚ) + 1 / 2) ^ 2 then n else if ((n : ℚ) + 1 / 2) ^ 2 < y then n + 1 else if n % 2 = 0 then n else n + 1
  k * 2 ^ e

/-- `sqrt`, executable -/
def sqrtC : F64 → F64
  | nan => nan
  | inf s => if s then nan else inf false
  | num s m => if m = 0 then num s 0 else if s then nan else num false (if 0 < m then sqrtRnd m else 0)

theorem log_sqrt {m : ℚ} (hm : 0 < m) : Int.log 2 (Real.sqrt (m : ℝ)) = Int.log 2 m / 2 := by
  have hmR : (0 : ℝ) < m := by exact_mod_cast hm
  have hs := Real.sqrt_pos.mpr hmR
  have h1 : ((2 : ℚ) ^ Int.log 2 m) ≤ m := log_le hm
  have h2 : m < 2 ^ (Int.log 2 m + 1) := lt_log hm
  set L := Int.log 2 m
  have h1' : ((2 : ℝ) ^ L) ≤ m := by
    have : (((2 : ℚ) ^ L : ℚ) : ℝ) ≤ m := by exact_mod_cast h1
    push_cast at this; exact this
  have h2' : (m : ℝ) < 2 ^ (L + 1) := by
    have : (m : ℝ) < (((2 : ℚ) ^ (L + 1) : ℚ) : ℝ) := by exact_mod_cast h2
    push_cast at this; exact this
  have e : ∀ z : ℤ, ((2 : ℝ) ^ z) ^ 2 = 2 ^ (2 * z) := fun z => by rw [two_mul, zpow_add₀ (by norm_num), sq]
  apply le_antisymm
  · have : Int.log 2 (Real.sqrt (m : ℝ)) < L / 2 + 1 := by
      rw [← Int.lt_zpow_iff_log_lt (by norm_num) hs]
      push_cast
      rw [Real.sqrt_lt' (two_zpow_pos _), e]
      exact lt_of_lt_of_le h2' (zpow_le_zpow_right₀ (by norm_num) (by omega))
    omega
  · rw [← Int.zpow_le_iff_le_log (by norm_num) hs]
    push_cast
    refine Real.le_sqrt_of_sq_le ?_
    rw [e]
    exact le_trans (zpow_le_zpow_right₀ (by norm_num) (by omega)) h1'

theorem rnd_sqrt {m : ℚ} (hm : 0 < m) : rnd (Real.sqrt (m : ℝ)) = sqrtRnd m := by
  have hmR : (0 : ℝ) < m := by exact_mod_cast hm
  have hs := Real.sqrt_pos.mpr hmR
  unfold rnd sqrtRnd
  have he : expo (Real.sqrt (m : ℝ)) = max (Int.log 2 m / 2 - 52) (-1074) := by unfold expo; rw [log_sqrt hm]
  rw [he]
  set e := max (Int.log 2 m / 2 - 52) (-1074)
  simp only
  have hp := two_zpow_pos (K := ℝ) e
  set Y := Real.sqrt (m : ℝ) / 2 ^ e with hY
  set y : ℚ := m / 2 ^ (2 * e) with hy
  have hY0 : 0 < Y := div_pos hs hp
  have hyY : (y : ℝ) = Y ^ 2 := by
    rw [hY, div_pow, Real.sq_sqrt hmR.le, hy]
    push_cast
    rw [two_mul, zpow_add₀ (by norm_num), sq]
  have hy0 : 0 < y := div_pos hm (two_zpow_pos _)
  set n := Nat.sqrt ⌊y⌋₊ with hn
  have n1 : (n : ℝ) ^ 2 ≤ Y ^ 2 := by
    rw [← hyY]
    have h1 : n * n ≤ ⌊y⌋₊ := Nat.sqrt_le _
    have h2 : ((⌊y⌋₊ : ℕ) : ℚ) ≤ y := Nat.floor_le hy0.le
    have h3 : ((n * n : ℕ) : ℚ) ≤ y := le_trans (by exact_mod_cast h1) h2
    have h4 : (((n * n : ℕ) : ℚ) : ℝ) ≤ (y : ℝ) := by exact_mod_cast h3
    push_cast at h4
    rw [sq]; exact h4
  have n2 : Y ^ 2 < ((n : ℝ) + 1) ^ 2 := by
    rw [← hyY]
    have h1 : ⌊y⌋₊ < (n + 1) * (n + 1) := Nat.lt_succ_sqrt _
    have h2 : y < (⌊y⌋₊ : ℕ) + 1 := Nat.lt_floor_add_one y
    have h3 : y < (((n + 1) * (n + 1) : ℕ) : ℚ) := lt_of_lt_of_le h2 (by exact_mod_cast h1)
    have h4 : (y : ℝ) < ((((n + 1) * (n + 1) : ℕ) : ℚ) : ℝ) := by exact_mod_cast h3
    push_cast at h4
    rw [sq]; exact h4
  have n1' : (n : ℝ) ≤ Y := (abs_le_of_sq_le_sq' n1 hY0.le).2
  have n2' : Y < (n : ℝ) + 1 := by
    have := abs_lt_of_sq_lt_sq n2 (by positivity)
    exact lt_of_le_of_lt (le_abs_self _) this
  have hfl : ⌊Y⌋ = (n : ℤ) := by
    rw [Int.floor_eq_iff]; push_cast; exact ⟨n1', n2'⟩
  have c1 : (Y - ((⌊Y⌋ : ℤ) : ℝ) < 1 / 2) ↔ y < ((n : ℚ) + 1 / 2) ^ 2 := by
    rw [hfl]
    have : y < ((n : ℚ) + 1 / 2) ^ 2 ↔ (y : ℝ) < (((n : ℚ) + 1 / 2 : ℚ) : ℝ) ^ 2 := by
      rw [← Rat.cast_pow, Rat.cast_lt]
    rw [this, hyY]
    push_cast
    constructor
    · intro h; exact pow_lt_pow_left₀ (by linarith) hY0.le (by norm_num)
    · intro h
      have := lt_of_le_of_lt (le_abs_self _) (abs_lt_of_sq_lt_sq h (by positivity))
      linarith
  have c2 : (1 / 2 < Y - ((⌊Y⌋ : ℤ) : ℝ)) ↔ ((n : ℚ) + 1 / 2) ^ 2 < y := by
    rw [hfl]
    have : ((n : ℚ) + 1 / 2) ^ 2 < y ↔ (((n : ℚ) + 1 / 2 : ℚ) : ℝ) ^ 2 < (y : ℝ) := by
      rw [← Rat.cast_pow, Rat.cast_lt]
    rw [this, hyY]
    push_cast
    constructor
    · intro h; exact pow_lt_pow_left₀ (by linarith) (by positivity) (by norm_num)
    · intro h
      have := lt_of_le_of_lt (le_abs_self _) (abs_lt_of_sq_lt_sq h hY0.le)
      linarith
  have key : roundEven Y = (((if y < ((n : ℚ) + 1 / 2) ^ 2 then n else if ((n : ℚ) + 1 / 2) ^ 2 < y then n + 1 else if n % 2 = 0 then n else n + 1 : ℕ)) : ℤ) := by
    unfold roundEven
    by_cases h1 : y < ((n : ℚ) + 1 / 2) ^ 2
    · rw [if_pos (c1.mpr h1), if_pos h1, hfl]
    · rw [if_neg (fun h => h1 (c1.mp h)), if_neg h1]
      by_cases h2 : ((n : ℚ) + 1 / 2) ^ 2 < y
      · rw [if_pos (c2.mpr h2), if_pos h2, hfl]; push_cast; rfl
      · rw [if_neg (fun h => h2 (c2.mp h)), if_neg h2, hfl]
        by_cases h3 : n % 2 = 0
        · rw [if_pos (by omega), if_pos h3]
        · rw [if_neg (by omega), if_neg h3]; push_cast; rfl
  rw [key]
  push_cast
  rfl

theorem sqrt_eq : sqrt = sqrtC := by
  funext x
  cases x with
  | nan => rfl
  | inf s => rfl
  | num s m =>
    simp only [sqrt, sqrtC]
    split_ifs with h1 h2 h3
    · rfl
    · rfl
    · rw [rnd_sqrt h3]
    · have : Real.sqrt (m : ℝ) = 0 := Real.sqrt_eq_zero_of_nonpos (by exact_mod_cast not_lt.mp h3)
      rw [this]
      congr 1
      unfold rnd
      rw [zero_div]
      have : roundEven (0 : ℝ) = 0 := by have := roundEven_int (K := ℝ) 0; simpa using this
      rw [this]; simp

example : sqrtC (num false 2) = num false (6369051672525773 / 2 ^ 52) := by decide +kernel

end Toppo.F64
