import Verif.Model.Float64
import Mathlib.Tactic
set_option linter.unusedVariables false
set_option linter.unusedSectionVars false

/-!
Rounding of `f64`: the result is a nearest representable number; error bounds of the operations.
-/
namespace Toppo.F64

section rounding
variable {K : Type} [Field K] [LinearOrder K] [IsStrictOrderedRing K] [FloorRing K]

theorem roundEven_err (y : K) : |(roundEven y : K) - y| ≤ 1 / 2 := by
  have h1 := Int.floor_le y
  have h2 := Int.lt_floor_add_one y
  unfold roundEven
  split_ifs with a b c <;> push_cast <;> rw [abs_le] <;> constructor <;> linarith

theorem roundEven_int (k : ℤ) : roundEven (k : K) = k := by
  unfold roundEven
  rw [Int.floor_intCast, sub_self, if_pos (by norm_num)]

/-- no integer is nearer -/
theorem roundEven_nearest (y : K) (k : ℤ) : |(roundEven y : K) - y| ≤ |(k : K) - y| := by
  have h1 := Int.floor_le y
  have h2 := Int.lt_floor_add_one y
  rcases le_or_gt k ⌊y⌋ with h | h
  · have hk : (k : K) ≤ ⌊y⌋ := by exact_mod_cast h
    have e : |(k : K) - y| = y - k := by rw [abs_sub_comm, abs_of_nonneg (by linarith)]
    rw [e]
    unfold roundEven
    split_ifs with a b c <;> push_cast <;> rw [abs_le] <;> constructor <;> linarith
  · have hk : (⌊y⌋ : K) + 1 ≤ k := by exact_mod_cast h
    have e : |(k : K) - y| = k - y := abs_of_nonneg (by linarith)
    rw [e]
    unfold roundEven
    split_ifs with a b c <;> push_cast <;> rw [abs_le] <;> constructor <;> linarith

theorem roundEven_mono {x y : K} (h : x ≤ y) : roundEven x ≤ roundEven y := by
  by_contra hlt
  push Not at hlt
  have h1 : (roundEven y : K) + 1 ≤ roundEven x := by exact_mod_cast hlt
  have a := roundEven_err x
  have b := roundEven_err y
  rw [abs_le] at a b
  have hxy : x = y := by linarith [a.1, a.2, b.1, b.2]
  subst hxy
  exact lt_irrefl _ hlt

theorem roundEven_nonneg {y : K} (h : 0 ≤ y) : 0 ≤ roundEven y := by
  have := roundEven_mono h
  rwa [show (0 : K) = ((0 : ℤ) : K) by simp, roundEven_int] at this

/-! ### rounding a positive number -/

theorem log_le {x : K} (hx : 0 < x) : (2 : K) ^ (Int.log 2 x) ≤ x := by
  have := Int.zpow_log_le_self (b := 2) (by norm_num) hx
  exact_mod_cast this

theorem lt_log {x : K} (x_pos : 0 < x) : x < (2 : K) ^ (Int.log 2 x + 1) := by
  have := Int.lt_zpow_succ_log_self (b := 2) (by norm_num) x
  exact_mod_cast this

theorem two_zpow_pos (e : ℤ) : (0 : K) < 2 ^ e := zpow_pos (by norm_num) e

theorem log_le_expo (x : K) : Int.log 2 x - 52 ≤ expo x := le_max_left _ _
theorem expo_ge (x : K) : -1074 ≤ expo x := le_max_right _ _

theorem mant_lt {x : K} (hx : 0 < x) : x / 2 ^ expo x < 2 ^ 53 := by
  rw [div_lt_iff₀ (two_zpow_pos _)]
  refine lt_of_lt_of_le (lt_log hx) ?_
  have : (2 : K) ^ 53 * 2 ^ expo x = 2 ^ (53 + expo x) := by
    rw [zpow_add₀ (by norm_num)]; norm_cast
  rw [this]
  exact zpow_le_zpow_right₀ (by norm_num) (by have := log_le_expo x; omega)

theorem mant_le {x : K} (hx : 0 < x) : roundEven (x / 2 ^ expo x) ≤ 2 ^ 53 := by
  have := roundEven_mono (mant_lt hx).le
  rwa [show (2 : K) ^ 53 = ((2 ^ 53 : ℤ) : K) by norm_num, roundEven_int] at this

theorem rnd_cast (x : K) : ((rnd x : ℚ) : K) = (roundEven (x / 2 ^ expo x) : K) * 2 ^ expo x := by
  unfold rnd; push_cast; rfl

theorem rnd_nonneg {x : K} (hx : 0 < x) : 0 ≤ rnd x :=
  mul_nonneg (by exact_mod_cast roundEven_nonneg (div_pos hx (two_zpow_pos _)).le) (zpow_pos (by norm_num) _).le

theorem rnd_err_ulp {x : K} (hx : 0 < x) : |((rnd x : ℚ) : K) - x| ≤ 2 ^ expo x / 2 := by
  have hp := two_zpow_pos (K := K) (expo x)
  have h := roundEven_err (x / 2 ^ expo x)
  rw [rnd_cast]
  have e : (roundEven (x / 2 ^ expo x) : K) * 2 ^ expo x - x = ((roundEven (x / 2 ^ expo x) : K) - x / 2 ^ expo x) * 2 ^ expo x := by
    field_simp
  rw [e, abs_mul, abs_of_pos hp]
  calc _ ≤ 1 / 2 * (2 : K) ^ expo x := mul_le_mul_of_nonneg_right h hp.le
    _ = _ := by ring

end rounding

/-- the unit roundoff `2^-53` -/
def u : ℚ := 1 / 2 ^ 53
/-- half of the smallest positive number, `2^-1075` -/
def eta : ℚ := 1 / 2 ^ 1075

theorem u_pos : 0 < u := by unfold u; positivity
theorem eta_pos : 0 < eta := by unfold eta; positivity
theorem u_lt : u < 1 / 2 ^ 52 := by unfold u; norm_num

section rounding
variable {K : Type} [Field K] [LinearOrder K] [IsStrictOrderedRing K] [FloorRing K]

theorem expo_normal {x : K} (h : -1074 ≤ Int.log 2 x - 52) : expo x = Int.log 2 x - 52 := max_eq_left h
theorem expo_small {x : K} (h : Int.log 2 x - 52 ≤ -1074) : expo x = -1074 := max_eq_right h

theorem u_cast : ((u : ℚ) : K) = 2 ^ (-53 : ℤ) := by unfold u; push_cast; rw [zpow_neg]; norm_cast; simp
theorem eta_cast : ((eta : ℚ) : K) = 2 ^ (-1075 : ℤ) := by
  unfold eta; push_cast; rw [zpow_neg, one_div]; norm_cast

attribute [irreducible] u eta

/-- rounding error of normal and of small numbers -/
theorem rnd_err_cases {x : K} (hx : 0 < x) : |((rnd x : ℚ) : K) - x| ≤ (u : K) * x ∨ (expo x = -1074 ∧ |((rnd x : ℚ) : K) - x| ≤ (eta : K)) := by
  have h := rnd_err_ulp hx
  rcases le_total (-1074) (Int.log 2 x - 52) with hl | hl
  · left
    rw [expo_normal hl] at h
    refine h.trans ?_
    have e : (2 : K) ^ (Int.log 2 x - 52) / 2 = 2 ^ (-53 : ℤ) * 2 ^ Int.log 2 x := by
      rw [← zpow_add₀ (by norm_num), show (-53 + Int.log 2 x : ℤ) = (Int.log 2 x - 52) - 1 by ring, zpow_sub_one₀ (by norm_num), div_eq_mul_inv]
    rw [e, u_cast]
    exact mul_le_mul_of_nonneg_left (log_le hx) (two_zpow_pos _).le
  · right
    refine ⟨expo_small hl, h.trans (le_of_eq ?_)⟩
    rw [expo_small hl, eta_cast, show (-1075 : ℤ) = -1074 - 1 by norm_num, zpow_sub_one₀ (by norm_num), div_eq_mul_inv]

theorem rnd_err {x : K} (hx : 0 < x) : |((rnd x : ℚ) : K) - x| ≤ (u : K) * x + (eta : K) := by
  have hu : (0 : K) < (u : K) := by exact_mod_cast u_pos
  have he : (0 : K) < (eta : K) := by exact_mod_cast eta_pos
  have := mul_pos hu hx
  rcases rnd_err_cases hx with h | ⟨-, h⟩ <;> linarith

/-- multiples of the smallest positive number -/
def Grid (x : K) : Prop := ∃ k : ℤ, x = k * 2 ^ (-1074 : ℤ)

/-- sums and differences of representable numbers have no error from underflow -/
theorem rnd_err_grid {x : K} (hx : 0 < x) (hg : Grid x) : |((rnd x : ℚ) : K) - x| ≤ (u : K) * x := by
  rcases rnd_err_cases hx with h | ⟨he, -⟩
  · exact h
  · obtain ⟨k, rfl⟩ := hg
    have e : ((k : K) * 2 ^ (-1074 : ℤ)) / 2 ^ (-1074 : ℤ) = k := by
      field_simp
    rw [rnd_cast, he, e, roundEven_int, sub_self, abs_zero]
    have hu : (0 : K) < (u : K) := by exact_mod_cast u_pos
    exact (mul_pos hu hx).le

/-- representable magnitudes, without a limit on large exponents -/
def RepM (m : K) : Prop := ∃ (k : ℕ) (e : ℤ), k < 2 ^ 53 ∧ -1074 ≤ e ∧ m = k * 2 ^ e

theorem rnd_rep {x : K} (hx : 0 < x) : RepM (rnd x) := by
  have h0 := roundEven_nonneg (div_pos hx (two_zpow_pos (expo x))).le
  have h1 := mant_le hx
  obtain ⟨k, hk⟩ := Int.eq_ofNat_of_zero_le h0
  rcases lt_or_eq_of_le h1 with h | h
  · refine ⟨k, expo x, ?_, expo_ge x, ?_⟩
    · rw [hk] at h; exact_mod_cast h
    · unfold rnd; rw [hk]; push_cast; rfl
  · refine ⟨2 ^ 52, expo x + 1, by norm_num, by have := expo_ge x; omega, ?_⟩
    unfold rnd; rw [h, zpow_add_one₀ (by norm_num)]; push_cast; ring

theorem rep_grid {m : K} (h : RepM m) : Grid m := by
  obtain ⟨k, e, hk, he, rfl⟩ := h
  refine ⟨k * 2 ^ (e + 1074).toNat, ?_⟩
  push_cast
  rw [mul_assoc]
  congr 1
  rw [← zpow_natCast, ← zpow_add₀ (by norm_num)]
  congr 1
  omega

/-- the exponent of a positive representable number is at most the given one -/
theorem expo_le_of_rep {k : ℕ} {e : ℤ} (hk : k < 2 ^ 53) (hk0 : 0 < k) (he : -1074 ≤ e) : expo ((k : K) * 2 ^ e) ≤ e := by
  refine max_le ?_ he
  have hp : (0 : K) < (k : K) * 2 ^ e := mul_pos (by exact_mod_cast hk0) (two_zpow_pos e)
  have h1 := log_le hp
  have h2 : (k : K) * 2 ^ e < 2 ^ (e + 53) := by
    rw [zpow_add₀ (by norm_num), mul_comm]
    refine mul_lt_mul_of_pos_left ?_ (two_zpow_pos e)
    have : (k : K) < 2 ^ 53 := by exact_mod_cast hk
    exact_mod_cast this
  have h3 := lt_of_le_of_lt h1 h2
  have := (zpow_lt_zpow_iff_right₀ (by norm_num : (1 : K) < 2)).mp h3
  omega

/-- representable numbers are not changed -/
theorem rnd_fixed {m : K} (h : RepM m) (hm : 0 < m) : ((rnd m : ℚ) : K) = m := by
  obtain ⟨k, e, hk, he, rfl⟩ := h
  have hk0 : 0 < k := by
    rcases Nat.eq_zero_or_pos k with rfl | h
    · simp at hm
    · exact h
  have hle := expo_le_of_rep (K := K) hk hk0 he
  set d := expo ((k : K) * 2 ^ e) with hd
  have e1 : (k : K) * 2 ^ e / 2 ^ d = ((k * 2 ^ (e - d).toNat : ℤ) : K) := by
    push_cast
    rw [mul_div_assoc, ← zpow_sub₀ (by norm_num)]
    congr 1
    rw [← zpow_natCast]
    congr 1
    omega
  rw [rnd_cast, ← hd, e1, roundEven_int, ← e1]
  have := (two_zpow_pos (K := K) d).ne'
  field_simp

/-- **rounding to nearest**: no representable number is nearer to `x` than the result -/
theorem rnd_nearest {x : K} (hx : 0 < x) {z : K} (hz : RepM z) : |((rnd x : ℚ) : K) - x| ≤ |z - x| := by
  have hp := two_zpow_pos (K := K) (expo x)
  -- multiples of the last bit
  have key : ∀ j : ℤ, |((rnd x : ℚ) : K) - x| ≤ |(j : K) * 2 ^ expo x - x| := by
    intro j
    have h := roundEven_nearest (x / 2 ^ expo x) j
    have e : ∀ i : ℤ, (i : K) * 2 ^ expo x - x = ((i : K) - x / 2 ^ expo x) * 2 ^ expo x := by
      intro i; field_simp
    rw [rnd_cast, e, e, abs_mul, abs_mul]
    exact mul_le_mul_of_nonneg_right h (abs_nonneg _)
  obtain ⟨k, e, hk, he, rfl⟩ := hz
  rcases le_or_gt (expo x) e with h | h
  · have := key (k * 2 ^ (e - expo x).toNat)
    push_cast at this
    rw [mul_assoc, ← zpow_natCast (2 : K), ← zpow_add₀ (by norm_num)] at this
    rwa [show (((e - expo x).toNat : ℤ) + expo x) = e by omega] at this
  · -- a smaller exponent: below the binade of `x`
    have hn : expo x = Int.log 2 x - 52 := by
      rcases le_total (-1074) (Int.log 2 x - 52) with hl | hl
      · exact expo_normal hl
      · rw [expo_small hl] at h; omega
    have h1 := log_le hx
    have h2 : (k : K) * 2 ^ e ≤ 2 ^ Int.log 2 x := by
      have : (k : K) ≤ 2 ^ (53 : ℤ) := by
        have : (k : K) ≤ 2 ^ 53 := by exact_mod_cast hk.le
        exact_mod_cast this
      calc (k : K) * 2 ^ e ≤ 2 ^ (53 : ℤ) * 2 ^ e := mul_le_mul_of_nonneg_right this (two_zpow_pos e).le
        _ = 2 ^ (53 + e) := by rw [zpow_add₀ (by norm_num)]
        _ ≤ 2 ^ Int.log 2 x := zpow_le_zpow_right₀ (by norm_num) (by omega)
    have h3 := key (2 ^ 52)
    have e3 : (((2 ^ 52 : ℤ)) : K) * 2 ^ expo x = 2 ^ Int.log 2 x := by
      have : (((2 ^ 52 : ℤ)) : K) = 2 ^ (52 : ℤ) := by norm_num
      rw [this, ← zpow_add₀ (by norm_num), hn]
      congr 1
      ring
    rw [e3] at h3
    refine h3.trans ?_
    rw [abs_sub_comm, abs_of_nonneg (by linarith), abs_sub_comm, abs_of_nonneg (by linarith)]
    linarith

theorem rnd_mono {x y : K} (hx : 0 < x) (h : x ≤ y) : rnd x ≤ rnd y := by
  by_contra hlt
  push Not at hlt
  have hy := lt_of_lt_of_le hx h
  have hlt' : ((rnd y : ℚ) : K) < ((rnd x : ℚ) : K) := by exact_mod_cast hlt
  have cast : ∀ {z : K}, 0 < z → RepM ((rnd z : ℚ) : K) := by
    intro z hz
    obtain ⟨k, e, h1, h2, h3⟩ := rnd_rep hz
    exact ⟨k, e, h1, h2, by rw [h3]; push_cast; rfl⟩
  have a := rnd_nearest hx (cast hy)
  have b := rnd_nearest hy (cast hx)
  rcases abs_cases (((rnd x : ℚ) : K) - x) with ⟨p1, q1⟩ | ⟨p1, q1⟩ <;> rcases abs_cases (((rnd y : ℚ) : K) - x) with ⟨p2, q2⟩ | ⟨p2, q2⟩ <;>
  rcases abs_cases (((rnd y : ℚ) : K) - y) with ⟨p3, q3⟩ | ⟨p3, q3⟩ <;> rcases abs_cases (((rnd x : ℚ) : K) - y) with ⟨p4, q4⟩ | ⟨p4, q4⟩ <;>
  rw [p1, p2] at a <;> rw [p3, p4] at b <;> first
    | (exfalso; linarith)
    | (have : x = y := by linarith
       subst this; exact lt_irrefl _ hlt)

end rounding

/-! ### the operations -/

theorem val_num (s : Bool) (m : ℚ) : val (num s m) = if s then -m else m := by cases s <;> rfl

theorem abs_val_num (s : Bool) {m : ℚ} (hm : 0 ≤ m) : |val (num s m)| = m := by
  cases s
  · exact abs_of_nonneg hm
  · rw [val, abs_neg, abs_of_nonneg hm]

theorem fin_iff {x : F64} : x.isFinite = true ↔ ∃ s m, x = num s m := by
  cases x <;> simp [isFinite]

/-- finite and representable -/
def Ok (x : F64) : Prop := x.isFinite = true ∧ Rep x

theorem rep_repM {s : Bool} {m : ℚ} (h : Rep (num s m)) : RepM m := by
  obtain ⟨k, e, h1, h2, -, h3⟩ := h
  exact ⟨k, e, h1, h2, by simpa using h3⟩

theorem rep_nonneg {s : Bool} {m : ℚ} (h : Rep (num s m)) : 0 ≤ m := by
  obtain ⟨k, e, h1, h2, -, h3⟩ := h
  rw [h3]; positivity

theorem rep_zero (s : Bool) : Rep (num s 0) := ⟨0, 0, by norm_num, by norm_num, by norm_num, by simp⟩

theorem grid_neg {x : ℚ} (h : Grid x) : Grid (-x) := by
  obtain ⟨k, rfl⟩ := h
  exact ⟨-k, by push_cast; ring⟩

theorem grid_add {x y : ℚ} (h : Grid x) (h' : Grid y) : Grid (x + y) := by
  obtain ⟨k, rfl⟩ := h
  obtain ⟨l, rfl⟩ := h'
  exact ⟨k + l, by push_cast; ring⟩

theorem grid_abs {x : ℚ} (h : Grid x) : Grid |x| := by
  rcases abs_choice x with e | e <;> rw [e]
  · exact h
  · exact grid_neg h

theorem grid_val {x : F64} (h : Rep x) : Grid (val x) := by
  cases x with
  | nan => exact ⟨0, by simp [val]⟩
  | inf s => exact ⟨0, by simp [val]⟩
  | num s m =>
    rw [val_num]
    have := rep_grid (rep_repM h)
    split
    · exact grid_neg this
    · exact this

theorem rep_of_repM {s : Bool} {m : ℚ} (h : RepM m) (hb : m < 2 ^ 1024) : Rep (num s m) := by
  obtain ⟨k, e, h1, h2, h3⟩ := h
  by_cases he : e ≤ 971
  · exact ⟨k, e, h1, h2, he, by simpa using h3⟩
  · rcases Nat.eq_zero_or_pos k with rfl | hk
    · rw [h3]; simpa using rep_zero s
    · -- a large exponent needs a small significand
      have h4 : (k : ℚ) * 2 ^ (e - 971).toNat < 2 ^ 53 := by
        have e1 : (2 : ℚ) ^ e = 2 ^ (e - 971).toNat * 2 ^ (971 : ℤ) := by
          rw [← zpow_natCast, ← zpow_add₀ (by norm_num)]; congr 1; omega
        rw [h3, e1, ← mul_assoc] at hb
        have e2 : (2 : ℚ) ^ 1024 = 2 ^ 53 * 2 ^ (971 : ℤ) := by
          rw [show (971 : ℤ) = ((971 : ℕ) : ℤ) by norm_num, zpow_natCast, ← pow_add]
        rw [e2] at hb
        exact lt_of_mul_lt_mul_right hb (two_zpow_pos _).le
      refine ⟨k * 2 ^ (e - 971).toNat, 971, by exact_mod_cast h4, by norm_num, le_refl _, ?_⟩
      rw [h3]; push_cast
      rw [mul_assoc, ← zpow_natCast, ← zpow_add₀ (by norm_num)]; congr 2; omega

theorem ofExact_rep (s : Bool) (x : ℚ) : Rep (ofExact s x) := by
  unfold ofExact
  split_ifs with h1 h2
  · exact rep_zero s
  · trivial
  · refine rep_of_repM ?_ (not_le.mp h2)
    obtain ⟨k, e, a, b, c⟩ := rnd_rep (abs_pos.mpr h1)
    exact ⟨k, e, a, b, by simpa using c⟩

theorem val_signed {x r : ℚ} (hx : x ≠ 0) : |val (num (decide (x < 0)) r) - x| = _root_.abs (r - |x|) := by
  rcases lt_or_gt_of_ne hx with h | h
  · rw [decide_eq_true h, val, abs_of_neg h, ← abs_neg]; congr 1; ring
  · rw [decide_eq_false (not_lt.mpr h.le), val, abs_of_pos h]

theorem ofExact_err {s : Bool} {x : ℚ} (h : (ofExact s x).isFinite = true) : |val (ofExact s x) - x| ≤ u * |x| + eta := by
  have hu := u_pos
  have he := eta_pos
  unfold ofExact at *
  split_ifs at * with h1 h2
  · subst h1; simp [val_num]; exact he.le
  · cases h
  · rw [val_signed h1]
    simpa using rnd_err (abs_pos.mpr h1)

theorem ofExact_err_grid {s : Bool} {x : ℚ} (hg : Grid x) (h : (ofExact s x).isFinite = true) : |val (ofExact s x) - x| ≤ u * |x| := by
  unfold ofExact at *
  split_ifs at * with h1 h2
  · subst h1; simp [val_num]
  · cases h
  · rw [val_signed h1]
    simpa using rnd_err_grid (abs_pos.mpr h1) (grid_abs hg)

/-- the result is finite if the exact value is below the overflow threshold -/
theorem ofExact_fin (s : Bool) {x : ℚ} (h : |x| < 2 ^ 1023) : (ofExact s x).isFinite = true := by
  unfold ofExact
  split_ifs with h1 h2
  · rfl
  · exfalso
    have hm : RepM ((2 : ℚ) ^ 1023) := ⟨1, 1023, by norm_num, by norm_num, by
      rw [show (1023 : ℤ) = ((1023 : ℕ) : ℤ) by norm_num, zpow_natCast]; simp⟩
    have e1 := rnd_fixed hm (by positivity)
    have e2 := rnd_mono (abs_pos.mpr h1) h.le
    have e3 : (rnd ((2 : ℚ) ^ 1023)) = 2 ^ 1023 := by simpa using e1
    rw [e3] at e2
    have : (2 : ℚ) ^ 1023 < 2 ^ 1024 := pow_lt_pow_right₀ (by norm_num) (by norm_num)
    exact absurd (lt_of_lt_of_le this h2) (not_lt.mpr e2)
  · rfl

/-- a representable exact value is returned as it is -/
theorem ofExact_exact {s : Bool} {x : ℚ} (h : RepM |x|) (hb : |x| < 2 ^ 1024) : (ofExact s x).isFinite = true ∧ val (ofExact s x) = x := by
  unfold ofExact
  split_ifs with h1 h2
  · subst h1; exact ⟨rfl, by simp [val_num]⟩
  · exfalso
    have := rnd_fixed h (abs_pos.mpr h1)
    have e : rnd |x| = |x| := by simpa using this
    rw [e] at h2; exact absurd hb (not_lt.mpr h2)
  · refine ⟨rfl, ?_⟩
    have := rnd_fixed h (abs_pos.mpr h1)
    have e : rnd |x| = |x| := by simpa using this
    have h3 := val_signed (r := rnd |x|) h1
    rw [e, sub_self, abs_zero, abs_eq_zero, sub_eq_zero] at h3
    rw [e]; exact h3

theorem add_def (x y : F64) : x + y = add x y := rfl
theorem sub_def (x y : F64) : x - y = add x (-y) := rfl
theorem mul_def (x y : F64) : x * y = mul x y := rfl
theorem div_def (x y : F64) : x / y = div x y := rfl
theorem neg_def (x : F64) : -x = neg x := rfl
theorem zero_def : (0 : F64) = num false 0 := rfl
theorem one_def : (1 : F64) = num false 1 := rfl

theorem val_zero : val 0 = 0 := rfl
theorem val_one : val 1 = 1 := rfl
theorem rep_zero' : Rep 0 := rep_zero false
theorem rep_one : Rep 1 := ⟨1, 0, by norm_num, by norm_num, by norm_num, by simp⟩

theorem val_neg (x : F64) : val (-x) = -val x := by
  cases x with
  | nan => simp [neg_def, neg, val]
  | inf s => simp [neg_def, neg, val]
  | num s m => cases s <;> simp [neg_def, neg, val]

theorem fin_neg (x : F64) : (-x).isFinite = x.isFinite := by cases x <;> rfl

theorem rep_neg {x : F64} (h : Rep x) : Rep (-x) := by
  cases x with
  | nan => trivial
  | inf s => trivial
  | num s m => exact h

theorem rep_add (x y : F64) : Rep (x + y) := by
  rw [add_def]
  cases x <;> cases y <;> simp only [add] <;> first | trivial | exact ofExact_rep _ _ | (split_ifs <;> trivial)

theorem rep_sub (x y : F64) : Rep (x - y) := rep_add x (-y)

theorem rep_mul (x y : F64) : Rep (x * y) := by
  rw [mul_def]
  cases x <;> cases y <;> simp only [mul] <;> first | trivial | exact ofExact_rep _ _ | (split_ifs <;> trivial)

theorem rep_div (x y : F64) : Rep (x / y) := by
  rw [div_def]
  cases x <;> cases y <;> simp only [div] <;> first | trivial | exact rep_zero _ | (split_ifs <;> first | trivial | exact ofExact_rep _ _)

/-- a finite sum: finite summands, relative error at most `u` -/
theorem add_fin {x y : F64} (hx : Rep x) (hy : Rep y) (h : (x + y).isFinite = true) :
    x.isFinite = true ∧ y.isFinite = true ∧ |val (x + y) - (val x + val y)| ≤ u * |val x + val y| := by
  rw [add_def] at *
  cases x <;> cases y <;> simp only [add] at h ⊢ <;> first | cases h | (split_ifs at h <;> cases h) | skip
  exact ⟨rfl, rfl, ofExact_err_grid (grid_add (grid_val hx) (grid_val hy)) h⟩

theorem sub_fin {x y : F64} (hx : Rep x) (hy : Rep y) (h : (x - y).isFinite = true) :
    x.isFinite = true ∧ y.isFinite = true ∧ |val (x - y) - (val x - val y)| ≤ u * |val x - val y| := by
  rw [sub_def] at *
  obtain ⟨h1, h2, h3⟩ := add_fin hx (rep_neg hy) h
  rw [val_neg, ← sub_eq_add_neg] at h3
  exact ⟨h1, by rwa [fin_neg] at h2, h3⟩

/-- a finite product: finite factors, relative error at most `u` and absolute error from underflow at most `eta` -/
theorem mul_fin {x y : F64} (h : (x * y).isFinite = true) :
    x.isFinite = true ∧ y.isFinite = true ∧ |val (x * y) - val x * val y| ≤ u * |val x * val y| + eta := by
  rw [mul_def] at *
  cases x <;> cases y <;> simp only [mul] at h ⊢ <;> first | cases h | (split_ifs at h <;> cases h) | skip
  exact ⟨rfl, rfl, ofExact_err h⟩

/-- a finite quotient of a finite number by a finite one: the divisor is not zero -/
theorem div_fin {x y : F64} (hy : Rep y) (hf : y.isFinite = true) (h : (x / y).isFinite = true) :
    x.isFinite = true ∧ val y ≠ 0 ∧ |val (x / y) - val x / val y| ≤ u * |val x / val y| + eta := by
  obtain ⟨t, n, rfl⟩ := fin_iff.mp hf
  rw [div_def] at *
  cases x with
  | nan => cases h
  | inf s => cases h
  | num s m =>
    simp only [div] at h ⊢
    by_cases h1 : n = 0
    · rw [if_pos h1] at h
      split at h <;> cases h
    · rw [if_neg h1] at h ⊢
      refine ⟨rfl, ?_, ofExact_err h⟩
      rw [val_num]; split <;> simpa using h1

/-- a finite quotient: the dividend is finite, the divisor is finite and not zero, or infinite (and the quotient zero) -/
theorem div_fin_cases {x y : F64} (h : (x / y).isFinite = true) : x.isFinite = true ∧ (y.isFinite = true ∨ val (x / y) = 0) := by
  rw [div_def] at *
  cases x <;> cases y <;> simp only [div] at h ⊢ <;> first | cases h | exact ⟨rfl, Or.inl rfl⟩
  exact ⟨rfl, Or.inr (by rw [val_num]; split <;> simp)⟩

theorem add_isFinite {x y : F64} (hx : x.isFinite = true) (hy : y.isFinite = true) (h : |val x + val y| < 2 ^ 1023) : (x + y).isFinite = true := by
  obtain ⟨s, m, rfl⟩ := fin_iff.mp hx
  obtain ⟨t, n, rfl⟩ := fin_iff.mp hy
  exact ofExact_fin _ h

theorem mul_isFinite {x y : F64} (hx : x.isFinite = true) (hy : y.isFinite = true) (h : |val x * val y| < 2 ^ 1023) : (x * y).isFinite = true := by
  obtain ⟨s, m, rfl⟩ := fin_iff.mp hx
  obtain ⟨t, n, rfl⟩ := fin_iff.mp hy
  exact ofExact_fin _ h

end Toppo.F64
