import Verif.Proof.FloatSqrt
set_option linter.unusedVariables false
set_option linter.unusedSectionVars false

/-!
# The operations of `f64` (C104)

Specification of a correctly rounded result (IEEE 754, rounding to nearest, ties to even), independent of how the model computes it: `IsRound x r`.  It determines `r`
(`c104_ieee_unique`), and all operations of the model satisfy it (`c104_ieee`, `c104_ieee_sqrt`).
-/
namespace Toppo.FloatProps
open Toppo F64

section round
variable {K : Type} [Field K] [LinearOrder K] [IsStrictOrderedRing K] [FloorRing K]

/-- `r` is the correctly rounded value of `x ≠ 0`: from `2^1024 - 2^970` on it is the infinity of the same sign; below it is a finite number of the format with the sign of `x`,
no number of the format is nearer, and if another one is equally near, `r` is the one with the even significand (for the exponent that is the difference of the two). -/
def IsRound (x : K) (r : F64) : Prop :=
  (2 ^ 1024 - 2 ^ 970 ≤ |x| → r = inf (decide (x < 0))) ∧
  (|x| < 2 ^ 1024 - 2 ^ 970 → Rep r ∧ (∃ m, r = num (decide (x < 0)) m) ∧
    ∀ z : F64, Rep z → z.isFinite = true → |((val r : ℚ) : K) - x| ≤ |((val z : ℚ) : K) - x| ∧
      (|((val z : ℚ) : K) - x| = |((val r : ℚ) : K) - x| → val z ≠ val r → ∃ (k e : ℤ), Even k ∧ val r = k * 2 ^ e ∧ |val z - val r| = 2 ^ e))

theorem roundEven_half {y : K} (h : |(roundEven y : K) - y| = 1 / 2) : Even (roundEven y) := by
  have h1 := Int.floor_le y
  have h2 := Int.lt_floor_add_one y
  unfold roundEven at *
  split_ifs at * with a b c
  · rw [abs_sub_comm, abs_of_nonneg (by linarith)] at h; linarith
  · push_cast at h
    rw [abs_of_nonneg (by linarith)] at h
    linarith
  · exact Int.even_iff.mpr c
  · rw [Int.even_iff]; omega

/-- ties -/
theorem rnd_tie {x : K} (hx : 0 < x) {z : K} (hz : RepM z) (h : |z - x| = |((rnd x : ℚ) : K) - x|) (hne : z ≠ ((rnd x : ℚ) : K)) :
    ∃ (k e : ℤ), Even k ∧ rnd x = k * 2 ^ e ∧ |z - ((rnd x : ℚ) : K)| = 2 ^ e := by
  have hp := two_zpow_pos (K := K) (expo x)
  set P := (2 : K) ^ expo x with hP
  set y := x / P with hy
  have hxy : x = y * P := by rw [hy]; field_simp
  have hr : ((rnd x : ℚ) : K) = (roundEven y : K) * P := rnd_cast x
  have hzr : z - x = -(((rnd x : ℚ) : K) - x) := by
    rcases abs_eq_abs.mp h with h1 | h1
    · exact absurd (by linarith) hne
    · exact h1
  have hz2 : z = (2 * y - roundEven y) * P := by rw [hr] at hzr; linear_combination hzr + 2 * hxy
  have herr := roundEven_err y
  have hhalf : |(roundEven y : K) - y| = 1 / 2 := by
    by_contra hne'
    have hlt : |(roundEven y : K) - y| < 1 / 2 := lt_of_le_of_ne herr hne'
    rw [abs_lt] at hlt
    obtain ⟨k, e, hk, he, hze⟩ := hz
    rcases le_or_gt (expo x) e with h1 | h1
    · -- `z / P` is an integer
      have e1 : z = ((k * 2 ^ (e - expo x).toNat : ℕ) : K) * P := by
        rw [hze, hP]; push_cast
        rw [mul_assoc, ← zpow_natCast (2 : K), ← zpow_add₀ (by norm_num)]
        rw [show (((e - expo x).toNat : ℤ) + expo x) = e by omega]
      set j : ℤ := ((k * 2 ^ (e - expo x).toNat : ℕ) : ℤ) with hj
      have e2 : (j : K) = 2 * y - roundEven y := by
        have : (j : K) * P = (2 * y - roundEven y) * P := by rw [← hz2, e1, hj]; push_cast; rfl
        exact mul_right_cancel₀ hp.ne' this
      have h3 : j = roundEven y := by
        have a1 : (j : K) < (roundEven y : K) + 1 := by linarith
        have a2 : (roundEven y : K) < (j : K) + 1 := by linarith
        have b1 : j < roundEven y + 1 := by exact_mod_cast a1
        have b2 : roundEven y < j + 1 := by exact_mod_cast a2
        omega
      apply hne
      rw [hr, hz2, ← e2, h3]
    · have hn : expo x = Int.log 2 x - 52 := by
        rcases le_total (-1074) (Int.log 2 x - 52) with hl | hl
        · exact expo_normal hl
        · rw [expo_small hl] at h1; omega
      have h2 : z < 2 ^ Int.log 2 x := by
        have hk' : (k : K) < 2 ^ (53 : ℤ) := by
          have : (k : K) < 2 ^ 53 := by exact_mod_cast hk
          exact_mod_cast this
        rw [hze]
        calc (k : K) * 2 ^ e < 2 ^ (53 : ℤ) * 2 ^ e := mul_lt_mul_of_pos_right hk' (two_zpow_pos e)
          _ = 2 ^ (53 + e) := by rw [zpow_add₀ (by norm_num)]
          _ ≤ 2 ^ Int.log 2 x := zpow_le_zpow_right₀ (by norm_num) (by omega)
      have h3 : (2 : K) ^ Int.log 2 x ≤ x := log_le hx
      have hq : RepM ((2 : K) ^ Int.log 2 x) := by
        refine ⟨1, Int.log 2 x, by norm_num, ?_, by simp⟩
        have := expo_ge x
        omega
      have h4 := rnd_nearest hx hq
      rw [← h, abs_sub_comm, abs_of_nonneg (by linarith), abs_sub_comm, abs_of_nonneg (by linarith)] at h4
      linarith
  refine ⟨roundEven y, expo x, roundEven_half hhalf, ?_, ?_⟩
  · rw [hy, hP]; rfl
  · rw [hr, hz2]
    have e1 : (2 * y - roundEven y) * P - (roundEven y : K) * P = -(2 * ((roundEven y : K) - y)) * P := by ring
    rw [e1, abs_mul, abs_neg, abs_mul, hhalf, abs_of_pos hp, abs_of_pos (by norm_num : (0 : K) < 2)]
    ring

/-- correct rounding of a positive number, for numbers of both signs -/
theorem round_signed {x : K} (hx : x ≠ 0) {m : ℚ} (hm : m = rnd |x|) {z : F64} (hz : Rep z) (hf : z.isFinite = true) :
    |((val (num (decide (x < 0)) m) : ℚ) : K) - x| ≤ |((val z : ℚ) : K) - x| ∧
      (|((val z : ℚ) : K) - x| = |((val (num (decide (x < 0)) m) : ℚ) : K) - x| → val z ≠ val (num (decide (x < 0)) m) →
        ∃ (k e : ℤ), Even k ∧ val (num (decide (x < 0)) m) = k * 2 ^ e ∧ |val z - val (num (decide (x < 0)) m)| = 2 ^ e) := by
  have hax : 0 < |x| := abs_pos.mpr hx
  have hzr : RepM (((|val z| : ℚ)) : K) := by
    obtain ⟨s, n, rfl⟩ := fin_iff.mp hf
    rw [abs_val_num s (rep_nonneg hz)]
    obtain ⟨k, e, h1, h2, -, h3⟩ := hz
    exact ⟨k, e, h1, h2, by rw [h3]; push_cast; rfl⟩
  have hvs : |((val (num (decide (x < 0)) m) : ℚ) : K) - x| = _root_.abs ((m : K) - |x|) := by
    rcases lt_or_gt_of_ne hx with h | h
    · rw [decide_eq_true h, val, abs_of_neg h, ← abs_neg]; congr 1; push_cast; ring
    · rw [decide_eq_false (not_lt.mpr h.le), val, abs_of_pos h]
  have h1 := rnd_nearest hax hzr
  rw [← hm] at h1
  have h2 : _root_.abs (((|val z| : ℚ) : K) - |x|) ≤ |((val z : ℚ) : K) - x| := by
    rw [Rat.cast_abs]; exact abs_abs_sub_abs_le _ _
  refine ⟨by rw [hvs]; exact h1.trans h2, fun he hne => ?_⟩
  rw [hvs] at he
  have h3 : _root_.abs (((|val z| : ℚ) : K) - |x|) = |((val z : ℚ) : K) - x| := le_antisymm h2 (by rw [he]; exact h1)
  -- same sign
  have h4 : ((val z : ℚ) : K) * x = _root_.abs ((val z : ℚ) : K) * |x| := by
    have h5 : (_root_.abs (((|val z| : ℚ) : K) - |x|)) ^ 2 = |((val z : ℚ) : K) - x| ^ 2 := by rw [h3]
    rw [sq_abs, sq_abs, Rat.cast_abs] at h5
    have a1 := sq_abs ((val z : ℚ) : K)
    have a2 := sq_abs x
    linear_combination (1 / 2) * h5 - (1 / 2) * a1 - (1 / 2) * a2
  have hval : val z = if x < 0 then -|val z| else |val z| := by
    split
    · next hneg =>
      rw [abs_of_neg hneg, mul_neg] at h4
      have h5 : ((val z : ℚ) : K) = -_root_.abs ((val z : ℚ) : K) := mul_right_cancel₀ hneg.ne (by rw [h4]; ring)
      rw [← Rat.cast_abs] at h5
      exact_mod_cast h5
    · next hpos =>
      have hpos' : 0 < x := lt_of_le_of_ne (not_lt.mp hpos) (Ne.symm hx)
      rw [abs_of_pos hpos'] at h4
      have h5 : ((val z : ℚ) : K) = _root_.abs ((val z : ℚ) : K) := mul_right_cancel₀ hpos'.ne' h4
      rw [← Rat.cast_abs] at h5
      exact_mod_cast h5
  have hval' : val (num (decide (x < 0)) m) = if x < 0 then -m else m := by rw [val_num]; simp
  have hzm : (((|val z| : ℚ)) : K) ≠ ((rnd |x| : ℚ) : K) := by
    rw [← hm]
    intro h
    apply hne
    have h6 : |val z| = m := by exact_mod_cast h
    rw [hval, hval', h6]
  obtain ⟨k, e, hk, h6, h7⟩ := rnd_tie hax hzr (by rw [h3, he, ← hm]) hzm
  rw [← hm] at h6 h7
  have h8 : _root_.abs (|val z| - m) = 2 ^ e := by
    rw [← Rat.cast_sub, ← Rat.cast_abs] at h7
    have h9 : ((_root_.abs (|val z| - m) : ℚ) : K) = (((2 : ℚ) ^ e : ℚ) : K) := by rw [h7]; push_cast; rfl
    exact Rat.cast_injective h9
  rw [hval']
  by_cases hneg : x < 0
  · rw [if_pos hneg] at hval ⊢
    refine ⟨-k, e, hk.neg, by rw [h6]; push_cast; ring, ?_⟩
    rw [hval, ← h8, ← abs_neg]; congr 1; ring
  · rw [if_neg hneg] at hval ⊢
    refine ⟨k, e, hk, h6, ?_⟩
    rw [hval]; exact h8

/-- the specification determines the result -/
theorem c104_ieee_unique (x : K) (r r' : F64) (h : IsRound x r) (h' : IsRound x r') : r = r' := by
  rcases le_or_gt (2 ^ 1024 - 2 ^ 970) |x| with hb | hb
  · rw [h.1 hb, h'.1 hb]
  · obtain ⟨h1, ⟨m, h2⟩, h3⟩ := h.2 hb
    obtain ⟨h1', ⟨m', h2'⟩, h3'⟩ := h'.2 hb
    have f : r.isFinite = true := by rw [h2]; rfl
    have f' : r'.isFinite = true := by rw [h2']; rfl
    have e : |((val r : ℚ) : K) - x| = |((val r' : ℚ) : K) - x| := le_antisymm (h3 r' h1' f').1 (h3' r h1 f).1
    by_cases hv : val r = val r'
    · rw [h2, h2'] at hv ⊢
      congr 1
      rw [val_num, val_num] at hv
      split at hv
      · linarith
      · exact hv
    · obtain ⟨k, ex, hk, e1, e2⟩ := (h3 r' h1' f').2 e.symm (Ne.symm hv)
      obtain ⟨k', ex', hk', e1', e2'⟩ := (h3' r h1 f).2 e hv
      exfalso
      have hex : ex = ex' := by
        rw [abs_sub_comm, e2'] at e2
        exact (zpow_right_injective₀ (by norm_num : (0 : ℚ) < 2) (by norm_num) e2).symm
      subst hex
      have hp := two_zpow_pos (K := ℚ) ex
      rw [e1, e1', ← sub_mul, abs_mul, abs_of_pos hp] at e2
      have h4 : |((k' : ℚ)) - k| = 1 := mul_right_cancel₀ hp.ne' (by rw [e2, one_mul])
      have h5 : |k' - k| = 1 := by exact_mod_cast h4
      have h6 : Even (k' - k) := hk'.sub hk
      rcases abs_cases (k' - k) with ⟨a, -⟩ | ⟨a, -⟩
      · rw [a] at h5; rw [h5] at h6; exact absurd h6 (by decide)
      · rw [a] at h5
        have : k' - k = -1 := by omega
        rw [this] at h6; exact absurd h6 (by decide)

end round

theorem rnd_big : rnd ((2 : ℚ) ^ 1024 - 2 ^ 970) = 2 ^ 1024 := by decide +kernel
theorem rnd_max : rnd ((2 : ℚ) ^ 1024 - 2 ^ 971) = 2 ^ 1024 - 2 ^ 971 := by decide +kernel

theorem repM_max : RepM ((2 : ℚ) ^ 1024 - 2 ^ 971) := by
  have h := rnd_rep (K := ℚ) (x := (2 : ℚ) ^ 1024 - 2 ^ 971) (by
    exact sub_pos.mpr (pow_lt_pow_right₀ (by norm_num) (by norm_num)))
  rwa [rnd_max] at h

/-- the overflow threshold -/
theorem overflow_iff {x : ℚ} (hx : 0 < x) : 2 ^ 1024 ≤ rnd x ↔ 2 ^ 1024 - 2 ^ 970 ≤ x := by
  have p1 : (2 : ℚ) ^ 971 < 2 ^ 1024 := pow_lt_pow_right₀ (by norm_num) (by norm_num)
  have p2 : (2 : ℚ) ^ 971 = 2 * 2 ^ 970 := by rw [pow_succ]; ring
  have p3 : (0 : ℚ) < 2 ^ 970 := by positivity
  have hM := repM_max
  have hB := rnd_big
  have hMx := rnd_max
  generalize (2 : ℚ) ^ 1024 = B at *
  generalize (2 : ℚ) ^ 971 = Q at *
  generalize (2 : ℚ) ^ 970 = q at *
  constructor
  · intro h
    by_contra hlt
    push Not at hlt
    rcases le_or_gt x (B - Q) with h1 | h1
    · have := rnd_mono hx h1
      rw [hMx] at this
      linarith
    · have := rnd_nearest hx hM
      rw [abs_sub_comm (B - Q) x, abs_of_nonneg (by linarith : 0 ≤ x - (B - Q))] at this
      have := le_of_abs_le this
      push_cast at this
      linarith
  · intro h
    have := rnd_mono (by linarith) h
    rwa [hB] at this

/-- the operation with exact value `x` -/
theorem ofExact_isRound {s : Bool} {x : ℚ} (hx : x ≠ 0) : IsRound x (ofExact s x) := by
  have hax := abs_pos.mpr hx
  constructor
  · intro h
    unfold ofExact
    rw [if_neg hx, if_pos ((overflow_iff hax).mpr h)]
  · intro h
    have e : ofExact s x = num (decide (x < 0)) (rnd |x|) := by
      unfold ofExact
      rw [if_neg hx, if_neg (fun h' => absurd h (not_lt.mpr ((overflow_iff hax).mp h')))]
    refine ⟨ofExact_rep s x, ⟨_, e⟩, fun z hz hf => ?_⟩
    rw [e]
    exact round_signed hx rfl hz hf

/-- **C104**, the arithmetic: for finite numbers `x`, `y` of the format the results of `+`, `-`, `*`, `/` are the correctly rounded exact results.  An exact result zero has the sign
of IEEE 754: a sum is negative only if both terms are, a product or quotient is negative if exactly one factor is. -/
theorem c104_ieee (s t : Bool) (m n : ℚ) :
    (val (num s m) + val (num t n) ≠ 0 → IsRound (val (num s m) + val (num t n)) (num s m + num t n)) ∧
    (val (num s m) + val (num t n) = 0 → num s m + num t n = num (s && t) 0) ∧
    (val (num s m) - val (num t n) ≠ 0 → IsRound (val (num s m) - val (num t n)) (num s m - num t n)) ∧
    (val (num s m) - val (num t n) = 0 → num s m - num t n = num (s && !t) 0) ∧
    (val (num s m) * val (num t n) ≠ 0 → IsRound (val (num s m) * val (num t n)) (num s m * num t n)) ∧
    (val (num s m) * val (num t n) = 0 → num s m * num t n = num (xor s t) 0) ∧
    (m ≠ 0 → n ≠ 0 → IsRound (val (num s m) / val (num t n)) (num s m / num t n)) ∧
    (m = 0 → n ≠ 0 → num s m / num t n = num (xor s t) 0) ∧ (m ≠ 0 → n = 0 → num s m / num t n = inf (xor s t)) ∧ (m = 0 → n = 0 → num s m / num t n = nan) := by
  have e1 : (num s m + num t n : F64) = ofExact (s && t) (val (num s m) + val (num t n)) := rfl
  have e2 : (num s m - num t n : F64) = ofExact (s && !t) (val (num s m) - val (num t n)) := by
    have : (num s m - num t n : F64) = ofExact (s && !t) (val (num s m) + val (num (!t) n)) := rfl
    rw [this, sub_eq_add_neg]
    congr 2
    cases t <;> simp [val]
  have e3 : (num s m * num t n : F64) = ofExact (xor s t) (val (num s m) * val (num t n)) := rfl
  have v0 : ∀ (b : Bool) {q : ℚ}, q ≠ 0 → val (num b q) ≠ 0 := by
    intro b q hq; rw [val_num]; split
    · exact neg_ne_zero.mpr hq
    · exact hq
  have z0 : ∀ b : Bool, val (num b 0) = 0 := by intro b; rw [val_num]; split <;> simp
  have hz : ∀ b : Bool, ofExact b 0 = num b 0 := fun b => by simp [ofExact]
  refine ⟨fun h => ?_, fun h => ?_, fun h => ?_, fun h => ?_, fun h => ?_, fun h => ?_, fun h h' => ?_, fun h h' => ?_, fun h h' => ?_, fun h h' => ?_⟩
  · rw [e1]; exact ofExact_isRound h
  · rw [e1, h, hz]
  · rw [e2]; exact ofExact_isRound h
  · rw [e2, h, hz]
  · rw [e3]; exact ofExact_isRound h
  · rw [e3, h, hz]
  · rw [div_def, div, if_neg h']; exact ofExact_isRound (div_ne_zero (v0 s h) (v0 t h'))
  · subst h; rw [div_def, div, if_neg h', z0, zero_div, hz]
  · subst h'; rw [div_def, div, if_pos rfl, if_neg h]
  · subst h h'; rw [div_def, div, if_pos rfl, if_pos rfl]

/-- **C104**, the square root is the correctly rounded real square root. -/
theorem c104_ieee_sqrt (m : ℚ) (hr : Rep (num false m)) (h0 : m ≠ 0) : IsRound (Real.sqrt (m : ℝ)) (sqrt (num false m)) := by
  have hm : 0 < m := lt_of_le_of_ne (rep_nonneg hr) (Ne.symm h0)
  have hmR : (0 : ℝ) < m := by exact_mod_cast hm
  have hs : 0 < Real.sqrt (m : ℝ) := Real.sqrt_pos.mpr hmR
  obtain ⟨h1, h2, -⟩ := sqrt_spec hr rfl hm.le
  have e : sqrt (num false m) = num (decide (Real.sqrt (m : ℝ) < 0)) (rnd |Real.sqrt (m : ℝ)|) := by
    rw [abs_of_pos hs, decide_eq_false (not_lt.mpr hs.le)]
    simp only [sqrt, if_neg h0, Bool.false_eq_true, if_false]
  have hlt : |Real.sqrt (m : ℝ)| < 2 ^ 1024 - 2 ^ 970 := by
    rw [abs_of_pos hs]
    have h3 : Real.sqrt m ≤ 2 ^ 512 := by
      refine Real.sqrt_le_iff.mpr ⟨by positivity, ?_⟩
      have h4 : ((m : ℚ) : ℝ) < ((2 ^ 1024 : ℚ) : ℝ) := by exact_mod_cast rep_lt hr
      push_cast at h4
      rw [← pow_mul]; exact h4.le
    have p1 : (2 : ℝ) ^ 512 < 2 ^ 1023 := pow_lt_pow_right₀ (by norm_num) (by norm_num)
    have p2 : (2 : ℝ) ^ 970 < 2 ^ 1023 := pow_lt_pow_right₀ (by norm_num) (by norm_num)
    have p3 : (2 : ℝ) ^ 1024 = 2 * 2 ^ 1023 := by rw [pow_succ]; ring
    rw [p3]
    generalize (2 : ℝ) ^ 1023 = P at *
    generalize (2 : ℝ) ^ 512 = P' at *
    generalize (2 : ℝ) ^ 970 = P'' at *
    linarith
  refine ⟨fun h => absurd hlt (not_lt.mpr h), fun _ => ⟨h2, ⟨_, e⟩, fun z hz hf => ?_⟩⟩
  rw [e]
  exact round_signed hs.ne' rfl hz hf

/-- **C104**, the exceptional operands: NaN, infinities, square roots of zero and of negative numbers. -/
theorem c104_ieee_special (x : F64) (s t : Bool) (m : ℚ) :
    (nan + x = nan ∧ x + nan = nan ∧ nan - x = nan ∧ x - nan = nan ∧ nan * x = nan ∧ x * nan = nan ∧ nan / x = nan ∧ x / nan = nan ∧ sqrt nan = nan ∧ -(nan : F64) = nan ∧ F64.abs nan = nan) ∧
    (F64.inf s + inf s = inf s ∧ F64.inf s + inf (!s) = nan ∧ inf s + num t m = inf s ∧ num t m + inf s = inf s ∧ F64.inf s - inf s = nan ∧ inf s - num t m = inf s ∧ num t m - inf s = inf (!s)) ∧
    (F64.inf s * inf t = inf (xor s t) ∧ (m ≠ 0 → inf s * num t m = inf (xor s t) ∧ num s m * inf t = inf (xor s t)) ∧ inf s * num t 0 = nan ∧ num s 0 * inf t = nan) ∧
    (F64.inf s / inf t = nan ∧ inf s / num t m = inf (xor s t) ∧ num s m / inf t = num (xor s t) 0) ∧
    (sqrt (inf false) = inf false ∧ sqrt (inf true) = nan ∧ sqrt (num s 0) = num s 0 ∧ (m ≠ 0 → sqrt (num true m) = nan)) ∧
    (F64.abs (inf s) = inf false ∧ F64.abs (num s m) = num false m ∧ -F64.inf s = inf (!s) ∧ -num s m = num (!s) m) := by
  refine ⟨?_, ?_, ?_, ?_, ?_, ?_⟩
  · cases x <;> exact ⟨rfl, rfl, rfl, rfl, rfl, rfl, rfl, rfl, rfl, rfl, rfl⟩
  · cases s <;> exact ⟨rfl, rfl, rfl, rfl, rfl, rfl, rfl⟩
  · refine ⟨rfl, fun h => ⟨?_, ?_⟩, ?_, ?_⟩
    · rw [mul_def, mul, if_neg h]
    · rw [mul_def, mul, if_neg h]
    · rw [mul_def, mul, if_pos rfl]
    · rw [mul_def, mul, if_pos rfl]
  · exact ⟨rfl, rfl, rfl⟩
  · refine ⟨rfl, rfl, ?_, fun h => ?_⟩
    · simp [sqrt]
    · simp [sqrt, h]
  · exact ⟨rfl, rfl, rfl, rfl⟩

/-- **C104**, comparisons: NaN compares false with everything, infinities are the ends of the order, finite numbers are compared by value (so `0.0 == -0.0`). -/
theorem c104_ieee_compare (x : F64) (s t : Bool) (m n : ℚ) :
    (le nan x = false ∧ le x nan = false ∧ lt nan x = false ∧ lt x nan = false ∧ eqv nan x = false ∧ eqv x nan = false) ∧
    (x ≠ nan → le (inf true) x = true ∧ le x (inf false) = true ∧ lt x (inf true) = false ∧ lt (inf false) x = false) ∧
    (lt (inf s) (num t m) = s ∧ lt (num t m) (inf s) = !s ∧ le (inf s) (num t m) = s ∧ le (num t m) (inf s) = !s ∧ lt (inf true) (inf false) = true ∧ le (inf false) (inf true) = false) ∧
    (eqv (inf s) (inf t) = decide (s = t) ∧ eqv (inf s) (num t m) = false ∧ eqv (num t m) (inf s) = false) ∧
    (le (num s m) (num t n) = decide (val (num s m) ≤ val (num t n)) ∧ lt (num s m) (num t n) = decide (val (num s m) < val (num t n)) ∧
      eqv (num s m) (num t n) = decide (val (num s m) = val (num t n))) ∧ eqv (num false 0) (num true 0) = true := by
  refine ⟨?_, ?_, ?_, ?_, ⟨rfl, rfl, rfl⟩, by decide +kernel⟩
  · cases x <;> exact ⟨rfl, rfl, rfl, rfl, rfl, rfl⟩
  · intro h
    cases x with
    | nan => exact absurd rfl h
    | inf s' => cases s' <;> exact ⟨rfl, rfl, rfl, rfl⟩
    | num _ _ => exact ⟨rfl, rfl, rfl, rfl⟩
  · cases s <;> exact ⟨rfl, rfl, rfl, rfl, rfl, rfl⟩
  · cases s <;> cases t <;> exact ⟨rfl, rfl, rfl⟩

/-- a concrete case: `1 + 2^-53` is halfway between `1` and `1 + 2^-52` and is rounded to `1`, `1 + 3 * 2^-53` to `1 + 2^-51` -/
example : (num false 1 + num false (1 / 2 ^ 53) : F64) = num false 1 ∧ (num false 1 + num false (3 / 2 ^ 53) : F64) = num false (1 + 1 / 2 ^ 51) := by
  constructor <;> decide +kernel

end Toppo.FloatProps
