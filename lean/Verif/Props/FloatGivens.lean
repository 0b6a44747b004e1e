import Verif.Props.FloatNorm
set_option linter.unusedVariables false

/-!
# `givens_rotation` on `f64` (C109)

Specification: `val` is the exact value of a number, `u = 2^-53`, `eta = 2^-1075`.
-/
namespace Toppo.FloatProps
open Toppo F64 FloatAlg

theorem eta_small : eta ≤ u / 1000 := by
  rw [eta_value, u_value, div_div]
  refine one_div_le_one_div_of_le (by norm_num) ?_
  calc (2 : ℚ) ^ 53 * 1000 ≤ 2 ^ 53 * 2 ^ 10 := by norm_num
    _ = 2 ^ 63 := by rw [← pow_add]
    _ ≤ 2 ^ 1075 := pow_le_pow_right₀ (by norm_num) (by norm_num)

theorem u_small : u ≤ 1 / 1000 := by rw [u_value]; norm_num

theorem ofExact_le_one {s : Bool} {x : ℚ} (h : |x| ≤ 1) : (ofExact s x).isFinite = true ∧ |val (ofExact s x)| ≤ 1 := by
  have hf : (ofExact s x).isFinite = true := ofExact_fin s (lt_of_le_of_lt h (one_lt_pow₀ (by norm_num) (by norm_num)))
  refine ⟨hf, ?_⟩
  unfold ofExact at *
  split_ifs at * with h1 h2
  · rw [val_num]; split <;> simp
  · cases hf
  · rw [abs_val_num _ (rnd_nonneg (abs_pos.mpr h1))]
    have e1 := rnd_mono (abs_pos.mpr h1) h
    have e2 : ((rnd (1 : ℚ) : ℚ) : ℚ) = 1 := rnd_fixed ⟨1, 0, by norm_num, by norm_num, by simp⟩ one_pos
    have e3 : rnd (1 : ℚ) = 1 := by simpa using e2
    rw [e3] at e1; exact e1

theorem mul_fin' {x y : F64} (h : (x * y).isFinite = true) : |val (x * y) - val x * val y| ≤ u * |val (x * y)| + eta := by
  obtain ⟨h1, h2, -⟩ := mul_fin h
  obtain ⟨s, m, rfl⟩ := fin_iff.mp h1
  obtain ⟨t, n, rfl⟩ := fin_iff.mp h2
  exact ofExact_err' h

theorem small_lt {x : ℚ} (h : |x| ≤ 8) : |x| < 2 ^ 1023 := by
  refine lt_of_le_of_lt h ?_
  calc (8 : ℚ) < 2 ^ 4 := by norm_num
    _ ≤ 2 ^ 1023 := pow_le_pow_right₀ (by norm_num) (by norm_num)

theorem normal_ge {x : ℚ} (h : 1 / 4 ≤ x) : (2 : ℚ) ^ (-1022 : ℤ) ≤ x := by
  refine le_trans ?_ h
  calc (2 : ℚ) ^ (-1022 : ℤ) ≤ 2 ^ (-2 : ℤ) := zpow_le_zpow_right₀ (by norm_num) (by norm_num)
    _ = 1 / 4 := by norm_num

theorem g_small : g ≤ 1 + 1 / 1000 := by rw [g_eq]; have := u_small; linarith

theorem ar1 {v e p T : ℚ} (hv : 0 < v) (he : 0 < e) (hev : e ≤ v / 1000) (hv1 : v ≤ 1 / 1000) (hT : 0 ≤ T) (hT1 : T ≤ 1) (hp : 0 ≤ p)
    (p1 : p - T ≤ v * T + e) (p2 : -(v * p + e) ≤ p - T) : p ≤ 2 ∧ 1 + p ≤ (1 + v) * (1 + T) ∧ 1 + T ≤ (1 + v) * (1 + p) := by
  have h1 : v * T ≤ v := mul_le_of_le_one_right hv.le hT1
  refine ⟨by linarith, by linarith, by linarith⟩

theorem ar2 {G p w : ℚ} (hG1 : 1 ≤ G) (hG : G ≤ 1 + 1 / 1000) (hp : 0 ≤ p) (h : 1 + p ≤ G * w) : 1 / 2 ≤ w := by nlinarith

theorem ar3 {G p w r : ℚ} (hG1 : 1 ≤ G) (hG : G ≤ 1 + 1 / 1000) (hp : p ≤ 2) (hr0 : 0 ≤ r) (hw : 1 / 2 ≤ w) (h : w ≤ G * (1 + p)) (h1 : r ^ 2 ≤ G ^ 2 * w) (h2 : w ≤ G ^ 2 * r ^ 2) :
    r ≤ 2 ∧ 1 / 2 ≤ r := by
  have hG2 : G ^ 2 ≤ 1 + 1 / 100 := by nlinarith
  have hG3 : G ^ 2 * w ≤ (1 + 1 / 100) * w := mul_le_mul_of_nonneg_right hG2 (by linarith)
  have hw2 : G * (1 + p) ≤ G * 3 := mul_le_mul_of_nonneg_left (by linarith) (by linarith)
  have hr4 : r ^ 2 ≤ 2 ^ 2 := by linarith
  have hr5 : G ^ 2 * r ^ 2 ≤ (1 + 1 / 100) * r ^ 2 := mul_le_mul_of_nonneg_right hG2 (sq_nonneg r)
  have hr6 : (1 / 2) ^ 2 ≤ r ^ 2 := by linarith
  exact ⟨(abs_le_of_sq_le_sq' hr4 (by norm_num)).2, by
    by_contra hlt
    push Not at hlt
    have := pow_lt_pow_left₀ hlt hr0 (n := 2) (by norm_num)
    linarith⟩

theorem ar4 {G y q : ℚ} (hG1 : 1 ≤ G) (hG : G ≤ 1 + 1 / 1000) (h1 : 1 / 2 ≤ q) (h2 : q ≤ 2) (h3 : y ≤ G * q) (h4 : q ≤ G * y) : 1 / 4 ≤ y ∧ y ≤ 4 := by
  constructor <;> nlinarith

/-- `1 / sqrt (1 + t * t)` -/
theorem core1 {t : F64} (hf : t.isFinite = true) (ht : |val t| ≤ 1) :
    let y := 1 / (1 + t * t).sqrt
    y.isFinite = true ∧ 1 / 4 ≤ val y ∧ val y ≤ 4 ∧ val y ^ 2 * (1 + val t ^ 2) ≤ g ^ 6 ∧ 1 ≤ g ^ 6 * (val y ^ 2 * (1 + val t ^ 2)) := by
  intro y
  have hu := u_pos
  have he := eta_pos
  have hes := eta_small
  have hus := u_small
  have hg1 := g_ge
  have hgs := g_small
  have ht2 : val t ^ 2 ≤ 1 := by rw [← sq_abs]; nlinarith [abs_nonneg (val t)]
  have ht0 : 0 ≤ val t ^ 2 := sq_nonneg _
  -- the square
  have hpf : (t * t).isFinite = true := mul_isFinite hf hf (small_lt (by rw [abs_mul]; nlinarith [abs_nonneg (val t)]))
  have hp0 : 0 ≤ val (t * t) := by
    rcases nn_sq (Or.inr hf) with h | ⟨-, h⟩
    · rw [h] at hpf; cases hpf
    · exact h
  have p1 := (mul_fin hpf).2.2
  have p2 := mul_fin' hpf
  rw [abs_of_nonneg hp0, ← sq] at p2
  rw [← sq, abs_of_nonneg ht0] at p1
  rw [abs_le] at p1 p2
  set p := val (t * t) with hp
  -- the sum
  have hwe : (1 : F64) + t * t = ofExact (false && (match t * t with | num s _ => s | _ => false)) (1 + p) := by
    obtain ⟨s, m, hm⟩ := fin_iff.mp hpf
    rw [hp, hm]; rfl
  obtain ⟨hp3, a1, a2⟩ := ar1 hu he hes hus ht0 ht2 hp0 p1.2 p2.1
  rw [← g_eq] at a1 a2
  have hwf : ((1 : F64) + t * t).isFinite = true := by
    rw [hwe]; exact ofExact_fin _ (small_lt (by rw [abs_of_nonneg (by linarith)]; linarith))
  have w1 := ofExact_normal (normal_ge (show 1 / 4 ≤ 1 + p by linarith)) (by rw [← hwe]; exact hwf)
  rw [← hwe] at w1
  set w := val ((1 : F64) + t * t) with hw
  obtain ⟨w1, w2⟩ := w1
  rw [← g_eq] at w1 w2
  -- 1 + p against 1 + t²
  have hwpos : 1 / 2 ≤ w := ar2 hg1 hgs hp0 w2
  -- the root
  obtain ⟨r1, r2, r3, r4, r5⟩ := sqrt_spec (rep_add 1 (t * t)) hwf (by change 0 ≤ w; linarith)
  set r := val ((1 : F64) + t * t).sqrt with hr
  change r ^ 2 ≤ (1 + u) ^ 2 * w at r4
  change w ≤ (1 + u) ^ 2 * r ^ 2 at r5
  rw [← g_eq] at r4 r5
  obtain ⟨hrle, hrge⟩ := ar3 hg1 hgs hp3 r3 hwpos w1 r4 r5
  have hrpos : 0 < r := by linarith
  -- the quotient
  have hye : y = ofExact (xor false (match ((1 : F64) + t * t).sqrt with | num s _ => s | _ => false)) (1 / r) := by
    obtain ⟨s, m, hm⟩ := fin_iff.mp r1
    have hm0 : m ≠ 0 := by
      rintro rfl
      rw [hr, hm, val_num] at hrpos
      split at hrpos <;> simp at hrpos
    change (1 : F64) / ((1 : F64) + t * t).sqrt = _
    rw [hr, hm, one_def, div_def, div, if_neg hm0]; rfl
  have hq1 : 1 / 2 ≤ 1 / r := by rw [le_div_iff₀ hrpos]; linarith
  have hq2 : 1 / r ≤ 2 := by rw [div_le_iff₀ hrpos]; linarith
  have hyf : y.isFinite = true := by
    rw [hye]; exact ofExact_fin _ (small_lt (by rw [abs_of_nonneg (by linarith)]; linarith))
  have y1 := ofExact_normal (normal_ge (show 1 / 4 ≤ 1 / r by linarith)) (by rw [← hye]; exact hyf)
  rw [← hye, ← g_eq] at y1
  obtain ⟨y1, y2⟩ := y1
  obtain ⟨hy0, hy4⟩ := ar4 hg1 hgs hq1 hq2 y1 y2
  refine ⟨hyf, hy0, hy4, ?_, ?_⟩
  · have k1 : val y * r ≤ g := by
      have := mul_le_mul_of_nonneg_right y1 hrpos.le
      rwa [mul_assoc, one_div, inv_mul_cancel₀ hrpos.ne', mul_one] at this
    have k2 : (val y * r) ^ 2 ≤ g ^ 2 := pow_le_pow_left₀ (mul_nonneg (by linarith) hrpos.le) k1 2
    have k3 : 1 + val t ^ 2 ≤ g ^ 4 * r ^ 2 := by
      calc 1 + val t ^ 2 ≤ g * (1 + p) := a2
        _ ≤ g * (g * w) := mul_le_mul_of_nonneg_left w2 g_pos.le
        _ ≤ g * (g * (g ^ 2 * r ^ 2)) := mul_le_mul_of_nonneg_left (mul_le_mul_of_nonneg_left r5 g_pos.le) g_pos.le
        _ = g ^ 4 * r ^ 2 := by ring
    calc val y ^ 2 * (1 + val t ^ 2) ≤ val y ^ 2 * (g ^ 4 * r ^ 2) := mul_le_mul_of_nonneg_left k3 (sq_nonneg _)
      _ = g ^ 4 * (val y * r) ^ 2 := by ring
      _ ≤ g ^ 4 * g ^ 2 := mul_le_mul_of_nonneg_left k2 (pow_pos g_pos 4).le
      _ = g ^ 6 := by ring
  · have k1 : 1 ≤ g * val y * r := by
      have := mul_le_mul_of_nonneg_right y2 hrpos.le
      rwa [one_div, inv_mul_cancel₀ hrpos.ne'] at this
    have k2 : 1 ≤ (g * val y * r) ^ 2 := one_le_pow₀ k1
    have k3 : r ^ 2 ≤ g ^ 4 * (1 + val t ^ 2) := by
      calc r ^ 2 ≤ g ^ 2 * w := r4
        _ ≤ g ^ 2 * (g * (1 + p)) := mul_le_mul_of_nonneg_left w1 (pow_pos g_pos 2).le
        _ ≤ g ^ 2 * (g * (g * (1 + val t ^ 2))) := mul_le_mul_of_nonneg_left (mul_le_mul_of_nonneg_left a1 g_pos.le) (pow_pos g_pos 2).le
        _ = g ^ 4 * (1 + val t ^ 2) := by ring
    calc (1 : ℚ) ≤ (g * val y * r) ^ 2 := k2
      _ = g ^ 2 * val y ^ 2 * r ^ 2 := by ring
      _ ≤ g ^ 2 * val y ^ 2 * (g ^ 4 * (1 + val t ^ 2)) := mul_le_mul_of_nonneg_left k3 (mul_nonneg (pow_pos g_pos 2).le (sq_nonneg _))
      _ = g ^ 6 * (val y ^ 2 * (1 + val t ^ 2)) := by ring

theorem near_sq_add {z q y e v : ℚ} (he : 0 ≤ e) (hv : 0 < v) (hev : e ≤ v / 1000) (hv1 : v ≤ 1 / 1000) (hz : |z| ≤ (1 + v) * |q| + e) (hq : |q| ≤ 4) (hy : 1 / 4 ≤ y) :
    y ^ 2 + z ^ 2 ≤ (1 + v) ^ 2 * (y ^ 2 + q ^ 2) := by
  have hz2 : z ^ 2 ≤ ((1 + v) * |q| + e) ^ 2 := by
    rw [← sq_abs z]; exact pow_le_pow_left₀ (abs_nonneg z) hz 2
  have e1 : ((1 + v) * |q| + e) ^ 2 = (1 + v) ^ 2 * q ^ 2 + (2 * (1 + v) * |q| + e) * e := by
    rw [← sq_abs q]; ring
  have h1 : (2 * (1 + v) * |q| + e) * e ≤ 9 * (v / 1000) := by
    refine mul_le_mul ?_ hev he (by norm_num)
    nlinarith [abs_nonneg q]
  have h2 : 2 * v * (1 / 16) ≤ ((1 + v) ^ 2 - 1) * y ^ 2 := by
    refine mul_le_mul ?_ (by nlinarith) (by norm_num) (by nlinarith)
    nlinarith
  nlinarith

/-- a rotation from `t`: `y = 1 / sqrt (1 + t²)` and `z = t y` -/
theorem core2 {t : F64} (hf : t.isFinite = true) (ht : |val t| ≤ 1) :
    let y := 1 / (1 + t * t).sqrt
    let z := t * y
    y.isFinite = true ∧ z.isFinite = true ∧ 0 ≤ val y ∧ val y ≤ g ^ 3 ∧ val y ^ 2 + val z ^ 2 ≤ g ^ 8 ∧ 1 ≤ g ^ 8 * (val y ^ 2 + val z ^ 2) ∧
    |val z - val t * val y| ≤ u * |val t * val y| + eta := by
  intro y z
  obtain ⟨h1, h2, h3, h4, h5⟩ := core1 hf ht
  change y.isFinite = true at h1
  change 1 / 4 ≤ val y at h2
  change val y ≤ 4 at h3
  change val y ^ 2 * (1 + val t ^ 2) ≤ g ^ 6 at h4
  change 1 ≤ g ^ 6 * (val y ^ 2 * (1 + val t ^ 2)) at h5
  have hq : |val t * val y| ≤ 4 := by
    rw [abs_mul, abs_of_nonneg (show 0 ≤ val y by linarith)]
    nlinarith [abs_nonneg (val t)]
  have hzf : z.isFinite = true := mul_isFinite hf h1 (small_lt (by linarith))
  have z1 := (mul_fin hzf).2.2
  have z2 := mul_fin' hzf
  have hu := u_pos
  have hus := u_small
  have hes := eta_small
  have he := eta_pos
  have b1 : |val z| ≤ (1 + u) * |val t * val y| + eta := by
    have := abs_sub_abs_le_abs_sub (val z) (val t * val y)
    change |val z - val t * val y| ≤ _ at z1
    linarith
  have b2 : |val t * val y| ≤ (1 + u) * |val z| + eta := by
    have := abs_sub_abs_le_abs_sub (val t * val y) (val z)
    change |val z - val t * val y| ≤ u * |val z| + eta at z2
    rw [abs_sub_comm] at z2
    linarith
  have hz4 : |val z| ≤ 4 := by
    have h6 : |val t * val y| ≤ g ^ 3 := by
      refine abs_le_of_sq_le_sq ?_ (pow_pos g_pos 3).le
      have : (g ^ 3) ^ 2 = g ^ 6 := by ring
      rw [this, mul_pow]
      nlinarith [sq_nonneg (val y)]
    have hg := g_small
    have hg1 := g_ge
    have : g ^ 3 ≤ 1 + 1 / 100 := by
      have : g ^ 3 ≤ (1 + 1 / 1000) ^ 3 := pow_le_pow_left₀ g_pos.le hg 3
      norm_num at this ⊢; linarith
    nlinarith
  have c1 := near_sq_add he.le hu hes hus b1 hq h2
  have c2 := near_sq_add he.le hu hes hus b2 hz4 h2
  rw [← g_eq] at c1 c2
  refine ⟨h1, hzf, by linarith, ?_, ?_, ?_, z1⟩
  · have : val y ^ 2 ≤ (g ^ 3) ^ 2 := by
      have e : (g ^ 3) ^ 2 = g ^ 6 := by ring
      rw [e]
      nlinarith [sq_nonneg (val t), sq_nonneg (val y), mul_nonneg (sq_nonneg (val y)) (sq_nonneg (val t))]
    exact (abs_le_of_sq_le_sq' this (pow_pos g_pos 3).le).2
  · calc val y ^ 2 + val z ^ 2 ≤ g ^ 2 * (val y ^ 2 + (val t * val y) ^ 2) := c1
      _ = g ^ 2 * (val y ^ 2 * (1 + val t ^ 2)) := by ring
      _ ≤ g ^ 2 * g ^ 6 := mul_le_mul_of_nonneg_left h4 (pow_pos g_pos 2).le
      _ = g ^ 8 := by ring
  · calc (1 : ℚ) ≤ g ^ 6 * (val y ^ 2 * (1 + val t ^ 2)) := h5
      _ = g ^ 6 * (val y ^ 2 + (val t * val y) ^ 2) := by ring
      _ ≤ g ^ 6 * (g ^ 2 * (val y ^ 2 + val z ^ 2)) := mul_le_mul_of_nonneg_left c2 (pow_pos g_pos 6).le
      _ = g ^ 8 * (val y ^ 2 + val z ^ 2) := by ring

/-- `- p / q` for `|p| ≤ |q|`, `q ≠ 0` -/
theorem quot {p q : F64} (hp : p.isFinite = true) (hq : q.isFinite = true) (hq0 : val q ≠ 0) (h : |val p| ≤ |val q|) :
    (-p / q).isFinite = true ∧ |val (-p / q)| ≤ 1 ∧ |val (-p / q) * val q + val p| ≤ u * |val p| + eta * |val q| := by
  obtain ⟨s, m, rfl⟩ := fin_iff.mp hp
  obtain ⟨t, n, rfl⟩ := fin_iff.mp hq
  have hn : n ≠ 0 := by rintro rfl; apply hq0; rw [val_num]; split <;> simp
  have e : -(num s m : F64) / num t n = ofExact (xor (!s) t) (val (num (!s) m) / val (num t n)) := by
    rw [neg_def, neg, div_def, div, if_neg hn]
  have ev : val (num (!s) m) = -val (num s m) := by cases s <;> simp [val]
  rw [ev] at e
  have hpos : 0 < |val (num t n)| := abs_pos.mpr hq0
  have hx : |-val (num s m) / val (num t n)| ≤ 1 := by
    rw [abs_div, abs_neg, div_le_one hpos]; exact h
  rw [e]
  obtain ⟨h1, h2⟩ := ofExact_le_one (s := xor (!s) t) hx
  refine ⟨h1, h2, ?_⟩
  have h3 := ofExact_err h1
  set r := val (ofExact (xor (!s) t) (-val (num s m) / val (num t n)))
  set P := val (num s m)
  set Q := val (num t n)
  have e2 : r * Q + P = (r - -P / Q) * Q := by field_simp; ring
  rw [e2, abs_mul]
  calc |r - -P / Q| * |Q| ≤ (u * |-P / Q| + eta) * |Q| := mul_le_mul_of_nonneg_right h3 (abs_nonneg _)
    _ = u * |P| + eta * |Q| := by rw [abs_div, abs_neg]; field_simp

/-- the residual of the rotation -/
theorem resid {P Q t y z : ℚ} (hy0 : 0 ≤ y) (hy : y ≤ g ^ 3) (h1 : |t * Q + P| ≤ u * |P| + eta * |Q|) (h2 : |z - t * y| ≤ u * |t * y| + eta) :
    |y * P + z * Q| ≤ 3 * u * |P| + 3 * eta * |Q| := by
  have hu := u_pos
  have he := eta_pos
  have hus := u_small
  have hP := abs_nonneg P
  have hQ := abs_nonneg Q
  have hg3 : g ^ 3 ≤ 1 + 1 / 100 := by
    have : g ^ 3 ≤ (1 + 1 / 1000) ^ 3 := pow_le_pow_left₀ g_pos.le g_small 3
    norm_num at this ⊢; linarith
  have hy' : y ≤ 1 + 1 / 100 := hy.trans hg3
  have htQ : |t * Q| ≤ (1 + u) * |P| + eta * |Q| := by
    have := abs_sub_abs_le_abs_sub (t * Q) (-P)
    rw [sub_neg_eq_add, abs_neg] at this
    linarith
  have e : y * P + z * Q = y * (t * Q + P) + (z - t * y) * Q := by ring
  rw [e]
  refine (abs_add_le _ _).trans ?_
  rw [abs_mul, abs_mul, abs_of_nonneg hy0]
  have k1 : y * |t * Q + P| ≤ (1 + 1 / 100) * (u * |P| + eta * |Q|) := mul_le_mul hy' h1 (abs_nonneg _) (by norm_num)
  have k2 : |z - t * y| * |Q| ≤ (u * |t * y| + eta) * |Q| := mul_le_mul_of_nonneg_right h2 hQ
  have k3 : |t * y| * |Q| ≤ (1 + 1 / 100) * ((1 + u) * |P| + eta * |Q|) := by
    have : |t * y| * |Q| = y * |t * Q| := by rw [abs_mul, abs_mul, abs_of_nonneg hy0]; ring
    rw [this]
    exact mul_le_mul hy' htQ (abs_nonneg _) (by norm_num)
  have k4 : (u * |t * y| + eta) * |Q| ≤ u * ((1 + 1 / 100) * ((1 + u) * |P| + eta * |Q|)) + eta * |Q| := by
    have := mul_le_mul_of_nonneg_left k3 hu.le
    linarith
  have huP : u * |P| * u ≤ u * |P| * (1 / 1000) := mul_le_mul_of_nonneg_left hus (mul_nonneg hu.le hP)
  have hueQ : eta * |Q| * u ≤ eta * |Q| * (1 / 1000) := mul_le_mul_of_nonneg_left hus (mul_nonneg he.le hQ)
  have h0 := mul_nonneg hu.le hP
  have h00 := mul_nonneg he.le hQ
  linarith

/-- the threshold of the code -/
theorem tol_pos : 0 < val (lit 0.000000000001) ∧ (lit 0.000000000001).isFinite = true := by
  constructor <;> decide +kernel

/-- **C109**: for all finite `a`, `b` the answer `(c, s)` of `givens_rotation` consists of finite numbers, `c² + s²` is `1` up to a relative error of
`(1 + u)^8`, and: for `|b|` below the threshold `1e-12` of the code the answer is `(1, 0)`; otherwise the rotation takes the second component `s a + c b` to `0` up to
the rounding errors. -/
theorem c109_givens (a b : F64) (ha : Rep a) (hb : Rep b) (hfa : a.isFinite = true) (hfb : b.isFinite = true) :
    (givens a b).1.isFinite = true ∧ (givens a b).2.isFinite = true ∧
    val (givens a b).1 ^ 2 + val (givens a b).2 ^ 2 ≤ (1 + u) ^ 8 ∧ 1 ≤ (1 + u) ^ 8 * (val (givens a b).1 ^ 2 + val (givens a b).2 ^ 2) ∧
    (|val b| < val (lit 0.000000000001) → givens a b = (1, 0)) ∧
    (val (lit 0.000000000001) ≤ |val b| →
      |val (givens a b).2 * val a + val (givens a b).1 * val b| ≤ 3 * u * min |val a| |val b| + 3 * eta * max |val a| |val b|) := by
  obtain ⟨tp, tf⟩ := tol_pos
  have hlt : b.abs.lt (lit 0.000000000001) = true ↔ |val b| < val (lit 0.000000000001) := by
    rw [lt_fin (by rw [abs_finite]; exact hfb) tf, val_abs hb]
  have hab : a.abs.lt b.abs = true ↔ |val a| < |val b| := by
    rw [lt_fin (by rw [abs_finite]; exact hfa) (by rw [abs_finite]; exact hfb), val_abs ha, val_abs hb]
  by_cases h1 : |val b| < val (lit 0.000000000001)
  · have e : givens a b = (1, 0) := by unfold givens; rw [if_pos (hlt.mpr h1)]
    rw [e]
    refine ⟨rfl, rfl, ?_, ?_, fun _ => rfl, fun h => absurd h1 (not_lt.mpr h)⟩
    · rw [val_one, val_zero, ← g_eq]; have := gpow_ge 8; linarith
    · rw [val_one, val_zero, ← g_eq]; have := gpow_ge 8; linarith
  · have hb0 : val b ≠ 0 := by
      intro h; rw [h, abs_zero] at h1; exact h1 tp
    by_cases h2 : |val a| < |val b|
    · obtain ⟨q1, q2, q3⟩ := quot hfa hfb hb0 h2.le
      obtain ⟨c1, c2, c3, c4, c5, c6, c7⟩ := core2 q1 q2
      have e : givens a b = (-a / b * (1 / (1 + -a / b * (-a / b)).sqrt), 1 / (1 + -a / b * (-a / b)).sqrt) := by
        unfold givens; rw [if_neg (by rw [hlt]; exact h1), if_pos (hab.mpr h2)]
      rw [e]
      refine ⟨c2, c1, by rw [← g_eq, add_comm]; exact c5, by rw [← g_eq, add_comm (val _ ^ 2)]; exact c6, fun h => absurd h h1, fun _ => ?_⟩
      rw [min_eq_left h2.le, max_eq_right h2.le]
      exact resid c3 c4 q3 c7
    · have h2' := not_lt.mp h2
      have ha0 : val a ≠ 0 := by
        intro h; rw [h, abs_zero] at h2'
        exact hb0 (abs_eq_zero.mp (le_antisymm h2' (abs_nonneg _)))
      obtain ⟨q1, q2, q3⟩ := quot hfb hfa ha0 h2'
      obtain ⟨c1, c2, c3, c4, c5, c6, c7⟩ := core2 q1 q2
      have e : givens a b = (1 / (1 + -b / a * (-b / a)).sqrt, -b / a * (1 / (1 + -b / a * (-b / a)).sqrt)) := by
        unfold givens; rw [if_neg (by rw [hlt]; exact h1), if_neg (by rw [hab]; exact h2)]
      rw [e]
      refine ⟨c1, c2, by rw [← g_eq]; exact c5, by rw [← g_eq]; exact c6, fun h => absurd h h1, fun _ => ?_⟩
      rw [min_eq_right h2', max_eq_left h2', add_comm]
      exact resid c3 c4 q3 c7

/-- Example: the hypotheses hold for the largest number and a number above the threshold. -/
example : let a := lit (2 ^ 1024 - 2 ^ 971)
    let b := lit (1 / 2 ^ 30)
    Rep a ∧ Rep b ∧ a.isFinite = true ∧ b.isFinite = true ∧ val (lit 0.000000000001) ≤ |val b| := by
  refine ⟨ofExact_rep _ _, ofExact_rep _ _, ?_, ?_, ?_⟩ <;> decide +kernel

/-- **C109**, findings: below the threshold nothing is rotated, even if `a` is zero and `b` the only part of the vector; two infinities give NaNs. -/
theorem c109_givens_limits : (∃ b, Rep b ∧ val b ≠ 0 ∧ givens 0 b = (1, 0)) ∧ givens (inf false) (inf false) = (nan, nan) := by
  constructor
  · have h0 : val (lit (1 / 2 ^ 40)) ≠ 0 := by decide +kernel
    have h1 : (lit (1 / 2 ^ 40)).abs.lt (lit 0.000000000001) = true := by decide +kernel
    refine ⟨lit (1 / 2 ^ 40), ofExact_rep _ _, h0, ?_⟩
    unfold givens; rw [if_pos h1]
  · have h1 : (inf false).abs.lt (lit 0.000000000001) = false := by decide +kernel
    have h2 : (inf false).abs.lt (inf false).abs = false := by decide +kernel
    have h3 : (1 + -inf false / inf false * (-inf false / inf false)) = nan := by decide +kernel
    unfold givens
    rw [if_neg (by rw [h1]; simp), if_neg (by rw [h2]; simp)]
    simp only [h3, sqrt]
    decide +kernel

end Toppo.FloatProps
