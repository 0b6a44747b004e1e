import Verif.Proof.FloatCenter
set_option linter.unusedVariables false
set_option maxHeartbeats 1000000

/-!
The rounding error of the center, for three corners.
-/
namespace Toppo.FloatGeom
open F64 FloatAlg

/-- finite, representable, coordinates at most `M` -/
def In (M : ℚ) (p : P2) : Prop := (Rep p.1 ∧ p.1.isFinite = true ∧ |val p.1| ≤ M) ∧ (Rep p.2 ∧ p.2.isFinite = true ∧ |val p.2| ≤ M)

/-- the sum of the absolute coordinate differences of two points -/
def side (a b : P2) : ℚ := |val b.1 - val a.1| + |val b.2 - val a.2|
/-- twice the signed area of a triangle -/
def areaQ (a b c : P2) : ℚ := (val b.1 - val a.1) * (val c.2 - val a.2) - (val b.2 - val a.2) * (val c.1 - val a.1)
/-- the condition number of a triangle at its first corner: large for a flat triangle -/
def cond (a b c : P2) : ℚ := side a b * side a c / |areaQ a b c|

/-- the exact parameter of the center -/
def tQ (a b c : P2) : ℚ :=
  -(val c.1 - val a.1) / -areaQ a b c * ((val a.1 + (val c.1 - val a.1) / 2) - (val a.1 + (val b.1 - val a.1) / 2)) +
    -(val c.2 - val a.2) / -areaQ a b c * ((val a.2 + (val c.2 - val a.2) / 2) - (val a.2 + (val b.2 - val a.2) / 2))
/-- the exact center -/
def oQ (a b c : P2) : ℚ × ℚ :=
  (val a.1 + (val b.1 - val a.1) / 2 + -(val b.2 - val a.2) * tQ a b c, val a.2 + (val b.2 - val a.2) / 2 + (val b.1 - val a.1) * tQ a b c)

theorem abs_diff_le {x y M : ℚ} (hx : |x| ≤ M) (hy : |y| ≤ M) : |x - y| ≤ 2 * M := by
  have := abs_sub x y
  linarith

theorem mid_le {x y M : ℚ} (hx : |x| ≤ M) (hy : |y| ≤ M) : |x + (y - x) / 2| ≤ M := by
  rw [abs_le] at *
  constructor <;> linarith

theorem area_le (a b c : P2) : |areaQ a b c| ≤ side a b * side a c := by
  unfold areaQ side
  refine (abs_sub _ _).trans ?_
  rw [abs_mul, abs_mul]
  have := mul_nonneg (abs_nonneg (val b.1 - val a.1)) (abs_nonneg (val c.1 - val a.1))
  have := mul_nonneg (abs_nonneg (val b.2 - val a.2)) (abs_nonneg (val c.2 - val a.2))
  nlinarith

/-- the sizes -/
theorem sizes {a b c : P2} {M : ℚ} (ha : In M a) (hb : In M b) (hc : In M c) (hM : M ≤ 2 ^ 100) (hD : 1 / 2 ^ 200 ≤ |areaQ a b c|)
    (hκ : u * cond a b c ≤ 1 / 1024) : 0 < side a b ∧ 0 < side a c ∧ side a b ≤ 4 * M ∧ side a c ≤ 4 * M ∧ 1 / 2 ^ 102 ≤ M ∧ 1 ≤ cond a b c ∧ cond a b c ≤ 2 ^ 43 := by
  have hD0 : 0 < |areaQ a b c| := lt_of_lt_of_le (by positivity) hD
  have l1 : side a b ≤ 4 * M := by
    have := abs_diff_le hb.1.2.2 ha.1.2.2
    have := abs_diff_le hb.2.2.2 ha.2.2.2
    unfold side; linarith
  have l2 : side a c ≤ 4 * M := by
    have := abs_diff_le hc.1.2.2 ha.1.2.2
    have := abs_diff_le hc.2.2.2 ha.2.2.2
    unfold side; linarith
  have p1 : 0 ≤ side a b := by unfold side; positivity
  have p2 : 0 ≤ side a c := by unfold side; positivity
  have hle := area_le a b c
  have p1' : 0 < side a b := by
    rcases p1.lt_or_eq with h | h
    · exact h
    · rw [← h, zero_mul] at hle; linarith
  have p2' : 0 < side a c := by
    rcases p2.lt_or_eq with h | h
    · exact h
    · rw [← h, mul_zero] at hle; linarith
  refine ⟨p1', p2', l1, l2, ?_, ?_, ?_⟩
  · by_contra hlt
    push Not at hlt
    have M0 : 0 ≤ M := by linarith
    have h1 : side a b * side a c ≤ (4 * M) * (4 * M) := mul_le_mul l1 l2 p2 (by linarith)
    have h2 : (4 * M) * (4 * M) < (4 * (1 / 2 ^ 102)) * (4 * (1 / 2 ^ 102)) := by nlinarith
    have h3 : ((4 : ℚ) * (1 / 2 ^ 102)) * (4 * (1 / 2 ^ 102)) = 1 / 2 ^ 200 := by norm_num
    linarith
  · unfold cond; rw [one_le_div hD0]; exact hle
  · have hu : (u : ℚ) = 1 / 2 ^ 53 := by
      have := u_cast (K := ℚ)
      rw [zpow_neg] at this
      rw [one_div]
      simpa using this
    rw [hu] at hκ
    have : (1 : ℚ) / 2 ^ 53 * cond a b c * 2 ^ 53 ≤ 1 / 1024 * 2 ^ 53 := mul_le_mul_of_nonneg_right hκ (by positivity)
    have e : (1 : ℚ) / 2 ^ 53 * cond a b c * 2 ^ 53 = cond a b c := by field_simp
    rw [e] at this
    exact this.trans (by norm_num)

theorem center_ap {a b c : P2} {M : ℚ} (ha : In M a) (hb : In M b) (hc : In M c) (hM : M ≤ 2 ^ 100) (hD : 1 / 2 ^ 200 ≤ |areaQ a b c|)
    (hκ : u * cond a b c ≤ 1 / 1024) :
    ∃ e1 e2, Ap (center a b c).1 (oQ a b c).1 e1 ∧ Ap (center a b c).2 (oQ a b c).2 e2 ∧ e1 + e2 ≤ 29 * u * (cond a b c ^ 2 * M) ∧
      |(oQ a b c).1| + |(oQ a b c).2| ≤ 3 * (cond a b c * M) := by
  obtain ⟨s1, s2, l1, l2, hM1, k1, k2⟩ := sizes ha hb hc hM hD hκ
  have hu := u_pos
  have hu2 : u ≤ 1 / 1024 := u_lt.le.trans (by norm_num)
  have M0 : 0 < M := lt_of_lt_of_le (by positivity) hM1
  have hD0 : 0 < |areaQ a b c| := lt_of_lt_of_le (by positivity) hD
  have hDne : areaQ a b c ≠ 0 := abs_pos.mp hD0
  obtain ⟨⟨ra1, fa1, ba1⟩, ra2, fa2, ba2⟩ := ha
  obtain ⟨⟨rb1, fb1, bb1⟩, rb2, fb2, bb2⟩ := hb
  obtain ⟨⟨rc1, fc1, bc1⟩, rc2, fc2, bc2⟩ := hc
  have big1 : 2 ^ 200 ≤ big := big_ge (by norm_num)
  have bigM : 16 * M ≤ big := by
    have : (2 : ℚ) ^ 100 * 16 ≤ 2 ^ 200 := by norm_num
    linarith
  -- the sides
  have p1x := ap_diff rb1 ra1 fb1 fa1 (by have := abs_diff_le bb1 ba1; linarith)
  have p1y := ap_diff rb2 ra2 fb2 fa2 (by have := abs_diff_le bb2 ba2; linarith)
  have p2x := ap_diff rc1 ra1 fc1 fa1 (by have := abs_diff_le bc1 ba1; linarith)
  have p2y := ap_diff rc2 ra2 fc2 fa2 (by have := abs_diff_le bc2 ba2; linarith)
  have q1 := abs_diff_le bb1 ba1
  have q2 := abs_diff_le bb2 ba2
  have q3 := abs_diff_le bc1 ba1
  have q4 := abs_diff_le bc2 ba2
  have i1 : |(val a.1 + (val c.1 - val a.1) / 2) - (val a.1 + (val b.1 - val a.1) / 2)| ≤ M := by
    rw [abs_le] at *; constructor <;> linarith
  have i2 : |(val a.2 + (val c.2 - val a.2) / 2) - (val a.2 + (val b.2 - val a.2) / 2)| ≤ M := by
    rw [abs_le] at *; constructor <;> linarith
  have m1 := mid_le ba1 bb1
  have m2 := mid_le ba2 bb2
  have m3 := mid_le ba1 bc1
  have m4 := mid_le ba2 bc2
  have hηM : eta ≤ u * M / 100 := by
    refine eta_small.trans ?_
    rw [mul_div_assoc]
    refine mul_le_mul_of_nonneg_left ?_ hu.le
    have : (1 : ℚ) / 2 ^ 1022 ≤ 1 / 2 ^ 110 := one_div_le_one_div_of_le (by positivity) (pow_le_pow_right₀ (by norm_num) (by norm_num))
    have : (1 : ℚ) / 2 ^ 110 ≤ 1 / 2 ^ 102 / 100 := by norm_num
    linarith
  set D := areaQ a b c with hDdef
  set κ := cond a b c with hκdef
  set x1 := val b.1 - val a.1 with hx1
  set y1 := val b.2 - val a.2 with hy1
  set x2 := val c.1 - val a.1 with hx2
  set y2 := val c.2 - val a.2 with hy2
  have hL1 : side a b = |x1| + |y1| := rfl
  have hL2 : side a c = |x2| + |y2| := rfl
  have hκQ : side a b * side a c = κ * |D| := by rw [hκdef, cond, ← hDdef]; field_simp
  have hQ0 : 0 < side a b * side a c := mul_pos s1 s2
  have hρ : u ≤ u * κ := by have := mul_le_mul_of_nonneg_left k1 hu.le; linarith
  -- the determinant
  have hηQ : eta ≤ u * (side a b * side a c) / 100 := by
    refine eta_small.trans ?_
    rw [mul_div_assoc]
    refine mul_le_mul_of_nonneg_left ?_ hu.le
    have h1 : (1 : ℚ) / 2 ^ 1022 ≤ 1 / 2 ^ 210 := one_div_le_one_div_of_le (by positivity) (pow_le_pow_right₀ (by norm_num) (by norm_num))
    have h2 : (1 : ℚ) / 2 ^ 210 ≤ 1 / 2 ^ 200 / 100 := by norm_num
    have h3 : |D| ≤ side a b * side a c := area_le a b c
    linarith
  have hQbig : 4 * (side a b * side a c) ≤ big := by
    have h1 : side a b * side a c ≤ (4 * M) * (4 * M) := mul_le_mul l1 l2 s2.le (by linarith)
    have h2 : (4 * M) * (4 * M) ≤ (4 * 2 ^ 100) * (4 * 2 ^ 100) := mul_le_mul (by linarith) (by linarith) (by linarith) (by positivity)
    have h3 : (4 : ℚ) * ((4 * 2 ^ 100) * (4 * 2 ^ 100)) ≤ 2 ^ 210 := by norm_num
    have : (2 : ℚ) ^ 210 ≤ big := big_ge (by norm_num)
    linarith
  have n1y : Ap (-(b.2 - a.2)) (-y1) (u * |-y1|) := by have := ap_neg p1y; rwa [abs_neg]
  have n2x : Ap ((c.1 - a.1) * lit (-1)) (-x2) (u * |-x2|) := by have := ap_mul_neg_one p2x; rwa [abs_neg]
  have n2y : Ap (-(c.2 - a.2) * lit (-1)) (y2) (u * |y2|) := by
    have := ap_mul_neg_one (ap_neg p2y)
    rwa [neg_neg] at this
  have det := step_det n1y n2x p1x n2y (Q := side a b * side a c) (by
    rw [abs_neg, abs_neg, hL1, hL2]
    have := mul_nonneg (abs_nonneg x1) (abs_nonneg x2)
    have := mul_nonneg (abs_nonneg y1) (abs_nonneg y2)
    nlinarith) hQbig hηQ
  have eD : -y1 * -x2 - x1 * y2 = -D := by rw [hDdef, areaQ]; ring
  rw [eD, hκQ] at det
  have hDneg : -D ≠ 0 := neg_ne_zero.mpr hDne
  have det' : Ap (-(b.2 - a.2) * ((c.1 - a.1) * lit (-1)) - (b.1 - a.1) * (-(c.2 - a.2) * lit (-1))) (-D) (5 * (u * κ) * |-D|) := by
    rw [abs_neg]
    have e : 5 * u * (κ * |D|) = 5 * (u * κ) * |D| := by ring
    rw [← e]; exact det
  -- the inverse
  have hNL : (|x2| + |y2|) / |D| * side a b = κ := by
    rw [← hL2, hκdef, cond, ← hDdef]; ring
  have hN0 : 0 < (|x2| + |y2|) / |D| := by rw [← hL2]; exact div_pos s2 hD0
  have hN1 : 1 / (4 * M) ≤ (|x2| + |y2|) / |D| := by
    rw [div_le_iff₀ (by linarith)]
    have : (|x2| + |y2|) / |D| * side a b ≤ (|x2| + |y2|) / |D| * (4 * M) := mul_le_mul_of_nonneg_left l1 hN0.le
    linarith
  have hNM : 1 / 4 ≤ (|x2| + |y2|) / |D| * M := by
    have := mul_le_mul_of_nonneg_right hN1 M0.le
    have e : 1 / (4 * M) * M = 1 / 4 := by field_simp
    linarith
  have hN2 : (|x2| + |y2|) / |D| ≤ 2 ^ 102 * 2 ^ 200 := by
    rw [div_le_iff₀ hD0, ← hL2]
    have h1 : (1 : ℚ) ≤ 2 ^ 200 * |D| := by
      have := mul_le_mul_of_nonneg_left hD (by positivity : (0 : ℚ) ≤ 2 ^ 200)
      have e : (2 : ℚ) ^ 200 * (1 / 2 ^ 200) = 1 := by norm_num
      linarith
    have h2 : side a c ≤ 2 ^ 102 := by
      have : (4 : ℚ) * 2 ^ 100 = 2 ^ 102 := by norm_num
      linarith
    calc side a c ≤ 2 ^ 102 * 1 := by linarith
      _ ≤ 2 ^ 102 * (2 ^ 200 * |D|) := mul_le_mul_of_nonneg_left h1 (by positivity)
      _ = _ := by ring
  have hbN : 4 * ((2 : ℚ) ^ 102 * 2 ^ 200) ≤ big := by
    have : 4 * ((2 : ℚ) ^ 102 * 2 ^ 200) = 2 ^ 304 := by rw [show (4 : ℚ) = 2 ^ 2 by norm_num, ← pow_add, ← pow_add]
    rw [this]; exact big_ge (by norm_num)
  have hbNM : 4 * ((2 : ℚ) ^ 102 * 2 ^ 200 * 2 ^ 100) ≤ big := by
    have : 4 * ((2 : ℚ) ^ 102 * 2 ^ 200 * 2 ^ 100) = 2 ^ 404 := by rw [show (4 : ℚ) = 2 ^ 2 by norm_num, ← pow_add, ← pow_add, ← pow_add]
    rw [this]; exact big_ge (by norm_num)
  have hsplit : (|x2| + |y2|) / |D| = |x2| / |D| + |y2| / |D| := add_div _ _ _
  have hn1 : 0 ≤ |x2| / |D| := by positivity
  have hn2 : 0 ≤ |y2| / |D| := by positivity
  have inv1 := step_inv n2x hDneg hρ hκ det' (n := |x2| / |D|) (by rw [abs_neg, abs_neg]) (by linarith)
  have n2y' : Ap (-(-(c.2 - a.2) * lit (-1))) (-y2) (u * |-y2|) := by have := ap_neg n2y; rwa [abs_neg]
  have inv2 := step_inv n2y' hDneg hρ hκ det' (n := |y2| / |D|) (by rw [abs_neg, abs_neg]) (by linarith)
  -- midpoints
  have hM4 : 4 * M ≤ big := by linarith
  have ma1 := step_mid ra1 fa1 p1x q1 m1 hM4 hηM
  have ma2 := step_mid ra2 fa2 p1y q2 m2 hM4 hηM
  have mc1 := step_mid ra1 fa1 p2x q3 m3 hM4 hηM
  have mc2 := step_mid ra2 fa2 p2y q4 m4 hM4 hηM
  have d1 := step_q ma1 mc1 i1 hM4
  have d2 := step_q ma2 mc2 i2 hM4
  -- the parameter
  set n := |x2| / |D| with hn
  set m := |y2| / |D| with hm
  rw [hsplit] at hNL hN0 hN1 hNM hN2
  have hNMbig : 4 * ((n + m) * M) ≤ big := by
    have : (n + m) * M ≤ (2 ^ 102 * 2 ^ 200) * 2 ^ 100 := mul_le_mul hN2 hM M0.le (by positivity)
    linarith
  have heN : eta ≤ u * ((n + m) * M) / 1000 := by
    refine eta_small.trans ?_
    rw [mul_div_assoc]
    refine mul_le_mul_of_nonneg_left ?_ hu.le
    have h1 : (1 : ℚ) / 2 ^ 1022 ≤ 1 / 2 ^ 12 := one_div_le_one_div_of_le (by positivity) (pow_le_pow_right₀ (by norm_num) (by norm_num))
    have h2 : (1 : ℚ) / 2 ^ 12 ≤ 1 / 4 / 1000 := by norm_num
    linarith
  have heN2 : eta * M ≤ u * ((n + m) * M) / 1000 := by
    have h1 : (1 : ℚ) / 2 ^ 1022 ≤ 1 / 2 ^ 112 := one_div_le_one_div_of_le (by positivity) (pow_le_pow_right₀ (by norm_num) (by norm_num))
    have h3 : (1 : ℚ) / 2 ^ 112 * M ≤ 1 / 2 ^ 12 := by
      have := mul_le_mul_of_nonneg_left hM (by positivity : (0 : ℚ) ≤ 1 / 2 ^ 112)
      have e : (1 : ℚ) / 2 ^ 112 * 2 ^ 100 = 1 / 2 ^ 12 := by norm_num
      linarith
    have h4 : (1 : ℚ) / 2 ^ 1022 * M ≤ 1 / 2 ^ 112 * M := mul_le_mul_of_nonneg_right h1 M0.le
    have h2 : (1 : ℚ) / 2 ^ 12 ≤ 1 / 4 / 1000 := by norm_num
    have h5 : eta * M ≤ u * (1 / 2 ^ 1022) * M := mul_le_mul_of_nonneg_right eta_small M0.le
    rw [mul_assoc] at h5
    refine h5.trans ?_
    rw [mul_div_assoc]
    exact mul_le_mul_of_nonneg_left (by linarith) hu.le
  have av1 : |-x2 / -D| = n := by rw [abs_div, abs_neg, abs_neg]
  have av2 : |-y2 / -D| = m := by rw [abs_div, abs_neg, abs_neg]
  have t1 := step_term (N := n + m) inv1 d1 av1 i1 hρ hκ (by linarith) heN heN2 hNMbig hM4
  have t2 := step_term (N := n + m) inv2 d2 av2 i2 hρ hκ (by linarith) heN heN2 hNMbig hM4
  have w1 : |-x2 / -D * (val a.1 + x2 / 2 - (val a.1 + x1 / 2))| ≤ n * M := by
    rw [abs_mul, av1]; exact mul_le_mul_of_nonneg_left i1 hn1
  have w2 : |-y2 / -D * (val a.2 + y2 / 2 - (val a.2 + y1 / 2))| ≤ m * M := by
    rw [abs_mul, av2]; exact mul_le_mul_of_nonneg_left i2 hn2
  have ht := step_t t1 t2 w1 w2 hρ hκ hNMbig
  have htQ : -x2 / -D * (val a.1 + x2 / 2 - (val a.1 + x1 / 2)) + -y2 / -D * (val a.2 + y2 / 2 - (val a.2 + y1 / 2)) = tQ a b c := rfl
  rw [htQ] at ht
  have htS : |tQ a b c| ≤ (n + m) * M := by
    rw [← htQ]
    refine (abs_add_le _ _).trans ?_
    linarith
  -- the center
  have hκM : κ * M = side a b * ((n + m) * M) := by rw [← hNL]; ring
  have hκbig : 8 * (κ * M) ≤ big := by
    have h1 : κ * M ≤ 2 ^ 43 * 2 ^ 100 := mul_le_mul k2 hM M0.le (by positivity)
    have h2 : (8 : ℚ) * (2 ^ 43 * 2 ^ 100) ≤ 2 ^ 200 := by norm_num
    linarith
  have S0 : 0 ≤ (n + m) * M := by linarith
  have xS : |x1| * ((n + m) * M) + |y1| * ((n + m) * M) = κ * M := by rw [hκM, hL1]; ring
  have xS1 : 0 ≤ |x1| * ((n + m) * M) := by positivity
  have xS2 : 0 ≤ |y1| * ((n + m) * M) := by positivity
  have c1 := step_center ma1 n1y ht m1 htS hρ hκ (by linarith) (by rw [abs_neg]; linarith) hηM
  have c2 := step_center ma2 p1x ht m2 htS hρ hκ (by linarith) (by linarith) hηM
  refine ⟨_, _, c1, c2, ?_, ?_⟩
  · rw [abs_neg]
    have e : 42 / 10 * u * M + 204 / 10 * (u * κ) * (|y1| * ((n + m) * M)) + (42 / 10 * u * M + 204 / 10 * (u * κ) * (|x1| * ((n + m) * M))) =
        84 / 10 * u * M + 204 / 10 * (u * κ) * (κ * M) := by rw [← xS]; ring
    have k3 : (1 : ℚ) ≤ κ ^ 2 := one_le_pow₀ k1
    have k4 : u * M * 1 ≤ u * M * κ ^ 2 := mul_le_mul_of_nonneg_left k3 (by positivity)
    have k5 : 0 ≤ u * M * κ ^ 2 := by positivity
    have e2 : 204 / 10 * (u * κ) * (κ * M) = 204 / 10 * (u * M * κ ^ 2) := by ring
    have e3 : 29 * u * (κ ^ 2 * M) = 29 * (u * M * κ ^ 2) := by ring
    rw [e, e2, e3]
    linarith
  · have z1 : |(oQ a b c).1| ≤ M + |y1| * ((n + m) * M) := by
      refine (abs_add_le _ _).trans (add_le_add m1 ?_)
      rw [abs_mul, abs_neg]
      exact mul_le_mul_of_nonneg_left htS (abs_nonneg _)
    have z2 : |(oQ a b c).2| ≤ M + |x1| * ((n + m) * M) := by
      refine (abs_add_le _ _).trans (add_le_add m2 ?_)
      rw [abs_mul]
      exact mul_le_mul_of_nonneg_left htS (abs_nonneg _)
    have k3 : 1 * M ≤ κ * M := mul_le_mul_of_nonneg_right k1 M0.le
    linarith

end Toppo.FloatGeom
