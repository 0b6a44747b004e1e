import Verif.Proof.FloatCenter2
import Verif.Props.Geom
set_option linter.unusedVariables false

/-!
C111: the answer of `circum_circle_contains` is right when the point is not too near the circle.
-/
namespace Toppo.FloatGeom
open F64 FloatAlg Geom GeomProps

/-- the point with the exact values of the coordinates -/
def rp (p : P2) : Geom.Pt := ((val p.1 : ℝ), (val p.2 : ℝ))

/-- the distance of two points of the plane -/
noncomputable def dist (x y : Geom.Pt) : ℝ := Real.sqrt (sqDist x y)

theorem tQ_eq {a b c : P2} (h : areaQ a b c ≠ 0) : tQ a b c * areaQ a b c =
    ((val c.1 - val a.1) * (val c.1 - val b.1) + (val c.2 - val a.2) * (val c.2 - val b.2)) / 2 := by
  unfold tQ
  rw [neg_div_neg_eq, neg_div_neg_eq]
  field_simp
  ring

theorem oQ_center {a b c : P2} (h : areaQ a b c ≠ 0) :
    (val b.1 - (oQ a b c).1) ^ 2 + (val b.2 - (oQ a b c).2) ^ 2 = (val a.1 - (oQ a b c).1) ^ 2 + (val a.2 - (oQ a b c).2) ^ 2 ∧
    (val c.1 - (oQ a b c).1) ^ 2 + (val c.2 - (oQ a b c).2) ^ 2 = (val a.1 - (oQ a b c).1) ^ 2 + (val a.2 - (oQ a b c).2) ^ 2 := by
  have ht := tQ_eq h
  unfold areaQ at ht
  unfold oQ
  generalize tQ a b c = t at *
  constructor
  · ring
  · linear_combination -2 * ht

/-- there is only one center -/
theorem center_unique {a b c : P2} (h : areaQ a b c ≠ 0) {O : Geom.Pt} (h1 : sqDist (rp b) O = sqDist (rp a) O) (h2 : sqDist (rp c) O = sqDist (rp a) O) :
    O = (((oQ a b c).1 : ℝ), ((oQ a b c).2 : ℝ)) := by
  obtain ⟨e1, e2⟩ := oQ_center h
  have hR : ((areaQ a b c : ℚ) : ℝ) ≠ 0 := by exact_mod_cast h
  have e1' : ((val b.1 : ℝ) - (oQ a b c).1) ^ 2 + ((val b.2 : ℝ) - (oQ a b c).2) ^ 2 = ((val a.1 : ℝ) - (oQ a b c).1) ^ 2 + ((val a.2 : ℝ) - (oQ a b c).2) ^ 2 := by exact_mod_cast e1
  have e2' : ((val c.1 : ℝ) - (oQ a b c).1) ^ 2 + ((val c.2 : ℝ) - (oQ a b c).2) ^ 2 = ((val a.1 : ℝ) - (oQ a b c).1) ^ 2 + ((val a.2 : ℝ) - (oQ a b c).2) ^ 2 := by exact_mod_cast e2
  unfold areaQ at hR
  push_cast at hR
  simp only [sqDist, rp] at h1 h2
  obtain ⟨X, Y⟩ := O
  simp only at h1 h2
  generalize ((oQ a b c).1 : ℝ) = x at *
  generalize ((oQ a b c).2 : ℝ) = y at *
  generalize (val a.1 : ℝ) = a1 at *
  generalize (val a.2 : ℝ) = a2 at *
  generalize (val b.1 : ℝ) = b1 at *
  generalize (val b.2 : ℝ) = b2 at *
  generalize (val c.1 : ℝ) = c1 at *
  generalize (val c.2 : ℝ) = c2 at *
  have f1 : (b1 - a1) * (X - x) + (b2 - a2) * (Y - y) = 0 := by linear_combination (e1' - h1) / 2
  have f2 : (c1 - a1) * (X - x) + (c2 - a2) * (Y - y) = 0 := by linear_combination (e2' - h2) / 2
  have g1 : X - x = 0 := by
    have : ((b1 - a1) * (c2 - a2) - (b2 - a2) * (c1 - a1)) * (X - x) = 0 := by linear_combination (c2 - a2) * f1 - (b2 - a2) * f2
    exact (mul_eq_zero.mp this).resolve_left hR
  have g2 : Y - y = 0 := by
    have : ((b1 - a1) * (c2 - a2) - (b2 - a2) * (c1 - a1)) * (Y - y) = 0 := by linear_combination (b1 - a1) * f2 - (c1 - a1) * f1
    exact (mul_eq_zero.mp this).resolve_left hR
  exact Prod.ext (by simp only; linarith) (by simp only; linarith)

/-- two norms that are near in each coordinate -/
theorem norm_sub_le (x y z w : ℝ) : |Real.sqrt (x ^ 2 + y ^ 2) - Real.sqrt (z ^ 2 + w ^ 2)| ≤ |x - z| + |y - w| := by
  have key : ∀ x y z w : ℝ, Real.sqrt (x ^ 2 + y ^ 2) ≤ Real.sqrt (z ^ 2 + w ^ 2) + (|x - z| + |y - w|) := by
    intro x y z w
    have s0 := Real.sqrt_nonneg (z ^ 2 + w ^ 2)
    have s1 : Real.sqrt (z ^ 2 + w ^ 2) ^ 2 = z ^ 2 + w ^ 2 := Real.sq_sqrt (by positivity)
    have hz : |z| ≤ Real.sqrt (z ^ 2 + w ^ 2) := by rw [← Real.sqrt_sq_eq_abs]; exact Real.sqrt_le_sqrt (by nlinarith [sq_nonneg w])
    have hw : |w| ≤ Real.sqrt (z ^ 2 + w ^ 2) := by rw [← Real.sqrt_sq_eq_abs]; exact Real.sqrt_le_sqrt (by nlinarith [sq_nonneg z])
    have a0 := abs_nonneg (x - z)
    have b0 := abs_nonneg (y - w)
    rw [Real.sqrt_le_left (by positivity)]
    have q1 : (x - z) ^ 2 = |x - z| ^ 2 := (sq_abs _).symm
    have q2 : (y - w) ^ 2 = |y - w| ^ 2 := (sq_abs _).symm
    have r1 : z * (x - z) ≤ Real.sqrt (z ^ 2 + w ^ 2) * |x - z| := by
      refine (le_abs_self _).trans ?_
      rw [abs_mul]; exact mul_le_mul_of_nonneg_right hz a0
    have r2 : w * (y - w) ≤ Real.sqrt (z ^ 2 + w ^ 2) * |y - w| := by
      refine (le_abs_self _).trans ?_
      rw [abs_mul]; exact mul_le_mul_of_nonneg_right hw b0
    have ab := mul_nonneg a0 b0
    nlinarith
  rw [abs_le]
  constructor
  · have := key z w x y
    rw [abs_sub_comm z x, abs_sub_comm w y] at this
    linarith
  · have := key x y z w
    linarith

/-- the error of a computed distance to the center -/
theorem dist_err {a b c p : P2} {M : ℚ} (ha : In M a) (hb : In M b) (hc : In M c) (hp : In M p) (hM : M ≤ 2 ^ 100) (hD : 1 / 2 ^ 200 ≤ |areaQ a b c|)
    (hκ : u * cond a b c ≤ 1 / 1024) : (norm (vsub p (center a b c))).isFinite = true ∧
      |(val (norm (vsub p (center a b c))) : ℝ) - dist (rp p) (((oQ a b c).1 : ℝ), ((oQ a b c).2 : ℝ))| ≤ 48 * (u : ℝ) * ((cond a b c : ℝ) ^ 2 * M) := by
  obtain ⟨s1, s2, l1, l2, hM1, k1, k2⟩ := sizes ha hb hc hM hD hκ
  obtain ⟨e1, e2, c1, c2, he, ho⟩ := center_ap ha hb hc hM hD hκ
  have hu := u_pos
  have hu2 : u ≤ 1 / 1024 := u_lt.le.trans (by norm_num)
  have M0 : 0 < M := lt_of_lt_of_le (by positivity) hM1
  set κ := cond a b c
  obtain ⟨⟨rp1, fp1, bp1⟩, rp2, fp2, bp2⟩ := hp
  have e10 : 0 ≤ e1 := (abs_nonneg _).trans c1.2.2
  have e20 : 0 ≤ e2 := (abs_nonneg _).trans c2.2.2
  have kM : M ≤ κ * M := by have := mul_le_mul_of_nonneg_right k1 M0.le; linarith
  have kkM : κ * M ≤ κ ^ 2 * M := by
    have : κ ≤ κ ^ 2 := by nlinarith
    exact mul_le_mul_of_nonneg_right this M0.le
  have ukkM : u * (κ ^ 2 * M) ≤ 1 / 1024 * (κ * M) := by
    have : u * κ * (κ * M) ≤ 1 / 1024 * (κ * M) := mul_le_mul_of_nonneg_right hκ (by linarith)
    linarith [show u * (κ ^ 2 * M) = u * κ * (κ * M) by ring]
  have uk0 : 0 ≤ u * (κ ^ 2 * M) := by positivity
  have kbig : 1024 * (κ * M) ≤ 2 ^ 153 := by
    have h1 : κ * M ≤ 2 ^ 43 * 2 ^ 100 := mul_le_mul k2 hM M0.le (by positivity)
    have h2 : (1024 : ℚ) * (2 ^ 43 * 2 ^ 100) ≤ 2 ^ 153 := by norm_num
    linarith
  have big1 : (2 : ℚ) ^ 153 ≤ big := big_ge (by norm_num)
  -- the differences
  have a1 : |val p.1 - (oQ a b c).1| ≤ M + |(oQ a b c).1| := (abs_sub _ _).trans (by linarith)
  have a2 : |val p.2 - (oQ a b c).2| ≤ M + |(oQ a b c).2| := (abs_sub _ _).trans (by linarith)
  have o1 := abs_nonneg (oQ a b c).1
  have o2 := abs_nonneg (oQ a b c).2
  have d1 := ap_sub (ap_exact rp1 fp1) c1 (b := M + |(oQ a b c).1| + e1) (r := e1 + u * (M + |(oQ a b c).1| + e1)) (by linarith) (by linarith) (by linarith)
  have d2 := ap_sub (ap_exact rp2 fp2) c2 (b := M + |(oQ a b c).2| + e2) (r := e2 + u * (M + |(oQ a b c).2| + e2)) (by linarith) (by linarith) (by linarith)
  have v1 := ap_abs d1
  have v2 := ap_abs d2
  set w1 := p.1 - (center a b c).1 with hw1
  set w2 := p.2 - (center a b c).2 with hw2
  have z1 : u * (M + |(oQ a b c).1| + e1) ≤ 1 / 1024 * (M + |(oQ a b c).1| + e1) := mul_le_mul_of_nonneg_right hu2 (by linarith)
  have z2 : u * (M + |(oQ a b c).2| + e2) ≤ 1 / 1024 * (M + |(oQ a b c).2| + e2) := mul_le_mul_of_nonneg_right hu2 (by linarith)
  have hsq : 4 * (val w1 * val w1 + val w2 * val w2) ≤ big := by
    have g1 : |val w1| ≤ 1024 * (κ * M) := by linarith
    have g2 : |val w2| ≤ 1024 * (κ * M) := by linarith
    have h1 : val w1 * val w1 ≤ 2 ^ 153 * 2 ^ 153 := by
      rw [← abs_mul_abs_self]; exact mul_le_mul (g1.trans kbig) (g1.trans kbig) (abs_nonneg _) (by positivity)
    have h2 : val w2 * val w2 ≤ 2 ^ 153 * 2 ^ 153 := by
      rw [← abs_mul_abs_self]; exact mul_le_mul (g2.trans kbig) (g2.trans kbig) (abs_nonneg _) (by positivity)
    have h3 : 4 * ((2 : ℚ) ^ 153 * 2 ^ 153 + 2 ^ 153 * 2 ^ 153) = 2 ^ 309 := by
      rw [← two_mul, show (4 : ℚ) = 2 ^ 2 by norm_num, ← pow_add, ← mul_assoc, ← pow_succ, ← pow_add]
    have h4 : (2 : ℚ) ^ 309 ≤ big := big_ge (by norm_num)
    rw [← h3] at h4
    exact le_trans (mul_le_mul_of_nonneg_left (add_le_add h1 h2) (by norm_num)) h4
  obtain ⟨n1, n2⟩ := norm_err (w := vsub p (center a b c)) d1.1 d2.1 d1.2.1 d2.2.1 hsq
  refine ⟨n1, ?_⟩
  -- in the reals
  have hE : e1 + u * (M + |(oQ a b c).1| + e1) + (e2 + u * (M + |(oQ a b c).2| + e2)) ≤ 341 / 10 * u * (κ ^ 2 * M) := by
    have y1 : u * (M + |(oQ a b c).1| + e1) + u * (M + |(oQ a b c).2| + e2) ≤ u * (2 * M + 3 * (κ * M) + 29 * u * (κ ^ 2 * M)) := by
      rw [← mul_add]; exact mul_le_mul_of_nonneg_left (by linarith) hu.le
    have y2 : u * (2 * M + 3 * (κ * M) + 29 * u * (κ ^ 2 * M)) ≤ u * (5 * (κ ^ 2 * M)) + 1 / 1024 * (29 * (u * (κ ^ 2 * M))) := by
      have : u * (29 * (u * (κ ^ 2 * M))) ≤ 1 / 1024 * (29 * (u * (κ ^ 2 * M))) := mul_le_mul_of_nonneg_right hu2 (by positivity)
      have : u * (2 * M + 3 * (κ * M)) ≤ u * (5 * (κ ^ 2 * M)) := mul_le_mul_of_nonneg_left (by linarith) hu.le
      linarith
    linarith
  have hd1 : |(val w1 : ℝ) - ((val p.1 : ℝ) - ((oQ a b c).1 : ℝ))| ≤ ((e1 + u * (M + |(oQ a b c).1| + e1) : ℚ) : ℝ) := by
    have := d1.2.2
    have : ((|val w1 - (val p.1 - (oQ a b c).1)| : ℚ) : ℝ) ≤ ((e1 + u * (M + |(oQ a b c).1| + e1) : ℚ) : ℝ) := by exact_mod_cast this
    rw [Rat.cast_abs] at this
    push_cast at this ⊢
    exact this
  have hd2 : |(val w2 : ℝ) - ((val p.2 : ℝ) - ((oQ a b c).2 : ℝ))| ≤ ((e2 + u * (M + |(oQ a b c).2| + e2) : ℚ) : ℝ) := by
    have := d2.2.2
    have : ((|val w2 - (val p.2 - (oQ a b c).2)| : ℚ) : ℝ) ≤ ((e2 + u * (M + |(oQ a b c).2| + e2) : ℚ) : ℝ) := by exact_mod_cast this
    rw [Rat.cast_abs] at this
    push_cast at this ⊢
    exact this
  have hER : ((e1 + u * (M + |(oQ a b c).1| + e1) : ℚ) : ℝ) + ((e2 + u * (M + |(oQ a b c).2| + e2) : ℚ) : ℝ) ≤ 341 / 10 * (u : ℝ) * ((κ : ℝ) ^ 2 * M) := by
    have : (((e1 + u * (M + |(oQ a b c).1| + e1) + (e2 + u * (M + |(oQ a b c).2| + e2)) : ℚ)) : ℝ) ≤ ((341 / 10 * u * (κ ^ 2 * M) : ℚ) : ℝ) := by exact_mod_cast hE
    rw [Rat.cast_add] at this
    refine this.trans (le_of_eq ?_)
    push_cast; ring
  have hn := norm_sub_le (val w1 : ℝ) (val w2 : ℝ) ((val p.1 : ℝ) - ((oQ a b c).1 : ℝ)) ((val p.2 : ℝ) - ((oQ a b c).2 : ℝ))
  -- the exact distance is at most 5 κ M
  have hX : Real.sqrt (((val p.1 : ℝ) - ((oQ a b c).1 : ℝ)) ^ 2 + ((val p.2 : ℝ) - ((oQ a b c).2 : ℝ)) ^ 2) ≤ 5 * ((κ : ℝ) * M) := by
    have := norm_sub_le ((val p.1 : ℝ) - ((oQ a b c).1 : ℝ)) ((val p.2 : ℝ) - ((oQ a b c).2 : ℝ)) 0 0
    have h0 : Real.sqrt ((0 : ℝ) ^ 2 + 0 ^ 2) = 0 := by simp
    rw [h0, sub_zero, sub_zero, sub_zero, abs_of_nonneg (Real.sqrt_nonneg _)] at this
    have hq : |val p.1 - (oQ a b c).1| + |val p.2 - (oQ a b c).2| ≤ 5 * (κ * M) := by linarith
    have hq' : (((|val p.1 - (oQ a b c).1| + |val p.2 - (oQ a b c).2| : ℚ)) : ℝ) ≤ ((5 * (κ * M) : ℚ) : ℝ) := by exact_mod_cast hq
    push_cast at hq'
    linarith
  have n2' : |(val (norm (vsub p (center a b c))) : ℝ) - Real.sqrt ((val w1 : ℝ) ^ 2 + (val w2 : ℝ) ^ 2)| ≤ 21 / 10 * (u : ℝ) * Real.sqrt ((val w1 : ℝ) ^ 2 + (val w2 : ℝ) ^ 2) + tau := n2
  have hdist : dist (rp p) (((oQ a b c).1 : ℝ), ((oQ a b c).2 : ℝ)) = Real.sqrt (((val p.1 : ℝ) - ((oQ a b c).1 : ℝ)) ^ 2 + ((val p.2 : ℝ) - ((oQ a b c).2 : ℝ)) ^ 2) := rfl
  rw [hdist]
  set X := Real.sqrt (((val p.1 : ℝ) - ((oQ a b c).1 : ℝ)) ^ 2 + ((val p.2 : ℝ) - ((oQ a b c).2 : ℝ)) ^ 2)
  set W := Real.sqrt ((val w1 : ℝ) ^ 2 + (val w2 : ℝ) ^ 2)
  set N := (val (norm (vsub p (center a b c))) : ℝ)
  have huR : (0 : ℝ) < u := by exact_mod_cast hu
  have hu2R : (u : ℝ) ≤ 1 / 1024 := by
    have : ((u : ℚ) : ℝ) ≤ ((1 / 1024 : ℚ) : ℝ) := by exact_mod_cast hu2
    push_cast at this; exact this
  have hkkM : (κ : ℝ) * M ≤ (κ : ℝ) ^ 2 * M := by exact_mod_cast kkM
  have hkM0 : (0 : ℝ) ≤ (κ : ℝ) * M := by exact_mod_cast (by linarith : 0 ≤ κ * M)
  have htau : tau ≤ (u : ℝ) * ((κ : ℝ) ^ 2 * M) := by
    have h1 : (u : ℚ) = 1 / 2 ^ 53 := by
      have := u_cast (K := ℚ)
      rw [zpow_neg] at this
      rw [one_div]
      simpa using this
    have h2 : (1 : ℚ) / 2 ^ 155 ≤ u * (κ ^ 2 * M) := by
      have : (1 : ℚ) / 2 ^ 53 * (1 / 2 ^ 102) ≤ u * (κ ^ 2 * M) := by
        rw [← h1]; exact mul_le_mul_of_nonneg_left (by linarith) hu.le
      have e : (1 : ℚ) / 2 ^ 53 * (1 / 2 ^ 102) = 1 / 2 ^ 155 := by norm_num
      linarith
    have h3 : ((1 / 2 ^ 155 : ℚ) : ℝ) ≤ ((u * (κ ^ 2 * M) : ℚ) : ℝ) := by exact_mod_cast h2
    push_cast at h3
    refine le_trans ?_ h3
    unfold tau
    exact one_div_le_one_div_of_le (by positivity) (pow_le_pow_right₀ (by norm_num) (by norm_num))
  have hWX : |W - X| ≤ 341 / 10 * (u : ℝ) * ((κ : ℝ) ^ 2 * M) := by linarith
  have hW : W ≤ X + 341 / 10 * (u : ℝ) * ((κ : ℝ) ^ 2 * M) := by have := (abs_le.mp hWX).2; linarith
  have ukkMR : (u : ℝ) * ((κ : ℝ) ^ 2 * M) ≤ 1 / 1024 * ((κ : ℝ) * M) := by
    have : ((u * (κ ^ 2 * M) : ℚ) : ℝ) ≤ ((1 / 1024 * (κ * M) : ℚ) : ℝ) := by exact_mod_cast ukkM
    push_cast at this; exact this
  have hW2 : W ≤ 51 / 10 * ((κ : ℝ) * M) := by linarith
  have huW : (u : ℝ) * W ≤ u * (51 / 10 * ((κ : ℝ) ^ 2 * M)) := mul_le_mul_of_nonneg_left (by linarith) huR.le
  have := abs_add_le (N - W) (W - X)
  rw [sub_add_sub_cancel] at this
  have hpos : 0 ≤ (u : ℝ) * ((κ : ℝ) ^ 2 * M) := mul_nonneg huR.le (by linarith)
  linarith

/-- C111: when the answer is right. All coordinates are at most `M ≤ 2^100` in absolute value, twice the area of the triangle is at least
`2^-200`, and the condition number `κ` of the triangle (the product of the lengths, in the sum norm, of the two sides at the first corner, divided
by twice the area) is at most `2^43`. Then for the center `O` of the circle through the corners: if the distances of `p` and of the corner from `O`
differ by more than `96 * 2^-53 * κ^2 * M`, the answer is whether `p` is inside. -/
theorem c111_margin (a b c p : P2) (M : ℚ) (ha : In M a) (hb : In M b) (hc : In M c) (hp : In M p) (hM : M ≤ 2 ^ 100)
    (hD : 1 / 2 ^ 200 ≤ |areaQ a b c|) (hκ : cond a b c ≤ 2 ^ 43) (O : ℝ × ℝ) (h1 : sqDist (rp b) O = sqDist (rp a) O) (h2 : sqDist (rp c) O = sqDist (rp a) O)
    (hmargin : 96 / 2 ^ 53 * ((cond a b c : ℝ) ^ 2 * M) < |dist (rp p) O - dist (rp a) O|) :
    contains a b c p = true ↔ dist (rp p) O < dist (rp a) O := by
  have hu : (u : ℚ) = 1 / 2 ^ 53 := by
    have := u_cast (K := ℚ)
    rw [zpow_neg] at this
    rw [one_div]
    simpa using this
  have hκ' : u * cond a b c ≤ 1 / 1024 := by
    rw [hu]
    have := mul_le_mul_of_nonneg_left hκ (by positivity : (0 : ℚ) ≤ 1 / 2 ^ 53)
    have e : (1 : ℚ) / 2 ^ 53 * 2 ^ 43 = 1 / 1024 := by norm_num
    linarith
  have hDne : areaQ a b c ≠ 0 := abs_pos.mp (lt_of_lt_of_le (by positivity) hD)
  have hO := center_unique hDne h1 h2
  subst hO
  obtain ⟨f1, g1⟩ := dist_err ha hb hc hp hM hD hκ'
  obtain ⟨f2, g2⟩ := dist_err ha hb hc ha hM hD hκ'
  have huR : ((u : ℚ) : ℝ) = 1 / 2 ^ 53 := by rw [hu]; push_cast; ring
  rw [huR] at g1 g2
  have hc' : contains a b c p = true ↔ (val (norm (vsub p (center a b c))) : ℝ) < (val (norm (vsub a (center a b c))) : ℝ) := by
    have := lt_fin f1 f2
    rw [Rat.cast_lt, ← this]; rfl
  rw [hc']
  rw [abs_le] at g1 g2
  rcases lt_abs.mp hmargin with h | h
  · constructor
    · intro h'; linarith [g1.1, g2.2]
    · intro h'; exfalso
      have : 0 ≤ 96 / 2 ^ 53 * ((cond a b c : ℝ) ^ 2 * M) := by linarith [g1.1, g1.2]
      linarith
  · constructor
    · intro h'
      have : 0 ≤ 96 / 2 ^ 53 * ((cond a b c : ℝ) ^ 2 * M) := by linarith [g1.1, g1.2]
      linarith
    · intro h'; linarith [g1.2, g2.1]

/-- C111: under the same conditions the answer is that of exact arithmetic (C71). -/
theorem c111_exact (a b c p : P2) (M : ℚ) (ha : In M a) (hb : In M b) (hc : In M c) (hp : In M p) (hM : M ≤ 2 ^ 100)
    (hD : 1 / 2 ^ 200 ≤ |areaQ a b c|) (hκ : cond a b c ≤ 2 ^ 43)
    (hmargin : ∀ O : ℝ × ℝ, sqDist (rp b) O = sqDist (rp a) O → sqDist (rp c) O = sqDist (rp a) O →
      96 / 2 ^ 53 * ((cond a b c : ℝ) ^ 2 * M) < |dist (rp p) O - dist (rp a) O|) :
    contains a b c p = true ↔ Geom.circumContains (rp a) (rp b) (rp c) (rp p) := by
  have hDne : areaQ a b c ≠ 0 := abs_pos.mp (lt_of_lt_of_le (by positivity) hD)
  have hA : area2 (rp a) (rp b) (rp c) ≠ 0 := by
    have : area2 (rp a) (rp b) (rp c) = ((areaQ a b c : ℚ) : ℝ) := by unfold areaQ area2 rp; push_cast; ring
    rw [this]; exact_mod_cast hDne
  have e1 := oQ_center hDne
  have h1 : sqDist (rp b) (((oQ a b c).1 : ℝ), ((oQ a b c).2 : ℝ)) = sqDist (rp a) (((oQ a b c).1 : ℝ), ((oQ a b c).2 : ℝ)) := by
    simp only [sqDist, rp]; exact_mod_cast e1.1
  have h2 : sqDist (rp c) (((oQ a b c).1 : ℝ), ((oQ a b c).2 : ℝ)) = sqDist (rp a) (((oQ a b c).1 : ℝ), ((oQ a b c).2 : ℝ)) := by
    simp only [sqDist, rp]; exact_mod_cast e1.2
  rw [c111_margin a b c p M ha hb hc hp hM hD hκ _ h1 h2 (hmargin _ h1 h2), c71_circumcircle]
  have hlt : ∀ O, dist (rp p) O < dist (rp a) O ↔ sqDist (rp p) O < sqDist (rp a) O := by
    intro O
    unfold dist
    exact Real.sqrt_lt_sqrt_iff (by unfold sqDist; positivity)
  constructor
  · intro h
    exact ⟨hA, _, h1, h2, (hlt _).mp h⟩
  · rintro ⟨-, O, k1, k2, k3⟩
    rw [← center_unique hDne k1 k2]
    exact (hlt O).mpr k3

theorem in_pt {a b : Nat} (ha : a < 2 ^ 53) (hb : b < 2 ^ 53) {M : ℚ} (ha' : (a : ℚ) ≤ M) (hb' : (b : ℚ) ≤ M) : In M (pt a b) :=
  ⟨⟨⟨a, 0, ha, by norm_num, by norm_num, by simp⟩, rfl, by rw [pt, abs_val_num _ (Nat.cast_nonneg a)]; exact ha'⟩,
    ⟨⟨b, 0, hb, by norm_num, by norm_num, by simp⟩, rfl, by rw [pt, abs_val_num _ (Nat.cast_nonneg b)]; exact hb'⟩⟩

/-- C111, a case: `(3, 3)` and the circle through `(0, 0)`, `(4, 0)` and `(0, 4)`: the condition number is 1 -/
example : contains (pt 0 0) (pt 4 0) (pt 0 4) (pt 3 3) = true := by
  have hc : cond (pt 0 0) (pt 4 0) (pt 0 4) = 1 := by norm_num [cond, side, areaQ, pt, val]
  have d1 : dist (rp (pt 3 3)) (2, 2) = Real.sqrt 2 := by unfold dist; norm_num [sqDist, rp, pt, val]
  have d2 : dist (rp (pt 0 0)) (2, 2) = 2 * Real.sqrt 2 := by
    unfold dist
    rw [show (2 : ℝ) * Real.sqrt 2 = Real.sqrt (2 ^ 2 * 2) by rw [Real.sqrt_mul (by norm_num), Real.sqrt_sq (by norm_num)]]
    norm_num [sqDist, rp, pt, val]
  have s1 : 1 ≤ Real.sqrt 2 := by rw [Real.one_le_sqrt]; norm_num
  rw [c111_margin _ _ _ _ 4 (in_pt (by norm_num) (by norm_num) (by norm_num) (by norm_num)) (in_pt (by norm_num) (by norm_num) (by norm_num) (by norm_num))
    (in_pt (by norm_num) (by norm_num) (by norm_num) (by norm_num)) (in_pt (by norm_num) (by norm_num) (by norm_num) (by norm_num)) (by norm_num)
    (by norm_num [areaQ, pt, val]) (by rw [hc]; norm_num) (2, 2) (by norm_num [sqDist, rp, pt, val]) (by norm_num [sqDist, rp, pt, val])
    (by rw [hc, d1, d2, abs_sub_comm]; refine lt_of_lt_of_le ?_ (le_abs_self _); norm_num; linarith), d1, d2]
  linarith

end Toppo.FloatGeom
