import Verif.Props.FloatCircle
set_option linter.unusedVariables false

/-!
Rounding errors of the center of the circle.
-/
namespace Toppo.FloatGeom
open F64 FloatAlg

/-- `x` is a finite number that differs from `v` by at most `e` -/
def Ap (x : F64) (v e : ℚ) : Prop := Rep x ∧ x.isFinite = true ∧ |val x - v| ≤ e

/-- a bound for all intermediate results -/
def big : ℚ := 2 ^ 1000
theorem big_lt : big < 2 ^ 1023 := by unfold big; exact pow_lt_pow_right₀ (by norm_num) (by norm_num)
theorem big_ge {n : Nat} (h : n ≤ 1000) : (2 : ℚ) ^ n ≤ big := by unfold big; exact pow_le_pow_right₀ (by norm_num) h
attribute [irreducible] big

theorem ap_exact {x : F64} (hr : Rep x) (hf : x.isFinite = true) : Ap x (val x) 0 := ⟨hr, hf, by simp⟩

theorem ap_mono {x : F64} {v e f : ℚ} (h : Ap x v e) (hef : e ≤ f) : Ap x v f := ⟨h.1, h.2.1, h.2.2.trans hef⟩

theorem ap_neg {x : F64} {v e : ℚ} (h : Ap x v e) : Ap (-x) (-v) e := by
  refine ⟨rep_neg h.1, by rw [fin_neg]; exact h.2.1, ?_⟩
  rw [val_neg, ← abs_neg]
  have := h.2.2
  rwa [show -(-val x - -v) = val x - v by ring]

theorem ap_abs {x : F64} {v e : ℚ} (h : Ap x v e) : |val x| ≤ |v| + e := by
  have := abs_sub_abs_le_abs_sub (val x) v
  have := h.2.2
  linarith

theorem round_err {s : Bool} {z v e r : ℚ} (hz : |z - v| ≤ e) (hb : |v| + e ≤ big) (hr : e + (u * (|v| + e) + eta) ≤ r) :
    (ofExact s z).isFinite = true ∧ |val (ofExact s z) - v| ≤ r := by
  have h1 : |z| ≤ |v| + e := by have := abs_sub_abs_le_abs_sub z v; linarith
  have hf := ofExact_fin s (lt_of_le_of_lt (h1.trans hb) big_lt)
  refine ⟨hf, ?_⟩
  have h2 := ofExact_err hf
  have h3 : u * |z| ≤ u * (|v| + e) := mul_le_mul_of_nonneg_left h1 u_pos.le
  have h4 := abs_add_le (val (ofExact s z) - z) (z - v)
  rw [sub_add_sub_cancel] at h4
  linarith

theorem round_err_grid {s : Bool} {z v e r : ℚ} (hg : Grid z) (hz : |z - v| ≤ e) (hb : |v| + e ≤ big) (hr : e + u * (|v| + e) ≤ r) :
    (ofExact s z).isFinite = true ∧ |val (ofExact s z) - v| ≤ r := by
  have h1 : |z| ≤ |v| + e := by have := abs_sub_abs_le_abs_sub z v; linarith
  have hf := ofExact_fin s (lt_of_le_of_lt (h1.trans hb) big_lt)
  refine ⟨hf, ?_⟩
  have h2 := ofExact_err_grid hg hf
  have h3 : u * |z| ≤ u * (|v| + e) := mul_le_mul_of_nonneg_left h1 u_pos.le
  have h4 := abs_add_le (val (ofExact s z) - z) (z - v)
  rw [sub_add_sub_cancel] at h4
  linarith

theorem ap_add {x y : F64} {v w e f b r : ℚ} (hx : Ap x v e) (hy : Ap y w f) (hb : |v + w| + (e + f) ≤ b) (hbig : b ≤ big) (hr : e + f + u * b ≤ r) :
    Ap (x + y) (v + w) r := by
  obtain ⟨s, h⟩ := add_ex hx.2.1 hy.2.1
  have hg : Grid (val x + val y) := grid_add (grid_val hx.1) (grid_val hy.1)
  have hz : |val x + val y - (v + w)| ≤ e + f := by
    have := abs_add_le (val x - v) (val y - w)
    rw [show val x - v + (val y - w) = val x + val y - (v + w) by ring] at this
    have := hx.2.2
    have := hy.2.2
    linarith
  have hm : u * (|v + w| + (e + f)) ≤ u * b := mul_le_mul_of_nonneg_left hb u_pos.le
  have := round_err_grid (s := s) hg hz (hb.trans hbig) (by linarith : e + f + u * (|v + w| + (e + f)) ≤ r)
  rw [← h] at this
  exact ⟨rep_add _ _, this.1, this.2⟩

theorem ap_sub {x y : F64} {v w e f b r : ℚ} (hx : Ap x v e) (hy : Ap y w f) (hb : |v - w| + (e + f) ≤ b) (hbig : b ≤ big) (hr : e + f + u * b ≤ r) :
    Ap (x - y) (v - w) r := by
  have := ap_add hx (ap_neg hy) (by rw [← sub_eq_add_neg]; exact hb) hbig hr
  rw [← sub_eq_add_neg] at this
  exact this

/-- products; `k` bounds the error before the rounding -/
theorem ap_mul {x y : F64} {v w e f k b r : ℚ} (hx : Ap x v e) (hy : Ap y w f) (hk : |v| * f + e * (|w| + f) ≤ k) (hb : |v * w| + k ≤ b) (hbig : b ≤ big)
    (hr : k + u * b + eta ≤ r) : Ap (x * y) (v * w) r := by
  obtain ⟨s, h⟩ := mul_ex hx.2.1 hy.2.1
  have e0 : 0 ≤ e := (abs_nonneg _).trans hx.2.2
  have f0 : 0 ≤ f := (abs_nonneg _).trans hy.2.2
  have hz : |val x * val y - v * w| ≤ k := by
    have e1 : val x * val y - v * w = v * (val y - w) + (val x - v) * val y := by ring
    rw [e1]
    refine (abs_add_le _ _).trans (le_trans ?_ hk)
    rw [abs_mul, abs_mul]
    exact add_le_add (mul_le_mul_of_nonneg_left hy.2.2 (abs_nonneg _)) (mul_le_mul hx.2.2 (ap_abs hy) (abs_nonneg _) e0)
  have hm : u * (|v * w| + k) ≤ u * b := mul_le_mul_of_nonneg_left hb u_pos.le
  have := round_err (s := s) hz (hb.trans hbig) (by linarith : k + (u * (|v * w| + k) + eta) ≤ r)
  rw [← h] at this
  exact ⟨rep_mul _ _, this.1, this.2⟩

/-- quotients -/
theorem ap_div {x y : F64} {v w e f k b r : ℚ} (hx : Ap x v e) (hy : Ap y w f) (hw : w ≠ 0) (hf : f ≤ |w| / 100)
    (hk : (e + |v| * (f / |w|)) * (1 + 1 / 50) / |w| ≤ k) (hb : |v / w| + k ≤ b) (hbig : b ≤ big) (hr : k + u * b + eta ≤ r) : Ap (x / y) (v / w) r := by
  have w0 : 0 < |w| := abs_pos.mpr hw
  have e0 : 0 ≤ e := (abs_nonneg _).trans hx.2.2
  have f0 : 0 ≤ f := (abs_nonneg _).trans hy.2.2
  have hy1 : |w| * (99 / 100) ≤ |val y| := by
    have := abs_sub_abs_le_abs_sub w (val y)
    have := hy.2.2
    rw [abs_sub_comm] at this
    linarith
  have y0 : 0 < |val y| := by linarith
  have hy0 : val y ≠ 0 := abs_pos.mp y0
  obtain ⟨s, h⟩ := div_ex hx.2.1 hy.2.1 hy0
  have hz : |val x / val y - v / w| ≤ k := by
    have e1 : val x / val y - v / w = ((val x - v) - v * ((val y - w) / w)) / val y := by field_simp; ring
    rw [e1, abs_div, div_le_iff₀ y0]
    have h1 : |(val x - v) - v * ((val y - w) / w)| ≤ e + |v| * (f / |w|) := by
      refine (abs_sub _ _).trans (add_le_add hx.2.2 ?_)
      rw [abs_mul, abs_div]
      exact mul_le_mul_of_nonneg_left (div_le_div_of_nonneg_right hy.2.2 w0.le) (abs_nonneg _)
    have k0 : 0 ≤ (e + |v| * (f / |w|)) := add_nonneg e0 (mul_nonneg (abs_nonneg _) (div_nonneg f0 w0.le))
    have h2 : (e + |v| * (f / |w|)) ≤ k * (|w| * (99 / 100)) := by
      have := mul_le_mul_of_nonneg_right hk w0.le
      rw [div_mul_cancel₀ _ w0.ne'] at this
      nlinarith
    have kk : 0 ≤ k := le_trans (by positivity) hk
    exact h1.trans (h2.trans (mul_le_mul_of_nonneg_left hy1 kk))
  have hm : u * (|v / w| + k) ≤ u * b := mul_le_mul_of_nonneg_left hb u_pos.le
  have := round_err (s := s) hz (hb.trans hbig) (by linarith : k + (u * (|v / w| + k) + eta) ≤ r)
  rw [← h] at this
  exact ⟨rep_div _ _, this.1, this.2⟩

theorem lit_two : lit 2 = num false 2 := by decide +kernel

/-- halves: rounding only below the normal numbers -/
theorem ap_half {x : F64} {v e r : ℚ} (hx : Ap x v e) (hb : |v| + e ≤ big) (hr : e / 2 + (u * ((|v| + e) / 2) + eta) ≤ r) : Ap (x / lit 2) (v / 2) r := by
  have e2 : val (lit 2) = 2 := by rw [lit_two]; rfl
  obtain ⟨s, h⟩ := div_ex hx.2.1 (y := lit 2) (by rw [lit_two]; rfl) (by rw [e2]; norm_num)
  rw [e2] at h
  have e0 : 0 ≤ e := (abs_nonneg _).trans hx.2.2
  have hz : |val x / 2 - v / 2| ≤ e / 2 := by
    rw [← sub_div, abs_div, abs_of_pos (by norm_num : (0 : ℚ) < 2)]
    exact div_le_div_of_nonneg_right hx.2.2 (by norm_num)
  have ha : |v / 2| = |v| / 2 := by rw [abs_div, abs_of_pos (by norm_num : (0 : ℚ) < 2)]
  have := round_err (s := s) (r := r) hz (by rw [ha]; have := abs_nonneg v; linarith) (by rw [ha, ← add_div]; exact hr)
  rw [← h] at this
  exact ⟨rep_div _ _, this.1, this.2⟩

theorem ap_mul_neg_one {x : F64} {v e : ℚ} (hx : Ap x v e) : Ap (x * lit (-1)) (-v) e := by
  obtain ⟨h1, h2⟩ := mul_neg_one hx.1 hx.2.1
  refine ⟨rep_mul _ _, h1, ?_⟩
  rw [h2, ← abs_neg, show -(-val x - -v) = val x - v by ring]
  exact hx.2.2

theorem ap_diff {x y : F64} (hx : Rep x) (hy : Rep y) (fx : x.isFinite = true) (fy : y.isFinite = true) (hb : |val x - val y| ≤ big) :
    Ap (x - y) (val x - val y) (u * |val x - val y|) :=
  ap_sub (ap_exact hx fx) (ap_exact hy fy) (b := |val x - val y|) (by simp) hb (by simp)

/-- step 3: a product of two sides -/
theorem step_prod {x y : F64} {v w : ℚ} (hx : Ap x v (u * |v|)) (hy : Ap y w (u * |w|)) (hb : 2 * (|v| * |w|) ≤ big) :
    Ap (x * y) (v * w) (31 / 10 * u * (|v| * |w|) + eta) := by
  have hu := u_pos
  have hu1 : u < 1 / 2 ^ 52 := u_lt
  have hu2 : u ≤ 1 / 1024 := hu1.le.trans (by norm_num)
  have hp : 0 ≤ |v| * |w| := by positivity
  refine ap_mul hx hy (k := 201 / 100 * u * (|v| * |w|)) (b := 101 / 100 * (|v| * |w|)) ?_ ?_ (by linarith) ?_
  · have : u * (u * (|v| * |w|)) ≤ 1 / 1024 * (u * (|v| * |w|)) := mul_le_mul_of_nonneg_right hu2 (by positivity)
    have : 0 ≤ u * (|v| * |w|) := by positivity
    nlinarith
  · rw [abs_mul]
    have : u * (|v| * |w|) ≤ 1 / 1024 * (|v| * |w|) := mul_le_mul_of_nonneg_right hu2 hp
    nlinarith
  · have : 0 ≤ u * (|v| * |w|) := by positivity
    nlinarith

/-- the determinant -/
theorem step_det {a b c d : F64} {x y z w Q : ℚ} (ha : Ap a x (u * |x|)) (hb : Ap b y (u * |y|)) (hc : Ap c z (u * |z|)) (hd : Ap d w (u * |w|))
    (hQ : |x| * |y| + |z| * |w| ≤ Q) (hbig : 4 * Q ≤ big) (he : eta ≤ u * Q / 100) : Ap (a * b - c * d) (x * y - z * w) (5 * u * Q) := by
  have hu := u_pos
  have hu2 : u ≤ 1 / 1024 := u_lt.le.trans (by norm_num)
  have p1 : 0 ≤ |x| * |y| := by positivity
  have p2 : 0 ≤ |z| * |w| := by positivity
  have hQ0 : 0 ≤ Q := by linarith
  have h1 := step_prod ha hb (by linarith)
  have h2 := step_prod hc hd (by linarith)
  have q1 : u * (|x| * |y| + |z| * |w|) ≤ u * Q := mul_le_mul_of_nonneg_left hQ hu.le
  have q2 : u * Q ≤ 1 / 1024 * Q := mul_le_mul_of_nonneg_right hu2 hQ0
  have q3 : 0 ≤ u * Q := by positivity
  have habs : |x * y - z * w| ≤ |x| * |y| + |z| * |w| := by
    rw [← abs_mul, ← abs_mul]; exact abs_sub _ _
  refine ap_sub h1 h2 (b := 102 / 100 * Q) ?_ (by linarith) ?_
  · nlinarith
  · nlinarith

/-- step 4: an entry of the inverse -/
theorem step_inv {x y : F64} {v w ρ n : ℚ} (hx : Ap x v (u * |v|)) (hw : w ≠ 0) (hρ : u ≤ ρ) (hρ1 : ρ ≤ 1 / 1024) (hy : Ap y w (5 * ρ * |w|))
    (hn : |v| / |w| = n) (hb : 2 * n ≤ big) : Ap (x / y) (v / w) (73 / 10 * ρ * n + eta) := by
  have hu := u_pos
  have w0 : 0 < |w| := abs_pos.mpr hw
  have hn0 : 0 ≤ n := by rw [← hn]; positivity
  have hρ0 : 0 < ρ := lt_of_lt_of_le hu hρ
  have e1 : (u * |v| + |v| * (5 * ρ * |w| / |w|)) * (1 + 1 / 50) / |w| = (u + 5 * ρ) * (51 / 50) * n := by
    rw [← hn]; field_simp; ring
  have m1 : u * n ≤ ρ * n := mul_le_mul_of_nonneg_right hρ hn0
  have m2 : ρ * n ≤ 1 / 1024 * n := mul_le_mul_of_nonneg_right hρ1 hn0
  have m3 : 0 ≤ ρ * n := by positivity
  refine ap_div hx hy hw (k := 62 / 10 * ρ * n) (b := 101 / 100 * n) ?_ ?_ ?_ (by linarith) ?_
  · rw [div_eq_mul_inv, mul_comm]
    have := mul_le_mul_of_nonneg_right hρ1 w0.le
    nlinarith
  · rw [e1]; nlinarith
  · rw [abs_div, hn]; nlinarith
  · nlinarith

/-- step 5: a midpoint -/
theorem step_mid {x p : F64} {v M : ℚ} (hx : Rep x) (fx : x.isFinite = true) (hp : Ap p v (u * |v|)) (hv : |v| ≤ 2 * M) (hm : |val x + v / 2| ≤ M)
    (hM : 4 * M ≤ big) (he : eta ≤ u * M / 100) : Ap (x + p / lit 2) (val x + v / 2) (31 / 10 * u * M) := by
  have hu := u_pos
  have hu2 : u ≤ 1 / 1024 := u_lt.le.trans (by norm_num)
  have M0 : 0 ≤ M := (abs_nonneg _).trans hm
  have m0 : 0 ≤ u * M := by positivity
  have m1 : u * |v| ≤ u * (2 * M) := mul_le_mul_of_nonneg_left hv hu.le
  have m2 : u * M ≤ 1 / 1024 * M := mul_le_mul_of_nonneg_right hu2 M0
  have m3 : u * (u * |v|) ≤ 1 / 1024 * (u * |v|) := mul_le_mul_of_nonneg_right hu2 (by positivity)
  have h1 : Ap (p / lit 2) (v / 2) (203 / 100 * u * M) := by
    refine ap_half hp ?_ ?_
    · nlinarith
    · nlinarith
  refine ap_add (ap_exact hx fx) h1 (b := 101 / 100 * M) ?_ (by linarith) ?_
  · linarith
  · nlinarith

/-- step 6: the difference of the midpoints -/
theorem step_q {a c : F64} {v w M : ℚ} (ha : Ap a v (31 / 10 * u * M)) (hc : Ap c w (31 / 10 * u * M)) (hq : |w - v| ≤ M) (hM : 4 * M ≤ big) :
    Ap (c - a) (w - v) (73 / 10 * u * M) := by
  have hu := u_pos
  have hu2 : u ≤ 1 / 1024 := u_lt.le.trans (by norm_num)
  have M0 : 0 ≤ M := (abs_nonneg _).trans hq
  have m0 : 0 ≤ u * M := by positivity
  have m2 : u * M ≤ 1 / 1024 * M := mul_le_mul_of_nonneg_right hu2 M0
  refine ap_sub hc ha (b := 101 / 100 * M) ?_ (by linarith) ?_
  · nlinarith
  · nlinarith

/-- step 7: a product of an entry of the inverse and a coordinate of the difference -/
theorem step_term {i q : F64} {v w ρ n N M : ℚ} (hi : Ap i v (73 / 10 * ρ * n + eta)) (hq : Ap q w (73 / 10 * u * M)) (hv : |v| = n) (hw : |w| ≤ M)
    (hρ : u ≤ ρ) (hρ1 : ρ ≤ 1 / 1024) (hnN : n ≤ N) (he : eta ≤ u * (N * M) / 1000) (he2 : eta * M ≤ u * (N * M) / 1000) (hb : 4 * (N * M) ≤ big) (hM : 4 * M ≤ big) :
    Ap (i * q) (v * w) (16 * ρ * (n * M) + ρ * (N * M) / 100) := by
  have hu := u_pos
  have hu2 : u ≤ 1 / 1024 := u_lt.le.trans (by norm_num)
  have hρ0 : 0 < ρ := lt_of_lt_of_le hu hρ
  have he0 := eta_pos
  have n0 : 0 ≤ n := by rw [← hv]; exact abs_nonneg _
  have M0 : 0 ≤ M := (abs_nonneg _).trans hw
  have N0 : 0 ≤ N := n0.trans hnN
  have nM : 0 ≤ n * M := by positivity
  have NM : n * M ≤ N * M := mul_le_mul_of_nonneg_right hnN M0
  have NM0 : 0 ≤ N * M := nM.trans NM
  have t1 : u * (n * M) ≤ ρ * (n * M) := mul_le_mul_of_nonneg_right hρ nM
  have t2 : ρ * (n * M) ≤ 1 / 1024 * (n * M) := mul_le_mul_of_nonneg_right hρ1 nM
  have t3 : u * (N * M) ≤ ρ * (N * M) := mul_le_mul_of_nonneg_right hρ NM0
  have t4 : ρ * (N * M) ≤ 1 / 1024 * (N * M) := mul_le_mul_of_nonneg_right hρ1 NM0
  have t5 : 0 ≤ ρ * (n * M) := by positivity
  have t6 : u * (ρ * (n * M)) ≤ 1 / 1024 * (ρ * (n * M)) := mul_le_mul_of_nonneg_right hu2 t5
  have t7 : u * (eta * M) ≤ 1 / 1024 * (eta * M) := mul_le_mul_of_nonneg_right hu2 (by positivity)
  have t8 : 0 ≤ eta * M := by positivity
  have hk : |v| * (73 / 10 * u * M) + (73 / 10 * ρ * n + eta) * (|w| + 73 / 10 * u * M) ≤ 148 / 10 * ρ * (n * M) + 2 * (eta * M) := by
    rw [hv]
    have : (73 / 10 * ρ * n + eta) * (|w| + 73 / 10 * u * M) ≤ (73 / 10 * ρ * n + eta) * (M + 73 / 10 * u * M) :=
      mul_le_mul_of_nonneg_left (by linarith) (by positivity)
    nlinarith
  refine ap_mul hi hq (b := 102 / 100 * (n * M) + 2 * (eta * M)) hk ?_ (by nlinarith) ?_
  · rw [abs_mul, hv]
    have : n * |w| ≤ n * M := mul_le_mul_of_nonneg_left hw n0
    nlinarith
  · nlinarith

/-- step 8: the parameter of the center -/
theorem step_t {a b : F64} {v w ρ n m M : ℚ} (ha : Ap a v (16 * ρ * (n * M) + ρ * ((n + m) * M) / 100)) (hb : Ap b w (16 * ρ * (m * M) + ρ * ((n + m) * M) / 100))
    (hv : |v| ≤ n * M) (hw : |w| ≤ m * M) (hρ : u ≤ ρ) (hρ1 : ρ ≤ 1 / 1024) (hbig : 4 * ((n + m) * M) ≤ big) :
    Ap (a + b) (v + w) (171 / 10 * ρ * ((n + m) * M)) := by
  have hu := u_pos
  have hρ0 : 0 < ρ := lt_of_lt_of_le hu hρ
  have n0 := (abs_nonneg _).trans hv
  have m0 := (abs_nonneg _).trans hw
  have e1 : (n + m) * M = n * M + m * M := by ring
  have S0 : 0 ≤ (n + m) * M := by linarith
  have t1 : u * ((n + m) * M) ≤ ρ * ((n + m) * M) := mul_le_mul_of_nonneg_right hρ S0
  have t2 : ρ * ((n + m) * M) ≤ 1 / 1024 * ((n + m) * M) := mul_le_mul_of_nonneg_right hρ1 S0
  have t3 : 0 ≤ ρ * ((n + m) * M) := by positivity
  have e2 : 16 * ρ * (n * M) + ρ * ((n + m) * M) / 100 + (16 * ρ * (m * M) + ρ * ((n + m) * M) / 100) = 1602 / 100 * (ρ * ((n + m) * M)) := by ring
  refine ap_add ha hb (b := 102 / 100 * ((n + m) * M)) ?_ (by linarith) ?_
  · rw [e2]
    have := abs_add_le v w
    linarith
  · rw [e2]; nlinarith

/-- steps 9 and 10: a coordinate of the center -/
theorem step_center {a b t : F64} {v w z ρ S M : ℚ} (ha : Ap a v (31 / 10 * u * M)) (hb : Ap b w (u * |w|)) (ht : Ap t z (171 / 10 * ρ * S)) (hv : |v| ≤ M) (hz : |z| ≤ S)
    (hρ : u ≤ ρ) (hρ1 : ρ ≤ 1 / 1024) (hM : 8 * M ≤ big) (hS : 8 * (|w| * S) ≤ big) (he : eta ≤ u * M / 100) :
    Ap (a + b * t) (v + w * z) (42 / 10 * u * M + 204 / 10 * ρ * (|w| * S)) := by
  have hu := u_pos
  have hu2 : u ≤ 1 / 1024 := u_lt.le.trans (by norm_num)
  have hρ0 : 0 < ρ := lt_of_lt_of_le hu hρ
  have he0 := eta_pos
  have M0 : 0 ≤ M := (abs_nonneg _).trans hv
  have S0 : 0 ≤ S := (abs_nonneg _).trans hz
  have W0 := abs_nonneg w
  have P0 : 0 ≤ |w| * S := by positivity
  have t1 : u * (|w| * S) ≤ ρ * (|w| * S) := mul_le_mul_of_nonneg_right hρ P0
  have t2 : ρ * (|w| * S) ≤ 1 / 1024 * (|w| * S) := mul_le_mul_of_nonneg_right hρ1 P0
  have t3 : 0 ≤ u * (|w| * S) := by positivity
  have t4 : u * (ρ * (|w| * S)) ≤ 1 / 1024 * (ρ * (|w| * S)) := mul_le_mul_of_nonneg_right hu2 (by positivity)
  have t5 : u * M ≤ 1 / 1024 * M := mul_le_mul_of_nonneg_right hu2 M0
  have t6 : 0 ≤ u * M := by positivity
  have t7 : u * (u * M) ≤ 1 / 1024 * (u * M) := mul_le_mul_of_nonneg_right hu2 t6
  have hwz : |w * z| ≤ |w| * S := by rw [abs_mul]; exact mul_le_mul_of_nonneg_left hz W0
  have h1 : Ap (b * t) (w * z) (193 / 10 * ρ * (|w| * S) + eta) := by
    refine ap_mul hb ht (k := 182 / 10 * ρ * (|w| * S)) (b := 102 / 100 * (|w| * S)) ?_ ?_ (by linarith) ?_
    · have : u * |w| * (|z| + 171 / 10 * ρ * S) ≤ u * |w| * (S + 171 / 10 * ρ * S) := mul_le_mul_of_nonneg_left (by linarith) (by positivity)
      nlinarith
    · nlinarith
    · nlinarith
  refine ap_add ha h1 (b := 101 / 100 * M + 102 / 100 * (|w| * S)) ?_ (by linarith) ?_
  · have := abs_add_le v (w * z)
    nlinarith
  · nlinarith

theorem eta_small : eta ≤ u * (1 / 2 ^ 1022) := by
  have h1 : (eta : ℚ) = 2 ^ (-1075 : ℤ) := by have := eta_cast (K := ℚ); simpa using this
  have h2 : (u : ℚ) = 2 ^ (-53 : ℤ) := by have := u_cast (K := ℚ); simpa using this
  have h3 : (1 : ℚ) / 2 ^ 1022 = 2 ^ (-1022 : ℤ) := by rw [zpow_neg, one_div]; norm_cast
  rw [h1, h2, h3, ← zpow_add₀ (by norm_num)]
  norm_num

/-- the sum of the squares, before the square root -/
theorem norm_sq {x y : F64} (hx : Rep x) (hy : Rep y) (fx : x.isFinite = true) (fy : y.isFinite = true) (hb : 4 * (val x * val x + val y * val y) ≤ big) :
    Ap (fsum [x * x, y * y]) (val x * val x + val y * val y) (201 / 100 * u * (val x * val x + val y * val y) + 3 * eta) := by
  have hu := u_pos
  have hu2 : u ≤ 1 / 1024 := u_lt.le.trans (by norm_num)
  have he := eta_pos
  have heb : eta ≤ 1 := by
    refine eta_small.trans ?_
    have : (1 : ℚ) / 2 ^ 1022 ≤ 1 := by rw [div_le_one (by positivity)]; exact one_le_pow₀ (by norm_num)
    nlinarith
  have hbig1 : (100 : ℚ) ≤ big := le_trans (by norm_num : (100 : ℚ) ≤ 2 ^ 7) (big_ge (by norm_num))
  have sx := mul_self_nonneg (val x)
  have sy := mul_self_nonneg (val y)
  have h1 : Ap (x * x) (val x * val x) (u * (val x * val x) + eta) :=
    ap_mul (ap_exact hx fx) (ap_exact hx fx) (k := 0) (b := val x * val x) (by simp) (by rw [abs_of_nonneg sx, add_zero]) (by linarith) (by simp)
  have h2 : Ap (y * y) (val y * val y) (u * (val y * val y) + eta) :=
    ap_mul (ap_exact hy fy) (ap_exact hy fy) (k := 0) (b := val y * val y) (by simp) (by rw [abs_of_nonneg sy, add_zero]) (by linarith) (by simp)
  have h3 : Ap (0 + x * x) (val x * val x) (u * (val x * val x) + eta) := by
    obtain ⟨a1, a2⟩ := zero_add_val h1.1 h1.2.1
    exact ⟨rep_add _ _, a1, by rw [a2]; exact h1.2.2⟩
  show Ap (0 + x * x + y * y) _ _
  have t1 : u * (val x * val x + val y * val y) ≤ 1 / 1024 * (val x * val x + val y * val y) := mul_le_mul_of_nonneg_right hu2 (by linarith)
  have t2 : 0 ≤ u * (val x * val x + val y * val y) := by positivity
  have t3 : u * (u * (val x * val x + val y * val y)) ≤ 1 / 1024 * (u * (val x * val x + val y * val y)) := mul_le_mul_of_nonneg_right hu2 t2
  have t4 : u * eta ≤ 1 / 1024 * eta := mul_le_mul_of_nonneg_right hu2 he.le
  refine ap_add h3 h2 (b := (val x * val x + val y * val y) + u * (val x * val x + val y * val y) + 2 * eta) ?_ ?_ ?_
  · rw [abs_of_nonneg (by linarith)]; linarith
  · by_cases h : val x * val x + val y * val y ≤ 1
    · linarith
    · push Not at h; linarith
  · nlinarith

/-- below the error of every norm -/
noncomputable def tau : ℝ := 1 / 2 ^ 500
theorem tau_pos : 0 < tau := by unfold tau; positivity
theorem tau_sq : 4 * (eta : ℝ) ≤ tau ^ 2 := by
  have h1 : (eta : ℝ) = 2 ^ (-1075 : ℤ) := eta_cast
  have h2 : tau = 2 ^ (-500 : ℤ) := by unfold tau; rw [zpow_neg, one_div]; norm_cast
  rw [h1, h2, ← zpow_natCast, ← zpow_mul, show (4 : ℝ) = 2 ^ (2 : ℤ) by norm_num, ← zpow_add₀ (by norm_num)]
  exact zpow_le_zpow_right₀ (by norm_num) (by norm_num)
attribute [irreducible] tau

theorem sqrt_close {r s X u e t : ℝ} (hr : 0 ≤ r) (hX : 0 ≤ X) (hu : 0 < u) (hu2 : u ≤ 1 / 1024) (he : 0 < e) (ht : 0 < t) (hte : 4 * e ≤ t ^ 2)
    (h1 : r ^ 2 ≤ (1 + u) ^ 2 * s) (h2 : s ≤ (1 + u) ^ 2 * r ^ 2) (hs : |s - X| ≤ 201 / 100 * u * X + 3 * e) :
    |r - Real.sqrt X| ≤ 21 / 10 * u * Real.sqrt X + t := by
  have hY := Real.sqrt_nonneg X
  have hXY : X = Real.sqrt X ^ 2 := (Real.sq_sqrt hX).symm
  set Y := Real.sqrt X with hYdef
  rw [hXY] at hs
  rw [abs_le] at hs
  have uY : 0 ≤ u * Y ^ 2 := by positivity
  have uuY : u * (u * Y ^ 2) ≤ 1 / 1024 * (u * Y ^ 2) := mul_le_mul_of_nonneg_right hu2 uY
  have uuuY : u * (u * (u * Y ^ 2)) ≤ 1 / 1024 * (u * (u * Y ^ 2)) := mul_le_mul_of_nonneg_right hu2 (by positivity)
  have ue : u * e ≤ 1 / 1024 * e := mul_le_mul_of_nonneg_right hu2 he.le
  have uue : u * (u * e) ≤ 1 / 1024 * (u * e) := mul_le_mul_of_nonneg_right hu2 (by positivity)
  rw [abs_le]
  constructor
  · -- lower bound
    by_contra hlt
    push Not at hlt
    have hA : r < (1 - 21 / 10 * u) * Y - t := by linarith
    have hA0 : 0 ≤ (1 - 21 / 10 * u) * Y - t := by linarith
    have hsq : r ^ 2 ≤ ((1 - 21 / 10 * u) * Y - t) ^ 2 := pow_le_pow_left₀ hr hA.le 2
    have hA1 : ((1 - 21 / 10 * u) * Y - t) ^ 2 ≤ ((1 - 21 / 10 * u) * Y) ^ 2 - t ^ 2 := by
      have : t * t ≤ (1 - 21 / 10 * u) * Y * t := mul_le_mul_of_nonneg_right (by linarith) ht.le
      nlinarith
    have h3 : (1 + u) ^ 2 * r ^ 2 ≤ (1 + u) ^ 2 * (((1 - 21 / 10 * u) * Y) ^ 2 - t ^ 2) := mul_le_mul_of_nonneg_left (hsq.trans hA1) (by positivity)
    have h4 : (1 + u) ^ 2 * (((1 - 21 / 10 * u) * Y) ^ 2 - t ^ 2) ≤ (1 + u) ^ 2 * ((1 - 21 / 10 * u) * Y) ^ 2 - t ^ 2 := by
      have : t ^ 2 ≤ (1 + u) ^ 2 * t ^ 2 := by
        have := mul_le_mul_of_nonneg_right (one_le_pow₀ (by linarith : (1 : ℝ) ≤ 1 + u) (n := 2)) (sq_nonneg t)
        linarith
      linarith
    have h5 : (1 + u) ^ 2 * ((1 - 21 / 10 * u) * Y) ^ 2 ≤ Y ^ 2 - 21 / 10 * u * Y ^ 2 := by
      have e : (1 + u) ^ 2 * ((1 - 21 / 10 * u) * Y) ^ 2 = Y ^ 2 * ((1 + u) * (1 - 21 / 10 * u)) ^ 2 := by ring
      have f : ((1 + u) * (1 - 21 / 10 * u)) ^ 2 ≤ 1 - 21 / 10 * u := by nlinarith [mul_pos hu hu, mul_pos hu (mul_pos hu hu)]
      rw [e]
      have := mul_le_mul_of_nonneg_left f (sq_nonneg Y)
      linarith
    linarith [hs.1]
  · -- upper bound
    have hA0 : 0 ≤ (1 + 21 / 10 * u) * Y + t := by positivity
    have : r ≤ (1 + 21 / 10 * u) * Y + t := by
      refine (abs_le_of_sq_le_sq' ?_ hA0).2
      have h3 : (1 + u) ^ 2 * s ≤ (1 + u) ^ 2 * (Y ^ 2 + (201 / 100 * u * Y ^ 2 + 3 * e)) := mul_le_mul_of_nonneg_left (by linarith [hs.2]) (by positivity)
      have h4 : 0 ≤ (1 + 21 / 10 * u) * Y * t := by positivity
      nlinarith
    linarith

/-- the norm of a vector -/
theorem norm_err {w : P2} (hx : Rep w.1) (hy : Rep w.2) (fx : w.1.isFinite = true) (fy : w.2.isFinite = true) (hb : 4 * (val w.1 * val w.1 + val w.2 * val w.2) ≤ big) :
    (norm w).isFinite = true ∧ |((val (norm w) : ℚ) : ℝ) - Real.sqrt ((val w.1 : ℝ) ^ 2 + (val w.2 : ℝ) ^ 2)| ≤
      21 / 10 * (u : ℝ) * Real.sqrt ((val w.1 : ℝ) ^ 2 + (val w.2 : ℝ) ^ 2) + tau := by
  have hs := norm_sq hx hy fx fy hb
  have hu := u_pos
  have hu2 : u ≤ 1 / 1024 := u_lt.le.trans (by norm_num)
  have hpos : 0 ≤ val (fsum [w.1 * w.1, w.2 * w.2]) := by
    have n1 := nn_add (Or.inr ⟨0, le_refl _, rfl⟩ : NN 0) (sq_nn (x := w.1) (by rintro h; rw [h] at fx; cases fx))
    have n2 := sq_nn (x := w.2) (by rintro h; rw [h] at fy; cases fy)
    have n3 : NN (fsum [w.1 * w.1, w.2 * w.2]) := nn_add n1 n2
    rcases n3 with h | ⟨m, hm, h⟩
    · rw [h]; rfl
    · rw [h]; exact hm
  obtain ⟨a1, a2, a3, a4, a5⟩ := sqrt_spec hs.1 hs.2.1 hpos
  refine ⟨a1, ?_⟩
  refine sqrt_close (s := (val (fsum [w.1 * w.1, w.2 * w.2]) : ℝ)) (e := (eta : ℝ)) (by exact_mod_cast a3) (by positivity) (by exact_mod_cast hu)
    (by have : ((u : ℚ) : ℝ) ≤ ((1 / 1024 : ℚ) : ℝ) := by exact_mod_cast hu2
        push_cast at this; exact this)
    (by exact_mod_cast eta_pos) tau_pos tau_sq ?_ ?_ ?_
  · exact_mod_cast a4
  · exact_mod_cast a5
  · have := hs.2.2
    have h2 : (((|val (fsum [w.1 * w.1, w.2 * w.2]) - (val w.1 * val w.1 + val w.2 * val w.2)| : ℚ)) : ℝ) ≤
        ((201 / 100 * u * (val w.1 * val w.1 + val w.2 * val w.2) + 3 * eta : ℚ) : ℝ) := by exact_mod_cast this
    push_cast at h2
    rw [sq, sq]
    exact h2

end Toppo.FloatGeom
