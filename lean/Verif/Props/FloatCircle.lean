import Verif.Proof.FloatPanic
import Verif.Proof.FloatEval
set_option linter.unusedVariables false

/-!
C111: `Triangle::circum_circle_contains` with the arithmetic of `f64`.
-/
namespace Toppo.FloatGeom
open F64 FloatAlg

/-- C111: for all values, NaN and the infinities included, the first corner of a triangle is not inside the circle. -/
theorem c111_first_corner (a b c : P2) : contains a b c a = false := lt_irrefl _

/-- zero or NaN -/
def ZN (x : F64) : Prop := x = nan ∨ ∃ s, x = num s 0

theorem not_finite_mul {x y : F64} (h : x.isFinite = false ∨ y.isFinite = false) : (x * y).isFinite = false := by
  rw [mul_def]
  cases x <;> cases y <;> first | rfl | (simp only [mul]; split_ifs <;> rfl) | (rcases h with h | h <;> cases h)

theorem div_zn {x y : F64} (h : ZN y) : (x / y).isFinite = false := by
  rw [div_def]
  rcases h with rfl | ⟨s, rfl⟩
  · cases x <;> rfl
  · cases x with
    | nan => rfl
    | inf t => rfl
    | num t n => simp only [div]; split_ifs <;> rfl

/-- the determinant computed from the two side vectors -/
def det2 (p1 p2 : P2) : F64 :=
  (-p1.2) * (p2.1 * lit (-1)) - p1.1 * (-p2.2 * lit (-1))

theorem center_det {d0 d1 d2 : P2} (h : ZN (det2 (vsub d1 d0) (vsub d2 d0))) : (center d0 d1 d2).1.isFinite = false := by
  have e : (center d0 d1 d2).1 = (vadd d0 (vdiv (vsub d1 d0) (lit 2))).1 + (orthogonal (vsub d1 d0)).1 *
      ((vmul (orthogonal (vsub d2 d0)) (lit (-1))).2 / det2 (vsub d1 d0) (vsub d2 d0) * (vsub (vadd d0 (vdiv (vsub d2 d0) (lit 2))) (vadd d0 (vdiv (vsub d1 d0) (lit 2)))).1 +
        -(vmul (orthogonal (vsub d2 d0)) (lit (-1))).1 / det2 (vsub d1 d0) (vsub d2 d0) * (vsub (vadd d0 (vdiv (vsub d2 d0) (lit 2))) (vadd d0 (vdiv (vsub d1 d0) (lit 2)))).2) := rfl
  rw [e]
  exact add_finite_iff (Or.inr (not_finite_mul (Or.inr (add_finite_iff (Or.inl (not_finite_mul (Or.inl (div_zn h))))))))

theorem lit_neg_one : lit (-1) = num true 1 := by decide +kernel

theorem sub_self_zn (x : F64) : ZN (x - x) := by
  cases x with
  | nan => exact Or.inl rfl
  | inf s => left; cases s <;> rfl
  | num s m =>
    right
    refine ⟨s && !s, ?_⟩
    show ofExact (s && !s) (val (num s m) + val (num (!s) m)) = _
    have : val (num s m) + val (num (!s) m) = 0 := by cases s <;> simp [val]
    rw [this]; simp [ofExact]

theorem sub_zn_of_exact {s t : Bool} {z : ℚ} : ZN (ofExact s z - ofExact t z) := by
  by_cases h : z = 0
  · subst h
    have : ∀ s, ofExact s 0 = num s 0 := fun s => by simp [ofExact]
    rw [this, this]
    right
    refine ⟨s && !t, ?_⟩
    show ofExact (s && !t) (val (num s 0) + val (num (!t) 0)) = _
    have : val (num s 0) + val (num (!t) 0) = 0 := by cases s <;> cases t <;> simp [val]
    rw [this]; simp [ofExact]
  · have : ofExact s z = ofExact t z := by unfold ofExact; rw [if_neg h, if_neg h]
    rw [this]; exact sub_self_zn _

/-- multiplying by `-1.0` is exact -/
theorem mul_neg_one {x : F64} (hr : Rep x) (hf : x.isFinite = true) : (x * lit (-1)).isFinite = true ∧ val (x * lit (-1)) = -val x := by
  obtain ⟨s, m, rfl⟩ := fin_iff.mp hf
  have e : num s m * lit (-1) = ofExact (xor s true) (val (num s m) * val (num true 1)) := by rw [lit_neg_one]; rfl
  have e2 : val (num s m) * val (num true 1) = -val (num s m) := by simp [val]
  rw [e, e2]
  refine ofExact_exact ?_ ?_
  · rw [abs_neg, abs_val_num _ (rep_nonneg hr)]; exact rep_repM hr
  · rw [abs_neg, abs_val_num _ (rep_nonneg hr)]; exact rep_lt hr

theorem det_cross {p1 p2 : P2} (r : Rep p2.1 ∧ Rep p2.2) (f1 : p1.1.isFinite = true ∧ p1.2.isFinite = true) (f2 : p2.1.isFinite = true ∧ p2.2.isFinite = true)
    (h : val p1.1 * val p2.2 = val p1.2 * val p2.1) : ZN (det2 p1 p2) := by
  unfold det2
  obtain ⟨a1, a2⟩ := mul_neg_one r.1 f2.1
  obtain ⟨b1, b2⟩ := mul_neg_one (rep_neg r.2) (by rw [fin_neg]; exact f2.2)
  obtain ⟨s, e⟩ := mul_ex (x := -p1.2) (by rw [fin_neg]; exact f1.2) a1
  obtain ⟨t, e'⟩ := mul_ex f1.1 b1
  rw [e, e', a2, b2, val_neg, val_neg]
  have : -val p1.2 * -val p2.1 = val p1.1 * - -val p2.2 := by linear_combination -h
  rw [this]
  exact sub_zn_of_exact

theorem zn_cases {x : F64} (h : ZN x) : x = nan ∨ (x.isFinite = true ∧ val x = 0) := by
  rcases h with h | ⟨s, rfl⟩
  · exact Or.inl h
  · right; exact ⟨rfl, by cases s <;> simp [val]⟩

theorem mul_nan (x : F64) : x * nan = nan := by cases x <;> rfl
theorem nan_mul (x : F64) : nan * x = nan := rfl
theorem sub_nan (x : F64) : x - nan = nan := by cases x <;> rfl
theorem nan_sub (x : F64) : nan - x = nan := rfl
theorem neg_nan : -nan = nan := rfl

theorem zn_mul {x y : F64} (hx : ZN x) : ZN (x * y) := by
  rcases hx with rfl | ⟨s, rfl⟩
  · exact Or.inl rfl
  · cases y with
    | nan => exact Or.inl rfl
    | inf t => left; rfl
    | num t n =>
      right
      refine ⟨xor s t, ?_⟩
      show ofExact (xor s t) (val (num s 0) * val (num t n)) = _
      have : val (num s 0) = 0 := by cases s <;> simp [val]
      rw [this, zero_mul]; simp [ofExact]

theorem zn_neg {x : F64} (hx : ZN x) : ZN (-x) := by
  rcases hx with rfl | ⟨s, rfl⟩
  · exact Or.inl rfl
  · exact Or.inr ⟨!s, rfl⟩

theorem mul_zn {x y : F64} (hy : ZN y) : ZN (x * y) := by
  rcases hy with rfl | ⟨s, rfl⟩
  · left; exact mul_nan x
  · cases x with
    | nan => exact Or.inl rfl
    | inf t => left; rfl
    | num t n =>
      right
      refine ⟨xor t s, ?_⟩
      show ofExact (xor t s) (val (num t n) * val (num s 0)) = _
      have : val (num s 0) = 0 := by cases s <;> simp [val]
      rw [this, mul_zero]; simp [ofExact]

theorem zn_sub {x y : F64} (hx : ZN x) (hy : ZN y) : ZN (x - y) := by
  rcases hx with rfl | ⟨s, rfl⟩
  · exact Or.inl rfl
  · rcases hy with rfl | ⟨t, rfl⟩
    · left; rfl
    · have : ∀ s, ofExact s 0 = num s 0 := fun s => by simp [ofExact]
      rw [← this, ← this]
      exact sub_zn_of_exact

theorem mul_neg_one_num {t : Bool} {n : ℚ} (hr : Rep (num t n)) (hn : n ≠ 0) : num t n * num true 1 = num (!t) n := by
  have h0 := rep_nonneg hr
  have hp : 0 < n := lt_of_le_of_ne h0 (Ne.symm hn)
  show ofExact (xor t true) (val (num t n) * val (num true 1)) = _
  have e2 : val (num t n) * val (num true 1) = if t then n else -n := by cases t <;> simp [val]
  have ha : |(if t then n else -n)| = n := by cases t <;> simp [abs_of_pos hp]
  have h1 : (if t then n else -n) ≠ 0 := by cases t <;> simp [hn]
  rw [e2]
  unfold ofExact
  rw [if_neg h1, ha]
  have e3 : rnd n = n := by have := rnd_fixed (K := ℚ) (rep_repM hr) hp; simpa using this
  rw [e3, if_neg (not_le.mpr (rep_lt hr))]
  congr 1
  cases t
  · simp [hp]
  · simp [hp.le]

theorem inf_sub (s : Bool) : inf s - inf s = nan := by cases s <;> rfl

theorem det_same (p : P2) (r : Rep p.1 ∧ Rep p.2) : ZN (det2 p p) := by
  by_cases h : p.1.isFinite = true ∧ p.2.isFinite = true
  · exact det_cross r h h (mul_comm _ _)
  · obtain ⟨x, y⟩ := p
    left
    unfold det2
    rw [lit_neg_one]
    simp only at *
    have hn1 : (1 : ℚ) ≠ 0 := one_ne_zero
    have e1 : ∀ s, inf s * num true 1 = inf (!s) := fun s => by rw [mul_def]; simp only [mul, if_neg hn1, Bool.xor_true]
    cases x with
    | nan => simp only [nan_mul, mul_nan, nan_sub]
    | inf s =>
      cases y with
      | nan => simp only [neg_nan, nan_mul, mul_nan, nan_sub]
      | inf t => cases s <;> cases t <;> decide +kernel
      | num t n =>
        rw [e1]
        by_cases hn : n = 0
        · subst hn
          have : -num t 0 * inf (!s) = nan := by cases s <;> cases t <;> decide +kernel
          rw [this, nan_sub]
        · have e2 : -num t n * inf (!s) = inf (xor (!t) (!s)) := by
            rw [mul_def, neg_def]; simp only [mul, neg, if_neg hn]
          have e3 : -num t n * num true 1 = num t n := by
            have := mul_neg_one_num (rep_neg r.2) hn
            rw [Bool.not_not] at this; exact this
          have e4 : inf s * num t n = inf (xor s t) := by rw [mul_def]; simp only [mul, if_neg hn]
          rw [e2, e3, e4]
          cases s <;> cases t <;> rfl
    | num s m =>
      cases y with
      | nan => simp only [neg_nan, nan_mul, mul_nan, nan_sub]
      | num t n => exact absurd ⟨rfl, rfl⟩ h
      | inf t =>
        have e5 : -inf t = inf (!t) := rfl
        rw [e5, e1, Bool.not_not]
        by_cases hn : m = 0
        · subst hn
          have : num s 0 * inf t = nan := by cases s <;> cases t <;> decide +kernel
          rw [this, sub_nan]
        · have e2 : num s m * inf t = inf (xor s t) := by
            rw [mul_def]; simp only [mul, if_neg hn]
          have e4 : inf (!t) * num (!s) m = inf (xor (!t) (!s)) := by rw [mul_def]; simp only [mul, if_neg hn]
          rw [mul_neg_one_num r.1 hn, e2, e4]
          cases s <;> cases t <;> rfl

theorem zn_det_left {p1 p2 : P2} (h : ZN p1.1 ∧ ZN p1.2) : ZN (det2 p1 p2) := zn_sub (zn_mul (zn_neg h.2)) (zn_mul h.1)
theorem zn_det_right {p1 p2 : P2} (h : ZN p2.1 ∧ ZN p2.2) : ZN (det2 p1 p2) := zn_sub (mul_zn (zn_mul h.1)) (mul_zn (zn_mul (zn_neg h.2)))

/-- C111: for all values, NaN and the infinities included, nothing is inside the circle of a triangle with two equal corners. -/
theorem c111_repeated_corner (a b c p : P2) (h : a = b ∨ a = c ∨ b = c) : contains a b c p = false := by
  refine contains_center (Or.inl (center_det ?_)) p
  rcases h with rfl | rfl | rfl
  · exact zn_det_left ⟨sub_self_zn _, sub_self_zn _⟩
  · exact zn_det_right ⟨sub_self_zn _, sub_self_zn _⟩
  · exact det_same _ ⟨rep_sub _ _, rep_sub _ _⟩

/-- the difference of two numbers is computed without rounding -/
def Exact (x y : F64) : Prop := (x - y).isFinite = true ∧ val (x - y) = val x - val y

/-- C111: when the sides at the first corner are computed without rounding (for instance, integer coordinates below `2^52`), nothing is
inside the circle of three collinear corners. -/
theorem c111_collinear (a b c p : P2) (h1 : Exact b.1 a.1 ∧ Exact b.2 a.2) (h2 : Exact c.1 a.1 ∧ Exact c.2 a.2)
    (h : (val b.1 - val a.1) * (val c.2 - val a.2) = (val b.2 - val a.2) * (val c.1 - val a.1)) : contains a b c p = false := by
  refine contains_center (Or.inl (center_det (det_cross ⟨rep_sub _ _, rep_sub _ _⟩ ⟨h1.1.1, h1.2.1⟩ ⟨h2.1.1, h2.2.1⟩ ?_))) p
  show val (b.1 - a.1) * val (c.2 - a.2) = val (b.2 - a.2) * val (c.1 - a.1)
  rw [h1.1.2, h1.2.2, h2.1.2, h2.2.2]
  exact h

/-- a point with natural coordinates -/
def pt (a b : Nat) : P2 := (num false a, num false b)

theorem contains_eval (a b c p : P2) : contains a b c p = containsW sqrtC a b c p := by unfold contains; rw [sqrt_eq]

/-- C111, what does not hold: the third corner can be inside, and the order of the corners matters. -/
theorem c111_corner_inside : contains (pt 0 0) (pt 0 1) (pt 5 2) (pt 5 2) = true ∧ contains (pt 5 2) (pt 0 0) (pt 0 1) (pt 5 2) = false :=
  ⟨by rw [contains_eval]; decide +kernel, c111_first_corner _ _ _⟩

/-- C111, what does not hold: three corners on one line, `(-2^-52, -3 * 2^-53)`, `(8, 12)` and `(2, 3)`, can have a point inside. -/
theorem c111_collinear_false : ∃ a b c p : P2, (Rep a.1 ∧ Rep a.2 ∧ Rep b.1 ∧ Rep b.2 ∧ Rep c.1 ∧ Rep c.2) ∧
    (val b.1 - val a.1) * (val c.2 - val a.2) = (val b.2 - val a.2) * (val c.1 - val a.1) ∧ contains a b c p = true := by
  refine ⟨(num true (2 / 2 ^ 53), num true (3 / 2 ^ 53)), pt 8 12, pt 2 3, pt 5 1, ⟨?_, ?_, ?_, ?_, ?_, ?_⟩, by norm_num [val, pt], ?_⟩
  · exact ⟨2, -53, by norm_num, by norm_num, by norm_num, by norm_num⟩
  · exact ⟨3, -53, by norm_num, by norm_num, by norm_num, by norm_num⟩
  · exact ⟨8, 0, by norm_num, by norm_num, by norm_num, by norm_num⟩
  · exact ⟨12, 0, by norm_num, by norm_num, by norm_num, by norm_num⟩
  · exact ⟨2, 0, by norm_num, by norm_num, by norm_num, by norm_num⟩
  · exact ⟨3, 0, by norm_num, by norm_num, by norm_num, by norm_num⟩
  · rw [contains_eval]; decide +kernel

/-- C111, what does not hold: with coordinates of `2^600` the determinant overflows; the center of the circle through three corners is
not inside. -/
theorem c111_overflow_false : contains (pt 0 0) (pt (2 ^ 600) 0) (pt 0 (2 ^ 600)) (pt (2 ^ 599) (2 ^ 599)) = false := by
  rw [contains_eval]; decide +kernel

/-- C111, cases: two equal corners; three collinear corners with exact sides; a point inside and a point outside -/
example : contains (pt 1 2) (pt 1 2) (pt 3 4) (pt 1 3) = false := c111_repeated_corner _ _ _ _ (Or.inl rfl)
example : contains (pt 1 1) (pt 2 2) (pt 4 4) (pt 3 2) = false := by
  refine c111_collinear _ _ _ _ ⟨⟨?_, ?_⟩, ⟨?_, ?_⟩⟩ ⟨⟨?_, ?_⟩, ⟨?_, ?_⟩⟩ (by norm_num [val, pt]) <;> decide +kernel
example : contains (pt 0 0) (pt 4 0) (pt 0 4) (pt 3 3) = true ∧ contains (pt 0 0) (pt 4 0) (pt 0 4) (pt 5 3) = false := by
  rw [contains_eval, contains_eval]; decide +kernel

end Toppo.FloatGeom
