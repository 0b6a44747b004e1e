import Verif.Props.FloatMargin
import Verif.Props.Delaunay
set_option linter.unusedVariables false
set_option maxHeartbeats 1000000

/-!
The auxiliary triangle of `delaunay_triangulation` in `f64` has all points strictly inside.
-/
namespace Toppo.FloatGeom
open F64 FloatAlg Geom GeomProps

/-! ### a perturbed equilateral triangle -/

theorem exists_line (a b : Geom.Pt) (σ : ℝ) : ∃ L, ∀ q, ev L q = σ * area2 a b q := by
  refine ⟨(-σ * (b.2 - a.2), σ * (b.1 - a.1), σ * (-(b.1 - a.1) * a.2 + (b.2 - a.2) * a.1)), fun q => ?_⟩
  simp only [ev, area2]; ring

theorem cross_le {x y z w A B : ℝ} (hx : |x| ≤ A) (hy : |y| ≤ A) (hz : |z| ≤ B) (hw : |w| ≤ B) : |x * w - y * z| ≤ 2 * (A * B) := by
  have A0 : 0 ≤ A := (abs_nonneg _).trans hx
  refine (abs_sub _ _).trans ?_
  rw [abs_mul, abs_mul]
  have := mul_le_mul hx hw (abs_nonneg _) A0
  have := mul_le_mul hy hz (abs_nonneg _) A0
  linarith

/-- an edge with perturbed ends -/
theorem edge_pos {ax ay bx b_y dax day dbx dby x y r δ σ : ℝ} (hσ : |σ| = 1) (h1 : |ax| ≤ 2 * r) (h2 : |ay| ≤ 2 * r) (h3 : |bx| ≤ 2 * r) (h4 : |b_y| ≤ 2 * r)
    (h5 : |dax| ≤ δ) (h6 : |day| ≤ δ) (h7 : |dbx| ≤ δ) (h8 : |dby| ≤ δ) (h9 : |x| ≤ 3 * r) (h10 : |y| ≤ 3 * r)
    (hmain : 22 * (r * δ) < σ * ((ax * b_y - ay * bx) + (bx * y - b_y * x) + (x * ay - y * ax))) (hδ : δ ≤ r) :
    0 < σ * area2 (ax + dax, ay + day) (bx + dbx, b_y + dby) (x, y) := by
  have δ0 : 0 ≤ δ := (abs_nonneg _).trans h5
  have c1 := cross_le h1 h2 h7 h8
  have c2 := cross_le h5 h6 h3 h4
  have c3 := cross_le h5 h6 h7 h8
  have c4 := cross_le h7 h8 h9 h10
  have c5 := cross_le h9 h10 h5 h6
  have hδδ : δ * δ ≤ r * δ := mul_le_mul_of_nonneg_right hδ δ0
  have e : σ * area2 (ax + dax, ay + day) (bx + dbx, b_y + dby) (x, y) = σ * ((ax * b_y - ay * bx) + (bx * y - b_y * x) + (x * ay - y * ax)) +
      σ * ((ax * dby - ay * dbx) + (dax * b_y - day * bx) + (dax * dby - day * dbx) + (dbx * y - dby * x) + (x * day - y * dax)) := by
    simp only [area2]; ring
  rw [e]
  have hb : |(ax * dby - ay * dbx) + (dax * b_y - day * bx) + (dax * dby - day * dbx) + (dbx * y - dby * x) + (x * day - y * dax)| ≤ 22 * (r * δ) := by
    have a1 := abs_add_le ((ax * dby - ay * dbx) + (dax * b_y - day * bx) + (dax * dby - day * dbx) + (dbx * y - dby * x)) (x * day - y * dax)
    have a2 := abs_add_le ((ax * dby - ay * dbx) + (dax * b_y - day * bx) + (dax * dby - day * dbx)) (dbx * y - dby * x)
    have a3 := abs_add_le ((ax * dby - ay * dbx) + (dax * b_y - day * bx)) (dax * dby - day * dbx)
    have a4 := abs_add_le (ax * dby - ay * dbx) (dax * b_y - day * bx)
    nlinarith
  have hb2 : -(22 * (r * δ)) ≤ σ * ((ax * dby - ay * dbx) + (dax * b_y - day * bx) + (dax * dby - day * dbx) + (dbx * y - dby * x) + (x * day - y * dax)) := by
    have := neg_abs_le (σ * ((ax * dby - ay * dbx) + (dax * b_y - day * bx) + (dax * dby - day * dbx) + (dbx * y - dby * x) + (x * day - y * dax)))
    rw [abs_mul, hσ, one_mul] at this
    linarith
  linarith

theorem area2_shift (c a b q : Geom.Pt) : area2 a b q = area2 (a.1 - c.1, a.2 - c.2) (b.1 - c.1, b.2 - c.2) (q.1 - c.1, q.2 - c.2) := by
  simp only [area2]; ring

/-- the three lines of a perturbed equilateral triangle -/
theorem hull_perturbed {n : Nat} {pos : Nat → Geom.Pt} {c : Geom.Pt} {r : ℝ} (hr : 1 / 2 ≤ r)
    (d1 d2 d3 : Geom.Pt) (k1 : |d1.1| ≤ 1 / 256 ∧ |d1.2| ≤ 1 / 256) (k2 : |d2.1| ≤ 1 / 256 ∧ |d2.2| ≤ 1 / 256) (k3 : |d3.1| ≤ 1 / 256 ∧ |d3.2| ≤ 1 / 256)
    (q1 : pos n = (c.1 + (0 + d1.1), c.2 + (2 * r + d1.2))) (q2 : pos (n + 1) = (c.1 + (Real.sqrt 3 * r + d2.1), c.2 + (-r + d2.2)))
    (q3 : pos (n + 2) = (c.1 + (-(Real.sqrt 3 * r) + d3.1), c.2 + (-r + d3.2)))
    (hd : ∀ q, q < n → ∃ ρ, 0 ≤ ρ ∧ ρ ≤ r - 1 / 2 ∧ ((pos q).1 - c.1) ^ 2 + ((pos q).2 - c.2) ^ 2 ≤ ρ ^ 2) : Hull n pos := by
  have s3 : Real.sqrt 3 * Real.sqrt 3 = 3 := Real.mul_self_sqrt (by norm_num)
  have s0 : 17 / 10 ≤ Real.sqrt 3 := Real.le_sqrt_of_sq_le (by norm_num)
  have s2 : Real.sqrt 3 ≤ 2 := by rw [Real.sqrt_le_left (by norm_num)]; norm_num
  generalize Real.sqrt 3 = s at *
  have r0 : 0 < r := by linarith
  have sr : 17 / 10 * r ≤ s * r := mul_le_mul_of_nonneg_right s0 r0.le
  have sr2 : s * r ≤ 2 * r := mul_le_mul_of_nonneg_right s2 r0.le
  have b1 : |(0 : ℝ)| ≤ 2 * r := by rw [abs_zero]; linarith
  have b2 : |2 * r| ≤ 2 * r := by rw [abs_of_pos (by linarith)]
  have b3 : |s * r| ≤ 2 * r := by rw [abs_of_pos (by linarith)]; exact sr2
  have b4 : |-r| ≤ 2 * r := by rw [abs_neg, abs_of_pos r0]; linarith
  have b5 : |-(s * r)| ≤ 2 * r := by rw [abs_neg]; exact b3
  have hδ : (1 / 256 : ℝ) ≤ r := by linarith
  have tri : ∀ a b c : ℝ, |a| ≤ 2 * r → |b| ≤ 1 / 256 → |a + b| ≤ 3 * r := by
    intro a b _ ha hb
    have := abs_add_le a b
    linarith
  have rr : r * (1 / 2) ≤ r * r := mul_le_mul_of_nonneg_left hr r0.le
  have srr : 17 / 10 * r * r ≤ s * r * r := mul_le_mul_of_nonneg_right sr r0.le
  -- coordinates of a point
  have pc : ∀ q, q < n → ∃ ρ, 0 ≤ ρ ∧ ρ ≤ r - 1 / 2 ∧ ((pos q).1 - c.1) ^ 2 + ((pos q).2 - c.2) ^ 2 ≤ ρ ^ 2 ∧ |(pos q).1 - c.1| ≤ 3 * r ∧ |(pos q).2 - c.2| ≤ 3 * r := by
    intro q hq
    obtain ⟨ρ, h0, h1, h2⟩ := hd q hq
    refine ⟨ρ, h0, h1, h2, ?_, ?_⟩
    · have : |(pos q).1 - c.1| ≤ ρ := abs_le_of_sq_le_sq (by nlinarith [sq_nonneg ((pos q).2 - c.2)]) h0
      linarith
    · have : |(pos q).2 - c.2| ≤ ρ := abs_le_of_sq_le_sq (by nlinarith [sq_nonneg ((pos q).1 - c.1)]) h0
      linarith
  have L12 : ∀ q, q < n + 3 → q ≠ n → q ≠ n + 1 → 0 < (-1) * area2 (pos n) (pos (n + 1)) (pos q) := by
    intro q hq h1 h2
    rw [area2_shift c, q1, q2]
    simp only [add_sub_cancel_left]
    have key : |(pos q).1 - c.1| ≤ 3 * r → |(pos q).2 - c.2| ≤ 3 * r →
        s * r * (((pos q).2 - c.2) + s * ((pos q).1 - c.1)) < 2 * s * r * r - 22 * (r * (1 / 256)) →
        0 < (-1) * area2 (0 + d1.1, 2 * r + d1.2) (s * r + d2.1, -r + d2.2) ((pos q).1 - c.1, (pos q).2 - c.2) := by
      intro hx hy hm
      refine edge_pos (by norm_num) b1 b2 b3 b4 k1.1 k1.2 k2.1 k2.2 hx hy ?_ hδ
      have e : (-1) * ((0 * -r - 2 * r * (s * r)) + (s * r * ((pos q).2 - c.2) - -r * ((pos q).1 - c.1)) + (((pos q).1 - c.1) * (2 * r) - ((pos q).2 - c.2) * 0)) =
          2 * s * r * r - s * r * (((pos q).2 - c.2) + s * ((pos q).1 - c.1)) := by linear_combination (r * ((pos q).1 - c.1)) * s3
      rw [e]; linarith
    by_cases hqn : q < n
    · obtain ⟨ρ, g0, g1, g2, g3, g4⟩ := pc q hqn
      refine key g3 g4 ?_
      generalize (pos q).1 - c.1 = x at *
      generalize (pos q).2 - c.2 = y at *
      have h5 : (y + s * x) ^ 2 ≤ (2 * ρ) ^ 2 := by
        have e : 4 * (x ^ 2 + y ^ 2) - (y + s * x) ^ 2 = (x - s * y) ^ 2 := by linear_combination (-(y ^ 2) - x ^ 2) * s3
        nlinarith [sq_nonneg (x - s * y)]
      have h6 : y + s * x ≤ 2 * ρ := (abs_le_of_sq_le_sq' h5 (by linarith)).2
      have h7 : s * r * (y + s * x) ≤ s * r * (2 * (r - 1 / 2)) := mul_le_mul_of_nonneg_left (by linarith) (by linarith)
      linarith
    · have hq2 : q = n + 2 := by omega
      subst hq2
      have hx : |(pos (n + 2)).1 - c.1| ≤ 3 * r := by rw [q3]; simp only [add_sub_cancel_left]; exact tri _ _ 0 b5 k3.1
      have hy : |(pos (n + 2)).2 - c.2| ≤ 3 * r := by rw [q3]; simp only [add_sub_cancel_left]; exact tri _ _ 0 b4 k3.2
      refine key hx hy ?_
      rw [q3]
      simp only [add_sub_cancel_left]
      have u1 := (abs_le.mp k3.1).2
      have u2 := (abs_le.mp k3.2).2
      have u3 : s * d3.1 ≤ s * (1 / 256) := mul_le_mul_of_nonneg_left u1 (by linarith)
      have u4 : -r + d3.2 + s * (-(s * r) + d3.1) ≤ -4 * r + 1 / 64 := by
        have : s * (s * r) = 3 * r := by linear_combination r * s3
        linarith
      have u5 : s * r * (-r + d3.2 + s * (-(s * r) + d3.1)) ≤ s * r * 0 := mul_le_mul_of_nonneg_left (by linarith) (by linarith)
      nlinarith
  have L13 : ∀ q, q < n + 3 → q ≠ n → q ≠ n + 2 → 0 < 1 * area2 (pos n) (pos (n + 2)) (pos q) := by
    intro q hq h1 h2
    rw [area2_shift c, q1, q3]
    simp only [add_sub_cancel_left]
    have key : |(pos q).1 - c.1| ≤ 3 * r → |(pos q).2 - c.2| ≤ 3 * r →
        s * r * (((pos q).2 - c.2) - s * ((pos q).1 - c.1)) < 2 * s * r * r - 22 * (r * (1 / 256)) →
        0 < 1 * area2 (0 + d1.1, 2 * r + d1.2) (-(s * r) + d3.1, -r + d3.2) ((pos q).1 - c.1, (pos q).2 - c.2) := by
      intro hx hy hm
      refine edge_pos (by norm_num) b1 b2 b5 b4 k1.1 k1.2 k3.1 k3.2 hx hy ?_ hδ
      have e : 1 * ((0 * -r - 2 * r * (-(s * r))) + (-(s * r) * ((pos q).2 - c.2) - -r * ((pos q).1 - c.1)) + (((pos q).1 - c.1) * (2 * r) - ((pos q).2 - c.2) * 0)) =
          2 * s * r * r - s * r * (((pos q).2 - c.2) - s * ((pos q).1 - c.1)) := by linear_combination (-r * ((pos q).1 - c.1)) * s3
      rw [e]; linarith
    by_cases hqn : q < n
    · obtain ⟨ρ, g0, g1, g2, g3, g4⟩ := pc q hqn
      refine key g3 g4 ?_
      generalize (pos q).1 - c.1 = x at *
      generalize (pos q).2 - c.2 = y at *
      have h5 : (y - s * x) ^ 2 ≤ (2 * ρ) ^ 2 := by
        have e : 4 * (x ^ 2 + y ^ 2) - (y - s * x) ^ 2 = (x + s * y) ^ 2 := by linear_combination (-(y ^ 2) - x ^ 2) * s3
        nlinarith [sq_nonneg (x + s * y)]
      have h6 : y - s * x ≤ 2 * ρ := (abs_le_of_sq_le_sq' h5 (by linarith)).2
      have h7 : s * r * (y - s * x) ≤ s * r * (2 * (r - 1 / 2)) := mul_le_mul_of_nonneg_left (by linarith) (by linarith)
      linarith
    · have hq2 : q = n + 1 := by omega
      subst hq2
      have hx : |(pos (n + 1)).1 - c.1| ≤ 3 * r := by rw [q2]; simp only [add_sub_cancel_left]; exact tri _ _ 0 b3 k2.1
      have hy : |(pos (n + 1)).2 - c.2| ≤ 3 * r := by rw [q2]; simp only [add_sub_cancel_left]; exact tri _ _ 0 b4 k2.2
      refine key hx hy ?_
      rw [q2]
      simp only [add_sub_cancel_left]
      have u1 := (abs_le.mp k2.1).1
      have u2 := (abs_le.mp k2.2).2
      have u3 : s * (-(1 / 256)) ≤ s * d2.1 := mul_le_mul_of_nonneg_left u1 (by linarith)
      have u4 : -r + d2.2 - s * (s * r + d2.1) ≤ -4 * r + 1 / 64 := by
        have : s * (s * r) = 3 * r := by linear_combination r * s3
        linarith
      have u5 : s * r * (-r + d2.2 - s * (s * r + d2.1)) ≤ s * r * 0 := mul_le_mul_of_nonneg_left (by linarith) (by linarith)
      nlinarith
  have L23 : ∀ q, q < n + 3 → q ≠ n + 1 → q ≠ n + 2 → 0 < (-1) * area2 (pos (n + 1)) (pos (n + 2)) (pos q) := by
    intro q hq h1 h2
    rw [area2_shift c, q2, q3]
    simp only [add_sub_cancel_left]
    have key : |(pos q).1 - c.1| ≤ 3 * r → |(pos q).2 - c.2| ≤ 3 * r →
        22 * (r * (1 / 256)) < 2 * s * r * r + 2 * s * r * ((pos q).2 - c.2) →
        0 < (-1) * area2 (s * r + d2.1, -r + d2.2) (-(s * r) + d3.1, -r + d3.2) ((pos q).1 - c.1, (pos q).2 - c.2) := by
      intro hx hy hm
      refine edge_pos (by norm_num) b3 b4 b5 b4 k2.1 k2.2 k3.1 k3.2 hx hy ?_ hδ
      have e : (-1) * ((s * r * -r - -r * (-(s * r))) + (-(s * r) * ((pos q).2 - c.2) - -r * ((pos q).1 - c.1)) + (((pos q).1 - c.1) * (-r) - ((pos q).2 - c.2) * (s * r))) =
          2 * s * r * r + 2 * s * r * ((pos q).2 - c.2) := by ring
      rw [e]; linarith
    by_cases hqn : q < n
    · obtain ⟨ρ, g0, g1, g2, g3, g4⟩ := pc q hqn
      refine key g3 g4 ?_
      have h6 : -ρ ≤ (pos q).2 - c.2 := (abs_le_of_sq_le_sq' (by nlinarith [sq_nonneg ((pos q).1 - c.1)]) g0).1
      have h7 : 2 * s * r * (-(r - 1 / 2)) ≤ 2 * s * r * ((pos q).2 - c.2) := mul_le_mul_of_nonneg_left (by linarith) (by linarith)
      linarith
    · have hq2 : q = n := by omega
      subst hq2
      have hx : |(pos q).1 - c.1| ≤ 3 * r := by rw [q1]; simp only [add_sub_cancel_left]; exact tri _ _ 0 b1 k1.1
      have hy : |(pos q).2 - c.2| ≤ 3 * r := by rw [q1]; simp only [add_sub_cancel_left]; exact tri _ _ 0 b2 k1.2
      refine key hx hy ?_
      rw [q1]
      simp only [add_sub_cancel_left]
      have u2 := (abs_le.mp k1.2).1
      have u5 : 2 * s * r * 0 ≤ 2 * s * r * (2 * r + d1.2) := mul_le_mul_of_nonneg_left (by linarith) (by linarith)
      nlinarith
  refine ⟨?_, ?_⟩
  · have := L12 (n + 2) (by omega) (by omega) (by omega)
    unfold ar
    simp only
    intro h0
    rw [h0] at this
    simp at this
  · intro a b ha hab hb
    have hz1 : ∀ a b : Geom.Pt, area2 a b a = 0 := fun a b => by simp only [area2]; ring
    have hz2 : ∀ a b : Geom.Pt, area2 a b b = 0 := fun a b => by simp only [area2]; ring
    have : (a = n ∧ b = n + 1) ∨ (a = n ∧ b = n + 2) ∨ (a = n + 1 ∧ b = n + 2) := by omega
    rcases this with ⟨rfl, rfl⟩ | ⟨rfl, rfl⟩ | ⟨rfl, rfl⟩
    · obtain ⟨L, hL⟩ := exists_line (pos a) (pos (a + 1)) (-1)
      exact ⟨L, by rw [hL, hz1]; ring, by rw [hL, hz2]; ring, fun q hq h1 h2 => by rw [hL]; exact L12 q hq h1 h2⟩
    · obtain ⟨L, hL⟩ := exists_line (pos a) (pos (a + 2)) 1
      exact ⟨L, by rw [hL, hz1]; ring, by rw [hL, hz2]; ring, fun q hq h1 h2 => by rw [hL]; exact L13 q hq h1 h2⟩
    · obtain ⟨L, hL⟩ := exists_line (pos (n + 1)) (pos (n + 2)) (-1)
      exact ⟨L, by rw [hL, hz1]; ring, by rw [hL, hz2]; ring, fun q hq h1 h2 => by rw [hL]; exact L23 q hq h1 h2⟩

end Toppo.FloatGeom
