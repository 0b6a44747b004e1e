import Verif.Proof.Geom
set_option linter.unusedVariables false
/-! C62 Delaunay triangulation output is well-formed; C71 the circumcircle test. -/
namespace Toppo.GeomProps
open Toppo.Geom

/-- C62. Whatever the in-circle test answers, for all points and any three auxiliary points: the call returns, the index triples are
distinct, each consists of three input indices in increasing order, and the k-th triangle returned has the points with the indices
of the k-th triple as its corners. -/
theorem c62_well_formed {P : Type} (inC : P → P → P → P → Bool) (points sup : List P) (hsup : sup.length = 3) :
    ∃ (out : List (P × P × P)) (idx : List (Nat × Nat × Nat)), triangulate inC points sup = some (out, idx) ∧ idx.Nodup ∧
      (∀ t ∈ idx, t.1 < t.2.1 ∧ t.2.1 < t.2.2 ∧ t.2.2 < points.length) ∧
      out.length = idx.length ∧
      ∀ (k : Nat) (t : P × P × P) (s : Nat × Nat × Nat), out[k]? = some t → idx[k]? = some s →
        points[s.1]? = some t.1 ∧ points[s.2.1]? = some t.2.1 ∧ points[s.2.2]? = some t.2.2 := by
  have hpos : ∃ pos : Nat → P, ∀ i, i < points.length + 3 → index points sup i = some (pos i) := by
    refine ⟨fun i => (index points sup i).getD (sup[0]'(by omega)), ?_⟩
    intro i hi
    have : ∃ x, index points sup i = some x := by
      unfold index
      split
      · exact ⟨_, List.getElem?_eq_getElem (by assumption)⟩
      · exact ⟨_, List.getElem?_eq_getElem (by omega)⟩
    obtain ⟨x, hx⟩ := this
    simp only [hx, Option.getD_some]
  obtain ⟨pos, hpos⟩ := hpos
  obtain ⟨tri, h1, h2, -⟩ := insertAll inC points sup pos hpos (fun _ _ => True) trivial (fun _ _ _ _ _ => trivial)
  have hs : ∀ t ∈ tri.filter (fun t => decide (t.1 < points.length) && decide (t.2.1 < points.length) && decide (t.2.2 < points.length)),
      Sorted t ∧ t.2.2 < points.length := by
    intro t ht
    rw [List.mem_filter] at ht
    simp only [Bool.and_eq_true, decide_eq_true_eq] at ht
    exact ⟨h2.sorted t ht.1, ht.2.2⟩
  obtain ⟨out, h3, h4⟩ := collect_eq points (n := 0) _ hs
  refine ⟨out, _, ?_, h2.nodup.filter _, fun t ht => ⟨(hs t ht).1.1, (hs t ht).1.2, (hs t ht).2⟩, ?_, ?_⟩
  · unfold triangulate
    rw [h1]
    simp only [Option.bind_eq_bind, Option.bind_some, h3]
    rfl
  · simpa using congrArg List.length h4
  · intro k t s ht hs'
    have := congrArg (fun l => l[k]?) h4
    simp only [List.getElem?_map, ht, hs', Option.map_some, Option.some.injEq, Prod.mk.injEq] at this
    exact ⟨this.1.symm, this.2.1.symm, this.2.2.symm⟩

/-- C62 for the exact test: the call returns on every non-empty list of points -/
theorem c62_delaunay_total (points : List Pt) (h : points ≠ []) :
    ∃ out idx, delaunay points = some (out, idx) ∧ idx.Nodup ∧
      ∀ t ∈ idx, t.1 < t.2.1 ∧ t.2.1 < t.2.2 ∧ t.2.2 < points.length := by
  have : ∃ sup, auxiliary points = some sup ∧ sup.length = 3 := by
    unfold auxiliary maxDist
    cases points with
    | nil => exact absurd rfl h
    | cons p ps => exact ⟨_, rfl, rfl⟩
  obtain ⟨sup, h1, h2⟩ := this
  obtain ⟨out, idx, a1, a2, a3, -⟩ := c62_well_formed _ points sup h2
  refine ⟨out, idx, ?_, a2, a3⟩
  unfold delaunay
  rw [h1]
  exact a1

/-- C62: no points is a panic (`max_by(..).unwrap()`) -/
theorem c62_empty_panics : delaunay [] = none := rfl

/-- the in-circle determinant with integer coordinates (for the example below) -/
def inCircleInt (a b c p : Int × Int) : Bool :=
  let f (q : Int × Int) := (q.1 - p.1, q.2 - p.2, (q.1 - p.1) ^ 2 + (q.2 - p.2) ^ 2)
  let x := f a
  let y := f b
  let z := f c
  let o := (b.1 - a.1) * (c.2 - a.2) - (b.2 - a.2) * (c.1 - a.1)
  let d := x.1 * (y.2.1 * z.2.2 - z.2.1 * y.2.2) - x.2.1 * (y.1 * z.2.2 - z.1 * y.2.2) + x.2.2 * (y.1 * z.2.1 - z.1 * y.2.1)
  decide (0 < o * d)

/-- a case: five points in the plane -/
example : triangulate inCircleInt [(0, 0), (4, 0), (0, 4), (5, 5), (2, 1)] [(0, 100), (90, -50), (-90, -50)] =
    some ([((0, 0), (4, 0), (2, 1)), ((0, 0), (0, 4), (2, 1)), ((4, 0), (5, 5), (2, 1)), ((0, 4), (5, 5), (2, 1))],
      [(0, 1, 4), (0, 2, 4), (1, 3, 4), (2, 3, 4)]) := by rfl

/-- twice the signed area of a triangle: zero means collinear corners -/
def area2 (a b c : Pt) : ℝ := (b.1 - a.1) * (c.2 - a.2) - (b.2 - a.2) * (c.1 - a.1)
def sqDist (a b : Pt) : ℝ := (a.1 - b.1) ^ 2 + (a.2 - b.2) ^ 2

/-- the computed center, when the corners are not collinear, is the only point at the same distance from the three corners -/
theorem center_spec (d0 d1 d2 : Pt) (h : area2 d0 d1 d2 ≠ 0) :
    ∃ o : Pt, (∀ p, circumContains d0 d1 d2 p ↔ sqDist p o < sqDist d0 o) ∧ sqDist d1 o = sqDist d0 o ∧ sqDist d2 o = sqDist d0 o ∧
      ∀ q, sqDist d1 q = sqDist d0 q → sqDist d2 q = sqDist d0 q → q = o := by
  obtain ⟨x0, y0⟩ := d0
  obtain ⟨x1, y1⟩ := d1
  obtain ⟨x2, y2⟩ := d2
  simp only [area2] at h
  set D := -(y1 - y0) * ((x2 - x0) * (-1)) - (x1 - x0) * (-(y2 - y0) * (-1)) with hD
  have hD0 : D ≠ 0 := by
    intro e
    apply h
    rw [hD] at e
    linarith
  obtain ⟨t, ht⟩ : ∃ t, t = (x2 - x0) * (-1) / D * (((x2 - x0) - (x1 - x0)) / 2) + -(-(y2 - y0) * (-1)) / D * (((y2 - y0) - (y1 - y0)) / 2) := ⟨_, rfl⟩
  have htD : t * D = -(x2 - x0) * (((x2 - x0) - (x1 - x0)) / 2) - (y2 - y0) * (((y2 - y0) - (y1 - y0)) / 2) := by
    rw [ht]; field_simp; ring
  refine ⟨(x0 + (x1 - x0) / 2 + t * -(y1 - y0), y0 + (y1 - y0) / 2 + t * (x1 - x0)), ?_, ?_, ?_, ?_⟩
  · rintro ⟨px, py⟩
    unfold circumContains
    simp only [orthogonal, sphereContains, sqDist, twoNorm, Prod.fst_add, Prod.snd_add, Prod.fst_sub, Prod.snd_sub,
      Prod.smul_fst, Prod.smul_snd, smul_eq_mul]
    rw [← hD]
    have e : (x2 - x0) * (-1) / D * (x0 + 1 / 2 * (x2 - x0) - (x0 + 1 / 2 * (x1 - x0))) +
        -(-(y2 - y0) * (-1)) / D * (y0 + 1 / 2 * (y2 - y0) - (y0 + 1 / 2 * (y1 - y0))) = t := by
      rw [ht]; ring
    rw [e]
    constructor
    · rintro ⟨-, hlt⟩
      rw [Real.sqrt_lt_sqrt_iff (add_nonneg (mul_self_nonneg _) (mul_self_nonneg _))] at hlt
      ring_nf at hlt ⊢
      exact hlt
    · intro hlt
      refine ⟨hD0, ?_⟩
      rw [Real.sqrt_lt_sqrt_iff (add_nonneg (mul_self_nonneg _) (mul_self_nonneg _))]
      ring_nf at hlt ⊢
      exact hlt
  · simp only [sqDist]; ring
  · simp only [sqDist]
    have : (x0 - x2) * (2 * (x0 + (x1 - x0) / 2 + t * -(y1 - y0)) - x0 - x2) + (y0 - y2) * (2 * (y0 + (y1 - y0) / 2 + t * (x1 - x0)) - y0 - y2) = 0 := by
      have h1 := htD
      rw [hD] at h1
      linear_combination 2 * h1
    linear_combination this
  · rintro ⟨qx, qy⟩ h1 h2
    simp only [sqDist] at h1 h2
    have e3 : (x0 - x2) * (2 * (x0 + (x1 - x0) / 2 + t * -(y1 - y0)) - x0 - x2) + (y0 - y2) * (2 * (y0 + (y1 - y0) / 2 + t * (x1 - x0)) - y0 - y2) = 0 := by
      have h1 := htD
      rw [hD] at h1
      linear_combination 2 * h1
    have f1 : (x1 - x0) * (qx - (x0 + (x1 - x0) / 2 + t * -(y1 - y0))) + (y1 - y0) * (qy - (y0 + (y1 - y0) / 2 + t * (x1 - x0))) = 0 := by
      linear_combination (-1/2) * h1
    have f2 : (x2 - x0) * (qx - (x0 + (x1 - x0) / 2 + t * -(y1 - y0))) + (y2 - y0) * (qy - (y0 + (y1 - y0) / 2 + t * (x1 - x0))) = 0 := by
      linear_combination (-1/2) * h2 + (1/2) * e3
    have g1 : ((x1 - x0) * (y2 - y0) - (y1 - y0) * (x2 - x0)) * (qx - (x0 + (x1 - x0) / 2 + t * -(y1 - y0))) = 0 := by
      linear_combination (y2 - y0) * f1 - (y1 - y0) * f2
    have g2 : ((x1 - x0) * (y2 - y0) - (y1 - y0) * (x2 - x0)) * (qy - (y0 + (y1 - y0) / 2 + t * (x1 - x0))) = 0 := by
      linear_combination (x1 - x0) * f2 - (x2 - x0) * f1
    have k1 := (mul_eq_zero.mp g1).resolve_left h
    have k2 := (mul_eq_zero.mp g2).resolve_left h
    simp only [Prod.mk.injEq]
    exact ⟨by linarith, by linarith⟩

/-- collinear corners: the test answers false -/
theorem contains_area {d0 d1 d2 p : Pt} (h : circumContains d0 d1 d2 p) : area2 d0 d1 d2 ≠ 0 := by
  obtain ⟨h1, -⟩ := h
  intro h0
  apply h1
  simp only [area2] at h0
  simp only [orthogonal, Prod.fst_sub, Prod.snd_sub]
  linarith

/-- C71. In exact arithmetic the circumcircle test answers true exactly when the corners are not collinear and the point is
strictly inside the circle through them. -/
theorem c71_circumcircle (d0 d1 d2 p : Pt) :
    circumContains d0 d1 d2 p ↔ area2 d0 d1 d2 ≠ 0 ∧
      ∃ o : Pt, sqDist d1 o = sqDist d0 o ∧ sqDist d2 o = sqDist d0 o ∧ sqDist p o < sqDist d0 o := by
  constructor
  · intro h
    have ha := contains_area h
    obtain ⟨o, h1, h2, h3, -⟩ := center_spec d0 d1 d2 ha
    exact ⟨ha, o, h2, h3, (h1 p).mp h⟩
  · rintro ⟨ha, q, q1, q2, q3⟩
    obtain ⟨o, h1, -, -, h4⟩ := center_spec d0 d1 d2 ha
    rw [h1, ← h4 q q1 q2]
    exact q3

/-- C71: three points that are not collinear do have a circle through them, and only one -/
theorem c71_circle_exists (d0 d1 d2 : Pt) (h : area2 d0 d1 d2 ≠ 0) :
    ∃! o : Pt, sqDist d1 o = sqDist d0 o ∧ sqDist d2 o = sqDist d0 o := by
  obtain ⟨o, -, h2, h3, h4⟩ := center_spec d0 d1 d2 h
  exact ⟨o, ⟨h2, h3⟩, fun q hq => h4 q hq.1 hq.2⟩

/-- C71: the corners themselves are never inside -/
theorem c71_corners (d0 d1 d2 : Pt) : ¬ circumContains d0 d1 d2 d0 ∧ ¬ circumContains d0 d1 d2 d1 ∧ ¬ circumContains d0 d1 d2 d2 := by
  refine ⟨?_, ?_, ?_⟩ <;> rw [c71_circumcircle] <;> rintro ⟨-, o, h1, h2, h3⟩ <;> linarith

/-- C71: the answer does not depend on the order of the corners -/
theorem c71_order (d0 d1 d2 p : Pt) : (circumContains d0 d1 d2 p ↔ circumContains d1 d0 d2 p) ∧ (circumContains d0 d1 d2 p ↔ circumContains d1 d2 d0 p) := by
  have a1 : area2 d1 d0 d2 = -area2 d0 d1 d2 := by simp only [area2]; ring
  have a2 : area2 d1 d2 d0 = area2 d0 d1 d2 := by simp only [area2]; ring
  constructor
  · rw [c71_circumcircle, c71_circumcircle, a1, neg_ne_zero]
    refine and_congr_right fun _ => exists_congr fun o => ⟨?_, ?_⟩ <;> rintro ⟨h1, h2, h3⟩ <;> exact ⟨by linarith, by linarith, by linarith⟩
  · rw [c71_circumcircle, c71_circumcircle, a2]
    refine and_congr_right fun _ => exists_congr fun o => ⟨?_, ?_⟩ <;> rintro ⟨h1, h2, h3⟩ <;> exact ⟨by linarith, by linarith, by linarith⟩

/-- a case: the centre of gravity of a right triangle is inside, the fourth corner of the square is not (it is on the circle) -/
example : circumContains (0, 0) (2, 0) (0, 2) (1/2, 1/2) ∧ ¬ circumContains (0, 0) (2, 0) (0, 2) (2, 2) := by
  constructor
  · rw [c71_circumcircle]
    refine ⟨by norm_num [area2], (1, 1), ?_, ?_, ?_⟩ <;> norm_num [sqDist]
  · rw [c71_circumcircle]
    rintro ⟨-, ⟨x, y⟩, h1, h2, h3⟩
    norm_num [sqDist] at h1 h2 h3
    nlinarith

end Toppo.GeomProps
