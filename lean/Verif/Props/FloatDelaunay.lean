import Verif.Props.FloatMargin
import Verif.Props.Delaunay
set_option linter.unusedVariables false

/-!
C112: `delaunay_triangulation` with the arithmetic of `f64`.
-/
namespace Toppo.FloatGeom
open F64 FloatAlg

/-- both coordinates are finite -/
def Fin2 (p : P2) : Prop := p.1.isFinite = true ∧ p.2.isFinite = true

theorem nonfinite_cases {x : F64} (h : ¬ x.isFinite = true) : x.isFinite = false := by cases h' : x.isFinite <;> simp_all

theorem dist_nan {points : List P2} (h : points ≠ []) (hlen : points.length < 2 ^ 64) :
    (∃ p ∈ points, norm (vsub p (centroid points)) = nan) ↔ ∃ p ∈ points, ¬ Fin2 p := by
  obtain ⟨n, hn, hl⟩ := lit_len (n := points.length) (by simpa using h) hlen
  have c1 : (centroid points).1 = (points.map Prod.fst).foldl (· + ·) 0 / num false n := by
    show (points.foldl vadd (0, 0)).1 / lit points.length = _
    rw [hl, fst_foldl]
  have c2 : (centroid points).2 = (points.map Prod.snd).foldl (· + ·) 0 / num false n := by
    show (points.foldl vadd (0, 0)).2 / lit points.length = _
    rw [hl, snd_foldl]
  constructor
  · rintro ⟨p, hp, h⟩
    by_contra hno
    push Not at hno
    have k1 : (centroid points).1 ≠ nan := by
      rw [c1, Ne, (div_len hn).1]
      refine foldl_ne_nan _ _ (by simp [zero_def]) ?_
      intro x hx
      obtain ⟨q, hq, rfl⟩ := List.mem_map.mp hx
      exact (hno q hq).1
    have k2 : (centroid points).2 ≠ nan := by
      rw [c2, Ne, (div_len hn).1]
      refine foldl_ne_nan _ _ (by simp [zero_def]) ?_
      intro x hx
      obtain ⟨q, hq, rfl⟩ := List.mem_map.mp hx
      exact (hno q hq).2
    have key : ∀ x y : F64, x.isFinite = true → y ≠ nan → x - y ≠ nan := by
      intro x y hx hy
      obtain ⟨s, m, rfl⟩ := fin_iff.mp hx
      cases y with
      | nan => exact absurd rfl hy
      | inf t => simp [sub_def, neg_def, neg, add]
      | num t n => exact ofExact_ne_nan _ _
    rcases (norm_nan _).mp h with h | h
    · exact key _ _ (hno p hp).1 k1 h
    · exact key _ _ (hno p hp).2 k2 h
  · rintro ⟨p, hp, hb⟩
    unfold Fin2 at hb
    rw [not_and_or] at hb
    have sn : ∀ x : F64, x - nan = nan := sub_nan
    rcases hb with hb | hb
    · have := foldl_bad (points.map Prod.fst) 0 ⟨_, List.mem_map.mpr ⟨p, hp, rfl⟩, nonfinite_cases hb⟩
      rcases this with e | ⟨s, e, hs⟩
      · refine ⟨p, hp, (norm_nan _).mpr (Or.inl ?_)⟩
        show p.1 - (centroid points).1 = nan
        rw [c1, e, ((div_len hn).1).mpr rfl, sn]
      · obtain ⟨q, hq, hqs⟩ := List.mem_map.mp hs
        refine ⟨q, hq, (norm_nan _).mpr (Or.inl ?_)⟩
        show q.1 - (centroid points).1 = nan
        rw [c1, e, (div_len hn).2 s rfl, hqs, inf_sub]
    · have := foldl_bad (points.map Prod.snd) 0 ⟨_, List.mem_map.mpr ⟨p, hp, rfl⟩, nonfinite_cases hb⟩
      rcases this with e | ⟨s, e, hs⟩
      · refine ⟨p, hp, (norm_nan _).mpr (Or.inr ?_)⟩
        show p.2 - (centroid points).2 = nan
        rw [c2, e, ((div_len hn).1).mpr rfl, sn]
      · obtain ⟨q, hq, hqs⟩ := List.mem_map.mp hs
        refine ⟨q, hq, (norm_nan _).mpr (Or.inr ?_)⟩
        show q.2 - (centroid points).2 = nan
        rw [c2, e, (div_len hn).2 s rfl, hqs, inf_sub]

theorem auxiliary_none (points : List P2) (hlen : points.length < 2 ^ 64) :
    auxiliary points = none ↔ points = [] ∨ (2 ≤ points.length ∧ ∃ p ∈ points, ¬ Fin2 p) := by
  cases points with
  | nil => simp [auxiliary, auxiliaryW]
  | cons q ps =>
    rw [← dist_nan (by simp) hlen]
    set c := centroid (q :: ps) with hc
    have e : auxiliary (q :: ps) = (maxBy (norm (vsub q c)) (ps.map fun p => norm (vsub p c))).bind
        fun m => some [vadd c (0, lit 2 * (m + 1)), vadd c (F64.sqrt (lit 3) * (m + 1), -(m + 1)), vadd c (-(F64.sqrt (lit 3)) * (m + 1), -(m + 1))] := rfl
    have e' : auxiliary (q :: ps) = none ↔ maxBy (norm (vsub q c)) (ps.map fun p => norm (vsub p c)) = none := by
      rw [e]
      cases maxBy (norm (vsub q c)) (ps.map fun p => norm (vsub p c)) <;> simp
    rw [e', maxBy_none]
    constructor
    · rintro ⟨h1, y, hy, rfl⟩
      right
      refine ⟨?_, ?_⟩
      · cases ps with
        | nil => simp at h1
        | cons a as => simp
      · rcases List.mem_cons.mp hy with h | h
        · exact ⟨q, by simp, h.symm⟩
        · obtain ⟨p, hp, h⟩ := List.mem_map.mp h
          exact ⟨p, by simp [hp], h⟩
    · rintro (h | ⟨h1, p, hp, h⟩)
      · simp at h
      · refine ⟨?_, nan, ?_, rfl⟩
        · rintro h0
          rw [List.map_eq_nil_iff] at h0
          subst h0
          simp at h1
        · rcases List.mem_cons.mp hp with rfl | hp
          · rw [h]; simp
          · rw [List.mem_cons]; right
            exact List.mem_map.mpr ⟨p, hp, h⟩

theorem aux_len {points sup : List P2} (h : auxiliary points = some sup) : sup.length = 3 := by
  cases points with
  | nil => simp [auxiliary, auxiliaryW] at h
  | cons q ps =>
    have e : auxiliary (q :: ps) = (maxBy (norm (vsub q (centroid (q :: ps)))) (ps.map fun p => norm (vsub p (centroid (q :: ps))))).bind
        fun m => some [vadd (centroid (q :: ps)) (0, lit 2 * (m + 1)), vadd (centroid (q :: ps)) (F64.sqrt (lit 3) * (m + 1), -(m + 1)),
          vadd (centroid (q :: ps)) (-(F64.sqrt (lit 3)) * (m + 1), -(m + 1))] := rfl
    rw [e, Option.bind_eq_some_iff] at h
    obtain ⟨m, -, h⟩ := h
    rw [Option.some.injEq] at h
    rw [← h]; rfl

/-- C112: `delaunay_triangulation` panics exactly when there are no points, or at least two points of which one has a coordinate that is NaN
or infinite (the number of points is a `usize`). -/
theorem c112_panics (points : List P2) (hlen : points.length < 2 ^ 64) :
    delaunay points = none ↔ points = [] ∨ (2 ≤ points.length ∧ ∃ p ∈ points, ¬ (p.1.isFinite = true ∧ p.2.isFinite = true)) := by
  rw [show (∃ p ∈ points, ¬ (p.1.isFinite = true ∧ p.2.isFinite = true)) ↔ ∃ p ∈ points, ¬ Fin2 p from Iff.rfl, ← auxiliary_none points hlen]
  have e : delaunay points = (auxiliary points).bind fun sup => Geom.triangulate contains points sup := rfl
  rw [e]
  cases h : auxiliary points with
  | none => simp
  | some sup =>
    obtain ⟨o, i, h1, -⟩ := GeomProps.c62_well_formed contains points sup (aux_len h)
    simp [h1]

/-- C112: when it does not panic, whatever the rounding: the index triples are strictly increasing, in range and pairwise different, and the
triangles are those of the triples. -/
theorem c112_well_formed (points : List P2) (out : List (P2 × P2 × P2)) (idx : List (Nat × Nat × Nat)) (h : delaunay points = some (out, idx)) :
    idx.Nodup ∧ (∀ t ∈ idx, t.1 < t.2.1 ∧ t.2.1 < t.2.2 ∧ t.2.2 < points.length) ∧ out.length = idx.length ∧
      ∀ (k : Nat) (t : P2 × P2 × P2) (s : Nat × Nat × Nat), out[k]? = some t → idx[k]? = some s →
        points[s.1]? = some t.1 ∧ points[s.2.1]? = some t.2.1 ∧ points[s.2.2]? = some t.2.2 := by
  have e : delaunay points = (auxiliary points).bind fun sup => Geom.triangulate contains points sup := rfl
  rw [e] at h
  cases ha : auxiliary points with
  | none => rw [ha] at h; simp at h
  | some sup =>
    obtain ⟨o, i, h1, h2, h3, h4, h5⟩ := GeomProps.c62_well_formed contains points sup (aux_len ha)
    rw [ha, Option.bind_some, h1, Option.some.injEq, Prod.mk.injEq] at h
    obtain ⟨rfl, rfl⟩ := h
    exact ⟨h2, h3, h4, h5⟩

theorem delaunay_eval (points : List P2) : delaunay points = delaunayW sqrtC points := by unfold delaunay; rw [sqrt_eq]

/-- C112, what does not hold: on six points with small natural coordinates the rounded in-circle test puts a corner inside the circle of its own
triangle, and two of the returned triangles overlap (C72 excludes this for exact arithmetic). -/
theorem c112_overlap_false : ∃ (points : List P2) (out : List (P2 × P2 × P2)) (idx : List (Nat × Nat × Nat)), delaunay points = some (out, idx) ∧
    (∀ p ∈ points, ∃ a b : Nat, a ≤ 4 ∧ b ≤ 4 ∧ p = pt a b) ∧
    ∃ (j k : Nat) (s t : P2 × P2 × P2), j ≠ k ∧ out[j]? = some s ∧ out[k]? = some t ∧
      ∃ x, GeomProps.Inside (rp s.1, rp s.2.1, rp s.2.2) x ∧ GeomProps.Inside (rp t.1, rp t.2.1, rp t.2.2) x := by
  have hd : (delaunayW sqrtC [pt 1 3, pt 0 1, pt 3 2, pt 1 0, pt 1 4, pt 3 1]).map Prod.snd =
      some [(1, 2, 3), (0, 1, 4), (0, 2, 4), (0, 1, 5), (0, 2, 5), (1, 2, 5), (2, 3, 5)] := by decide +kernel
  rw [Option.map_eq_some_iff] at hd
  obtain ⟨⟨out, idx⟩, h1, h2⟩ := hd
  simp only at h2
  subst h2
  rw [← delaunay_eval] at h1
  obtain ⟨-, -, h3, h4⟩ := c112_well_formed _ _ _ h1
  have l3 : 3 < out.length := by rw [h3]; decide
  have l5 : 5 < out.length := by rw [h3]; decide
  have e3 := h4 3 out[3] (0, 1, 5) (List.getElem?_eq_getElem l3) rfl
  have e5 := h4 5 out[5] (1, 2, 5) (List.getElem?_eq_getElem l5) rfl
  simp only [List.getElem?_cons_zero, List.getElem?_cons_succ, Option.some.injEq] at e3 e5
  refine ⟨_, out, _, h1, ?_, 3, 5, out[3], out[5], by decide, List.getElem?_eq_getElem l3, List.getElem?_eq_getElem l5, (2, 13 / 10), ?_, ?_⟩
  · intro p hp
    simp only [List.mem_cons, List.not_mem_nil, or_false] at hp
    rcases hp with rfl | rfl | rfl | rfl | rfl | rfl
    · exact ⟨1, 3, by omega, by omega, rfl⟩
    · exact ⟨0, 1, by omega, by omega, rfl⟩
    · exact ⟨3, 2, by omega, by omega, rfl⟩
    · exact ⟨1, 0, by omega, by omega, rfl⟩
    · exact ⟨1, 4, by omega, by omega, rfl⟩
    · exact ⟨3, 1, by omega, by omega, rfl⟩
  · rw [← e3.1, ← e3.2.1, ← e3.2.2]
    exact ⟨3 / 20, 7 / 30, 37 / 60, by norm_num, by norm_num, by norm_num, by norm_num, by norm_num [rp, pt, val]⟩
  · rw [← e5.1, ← e5.2.1, ← e5.2.2]
    exact ⟨1 / 3, 3 / 10, 11 / 30, by norm_num, by norm_num, by norm_num, by norm_num, by norm_num [rp, pt, val]⟩

end Toppo.FloatGeom
