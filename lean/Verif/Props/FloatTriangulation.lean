import Verif.Props.FloatDelaunay
import Verif.Proof.FloatHull
import Verif.Proof.DelaunayAgree
set_option linter.unusedVariables false

/-!
C112: when no point is too near the circle through three others, `delaunay_triangulation` in `f64` returns a Delaunay triangulation.
-/
namespace Toppo.FloatGeom
open F64 FloatAlg Geom GeomProps

/-- `p` is not too near the circle through `a`, `b` and `c`, whose coordinates are at most `N`: the three are collinear, or their area is not tiny,
they are not too flat, and the distances of `p` and of `a` from the center of the circle through them differ by more than
`96 * 2^-53 * (condition number)^2 * N` -/
def Clear (N : ℚ) (a b c p : P2) : Prop :=
  areaQ a b c = 0 ∨ (1 / 2 ^ 200 ≤ |areaQ a b c| ∧ cond a b c ≤ 2 ^ 43 ∧
    ∀ O : ℝ × ℝ, sqDist (rp b) O = sqDist (rp a) O → sqDist (rp c) O = sqDist (rp a) O →
      96 / 2 ^ 53 * ((cond a b c : ℝ) ^ 2 * N) < |dist (rp p) O - dist (rp a) O|)

/-- C112. Between 1 and `2^40` points with finite coordinates of absolute value at most `M`, with `M` at most `2^30`. `aux` are the auxiliary points the
code computes. If no input point is too near the circle through three others (input or auxiliary points), then, in exact geometry: the corners
of every returned triangle are not collinear, no input point and no auxiliary point lies strictly inside the circle through them, no two
returned triangles have a common inner point, and no triangle is missing: three input points, not collinear, with all others strictly outside the circle through
them, are returned. -/
theorem c112_delaunay (points : List P2) (h0 : points ≠ []) (hn : points.length ≤ 2 ^ 40) (M : ℚ) (hM : M ≤ 2 ^ 30) (hp : ∀ p ∈ points, In M p) :
    ∃ aux, auxiliary points = some aux ∧ aux.length = 3 ∧
      ((∀ (i j k l : Nat) (a b c p : P2), i < j → j < k → l ≠ i → l ≠ j → l ≠ k → (points ++ aux)[i]? = some a → (points ++ aux)[j]? = some b →
          (points ++ aux)[k]? = some c → points[l]? = some p → Clear (16 * (M + 1)) a b c p) →
        ∃ (out : List (P2 × P2 × P2)) (idx : List (Nat × Nat × Nat)), delaunay points = some (out, idx) ∧
          (∀ t ∈ out, area2 (rp t.1) (rp t.2.1) (rp t.2.2) ≠ 0) ∧
          (∀ t ∈ out, ∀ o, Center (rp t.1, rp t.2.1, rp t.2.2) o → ∀ p, p ∈ points ∨ p ∈ aux → sqDist (rp t.1) o ≤ sqDist (rp p) o) ∧
          (∀ (j k : Nat) (s t : P2 × P2 × P2), j ≠ k → out[j]? = some s → out[k]? = some t →
            ∀ x, Inside (rp s.1, rp s.2.1, rp s.2.2) x → ¬ Inside (rp t.1, rp t.2.1, rp t.2.2) x) ∧
          (∀ (i j k : Nat) (a b c : P2) (o : ℝ × ℝ), i < j → j < k → points[i]? = some a → points[j]? = some b → points[k]? = some c →
            area2 (rp a) (rp b) (rp c) ≠ 0 → Center (rp a, rp b, rp c) o →
            (∀ (q : Nat) (p : P2), q ≠ i → q ≠ j → q ≠ k → points[q]? = some p → sqDist (rp a) o < sqDist (rp p) o) →
            (∀ p ∈ aux, sqDist (rp a) o < sqDist (rp p) o) → (i, j, k) ∈ idx)) := by
  obtain ⟨aux, ha, hl, hin, hull⟩ := aux_spec points h0 hn hp hM
  refine ⟨aux, ha, hl, fun hclear => ?_⟩
  have M0 : 0 ≤ M := by
    obtain ⟨p, hp'⟩ := List.exists_mem_of_ne_nil points h0
    exact (abs_nonneg _).trans (hp p hp').1.2.2
  have hidx : ∀ i, index points aux i = (points ++ aux)[i]? := by
    intro i
    unfold index
    split_ifs with h
    · rw [List.getElem?_append_left h]
    · rw [List.getElem?_append_right (by omega)]
  have hin' : ∀ (i : Nat) (p : P2), (points ++ aux)[i]? = some p → In (16 * (M + 1)) p := by
    intro i p h
    rcases List.mem_append.mp (List.mem_of_getElem? h) with h | h
    · have := hp p h
      exact ⟨⟨this.1.1, this.1.2.1, this.1.2.2.trans (by linarith)⟩, ⟨this.2.1, this.2.2.1, this.2.2.2.trans (by linarith)⟩⟩
    · exact hin p h
  have hN : 16 * (M + 1) ≤ 2 ^ 100 := by
    have : (16 : ℚ) * (2 ^ 30 + 1) ≤ 2 ^ 100 := by norm_num
    linarith
  obtain ⟨out, idx, t1, t2⟩ := triangulate_agree contains rp points aux hl hull (by
    intro i j k l a b c p hij hjk h1 h2 h3 ea eb ec ep har
    rw [hidx] at ea eb ec
    have ep' : (points ++ aux)[l]? = some p := by rw [List.getElem?_append_left (List.getElem?_eq_some_iff.mp ep).1]; exact ep
    rcases hclear i j k l a b c p hij hjk h1 h2 h3 ea eb ec ep with h | ⟨g1, g2, g3⟩
    · exfalso
      apply har
      have : area2 (rp a) (rp b) (rp c) = ((areaQ a b c : ℚ) : ℝ) := by unfold areaQ area2 rp; push_cast; ring
      rw [this, h]; norm_num
    · exact c111_exact a b c p _ (hin' _ _ ea) (hin' _ _ eb) (hin' _ _ ec) (hin' _ _ ep') hN g1 g2 (by exact_mod_cast g3))
  have hd : delaunay points = (auxiliary points).bind fun sup => Geom.triangulate contains points sup := rfl
  rw [ha, Option.bind_some, t1] at hd
  have hl' : (aux.map rp).length = 3 := by rw [List.length_map, hl]
  have hull' : ∀ pos : Nat → Geom.Pt, (∀ i, i < (points.map rp).length + 3 → index (points.map rp) (aux.map rp) i = some (pos i)) → Hull (points.map rp).length pos := by
    rw [List.length_map]; exact hull
  obtain ⟨o1, i1, e1, r1, r2, r3⟩ := tri_delaunay (points.map rp) (aux.map rp) hl' hull'
  rw [t2, Option.some.injEq, Prod.mk.injEq] at e1
  obtain ⟨rfl, rfl⟩ := e1
  obtain ⟨o2, i2, e2, s⟩ := tri_complete (points.map rp) (aux.map rp) hl' hull'
  rw [t2, Option.some.injEq, Prod.mk.injEq] at e2
  obtain ⟨rfl, rfl⟩ := e2
  refine ⟨out, idx, hd, ?_, ?_, ?_, ?_⟩
  · intro t ht
    exact r1 _ (List.mem_map.mpr ⟨t, ht, rfl⟩)
  · intro t ht o ho p hp'
    refine r2 _ (List.mem_map.mpr ⟨t, ht, rfl⟩) o ho (rp p) ?_
    rcases hp' with h | h
    · exact Or.inl (List.mem_map.mpr ⟨p, h, rfl⟩)
    · exact Or.inr (List.mem_map.mpr ⟨p, h, rfl⟩)
  · intro j k s t hjk hs ht x hx
    exact r3 j k (map3 rp s) (map3 rp t) hjk (by rw [List.getElem?_map, hs]; rfl) (by rw [List.getElem?_map, ht]; rfl) x hx
  · intro i j k a b c o hij hjk ea eb ec har ho hq hx
    refine s i j k (rp a) (rp b) (rp c) o hij hjk (by rw [List.getElem?_map, ea]; rfl) (by rw [List.getElem?_map, eb]; rfl) (by rw [List.getElem?_map, ec]; rfl)
      har ho ?_ ?_
    · intro q p h1 h2 h3 hp'
      rw [List.getElem?_map, Option.map_eq_some_iff] at hp'
      obtain ⟨p', e, rfl⟩ := hp'
      exact hq q p' h1 h2 h3 e
    · intro p hp'
      obtain ⟨p', e, rfl⟩ := List.mem_map.mp hp'
      exact hx p' e

/-! ### a case -/

/-- the squared distance from the exact center -/
def sqQ (a b c p : P2) : ℚ := (val p.1 - (oQ a b c).1) ^ 2 + (val p.2 - (oQ a b c).2) ^ 2

/-- a condition on fractions that implies `Clear` -/
def ClearQ (N : ℚ) (a b c p : P2) : Prop :=
  areaQ a b c = 0 ∨ (1 / 2 ^ 200 ≤ |areaQ a b c| ∧ cond a b c ≤ 2 ^ 43 ∧
    2 * (96 / 2 ^ 53 * (cond a b c ^ 2 * N)) ^ 2 * (sqQ a b c p + sqQ a b c a) < (sqQ a b c p - sqQ a b c a) ^ 2)

instance (N : ℚ) (a b c p : P2) : Decidable (ClearQ N a b c p) := by unfold ClearQ; infer_instance

theorem clear_of_clearQ {N : ℚ} {a b c p : P2} (hN : 0 ≤ N) (h : ClearQ N a b c p) : Clear N a b c p := by
  rcases h with h | ⟨h1, h2, h3⟩
  · exact Or.inl h
  · refine Or.inr ⟨h1, h2, ?_⟩
    intro O k1 k2
    have hD : areaQ a b c ≠ 0 := abs_pos.mp (lt_of_lt_of_le (by positivity) h1)
    have hO := center_unique hD k1 k2
    subst hO
    have s : ∀ q : P2, sqDist (rp q) (((oQ a b c).1 : ℝ), ((oQ a b c).2 : ℝ)) = ((sqQ a b c q : ℚ) : ℝ) := by
      intro q
      unfold sqDist sqQ rp
      push_cast; ring
    unfold dist
    rw [s, s]
    have n1 : 0 ≤ sqQ a b c p := by unfold sqQ; positivity
    have n2 : 0 ≤ sqQ a b c a := by unfold sqQ; positivity
    have h3' : 2 * (96 / 2 ^ 53 * ((cond a b c : ℝ) ^ 2 * N)) ^ 2 * ((sqQ a b c p : ℝ) + sqQ a b c a) < ((sqQ a b c p : ℝ) - sqQ a b c a) ^ 2 := by
      have := (Rat.cast_lt (K := ℝ)).mpr h3
      push_cast at this
      exact this
    have n1' : (0 : ℝ) ≤ (sqQ a b c p : ℝ) := by exact_mod_cast n1
    have n2' : (0 : ℝ) ≤ (sqQ a b c a : ℝ) := by exact_mod_cast n2
    generalize (sqQ a b c p : ℝ) = A at *
    generalize (sqQ a b c a : ℝ) = B at *
    have hμ : 0 ≤ 96 / 2 ^ 53 * ((cond a b c : ℝ) ^ 2 * N) := by
      have : (0 : ℝ) ≤ N := by exact_mod_cast hN
      positivity
    generalize 96 / 2 ^ 53 * ((cond a b c : ℝ) ^ 2 * N) = μ at *
    have q1 := Real.sqrt_nonneg A
    have q2 := Real.sqrt_nonneg B
    have e1 := Real.sq_sqrt n1'
    have e2 := Real.sq_sqrt n2'
    generalize Real.sqrt A = x at *
    generalize Real.sqrt B = y at *
    by_contra hle
    push Not at hle
    have g1 : (x - y) ^ 2 ≤ μ ^ 2 := by rw [← sq_abs]; exact pow_le_pow_left₀ (abs_nonneg _) hle 2
    have g2 : (A - B) ^ 2 = (x - y) ^ 2 * (x + y) ^ 2 := by rw [← e1, ← e2]; ring
    have g3 : (x + y) ^ 2 ≤ 2 * (A + B) := by nlinarith [sq_nonneg (x - y)]
    have g4 : (x - y) ^ 2 * (x + y) ^ 2 ≤ μ ^ 2 * (2 * (A + B)) := mul_le_mul g1 g3 (sq_nonneg _) (sq_nonneg _)
    linarith

/-- all the conditions for a list of points and auxiliary points -/
def clearAll (N : ℚ) (points aux : List P2) : Bool :=
  (List.range (points ++ aux).length).all fun k => (List.range k).all fun j => (List.range j).all fun i => (List.range points.length).all fun l =>
    l == i || l == j || l == k ||
      match (points ++ aux)[i]?, (points ++ aux)[j]?, (points ++ aux)[k]?, points[l]? with
      | some a, some b, some c, some p => decide (ClearQ N a b c p)
      | _, _, _, _ => true

theorem clearAll_spec {N : ℚ} (hN : 0 ≤ N) {points aux : List P2} (h : clearAll N points aux = true) (i j k l : Nat) (a b c p : P2) (hij : i < j) (hjk : j < k)
    (h1 : l ≠ i) (h2 : l ≠ j) (h3 : l ≠ k) (ea : (points ++ aux)[i]? = some a) (eb : (points ++ aux)[j]? = some b) (ec : (points ++ aux)[k]? = some c)
    (ep : points[l]? = some p) : Clear N a b c p := by
  unfold clearAll at h
  simp only [List.all_eq_true, List.mem_range] at h
  have := h k (List.getElem?_eq_some_iff.mp ec).1 j hjk i hij l (List.getElem?_eq_some_iff.mp ep).1
  rw [ea, eb, ec, ep] at this
  simp only [Bool.or_eq_true, beq_iff_eq, decide_eq_true_eq] at this
  rcases this with ((h | h) | h) | h
  · exact absurd h h1
  · exact absurd h h2
  · exact absurd h h3
  · exact clear_of_clearQ hN h

/-- C112, a case: four points with a Delaunay triangulation of three triangles -/
def fourPts : List P2 := [pt 0 0, pt 7 1, pt 2 8, pt 3 3]

example : ∃ (out : List (P2 × P2 × P2)) (idx : List (Nat × Nat × Nat)), delaunay fourPts = some (out, idx) ∧ idx = [(0, 1, 3), (0, 2, 3), (1, 2, 3)] ∧
    (∀ (j k : Nat) (s t : P2 × P2 × P2), j ≠ k → out[j]? = some s → out[k]? = some t →
      ∀ x, Inside (rp s.1, rp s.2.1, rp s.2.2) x → ¬ Inside (rp t.1, rp t.2.1, rp t.2.2) x) := by
  obtain ⟨aux, ha, -, h⟩ := c112_delaunay fourPts (by simp [fourPts]) (by simp [fourPts]) 8 (by norm_num) (by
    intro p hp
    simp only [fourPts, List.mem_cons, List.not_mem_nil, or_false] at hp
    rcases hp with rfl | rfl | rfl | rfl <;> exact in_pt (by norm_num) (by norm_num) (by norm_num) (by norm_num))
  have hc : (auxiliaryW sqrtC fourPts).map (clearAll (16 * (8 + 1)) fourPts) = some true := by decide +kernel
  have ha' : auxiliaryW sqrtC fourPts = some aux := by rw [← sqrt_eq]; exact ha
  rw [ha', Option.map_some, Option.some.injEq] at hc
  obtain ⟨out, idx, e, -, -, hx, -⟩ := h (clearAll_spec (by norm_num) hc)
  have hi : (delaunayW sqrtC fourPts).map Prod.snd = some [(0, 1, 3), (0, 2, 3), (1, 2, 3)] := by decide +kernel
  rw [← delaunay_eval, e, Option.map_some, Option.some.injEq] at hi
  exact ⟨out, idx, e, hi, hx⟩

end Toppo.FloatGeom
