import Verif.Proof.DelaunayCover
set_option linter.unusedVariables false
/-! C72 the Delaunay property, in exact arithmetic. -/
namespace Toppo.GeomProps
open Toppo.Geom

/-- a triangle given by its corners -/
abbrev Tri := Pt × Pt × Pt
/-- `o` is the center of the circle through the corners -/
def Center (t : Tri) (o : Pt) : Prop := sqDist t.2.1 o = sqDist t.1 o ∧ sqDist t.2.2 o = sqDist t.1 o
/-- `x` is strictly inside the triangle -/
def Inside (t : Tri) (x : Pt) : Prop :=
  ∃ u v w : ℝ, 0 < u ∧ 0 < v ∧ 0 < w ∧ u + v + w = 1 ∧
    x = (u * t.1.1 + v * t.2.1.1 + w * t.2.2.1, u * t.1.2 + v * t.2.1.2 + w * t.2.2.2)

theorem inside_of_inT {a b c x : Pt} (h : InT a b c x) : area2 a b c ≠ 0 ∧ Inside (a, b, c) x := by
  have hsum : area2 a b x + area2 b c x + area2 c a x = area2 a b c := by simp only [area2]; ring
  have hx1 : area2 a b c * x.1 = area2 b c x * a.1 + area2 c a x * b.1 + area2 a b x * c.1 := by simp only [area2]; ring
  have hx2 : area2 a b c * x.2 = area2 b c x * a.2 + area2 c a x * b.2 + area2 a b x * c.2 := by simp only [area2]; ring
  have h0 : area2 a b c ≠ 0 := by
    rcases h with ⟨h1, h2, h3⟩ | ⟨h1, h2, h3⟩
    · exact ne_of_gt (by linarith)
    · exact ne_of_lt (by linarith)
  refine ⟨h0, area2 b c x / area2 a b c, area2 c a x / area2 a b c, area2 a b x / area2 a b c, ?_, ?_, ?_, ?_, ?_⟩
  · rcases h with ⟨h1, h2, h3⟩ | ⟨h1, h2, h3⟩
    · exact div_pos h2 (by linarith)
    · exact div_pos_of_neg_of_neg h2 (by linarith)
  · rcases h with ⟨h1, h2, h3⟩ | ⟨h1, h2, h3⟩
    · exact div_pos h3 (by linarith)
    · exact div_pos_of_neg_of_neg h3 (by linarith)
  · rcases h with ⟨h1, h2, h3⟩ | ⟨h1, h2, h3⟩
    · exact div_pos h1 (by linarith)
    · exact div_pos_of_neg_of_neg h1 (by linarith)
  · field_simp; linarith
  · apply Prod.ext
    · simp only; field_simp; linarith
    · simp only; field_simp; linarith

theorem ev_inside {A : ℝ × ℝ × ℝ} {t : Tri} {x : Pt} {u v w : ℝ} (hs : u + v + w = 1)
    (hx : x = (u * t.1.1 + v * t.2.1.1 + w * t.2.2.1, u * t.1.2 + v * t.2.1.2 + w * t.2.2.2)) :
    ev A x = u * ev A t.1 + v * ev A t.2.1 + w * ev A t.2.2 := by
  rw [hx]
  simp only [ev]
  have : A.2.2 = (u + v + w) * A.2.2 := by rw [hs, one_mul]
  linear_combination this

/-- comparing planes at a common inner point -/
theorem plane_lt {pos : Nat → Pt} {Z : Nat → ℝ} {A B : ℝ × ℝ × ℝ} {s t : Triple} (hs : On pos Z A s)
    (hst : ∃ v, Mem v s ∧ ¬ Mem v t) (ht : On pos Z B t) (hle : ∀ v, Mem v s → ¬ Mem v t → ev B (pos v) < Z v) {x : Pt}
    (hx : Inside (pos s.1, pos s.2.1, pos s.2.2) x) : ev B x < ev A x := by
  obtain ⟨u, v, w, hu, hv, hw, hsum, hx⟩ := hx
  rw [ev_inside (A := A) hsum hx, ev_inside (A := B) hsum hx]
  simp only
  have all : ∀ q, Mem q s → ev B (pos q) ≤ ev A (pos q) := by
    intro q hq
    rw [hs q hq]
    by_cases h : Mem q t
    · exact (ht q h).le
    · exact (hle q hq h).le
  have a1 := all _ (Or.inl rfl)
  have a2 := all _ (Or.inr (Or.inl rfl))
  have a3 := all _ (Or.inr (Or.inr rfl))
  obtain ⟨q, hq, hqt⟩ := hst
  have hlt := hle q hq hqt
  rw [← hs q hq] at hlt
  have m1 := mul_le_mul_of_nonneg_left a1 hu.le
  have m2 := mul_le_mul_of_nonneg_left a2 hv.le
  have m3 := mul_le_mul_of_nonneg_left a3 hw.le
  rcases hq with rfl | rfl | rfl
  · have := mul_lt_mul_of_pos_left hlt hu; linarith
  · have := mul_lt_mul_of_pos_left hlt hv; linarith
  · have := mul_lt_mul_of_pos_left hlt hw; linarith

theorem exists_diff {s t : Triple} (hs : Sorted s) (ht : Sorted t) (h : s ≠ t) : ∃ v, Mem v s ∧ ¬ Mem v t := by
  by_contra hno
  push Not at hno
  exact h (triple_ext hs ht hno)

open Classical in
/-- the exact in-circle test -/
noncomputable def exactC : Pt → Pt → Pt → Pt → Bool := fun a b c p => decide (circumContains a b c p)

theorem exactC_iff (a b c p : Pt) : exactC a b c p = true ↔ circumContains a b c p := by simp [exactC]

/-- everything about the list of triangles when the loop is over -/
theorem final (points sup : List Pt) (hs2 : sup.length = 3)
    (hull : ∀ pos : Nat → Pt, (∀ i, i < points.length + 3 → index points sup i = some (pos i)) → Hull points.length pos) :
    ∃ (pos : Nat → Pt) (Z : Nat → ℝ) (tri : List Triple),
      (∀ i, i < points.length + 3 → index points sup i = some (pos i)) ∧
      (∃ out, triangulate exactC points sup = some (out, tri.filter (fun t => decide (t.1 < points.length) && decide (t.2.1 < points.length) && decide (t.2.2 < points.length))) ∧
        out.map (fun t => (some t.1, some t.2.1, some t.2.2)) =
          (tri.filter (fun t => decide (t.1 < points.length) && decide (t.2.1 < points.length) && decide (t.2.2 < points.length))).map
            (fun t => (points[t.1]?, points[t.2.1]?, points[t.2.2]?))) ∧
      Comb points.length points.length tri ∧ Inv points.length pos Z points.length tri ∧ Hull points.length pos ∧
      (∀ t q A, (∀ v, Mem v t → v < points.length + 3) → q < points.length + 3 → ar pos t ≠ 0 → On pos Z A t → ev A (pos q) ≤ Z q →
        ¬ circumContains (pos t.1) (pos t.2.1) (pos t.2.2) (pos q)) ∧
      (∀ t q A o, (∀ v, Mem v t → v < points.length + 3) → q < points.length + 3 → ar pos t ≠ 0 →
        On pos Z A t → sqDist (pos t.2.1) o = sqDist (pos t.1) o → sqDist (pos t.2.2) o = sqDist (pos t.1) o →
        sqDist (pos t.1) o < sqDist (pos q) o → ev A (pos q) < Z q) ∧
      (∀ x, Generic points.length pos x → InTr pos x (points.length, points.length + 1, points.length + 2) → ∃ t ∈ tri, InTr pos x t) := by
  classical
  have hpos : ∀ i, i < points.length + 3 → index points sup i = some ((index points sup i).getD (0, 0)) := by
    intro i hi
    have : ∃ x, index points sup i = some x := by
      unfold index
      split
      · exact ⟨_, List.getElem?_eq_getElem (by assumption)⟩
      · exact ⟨_, List.getElem?_eq_getElem (by omega)⟩
    obtain ⟨x, hx⟩ := this
    simp only [hx, Option.getD_some]
  generalize hp : (fun i => (index points sup i).getD (0, 0)) = pos at *
  replace hpos : ∀ i, i < points.length + 3 → index points sup i = some (pos i) := by
    intro i hi
    rw [← hp]
    exact hpos i hi
  have hhull := hull pos hpos
  have hC : ∀ a b c p, exactC a b c p = true ↔ circumContains a b c p := exactC_iff
  obtain ⟨Z, hlift, hz1, hz2⟩ := exists_lift points.length pos exactC hC
  obtain ⟨tri, h1, h2, h3, h4⟩ := insertAll exactC points sup pos hpos
    (fun m tri => Inv points.length pos Z m tri ∧ ∀ x, Generic points.length pos x →
      InTr pos x (points.length, points.length + 1, points.length + 2) → Odd (tri.countP (fun t => decide (InTr pos x t))))
    ⟨inv_init hhull, by intro x _ hx; simp [hx]⟩
    (fun i tri hi hc hq => ⟨inv_step hlift hhull hi hc hq.1, fun x hx hin => odd_step hC hi hc hq.1 x hx (hq.2 x hx hin)⟩)
  have hs : ∀ t ∈ tri.filter (fun t => decide (t.1 < points.length) && decide (t.2.1 < points.length) && decide (t.2.2 < points.length)),
      Sorted t ∧ t.2.2 < points.length := by
    intro t ht
    rw [List.mem_filter] at ht
    simp only [Bool.and_eq_true, decide_eq_true_eq] at ht
    exact ⟨h2.sorted t ht.1, ht.2.2⟩
  obtain ⟨out, h5, h6⟩ := collect_eq points (n := 0) _ hs
  refine ⟨pos, Z, tri, hpos, ⟨out, ?_, h6⟩, h2, h3, hhull, hz1, hz2, ?_⟩
  · unfold triangulate
    simp only [Option.bind_eq_bind, h1, Option.bind_some, h5]
    rfl
  · intro x hx hin
    have ho := h4 x hx hin
    have : 0 < tri.countP (fun t => decide (InTr pos x t)) := ho.pos
    rw [List.countP_pos_iff] at this
    obtain ⟨t, ht, h7⟩ := this
    exact ⟨t, ht, by simpa using h7⟩

theorem pos_eq {points sup : List Pt} {pos : Nat → Pt} (hpos : ∀ i, i < points.length + 3 → index points sup i = some (pos i))
    {i : Nat} (hi : i < points.length) : points[i]? = some (pos i) := by
  have := hpos i (by omega)
  unfold index at this
  rwa [if_pos hi] at this

/-- the corners of the returned triangles -/
theorem out_mem {points : List Pt} {pos : Nat → Pt} {out : List Tri} {l : List Triple}
    (hpos : ∀ i, i < points.length → points[i]? = some (pos i)) (hl : ∀ t ∈ l, Sorted t ∧ t.2.2 < points.length)
    (h : out.map (fun t => (some t.1, some t.2.1, some t.2.2)) = l.map (fun t => (points[t.1]?, points[t.2.1]?, points[t.2.2]?))) :
    out = l.map (fun t => (pos t.1, pos t.2.1, pos t.2.2)) := by
  induction l generalizing out with
  | nil => simpa using h
  | cons t l ih =>
    cases out with
    | nil => simp at h
    | cons a out =>
      rw [List.map_cons, List.map_cons, List.cons.injEq] at h
      rw [List.map_cons, ← ih (fun t ht => hl t (List.mem_cons_of_mem _ ht)) h.2]
      obtain ⟨⟨s1, s2⟩, s3⟩ := hl t (List.mem_cons_self ..)
      have h1 := h.1
      rw [hpos _ (by omega), hpos _ (by omega), hpos _ s3] at h1
      simp only [Prod.mk.injEq, Option.some.injEq] at h1
      congr 1
      exact Prod.ext h1.1 (Prod.ext h1.2.1 h1.2.2)

/-- for any auxiliary points with everything inside their triangle -/
theorem tri_delaunay (points aux : List Pt) (hs2 : aux.length = 3)
    (hull : ∀ pos : Nat → Pt, (∀ i, i < points.length + 3 → index points aux i = some (pos i)) → Hull points.length pos) :
    ∃ (out : List Tri) (idx : List (Nat × Nat × Nat)), triangulate exactC points aux = some (out, idx) ∧
      (∀ t ∈ out, area2 t.1 t.2.1 t.2.2 ≠ 0) ∧
      (∀ t ∈ out, ∀ o, Center t o → ∀ p, p ∈ points ∨ p ∈ aux → sqDist t.1 o ≤ sqDist p o) ∧
      (∀ (j k : Nat) (s t : Tri), j ≠ k → out[j]? = some s → out[k]? = some t → ∀ x, Inside s x → ¬ Inside t x) := by
  obtain ⟨pos, Z, tri, hpos, ⟨out, h3, h4⟩, hc, hi, hh, hz1, hz2, hcov⟩ := final points aux hs2 hull
  set l := tri.filter (fun t => decide (t.1 < points.length) && decide (t.2.1 < points.length) && decide (t.2.2 < points.length)) with hl
  have hlm : ∀ t ∈ l, t ∈ tri ∧ Sorted t ∧ t.2.2 < points.length := by
    intro t ht
    rw [hl, List.mem_filter] at ht
    simp only [Bool.and_eq_true, decide_eq_true_eq] at ht
    exact ⟨ht.1, hc.sorted t ht.1, ht.2.2⟩
  have hout := out_mem (fun i hi => pos_eq hpos hi) (fun t ht => (hlm t ht).2) h4
  have hlv : ∀ t ∈ tri, ∀ v, Mem v t → v < points.length + 3 := by
    intro t ht v hv
    have := hc.live t ht v hv
    omega
  refine ⟨out, l, h3, ?_, ?_, ?_⟩
  · intro t ht
    rw [hout, List.mem_map] at ht
    obtain ⟨s, hs, rfl⟩ := ht
    exact hi.nondeg s (hlm s hs).1
  · intro t ht o ho p hp
    rw [hout, List.mem_map] at ht
    obtain ⟨s, hs, rfl⟩ := ht
    have hs := (hlm s hs).1
    have hq : ∃ q, q < points.length + 3 ∧ pos q = p := by
      rcases hp with hp | hp
      · obtain ⟨q, hq, rfl⟩ := List.mem_iff_getElem.mp hp
        have := pos_eq hpos hq
        rw [List.getElem?_eq_getElem hq, Option.some.injEq] at this
        exact ⟨q, by omega, this.symm⟩
      · obtain ⟨q, hq, rfl⟩ := List.mem_iff_getElem.mp hp
        have := hpos (points.length + q) (by omega)
        unfold index at this
        rw [if_neg (by omega), Nat.add_sub_cancel_left, List.getElem?_eq_getElem hq, Option.some.injEq] at this
        exact ⟨points.length + q, by omega, this.symm⟩
    obtain ⟨q, hq, rfl⟩ := hq
    obtain ⟨A, a1, a2⟩ := hi.plane s hs
    have hle : ev A (pos q) ≤ Z q := by
      by_cases hm : Mem q s
      · exact (a1 q hm).le
      · exact (a2 q (by unfold Live; omega) hm).le
    have hno := hz1 s q A (hlv s hs) hq (hi.nondeg s hs) a1 hle
    rw [c71_circumcircle] at hno
    by_contra hlt
    push Not at hlt
    exact hno ⟨hi.nondeg s hs, o, ho.1, ho.2, hlt⟩
  · intro j k s t hjk hs ht x hx hx'
    rw [hout, List.getElem?_map] at hs ht
    cases hs' : l[j]? with
    | none => rw [hs'] at hs; simp at hs
    | some a =>
      cases ht' : l[k]? with
      | none => rw [ht'] at ht; simp at ht
      | some b =>
        rw [hs', Option.map_some, Option.some.injEq] at hs
        rw [ht', Option.map_some, Option.some.injEq] at ht
        subst hs ht
        have hab : a ≠ b := by
          intro e
          have hn : l.Nodup := hc.nodup.filter _
          obtain ⟨hj, ej⟩ := List.getElem?_eq_some_iff.mp hs'
          obtain ⟨hk, ek⟩ := List.getElem?_eq_some_iff.mp ht'
          exact hjk ((List.Nodup.getElem_inj_iff hn).mp (by rw [ej, ek, e]))
        obtain ⟨ma, sa, -⟩ := hlm a (List.mem_of_getElem? hs')
        obtain ⟨mb, sb, -⟩ := hlm b (List.mem_of_getElem? ht')
        obtain ⟨A, a1, a2⟩ := hi.plane a ma
        obtain ⟨B, b1, b2⟩ := hi.plane b mb
        have p1 := plane_lt a1 (exists_diff sa sb hab) b1 (fun v hv hv' => b2 v (hc.live a ma v hv) hv') hx
        have p2 := plane_lt b1 (exists_diff sb sa (Ne.symm hab)) a1 (fun v hv hv' => a2 v (hc.live b mb v hv) hv') hx'
        linarith

theorem tri_complete (points aux : List Pt) (hs2 : aux.length = 3)
    (hull : ∀ pos : Nat → Pt, (∀ i, i < points.length + 3 → index points aux i = some (pos i)) → Hull points.length pos) :
    ∃ (out : List Tri) (idx : List (Nat × Nat × Nat)), triangulate exactC points aux = some (out, idx) ∧
      ∀ (i j k : Nat) (a b c o : Pt), i < j → j < k → points[i]? = some a → points[j]? = some b → points[k]? = some c →
        area2 a b c ≠ 0 → Center (a, b, c) o →
        (∀ (q : Nat) (p : Pt), q ≠ i → q ≠ j → q ≠ k → points[q]? = some p → sqDist a o < sqDist p o) →
        (∀ p ∈ aux, sqDist a o < sqDist p o) → (i, j, k) ∈ idx := by
  obtain ⟨pos, Z, tri, hpos, ⟨out, h3, h4⟩, hc, hi, hh, hz1, hz2, hcov⟩ := final points aux hs2 hull
  refine ⟨out, _, h3, ?_⟩
  intro i j k a b c o hij hjk ha hb hc' harea ho hin haux
  have hk : k < points.length := (List.getElem?_eq_some_iff.mp hc').1
  have ea : pos i = a := by rw [pos_eq hpos (by omega), Option.some.injEq] at ha; exact ha
  have eb : pos j = b := by rw [pos_eq hpos (by omega), Option.some.injEq] at hb; exact hb
  have ec : pos k = c := by rw [pos_eq hpos (by omega), Option.some.injEq] at hc'; exact hc'
  subst ea eb ec
  obtain ⟨x, hx, hxin⟩ := exists_generic points.length pos _ _ _ harea
  have hsorted : Sorted (i, j, k) := ⟨hij, hjk⟩
  obtain ⟨A, a1, a2, a3⟩ := exists_aff _ _ _ harea (Z i) (Z j) (Z k)
  have hA : On pos Z A (i, j, k) := by
    rintro v (rfl | rfl | rfl)
    · exact a1
    · exact a2
    · exact a3
  have hAlt : ∀ q, q < points.length + 3 → ¬ Mem q (i, j, k) → ev A (pos q) < Z q := by
    intro q hq hqm
    refine hz2 (i, j, k) q A o ?_ hq harea hA ho.1 ho.2 ?_
    · rintro v (rfl | rfl | rfl) <;> omega
    · simp only [Mem] at hqm
      push Not at hqm
      by_cases hqn : q < points.length
      · exact hin q (pos q) hqm.1 hqm.2.1 hqm.2.2 (pos_eq hpos hqn)
      · have := hpos q hq
        unfold index at this
        rw [if_neg hqn] at this
        exact haux _ (List.mem_of_getElem? this)
  -- the point is inside the auxiliary triangle
  have hin0 : InTr pos x (points.length, points.length + 1, points.length + 2) := by
    obtain ⟨-, u, v, w, hu, hv, hw, hsum, hxe⟩ := inside_of_inT hxin
    have hL : ∀ a b c, points.length ≤ a → a < b → b < points.length + 3 → points.length ≤ c → c < points.length + 3 → c ≠ a → c ≠ b →
        0 < area2 (pos a) (pos b) (pos c) * area2 (pos a) (pos b) x := by
      intro a b c ha hab hb hc1 hc2 hca hcb
      obtain ⟨L, l1, l2, l3⟩ := hh.2 a b ha hab hb
      have e0 := ev_inside (A := L) hsum hxe
      simp only at e0
      have g1 := l3 i (by omega) (by omega) (by omega)
      have g2 := l3 j (by omega) (by omega) (by omega)
      have g3 := l3 k (by omega) (by omega) (by omega)
      have hxL : 0 < ev L x := by
        rw [e0]
        have := mul_pos hu g1
        have := mul_pos hv g2
        have := mul_pos hw g3
        linarith
      have hcL := l3 c hc2 hca hcb
      have key := ev_edge L _ _ (pos c) x l1 l2
      have hne : area2 (pos a) (pos b) (pos c) ≠ 0 := by
        have hn := hh.1
        have : (a = points.length ∧ b = points.length + 1 ∧ c = points.length + 2) ∨ (a = points.length ∧ b = points.length + 2 ∧ c = points.length + 1) ∨
          (a = points.length + 1 ∧ b = points.length + 2 ∧ c = points.length) := by omega
        rcases this with ⟨rfl, rfl, rfl⟩ | ⟨rfl, rfl, rfl⟩ | ⟨rfl, rfl, rfl⟩
        · exact hn
        · intro h0; apply hn; simp only [ar, area2] at *; linarith
        · intro h0; apply hn; simp only [ar, area2] at *; linarith
      have e1 : area2 (pos a) (pos b) (pos c) * area2 (pos a) (pos b) x * ev L (pos c) =
          area2 (pos a) (pos b) (pos c) * area2 (pos a) (pos b) (pos c) * ev L x := by
        linear_combination -area2 (pos a) (pos b) (pos c) * key
      have e2 : 0 < area2 (pos a) (pos b) (pos c) * area2 (pos a) (pos b) x * ev L (pos c) := by
        rw [e1]
        exact mul_pos (mul_self_pos.mpr hne) hxL
      exact (pos_iff_pos_of_mul_pos e2).mpr hcL
    have q1 := hL points.length (points.length + 1) (points.length + 2) (by omega) (by omega) (by omega) (by omega) (by omega) (by omega) (by omega)
    have q2 := hL (points.length + 1) (points.length + 2) points.length (by omega) (by omega) (by omega) (by omega) (by omega) (by omega) (by omega)
    have q3 := hL points.length (points.length + 2) (points.length + 1) (by omega) (by omega) (by omega) (by omega) (by omega) (by omega) (by omega)
    unfold InTr InT
    simp only
    generalize pos points.length = P at *
    generalize pos (points.length + 1) = Q at *
    generalize pos (points.length + 2) = R at *
    rw [show area2 Q R P = area2 P Q R by simp only [area2]; ring] at q2
    rw [show area2 P R Q = -area2 P Q R by simp only [area2]; ring] at q3
    rw [area2_swap P R]
    have hn := hh.1
    rcases lt_trichotomy (area2 P Q R) 0 with g | g | g
    · right
      exact ⟨by nlinarith, by nlinarith, by nlinarith⟩
    · rw [g] at q1; simp at q1
    · left
      exact ⟨by nlinarith, by nlinarith, by nlinarith⟩
  obtain ⟨t, ht, hxt⟩ := hcov x hx hin0
  have heq : (i, j, k) = t := by
    by_contra hne
    obtain ⟨B, b1, b2⟩ := hi.plane t ht
    have st := hc.sorted t ht
    have p1 := plane_lt hA (exists_diff hsorted st hne) b1 (fun v hv hv' => b2 v (by
      unfold Live
      rcases hv with rfl | rfl | rfl <;> omega) hv') (inside_of_inT hxin).2
    have p2 := plane_lt b1 (exists_diff st hsorted (Ne.symm hne)) hA (fun v hv hv' => hAlt v (by have := hc.live t ht v hv; omega) hv')
      (inside_of_inT hxt).2
    linarith
  rw [List.mem_filter, heq]
  refine ⟨ht, ?_⟩
  rw [← heq]
  simp only [Bool.and_eq_true, decide_eq_true_eq]
  omega

/-- what the auxiliary points are: twice as far from the centroid as a radius larger than the distance of all points -/
theorem c72_auxiliary (points : List Pt) (h : points ≠ []) :
    ∃ (c : Pt) (m : ℝ), c = centroid points ∧ 0 ≤ m ∧ (∀ p ∈ points, sqDist p c ≤ m ^ 2) ∧ (∃ p ∈ points, sqDist p c = m ^ 2) ∧
      auxiliary points = some [(c.1, c.2 + 2 * (m + 1)), (c.1 + Real.sqrt 3 * (m + 1), c.2 - (m + 1)), (c.1 - Real.sqrt 3 * (m + 1), c.2 - (m + 1))] := by
  have hex : ∀ (ps : List Pt) (c : Pt) (r : ℝ), (ps.foldl (fun r q => max r (twoNorm (q - c))) r = r) ∨
      ∃ p ∈ ps, ps.foldl (fun r q => max r (twoNorm (q - c))) r = twoNorm (p - c) := by
    intro ps c
    induction ps with
    | nil => intro r; exact Or.inl rfl
    | cons p ps ih =>
      intro r
      rw [List.foldl_cons]
      rcases ih (max r (twoNorm (p - c))) with h | ⟨q, hq, h⟩
      · rw [h]
        rcases max_choice r (twoNorm (p - c)) with h' | h'
        · exact Or.inl h'
        · exact Or.inr ⟨p, List.mem_cons_self .., h'⟩
      · exact Or.inr ⟨q, List.mem_cons_of_mem _ hq, h⟩
  have hm : ∃ m, maxDist (centroid points) points = some m ∧ ∃ p ∈ points, m = twoNorm (p - centroid points) := by
    cases points with
    | nil => exact absurd rfl h
    | cons p ps =>
      refine ⟨_, rfl, ?_⟩
      rcases hex ps (centroid (p :: ps)) (twoNorm (p - centroid (p :: ps))) with h | ⟨q, hq, h⟩
      · exact ⟨p, List.mem_cons_self .., h⟩
      · exact ⟨q, List.mem_cons_of_mem _ hq, h⟩
  obtain ⟨m, hm, p0, hp0, hmp⟩ := hm
  obtain ⟨m0, hle⟩ := maxDist_spec hm
  have hsq : ∀ p : Pt, (twoNorm (p - centroid points)) ^ 2 = sqDist p (centroid points) := by
    intro p
    simp only [twoNorm, sqDist, Prod.fst_sub, Prod.snd_sub]
    rw [Real.sq_sqrt (add_nonneg (mul_self_nonneg _) (mul_self_nonneg _))]
    ring
  refine ⟨centroid points, m, rfl, m0, ?_, ⟨p0, hp0, ?_⟩, ?_⟩
  · intro p hp
    rw [← hsq]
    exact pow_le_pow_left₀ (Real.sqrt_nonneg _) (hle p hp) 2
  · rw [hmp, hsq]
  · unfold auxiliary
    dsimp only
    rw [hm]
    simp only [Option.bind_eq_bind, Option.bind_some, Option.pure_def, Option.some.injEq, List.cons.injEq, and_true]
    refine ⟨Prod.ext ?_ ?_, Prod.ext ?_ ?_, Prod.ext ?_ ?_⟩ <;> simp only [Prod.fst_add, Prod.snd_add] <;> ring

theorem aux_hull (points : List Pt) (h : points ≠ []) : ∃ sup, auxiliary points = some sup ∧ sup.length = 3 ∧
    (delaunay points = triangulate exactC points sup) ∧
    ∀ pos : Nat → Pt, (∀ i, i < points.length + 3 → index points sup i = some (pos i)) → Hull points.length pos := by
  have hsup : ∃ sup, auxiliary points = some sup ∧ sup.length = 3 := by
    unfold auxiliary maxDist
    cases points with
    | nil => exact absurd rfl h
    | cons p ps => exact ⟨_, rfl, rfl⟩
  obtain ⟨sup, hs1, hs2⟩ := hsup
  refine ⟨sup, hs1, hs2, ?_, fun pos hpos => hull_aux hs1 pos hpos⟩
  unfold delaunay
  rw [hs1]
  rfl

/-- C72. For every non-empty list of points (repeated, collinear and cocircular points allowed): the corners of every returned triangle
are not collinear; no input point and no auxiliary point lies strictly inside the circle through them; no two returned triangles have
a common inner point. -/
theorem c72_delaunay (points : List Pt) (h : points ≠ []) :
    ∃ (out : List Tri) (idx : List (Nat × Nat × Nat)) (aux : List Pt), delaunay points = some (out, idx) ∧ auxiliary points = some aux ∧
      (∀ t ∈ out, area2 t.1 t.2.1 t.2.2 ≠ 0) ∧
      (∀ t ∈ out, ∀ o, Center t o → ∀ p, p ∈ points ∨ p ∈ aux → sqDist t.1 o ≤ sqDist p o) ∧
      (∀ (j k : Nat) (s t : Tri), j ≠ k → out[j]? = some s → out[k]? = some t → ∀ x, Inside s x → ¬ Inside t x) := by
  obtain ⟨sup, s1, s2, s3, s4⟩ := aux_hull points h
  obtain ⟨out, idx, h1, h2⟩ := tri_delaunay points sup s2 s4
  exact ⟨out, idx, sup, s3.trans h1, s1, h2⟩

/-- C72: nothing is missing. Three input points that are not collinear, such that every other input point and every auxiliary point
is strictly outside the circle through them, are one of the returned triangles. -/
theorem c72_complete (points : List Pt) (h : points ≠ []) :
    ∃ (out : List Tri) (idx : List (Nat × Nat × Nat)) (aux : List Pt), delaunay points = some (out, idx) ∧ auxiliary points = some aux ∧
      ∀ (i j k : Nat) (a b c o : Pt), i < j → j < k → points[i]? = some a → points[j]? = some b → points[k]? = some c →
        area2 a b c ≠ 0 → Center (a, b, c) o →
        (∀ (q : Nat) (p : Pt), q ≠ i → q ≠ j → q ≠ k → points[q]? = some p → sqDist a o < sqDist p o) →
        (∀ p ∈ aux, sqDist a o < sqDist p o) → (i, j, k) ∈ idx := by
  obtain ⟨sup, s1, s2, s3, s4⟩ := aux_hull points h
  obtain ⟨out, idx, h1, h2⟩ := tri_complete points sup s2 s4
  exact ⟨out, idx, sup, s3.trans h1, s1, h2⟩

/-- C72, a case: a right triangle is returned -/
theorem c72_case : ∃ out idx, delaunay [(0, 0), (2, 0), (0, 2)] = some (out, idx) ∧ (0, 1, 2) ∈ idx := by
  obtain ⟨out, idx, aux, h1, h2, h3⟩ := c72_complete [(0, 0), (2, 0), (0, 2)] (by simp)
  refine ⟨out, idx, h1, h3 0 1 2 (0, 0) (2, 0) (0, 2) (1, 1) (by omega) (by omega) rfl rfl rfl (by norm_num [area2]) ?_ ?_ ?_⟩
  · constructor <;> norm_num [sqDist]
  · intro q p h0 h1 h2 hq
    have : q < 3 := (List.getElem?_eq_some_iff.mp hq).1
    omega
  · obtain ⟨c, m, hc, hm, -, -, ha⟩ := c72_auxiliary [(0, 0), (2, 0), (0, 2)] (by simp)
    rw [h2, Option.some.injEq] at ha
    have hc' : c = (2 / 3, 2 / 3) := by rw [hc]; norm_num [centroid]
    have s0 : 0 ≤ Real.sqrt 3 := Real.sqrt_nonneg _
    have s3 : Real.sqrt 3 ^ 2 = 3 := Real.sq_sqrt (by norm_num)
    have s1 : 1 ≤ Real.sqrt 3 := by nlinarith
    generalize Real.sqrt 3 = s at *
    have hsm : 0 ≤ s * m := mul_nonneg s0 hm
    have h2' : s ≤ 2 := by nlinarith
    have hsm2 : s * m ≤ 2 * m := mul_le_mul_of_nonneg_right h2' hm
    intro p hp
    rw [ha, hc'] at hp
    simp only [List.mem_cons, List.not_mem_nil, or_false] at hp
    rcases hp with rfl | rfl | rfl <;> simp only [sqDist]
    · nlinarith
    · have e : (2 / 3 + s * (m + 1) - 1) ^ 2 = s ^ 2 * (m + 1) ^ 2 - 2 / 3 * (s * m + s) + 1 / 9 := by ring
      rw [e, s3]
      nlinarith
    · have e : (2 / 3 - s * (m + 1) - 1) ^ 2 = s ^ 2 * (m + 1) ^ 2 + 2 / 3 * (s * m + s) + 1 / 9 := by ring
      rw [e, s3]
      nlinarith

/-- C72, what does not hold: the returned triangles need not cover the convex hull of the points. Three points that are not collinear
can give no triangle at all, because an auxiliary point is inside the circle through them. -/
theorem c72_hull_not_covered : ∃ a b c : Pt, area2 a b c ≠ 0 ∧ delaunay [a, b, c] = some ([], []) := by
  refine ⟨(-1, 0), (1, 0), (0, 3 / 100), by norm_num [area2], ?_⟩
  obtain ⟨out, idx, aux, h1, h2, -, h4, -⟩ := c72_delaunay [(-1, 0), (1, 0), (0, 3 / 100)] (by simp)
  obtain ⟨out', idx', e1, -, e3, e4, e5⟩ : ∃ (out' : List Tri) (idx' : List (Nat × Nat × Nat)), delaunay [(-1, 0), (1, 0), (0, 3 / 100)] = some (out', idx') ∧ idx'.Nodup ∧
      (∀ t ∈ idx', t.1 < t.2.1 ∧ t.2.1 < t.2.2 ∧ t.2.2 < 3) ∧ out'.length = idx'.length ∧
      ∀ (k : Nat) (t : Tri) (s : Nat × Nat × Nat), out'[k]? = some t → idx'[k]? = some s →
        ([(-1, 0), (1, 0), (0, 3 / 100)] : List Pt)[s.1]? = some t.1 ∧ ([(-1, 0), (1, 0), (0, 3 / 100)] : List Pt)[s.2.1]? = some t.2.1 ∧
          ([(-1, 0), (1, 0), (0, 3 / 100)] : List Pt)[s.2.2]? = some t.2.2 := by
    classical
    obtain ⟨sup, s1, s2⟩ : ∃ sup, auxiliary [(-1, 0), (1, 0), (0, 3 / 100)] = some sup ∧ sup.length = 3 := ⟨_, rfl, rfl⟩
    obtain ⟨o, i, a1, a2, a3, a4, a5⟩ := c62_well_formed (fun a b c p => decide (circumContains a b c p)) [(-1, 0), (1, 0), (0, 3 / 100)] sup s2
    refine ⟨o, i, ?_, a2, a3, a4, a5⟩
    unfold delaunay
    rw [s1]
    exact a1
  rw [h1, Option.some.injEq, Prod.mk.injEq] at e1
  obtain ⟨rfl, rfl⟩ := e1
  have hnil : out = [] := by
    cases out with
    | nil => rfl
    | cons t out =>
      exfalso
      cases idx with
      | nil => simp at e4
      | cons s idx =>
        have k1 := e3 s (List.mem_cons_self ..)
        have k2 := e5 0 t s rfl rfl
        have hs : s = (0, 1, 2) := by
          obtain ⟨x, y, z⟩ := s
          simp only [Prod.mk.injEq] at *
          omega
        rw [hs] at k2
        simp only [List.getElem?_cons_zero, List.getElem?_cons_succ, Option.some.injEq] at k2
        have ht : t = ((-1, 0), (1, 0), (0, 3 / 100)) := Prod.ext k2.1.symm (Prod.ext k2.2.1.symm k2.2.2.symm)
        obtain ⟨c, m, hc, hm, hle, ⟨p0, hp0, hp0'⟩, ha⟩ := c72_auxiliary [(-1, 0), (1, 0), (0, 3 / 100)] (by simp)
        have hc' : c = (0, 1 / 100) := by rw [hc]; norm_num [centroid]
        have := h4 t (List.mem_cons_self ..) (0, -9991 / 600) (by rw [ht]; constructor <;> norm_num [sqDist]) (c.1 + Real.sqrt 3 * (m + 1), c.2 - (m + 1)) (Or.inr (by
          rw [h2, Option.some.injEq] at ha
          rw [ha]; simp))
        rw [ht, hc'] at this
        rw [hc'] at hp0' hle
        have s3 : Real.sqrt 3 ^ 2 = 3 := Real.sq_sqrt (by norm_num)
        have hm1 : m ≤ 2 := by
          have : m ^ 2 ≤ 4 := by
            rw [← hp0']
            simp only [List.mem_cons, List.not_mem_nil, or_false] at hp0
            rcases hp0 with rfl | rfl | rfl <;> norm_num [sqDist]
          nlinarith
        generalize Real.sqrt 3 = r at *
        simp only [sqDist] at this
        have e : (0 + r * (m + 1) - 0) ^ 2 = r ^ 2 * (m + 1) ^ 2 := by ring
        rw [e, s3] at this
        nlinarith
  subst hnil
  have hi : idx = [] := by
    rw [List.length_nil] at e4
    exact List.length_eq_zero_iff.mp e4.symm
  rw [h1, hi]

end Toppo.GeomProps
