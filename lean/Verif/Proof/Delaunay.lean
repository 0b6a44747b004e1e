import Verif.Props.Geom
import Mathlib.Topology.Algebra.Order.Field
import Mathlib.Topology.Order.OrderClosed
set_option linter.unusedVariables false
/-! The exact triangulation loop: the paraboloid lifting argument, with symbolic perturbation for ties. -/
namespace Toppo.Geom
open Toppo.GeomProps

/-- an affine function of the plane -/
def ev (A : ℝ × ℝ × ℝ) (p : Pt) : ℝ := A.1 * p.1 + A.2.1 * p.2 + A.2.2

theorem ev_bary (A : ℝ × ℝ × ℝ) (a b c p : Pt) :
    area2 a b c * ev A p = area2 p b c * ev A a + area2 a p c * ev A b + area2 a b p * ev A c := by
  simp only [area2, ev]; ring

theorem ev_edge (A : ℝ × ℝ × ℝ) (a b c p : Pt) (ha : ev A a = 0) (hb : ev A b = 0) :
    area2 a b c * ev A p = area2 a b p * ev A c := by
  have := ev_bary A a b c p
  rw [ha, hb] at this
  linarith

def sub3 (A B : ℝ × ℝ × ℝ) : ℝ × ℝ × ℝ := (A.1 - B.1, A.2.1 - B.2.1, A.2.2 - B.2.2)
theorem ev_sub3 (A B : ℝ × ℝ × ℝ) (p : Pt) : ev (sub3 A B) p = ev A p - ev B p := by
  simp only [ev, sub3]; ring
def comb3 (s : ℝ) (A B : ℝ × ℝ × ℝ) : ℝ × ℝ × ℝ := (A.1 + s * B.1, A.2.1 + s * B.2.1, A.2.2 + s * B.2.2)
theorem ev_comb3 (s : ℝ) (A B : ℝ × ℝ × ℝ) (p : Pt) : ev (comb3 s A B) p = ev A p + s * ev B p := by
  simp only [ev, comb3]; ring

/-- interpolation at three points -/
theorem exists_aff (a b c : Pt) (h : area2 a b c ≠ 0) (x y z : ℝ) : ∃ A, ev A a = x ∧ ev A b = y ∧ ev A c = z := by
  set D := area2 a b c with hD
  refine ⟨(((b.2 - c.2) * x + (c.2 - a.2) * y + (a.2 - b.2) * z) / D, ((c.1 - b.1) * x + (a.1 - c.1) * y + (b.1 - a.1) * z) / D,
    ((b.1 * c.2 - c.1 * b.2) * x + (c.1 * a.2 - a.1 * c.2) * y + (a.1 * b.2 - b.1 * a.2) * z) / D), ?_, ?_, ?_⟩ <;>
  · simp only [ev]
    field_simp
    rw [hD]
    simp only [area2]
    ring

def Live (n m v : Nat) : Prop := v < m ∨ (n ≤ v ∧ v < n + 3)

def ar (pos : Nat → Pt) (t : Triple) : ℝ := area2 (pos t.1) (pos t.2.1) (pos t.2.2)

def On (pos : Nat → Pt) (Z : Nat → ℝ) (A : ℝ × ℝ × ℝ) (t : Triple) : Prop := ∀ v, Mem v t → ev A (pos v) = Z v

/-- heights that make the loop's decisions strict -/
structure Lift (n : Nat) (pos : Nat → Pt) (inC : Pt → Pt → Pt → Pt → Bool) (Z : Nat → ℝ) : Prop where
  inside : ∀ i t A, i < n → (∀ v, Mem v t → Live n i v) → ar pos t ≠ 0 → On pos Z A t → test inC pos t i = true → Z i < ev A (pos i)
  outside : ∀ i t A, i < n → (∀ v, Mem v t → Live n i v) → ar pos t ≠ 0 → On pos Z A t → test inC pos t i = false → ev A (pos i) < Z i

/-- the auxiliary triangle has everything strictly inside -/
def Hull (n : Nat) (pos : Nat → Pt) : Prop :=
  ar pos (n, n + 1, n + 2) ≠ 0 ∧
  ∀ a b, n ≤ a → a < b → b < n + 3 → ∃ L, ev L (pos a) = 0 ∧ ev L (pos b) = 0 ∧ ∀ q, q < n + 3 → q ≠ a → q ≠ b → 0 < ev L (pos q)

structure Inv (n : Nat) (pos : Nat → Pt) (Z : Nat → ℝ) (m : Nat) (tri : List Triple) : Prop where
  nondeg : ∀ t ∈ tri, ar pos t ≠ 0
  plane : ∀ t ∈ tri, ∃ A, On pos Z A t ∧ ∀ q, Live n m q → ¬ Mem q t → ev A (pos q) < Z q
  even : ∀ e : Nat × Nat, e.1 < e.2 → e.1 < n → Even (tri.countP (fun t => decide (e ∈ ed t)))

/-- the third corner -/
theorem third {pos : Nat → Pt} {t : Triple} (ht : Sorted t) {e : Nat × Nat} (he : e ∈ ed t) :
    ∃ c, (∀ v, Mem v t ↔ v = e.1 ∨ v = e.2 ∨ v = c) ∧ c ≠ e.1 ∧ c ≠ e.2 ∧
      (ar pos t ≠ 0 → area2 (pos e.1) (pos e.2) (pos c) ≠ 0) := by
  obtain ⟨x, y, z⟩ := t
  simp only [Sorted, ed, List.mem_cons, List.not_mem_nil, or_false] at *
  rcases he with rfl | rfl | rfl
  · exact ⟨z, by intro v; simp [Mem], by simp; omega, by simp; omega, fun h => h⟩
  · refine ⟨y, by intro v; simp only [Mem]; omega, by simp; omega, by simp; omega, fun h h' => h ?_⟩
    simp only [ar, area2] at *; linarith
  · refine ⟨x, by intro v; simp only [Mem]; omega, by simp; omega, by simp; omega, fun h h' => h ?_⟩
    simp only [ar, area2] at *; linarith

theorem ar_srt {pos : Nat → Pt} {e : Nat × Nat} {i : Nat} (h : area2 (pos e.1) (pos e.2) (pos i) ≠ 0) : ar pos (srt e i) ≠ 0 := by
  intro h'
  apply h
  unfold srt at h'
  split at h'
  · simp only [ar, area2] at *; linarith
  · split at h'
    · simp only [ar, area2] at *; linarith
    · exact h'

/-- two triangles of the list on the same edge are on opposite sides of it -/
theorem opposite {n m : Nat} {pos : Nat → Pt} {Z : Nat → ℝ} {tri : List Triple} (hi : Inv n pos Z m tri) (hc : Comb n m tri)
    {s t : Triple} (hs : s ∈ tri) (ht : t ∈ tri) (hst : s ≠ t) {e : Nat × Nat} {c d : Nat}
    (h1 : ∀ v, Mem v s ↔ v = e.1 ∨ v = e.2 ∨ v = c) (h2 : ∀ v, Mem v t ↔ v = e.1 ∨ v = e.2 ∨ v = d)
    (c1 : c ≠ e.1) (c2 : c ≠ e.2) (d1 : d ≠ e.1) (d2 : d ≠ e.2) :
    area2 (pos e.1) (pos e.2) (pos c) * area2 (pos e.1) (pos e.2) (pos d) ≤ 0 := by
  have hcd : c ≠ d := by
    rintro rfl
    exact hst (triple_ext (hc.sorted s hs) (hc.sorted t ht) (fun v hv => (h2 v).mpr ((h1 v).mp hv)))
  obtain ⟨A, a1, a2⟩ := hi.plane s hs
  obtain ⟨B, b1, b2⟩ := hi.plane t ht
  have la : ∀ v, Mem v s → Live n m v := hc.live s hs
  have lb : ∀ v, Mem v t → Live n m v := hc.live t ht
  have ec : ev A (pos c) = Z c := a1 c ((h1 c).mpr (by simp))
  have ed' : ev B (pos d) = Z d := b1 d ((h2 d).mpr (by simp))
  have k1 := a2 d (lb d ((h2 d).mpr (by simp))) (by rw [h1]; omega)
  have k2 := b2 c (la c ((h1 c).mpr (by simp))) (by rw [h2]; omega)
  have z1 : ev (sub3 A B) (pos e.1) = 0 := by
    rw [ev_sub3, a1 _ ((h1 _).mpr (by simp)), b1 _ ((h2 _).mpr (by simp)), sub_self]
  have z2 : ev (sub3 A B) (pos e.2) = 0 := by
    rw [ev_sub3, a1 _ ((h1 _).mpr (by simp)), b1 _ ((h2 _).mpr (by simp)), sub_self]
  have key := ev_edge (sub3 A B) _ _ (pos c) (pos d) z1 z2
  rw [ev_sub3, ev_sub3, ec, ed'] at key
  have p1 : 0 < Z c - ev B (pos c) := by linarith
  have p2 : ev A (pos d) - Z d < 0 := by linarith
  by_contra hh
  push Not at hh
  have q1 := mul_neg_of_pos_of_neg hh p2
  have q2 := mul_nonneg (mul_self_nonneg (area2 (pos e.1) (pos e.2) (pos d))) p1.le
  have q3 : area2 (pos e.1) (pos e.2) (pos c) * area2 (pos e.1) (pos e.2) (pos d) * (ev A (pos d) - Z d) =
      area2 (pos e.1) (pos e.2) (pos d) * area2 (pos e.1) (pos e.2) (pos d) * (Z c - ev B (pos c)) := by
    linear_combination area2 (pos e.1) (pos e.2) (pos d) * key
  linarith

/-- at most two triangles of the list have a given edge -/
theorem le_two {n m : Nat} {pos : Nat → Pt} {Z : Nat → ℝ} {tri : List Triple} (hi : Inv n pos Z m tri) (hc : Comb n m tri) (e : Nat × Nat) :
    tri.countP (fun t => decide (e ∈ ed t)) ≤ 2 := by
  rw [List.countP_eq_length_filter]
  by_contra hh
  push Not at hh
  set l := tri.filter (fun t => decide (e ∈ ed t)) with hl
  have hn : l.Nodup := hc.nodup.filter _
  have hm : ∀ t ∈ l, t ∈ tri ∧ e ∈ ed t := by
    intro t ht
    rw [hl, List.mem_filter, decide_eq_true_eq] at ht
    exact ht
  match l, hh, hn, hm with
  | [], hh, _, _ => simp at hh
  | [_], hh, _, _ => simp at hh
  | [_, _], hh, _, _ => simp at hh
  | r :: s :: t :: _, _, hn, hm =>
    have nrs : r ≠ s := by rintro rfl; simp at hn
    have nrt : r ≠ t := by rintro rfl; simp at hn
    have nst : s ≠ t := by rintro rfl; simp at hn
    have hr := hm r (by simp)
    have hs := hm s (by simp)
    have ht := hm t (by simp)
    obtain ⟨a, a1, a2, a3, a4⟩ := third (pos := pos) (hc.sorted r hr.1) hr.2
    obtain ⟨b, b1, b2, b3, b4⟩ := third (pos := pos) (hc.sorted s hs.1) hs.2
    obtain ⟨c, c1, c2, c3, c4⟩ := third (pos := pos) (hc.sorted t ht.1) ht.2
    have x := opposite hi hc hr.1 hs.1 nrs a1 b1 a2 a3 b2 b3
    have y := opposite hi hc hr.1 ht.1 nrt a1 c1 a2 a3 c2 c3
    have z := opposite hi hc hs.1 ht.1 nst b1 c1 b2 b3 c2 c3
    have u := a4 (hi.nondeg r hr.1)
    have v := b4 (hi.nondeg s hs.1)
    have w := c4 (hi.nondeg t ht.1)
    rcases lt_or_gt_of_ne u with u | u <;> rcases lt_or_gt_of_ne v with v | v <;> rcases lt_or_gt_of_ne w with w | w <;>
      first
      | exact absurd (mul_pos_of_neg_of_neg u v) (not_lt.mpr x)
      | exact absurd (mul_pos u v) (not_lt.mpr x)
      | exact absurd (mul_pos_of_neg_of_neg u w) (not_lt.mpr y)
      | exact absurd (mul_pos u w) (not_lt.mpr y)
      | exact absurd (mul_pos_of_neg_of_neg v w) (not_lt.mpr z)
      | exact absurd (mul_pos v w) (not_lt.mpr z)

/-! ### parity -/

theorem mem_poly_iff {bad : List Triple} (hn : bad.Nodup) {e : Nat × Nat} :
    e ∈ poly bad ↔ bad.countP (fun t => decide (e ∈ ed t)) = 1 := by
  rw [mem_poly, List.countP_eq_length_filter, List.length_eq_one_iff]
  constructor
  · rintro ⟨t, ht, hte, hu⟩
    refine ⟨t, ?_⟩
    have : ∀ s, s ∈ bad.filter (fun t => decide (e ∈ ed t)) ↔ s ∈ [t] := by
      intro s
      rw [List.mem_filter, decide_eq_true_eq, List.mem_singleton]
      constructor
      · rintro ⟨h1, h2⟩
        by_contra hne
        exact hu s h1 hne h2
      · rintro rfl
        exact ⟨ht, hte⟩
    have hp := (List.perm_ext_iff_of_nodup (hn.filter _) (List.nodup_singleton t)).mpr this
    exact List.perm_singleton.mp hp
  · rintro ⟨t, h⟩
    have : ∀ s, s ∈ bad.filter (fun t => decide (e ∈ ed t)) ↔ s = t := by
      intro s; rw [h, List.mem_singleton]
    have ht := (this t).mpr rfl
    rw [List.mem_filter, decide_eq_true_eq] at ht
    refine ⟨t, ht.1, ht.2, fun s hs hst hes => hst ((this s).mp ?_)⟩
    rw [List.mem_filter, decide_eq_true_eq]
    exact ⟨hs, hes⟩

theorem count_flatMap_ed {bad : List Triple} (hs : ∀ t ∈ bad, Sorted t) (e : Nat × Nat) :
    (bad.flatMap ed).count e = bad.countP (fun t => decide (e ∈ ed t)) := by
  induction bad with
  | nil => rfl
  | cons t ts ih =>
    rw [List.flatMap_cons, List.count_append, List.countP_cons, ih (fun s h => hs s (List.mem_cons_of_mem _ h)), add_comm]
    congr 1
    have hnd := ed_nodup (hs t (List.mem_cons_self ..))
    by_cases h : e ∈ ed t
    · simp [h, List.count_eq_one_of_mem hnd h]
    · simp [h, List.count_eq_zero_of_not_mem h]

theorem even_at {bad : List Triple} (hs : ∀ t ∈ bad, Sorted t) (a : Nat) :
    Even ((bad.flatMap ed).filter (fun e => decide (e.1 = a ∨ e.2 = a))).length := by
  induction bad with
  | nil => simp
  | cons t ts ih =>
    rw [List.flatMap_cons, List.filter_append, List.length_append]
    refine Even.add ?_ (ih (fun s h => hs s (List.mem_cons_of_mem _ h)))
    have ht := hs t (List.mem_cons_self ..)
    obtain ⟨x, y, z⟩ := t
    simp only [Sorted] at ht
    simp only [ed]
    by_cases h1 : x = a
    · subst h1
      have : y ≠ x := by omega
      have : z ≠ x := by omega
      simp [*]
    · by_cases h2 : y = a
      · subst h2
        have : z ≠ y := by omega
        simp [*]
      · by_cases h3 : z = a
        · subst h3
          simp [*]
        · simp [*]

/-- up to parity, the polygon has as many edges of a kind as the bad triangles together -/
theorem poly_parity {bad : List Triple} (hn : bad.Nodup) (hs : ∀ t ∈ bad, Sorted t)
    (h2 : ∀ e, bad.countP (fun t => decide (e ∈ ed t)) ≤ 2) (p : Nat × Nat → Bool) :
    Even ((bad.flatMap ed).filter p).length ↔ Even ((poly bad).filter p).length := by
  set L := (bad.flatMap ed).filter p with hL
  have hc : ∀ e ∈ L, L.count e = bad.countP (fun t => decide (e ∈ ed t)) := by
    intro e he
    rw [hL, List.mem_filter] at he
    rw [hL, List.count_filter he.2, count_flatMap_ed hs]
  rw [← List.sum_toFinset_count_eq_length L]
  have hp : ((poly bad).filter p).length = ∑ e ∈ L.toFinset, if L.count e = 1 then 1 else 0 := by
    rw [Finset.sum_ite, Finset.sum_const_zero, add_zero, Finset.sum_const, smul_eq_mul, mul_one]
    rw [← List.toFinset_card_of_nodup ((poly_nodup hn hs).filter _)]
    congr 1
    ext e
    rw [List.mem_toFinset, List.mem_filter, Finset.mem_filter, List.mem_toFinset]
    constructor
    · rintro ⟨p1, p2⟩
      rw [mem_poly_iff hn] at p1
      have hm : e ∈ L := by
        rw [hL, List.mem_filter]
        refine ⟨?_, p2⟩
        have : 0 < (bad.flatMap ed).count e := by rw [count_flatMap_ed hs]; omega
        exact List.count_pos_iff.mp this
      exact ⟨hm, by rw [hc e hm]; exact p1⟩
    · rintro ⟨p1, p2⟩
      rw [hc e p1] at p2
      rw [hL, List.mem_filter] at p1
      exact ⟨(mem_poly_iff hn).mpr p2, p1.2⟩
  rw [hp]
  have hsum : ∑ e ∈ L.toFinset, L.count e = (∑ e ∈ L.toFinset, if L.count e = 1 then 1 else 0) + 2 * ∑ e ∈ L.toFinset, if L.count e = 1 then 0 else 1 := by
    rw [Finset.mul_sum, ← Finset.sum_add_distrib]
    apply Finset.sum_congr rfl
    intro e he
    rw [List.mem_toFinset] at he
    have h0 : 0 < L.count e := List.count_pos_iff.mpr he
    have := h2 e
    rw [← hc e he] at this
    split <;> omega
  have h' : (Even (∑ e ∈ L.toFinset, L.count e)) ↔ Even (∑ e ∈ L.toFinset, if L.count e = 1 then 1 else 0) := by
    rw [hsum, Nat.even_add, iff_true_right (even_two_mul _)]
  convert h'

/-- the polygon has an even number of edges at every vertex -/
theorem poly_even {bad : List Triple} (hn : bad.Nodup) (hs : ∀ t ∈ bad, Sorted t)
    (h2 : ∀ e, bad.countP (fun t => decide (e ∈ ed t)) ≤ 2) (a : Nat) :
    Even ((poly bad).filter (fun e => decide (e.1 = a ∨ e.2 = a))).length :=
  (poly_parity hn hs h2 _).mp (even_at hs a)

/-! ### one insertion -/

theorem countP_split (tri : List Triple) (b : Triple → Bool) (q : Triple → Bool) :
    tri.countP q = (tri.filter b).countP q + (tri.filter (fun t => !b t)).countP q := by
  induction tri with
  | nil => rfl
  | cons t ts ih =>
    rw [List.filter_cons, List.filter_cons, List.countP_cons, ih]
    cases hb : b t <;> simp [List.countP_cons] <;> omega

theorem mem_ed_srt {p e : Nat × Nat} {i : Nat} (hp : p.1 < p.2) (h1 : i ≠ p.1) (h2 : i ≠ p.2) :
    e ∈ ed (srt p i) ↔ e.1 < e.2 ∧ (e.1 = p.1 ∨ e.1 = p.2 ∨ e.1 = i) ∧ (e.2 = p.1 ∨ e.2 = p.2 ∨ e.2 = i) := by
  rw [mem_ed (srt_sorted hp h1 h2), mem_srt, mem_srt]

/-- the plane of a new triangle -/
theorem new_plane {n m : Nat} {pos : Nat → Pt} {Z : Nat → ℝ} {tri : List Triple} {inC : Pt → Pt → Pt → Pt → Bool}
    (hl : Lift n pos inC Z) (hh : Hull n pos) (hm : m < n) (hc : Comb n m tri) (hi : Inv n pos Z m tri) {e : Nat × Nat}
    (he : e ∈ poly (tri.filter (fun t => test inC pos t m))) :
    ar pos (srt e m) ≠ 0 ∧ ∃ A, On pos Z A (srt e m) ∧ ∀ q, Live n (m + 1) q → ¬ Mem q (srt e m) → ev A (pos q) < Z q := by
  obtain ⟨t, ht0, hte, hu⟩ := mem_poly.mp he
  obtain ⟨ht, htest⟩ := List.mem_filter.mp ht0
  have hsort := hc.sorted t ht
  obtain ⟨c, c1, c2, c3, c4⟩ := third (pos := pos) hsort hte
  have harea := c4 (hi.nondeg t ht)
  obtain ⟨A, a1, a2⟩ := hi.plane t ht
  have hin := hl.inside m t A hm (hc.live t ht) (hi.nondeg t ht) a1 htest
  have e12 := ((mem_ed hsort).mp hte)
  have l1 := hc.live t ht _ e12.2.1
  have l2 := hc.live t ht _ e12.2.2
  have z1 := a1 _ e12.2.1
  have z2 := a1 _ e12.2.2
  have alle : ∀ q, Live n m q → ev A (pos q) ≤ Z q := by
    intro q hq
    by_cases h : Mem q t
    · exact (a1 q h).le
    · exact (a2 q hq h).le
  by_cases hhull : n ≤ e.1
  · -- an edge of the auxiliary triangle
    obtain ⟨L, b1, b2, b3⟩ := hh.2 e.1 e.2 hhull e12.1 (by omega)
    have lm := b3 m (by omega) (by omega) (by omega)
    set s := (Z m - ev A (pos m)) / ev L (pos m) with hs
    have hs0 : s < 0 := div_neg_of_neg_of_pos (by linarith) lm
    have hsm : s * ev L (pos m) = Z m - ev A (pos m) := by rw [hs]; field_simp
    refine ⟨ar_srt ?_, comb3 s A L, ?_, ?_⟩
    · intro h0
      have := ev_edge L _ _ (pos c) (pos m) b1 b2
      rw [h0, zero_mul] at this
      rcases mul_eq_zero.mp this with h | h
      · exact harea h
      · linarith
    · intro v hv
      rw [mem_srt] at hv
      rw [ev_comb3]
      rcases hv with rfl | rfl | rfl
      · rw [b1, z1]; ring
      · rw [b2, z2]; ring
      · rw [hsm]; ring
    · intro q hq hq'
      rw [mem_srt] at hq'
      push Not at hq'
      have hqm : Live n m q := by unfold Live at *; omega
      have := alle q hqm
      have lq := b3 q (by unfold Live at hqm; omega) hq'.1 hq'.2.1
      rw [ev_comb3]
      nlinarith
  · -- another triangle on the same edge, which is not bad
    have hev := hi.even e e12.1 (by omega)
    have hex : ∃ s ∈ tri, s ≠ t ∧ e ∈ ed s := by
      by_contra hno
      push Not at hno
      have : tri.countP (fun t => decide (e ∈ ed t)) = 1 := by
        rw [← mem_poly_iff hc.nodup, mem_poly]
        exact ⟨t, ht, hte, hno⟩
      rw [this] at hev
      exact absurd hev (by decide)
    obtain ⟨s, hs, hst, hse⟩ := hex
    have hstest : test inC pos s m = false := by
      by_contra hb
      rw [Bool.not_eq_false] at hb
      exact hu s (List.mem_filter.mpr ⟨hs, hb⟩) hst hse
    obtain ⟨B, b1, b2⟩ := hi.plane s hs
    have hout := hl.outside m s B hm (hc.live s hs) (hi.nondeg s hs) b1 hstest
    have s12 := ((mem_ed (hc.sorted s hs)).mp hse)
    have y1 := b1 _ s12.2.1
    have y2 := b1 _ s12.2.2
    have blle : ∀ q, Live n m q → ev B (pos q) ≤ Z q := by
      intro q hq
      by_cases h : Mem q s
      · exact (b1 q h).le
      · exact (b2 q hq h).le
    set D := sub3 B A with hD
    have dm : ev D (pos m) < 0 := by rw [hD, ev_sub3]; linarith
    have d1 : ev D (pos e.1) = 0 := by rw [hD, ev_sub3, y1, z1, sub_self]
    have d2 : ev D (pos e.2) = 0 := by rw [hD, ev_sub3, y2, z2, sub_self]
    set w := (Z m - ev A (pos m)) / ev D (pos m) with hw
    have hw0 : 0 < w := div_pos_of_neg_of_neg (by linarith) dm
    have hwm : w * ev D (pos m) = Z m - ev A (pos m) := by rw [hw]; exact div_mul_cancel₀ _ dm.ne
    have hw1 : w < 1 := by
      rw [hw, div_lt_one_of_neg dm, hD, ev_sub3]
      linarith
    refine ⟨ar_srt ?_, comb3 w A D, ?_, ?_⟩
    · intro h0
      have := ev_edge D _ _ (pos c) (pos m) d1 d2
      rw [h0, zero_mul] at this
      rcases mul_eq_zero.mp this with h | h
      · exact harea h
      · linarith
    · intro v hv
      rw [mem_srt] at hv
      rw [ev_comb3]
      rcases hv with rfl | rfl | rfl
      · rw [d1, z1]; ring
      · rw [d2, z2]; ring
      · rw [hwm]; ring
    · intro q hq hq'
      rw [mem_srt] at hq'
      push Not at hq'
      have hqm : Live n m q := by unfold Live at *; omega
      have k1 := alle q hqm
      have k2 := blle q hqm
      rw [ev_comb3, hD, ev_sub3]
      by_cases h : Mem q t
      · have hqs : ¬ Mem q s := by
          intro h'
          apply hst
          refine (triple_ext hsort (hc.sorted s hs) ?_).symm
          have hqc : q = c := by
            rw [c1] at h
            omega
          intro v hv
          rw [c1] at hv
          rcases hv with rfl | rfl | rfl
          · exact s12.2.1
          · exact s12.2.2
          · rwa [← hqc]
        have := b2 q hqm hqs
        nlinarith
      · have := a2 q hqm h
        nlinarith

theorem inv_step {n m : Nat} {pos : Nat → Pt} {Z : Nat → ℝ} {tri : List Triple} {inC : Pt → Pt → Pt → Pt → Bool}
    (hl : Lift n pos inC Z) (hh : Hull n pos) (hm : m < n) (hc : Comb n m tri) (hi : Inv n pos Z m tri) :
    Inv n pos Z (m + 1) (after inC pos tri m) := by
  set bad := tri.filter (fun t => test inC pos t m) with hbad
  have hbs : ∀ t ∈ bad, Sorted t := fun t ht => hc.sorted t (List.mem_of_mem_filter ht)
  have hbn : bad.Nodup := hc.nodup.filter _
  have hpe : ∀ e ∈ poly bad, e.1 < e.2 ∧ m ≠ e.1 ∧ m ≠ e.2 := by
    intro e he
    obtain ⟨t, ht, hte, _⟩ := mem_poly.mp he
    rw [mem_ed (hbs t ht)] at hte
    have l1 := hc.live t (List.mem_of_mem_filter ht) _ hte.2.1
    have l2 := hc.live t (List.mem_of_mem_filter ht) _ hte.2.2
    exact ⟨hte.1, by omega, by omega⟩
  refine ⟨?_, ?_, ?_⟩
  · intro t ht
    rcases List.mem_append.mp ht with ht | ht
    · exact hi.nondeg t (List.mem_of_mem_filter ht)
    · obtain ⟨e, he, rfl⟩ := List.mem_map.mp ht
      exact (new_plane hl hh hm hc hi he).1
  · intro t ht
    rcases List.mem_append.mp ht with ht | ht
    · obtain ⟨ht1, htest⟩ := List.mem_filter.mp ht
      obtain ⟨A, a1, a2⟩ := hi.plane t ht1
      refine ⟨A, a1, ?_⟩
      intro q hq hqt
      by_cases hqm : q = m
      · subst hqm
        exact hl.outside q t A hm (hc.live t ht1) (hi.nondeg t ht1) a1 (by simpa using htest)
      · exact a2 q (by unfold Live at *; omega) hqt
    · obtain ⟨e, he, rfl⟩ := List.mem_map.mp ht
      exact (new_plane hl hh hm hc hi he).2
  · intro e he1 he2
    unfold after
    rw [← hbad, List.countP_append, List.countP_map]
    have hle := fun e => le_two hi hc e
    have hb2 : ∀ e, bad.countP (fun t => decide (e ∈ ed t)) ≤ 2 := by
      intro e
      have h1 := hle e
      rw [countP_split tri (fun t => test inC pos t m)] at h1
      exact le_trans (Nat.le_add_right _ _) h1
    by_cases hem : e.1 = m ∨ e.2 = m
    · -- an edge at the new point
      have h0 : (tri.filter (fun t => !test inC pos t m)).countP (fun t => decide (e ∈ ed t)) = 0 := by
        rw [List.countP_eq_zero]
        intro t ht
        have ht := List.mem_of_mem_filter ht
        rw [decide_eq_true_eq, mem_ed (hc.sorted t ht)]
        rintro ⟨-, g1, g2⟩
        have l1 := hc.live t ht _ g1
        have l2 := hc.live t ht _ g2
        omega
      rw [h0, zero_add]
      have hcong : ∀ a, (a = e.1 ∨ a = e.2) → a ≠ m →
          (poly bad).countP ((fun t => decide (e ∈ ed t)) ∘ fun e => srt e m) = ((poly bad).filter (fun e => decide (e.1 = a ∨ e.2 = a))).length := by
        intro a ha ham
        rw [← List.countP_eq_length_filter]
        apply List.countP_congr
        intro p hp
        have := hpe p hp
        simp only [Function.comp, decide_eq_true_eq]
        rw [mem_ed_srt this.1 this.2.1 this.2.2]
        omega
      rcases hem with h | h
      · rw [hcong e.2 (Or.inr rfl) (by omega)]
        exact poly_even hbn hbs hb2 _
      · rw [hcong e.1 (Or.inl rfl) (by omega)]
        exact poly_even hbn hbs hb2 _
    · push Not at hem
      have hcong : (poly bad).countP ((fun t => decide (e ∈ ed t)) ∘ fun e => srt e m) = if bad.countP (fun t => decide (e ∈ ed t)) = 1 then 1 else 0 := by
        have h1 : (poly bad).countP ((fun t => decide (e ∈ ed t)) ∘ fun e => srt e m) = (poly bad).countP (fun p => decide (p = e)) := by
          apply List.countP_congr
          intro p hp
          have := hpe p hp
          simp only [Function.comp, decide_eq_true_eq]
          rw [mem_ed_srt this.1 this.2.1 this.2.2, Prod.ext_iff]
          omega
        have h2 : (poly bad).countP (fun p => decide (p = e)) = (poly bad).count e := by
          rw [List.count_eq_countP]
          apply List.countP_congr
          intro p _
          simp
        rw [h1, h2]
        split
        · rename_i h
          exact List.count_eq_one_of_mem (poly_nodup hbn hbs) ((mem_poly_iff hbn).mpr h)
        · rename_i h
          exact List.count_eq_zero_of_not_mem (fun h' => h ((mem_poly_iff hbn).mp h'))
      rw [hcong]
      have hev := hi.even e he1 he2
      rw [countP_split tri (fun t => test inC pos t m), ← hbad] at hev
      have := hb2 e
      generalize hx : bad.countP (fun t => decide (e ∈ ed t)) = x at *
      generalize (tri.filter (fun t => !test inC pos t m)).countP (fun t => decide (e ∈ ed t)) = y at *
      rw [Nat.even_iff] at *
      split <;> omega

theorem inv_init {n : Nat} {pos : Nat → Pt} {Z : Nat → ℝ} (hh : Hull n pos) : Inv n pos Z 0 [(n, n + 1, n + 2)] := by
  refine ⟨?_, ?_, ?_⟩
  · intro t ht
    rw [List.mem_singleton] at ht
    subst ht
    exact hh.1
  · intro t ht
    rw [List.mem_singleton] at ht
    subst ht
    obtain ⟨A, a1, a2, a3⟩ := exists_aff _ _ _ hh.1 (Z n) (Z (n + 1)) (Z (n + 2))
    refine ⟨A, ?_, ?_⟩
    · rintro v (rfl | rfl | rfl)
      · exact a1
      · exact a2
      · exact a3
    · intro q hq hq'
      exfalso
      apply hq'
      unfold Live at hq
      simp only [Mem]
      omega
  · intro e h1 h2
    have : e ∉ ed (n, n + 1, n + 2) := by
      obtain ⟨a, b⟩ := e
      simp only [ed, List.mem_cons, List.not_mem_nil, or_false, Prod.mk.injEq] at *
      omega
    simp [this]

end Toppo.Geom
