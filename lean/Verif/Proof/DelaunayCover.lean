import Verif.Proof.DelaunayLift
set_option linter.unusedVariables false
/-! Every generic point of the auxiliary triangle lies in an odd number of triangles of the list. -/
namespace Toppo.Geom
open Toppo.GeomProps Filter Topology

/-- strictly inside, by orientation -/
def InT (a b c x : Pt) : Prop :=
  (0 < area2 a b x ∧ 0 < area2 b c x ∧ 0 < area2 c a x) ∨ (area2 a b x < 0 ∧ area2 b c x < 0 ∧ area2 c a x < 0)

theorem area2_swap (a b x : Pt) : area2 b a x = -area2 a b x := by simp only [area2]; ring

theorem inT_perm1 (a b c x : Pt) : InT a c b x ↔ InT a b c x := by
  unfold InT
  rw [area2_swap c a, area2_swap b c, area2_swap a b]
  constructor <;> rintro (⟨h1, h2, h3⟩ | ⟨h1, h2, h3⟩)
  · right; exact ⟨by linarith, by linarith, by linarith⟩
  · left; exact ⟨by linarith, by linarith, by linarith⟩
  · right; exact ⟨by linarith, by linarith, by linarith⟩
  · left; exact ⟨by linarith, by linarith, by linarith⟩

theorem inT_perm2 (a b c x : Pt) : InT c a b x ↔ InT a b c x := by
  unfold InT
  constructor <;> rintro (⟨h1, h2, h3⟩ | ⟨h1, h2, h3⟩)
  · left; exact ⟨h2, h3, h1⟩
  · right; exact ⟨h2, h3, h1⟩
  · left; exact ⟨h3, h1, h2⟩
  · right; exact ⟨h3, h1, h2⟩

def sg (r : ℝ) : Prop := 0 < r

theorem plucker (a b c d x : Pt) :
    area2 a b x * area2 c d x - area2 a c x * area2 b d x + area2 a d x * area2 b c x = 0 := by
  simp only [area2]; ring

theorem bool_tetra (ab ac ad bc bd cd : Bool) (h1 : ¬ (ab = cd ∧ ac ≠ bd ∧ ad = bc)) (h2 : ¬ (ab ≠ cd ∧ ac = bd ∧ ad ≠ bc)) :
    (((if ab = bc ∧ bc = !ac then 1 else 0) + (if ab = bd ∧ bd = !ad then 1 else 0) + (if ac = cd ∧ cd = !ad then 1 else 0) +
      (if bc = cd ∧ cd = !bd then 1 else 0)) % 2 = 0) := by
  revert ab ac ad bc bd cd
  decide

open Classical in
theorem inT_bool (a b c x : Pt) (h1 : area2 a b x ≠ 0) (h2 : area2 b c x ≠ 0) (h3 : area2 a c x ≠ 0) :
    InT a b c x ↔ decide (0 < area2 a b x) = decide (0 < area2 b c x) ∧ decide (0 < area2 b c x) = !decide (0 < area2 a c x) := by
  unfold InT
  rw [area2_swap a c]
  rcases lt_or_gt_of_ne h1 with h1 | h1 <;> rcases lt_or_gt_of_ne h2 with h2 | h2 <;> rcases lt_or_gt_of_ne h3 with h3 | h3 <;>
    simp [h1, h2, h3, not_lt.mpr h1.le, not_lt.mpr h2.le, not_lt.mpr h3.le]

open Classical in
/-- a point is in an even number of the four triangles of four points -/
theorem tetra (a b c d x : Pt) (h1 : area2 a b x ≠ 0) (h2 : area2 a c x ≠ 0) (h3 : area2 a d x ≠ 0) (h4 : area2 b c x ≠ 0)
    (h5 : area2 b d x ≠ 0) (h6 : area2 c d x ≠ 0) :
    ((if InT a b c x then 1 else 0) + (if InT a b d x then 1 else 0) + (if InT a c d x then 1 else 0) + (if InT b c d x then 1 else 0)) % 2 = 0 := by
  have p := plucker a b c d x
  simp only [inT_bool a b c x h1 h4 h2, inT_bool a b d x h1 h5 h3, inT_bool a c d x h2 h6 h3, inT_bool b c d x h4 h6 h5]
  have same : ∀ {r s : ℝ}, r ≠ 0 → s ≠ 0 → decide (0 < r) = decide (0 < s) → 0 < r * s := by
    intro r s hr hs h
    rw [decide_eq_decide] at h
    rcases lt_or_gt_of_ne hr with hr | hr
    · have : s < 0 := by
        rcases lt_or_gt_of_ne hs with hs | hs
        · exact hs
        · exact absurd (h.mpr hs) (not_lt.mpr hr.le)
      exact mul_pos_of_neg_of_neg hr this
    · exact mul_pos hr (h.mp hr)
  have diff : ∀ {r s : ℝ}, r ≠ 0 → s ≠ 0 → decide (0 < r) ≠ decide (0 < s) → r * s < 0 := by
    intro r s hr hs h
    rcases lt_or_gt_of_ne hr with hr | hr <;> rcases lt_or_gt_of_ne hs with hs | hs
    · exact absurd (by rw [decide_eq_decide]; exact ⟨fun h => absurd h (not_lt.mpr hr.le), fun h => absurd h (not_lt.mpr hs.le)⟩) h
    · exact mul_neg_of_neg_of_pos hr hs
    · exact mul_neg_of_pos_of_neg hr hs
    · exact absurd (by rw [decide_eq_decide]; exact ⟨fun _ => hs, fun _ => hr⟩) h
  apply bool_tetra
  · rintro ⟨e1, e2, e3⟩
    have := same h1 h6 e1
    have := diff h2 h5 e2
    have := same h3 h4 e3
    linarith
  · rintro ⟨e1, e2, e3⟩
    have := diff h1 h6 e1
    have := same h2 h5 e2
    have := diff h3 h4 e3
    linarith

/-- on no line through two different vertices -/
def Generic (n : Nat) (pos : Nat → Pt) (x : Pt) : Prop :=
  ∀ p q, p < n + 3 → q < n + 3 → pos p ≠ pos q → area2 (pos p) (pos q) x ≠ 0

def InTr (pos : Nat → Pt) (x : Pt) (t : Triple) : Prop := InT (pos t.1) (pos t.2.1) (pos t.2.2) x

theorem inTr_srt (pos : Nat → Pt) (x : Pt) (e : Nat × Nat) (i : Nat) : InTr pos x (srt e i) ↔ InT (pos e.1) (pos e.2) (pos i) x := by
  unfold InTr srt
  split
  · exact inT_perm2 _ _ _ _
  · split
    · exact inT_perm1 _ _ _ _
    · exact Iff.rfl

theorem ne_of_area {a b c : Pt} (h : area2 a b c ≠ 0) : a ≠ b ∧ a ≠ c ∧ b ≠ c := by
  refine ⟨?_, ?_, ?_⟩ <;> rintro rfl <;> apply h <;> simp only [area2] <;> ring

open Classical in
theorem odd_step {n m : Nat} {pos : Nat → Pt} {Z : Nat → ℝ} {tri : List Triple} {inC : Pt → Pt → Pt → Pt → Bool}
    (hinC : ∀ a b c p, inC a b c p = true ↔ circumContains a b c p)
    (hm : m < n) (hc : Comb n m tri) (hi : Inv n pos Z m tri) (x : Pt) (hx : Generic n pos x)
    (ho : Odd (tri.countP (fun t => decide (InTr pos x t)))) :
    Odd ((after inC pos tri m).countP (fun t => decide (InTr pos x t))) := by
  set bad := tri.filter (fun t => test inC pos t m) with hbad
  have hbs : ∀ t ∈ bad, Sorted t := fun t ht => hc.sorted t (List.mem_of_mem_filter ht)
  have hbn : bad.Nodup := hc.nodup.filter _
  have hb2 : ∀ e, bad.countP (fun t => decide (e ∈ ed t)) ≤ 2 := by
    intro e
    have h1 := le_two hi hc e
    rw [countP_split tri (fun t => test inC pos t m)] at h1
    exact le_trans (Nat.le_add_right _ _) h1
  have hpar := poly_parity hbn hbs hb2 (fun e => decide (InT (pos e.1) (pos e.2) (pos m) x))
  have hbadpar : ∀ l : List Triple, (∀ t ∈ l, t ∈ tri ∧ test inC pos t m = true) →
      l.countP (fun t => decide (InTr pos x t)) % 2 =
        ((l.flatMap ed).filter (fun e => decide (InT (pos e.1) (pos e.2) (pos m) x))).length % 2 := by
    intro l
    induction l with
    | nil => intro _; rfl
    | cons t ts ih =>
      intro hl
      have ih := ih (fun s h => hl s (List.mem_cons_of_mem _ h))
      obtain ⟨ht, htest⟩ := hl t (List.mem_cons_self ..)
      have hcon := (hinC _ _ _ _).mp htest
      have hnd := hi.nondeg t ht
      obtain ⟨k1, k2, k3⟩ := c71_corners (pos t.1) (pos t.2.1) (pos t.2.2)
      have n1 : pos t.1 ≠ pos m := fun h => k1 (by rw [h] at hcon ⊢; exact hcon)
      have n2 : pos t.2.1 ≠ pos m := fun h => k2 (by rw [h] at hcon ⊢; exact hcon)
      have n3 : pos t.2.2 ≠ pos m := fun h => k3 (by rw [h] at hcon ⊢; exact hcon)
      obtain ⟨m1, m2, m3⟩ := ne_of_area hnd
      have l1 := hc.live t ht _ (Or.inl rfl)
      have l2 := hc.live t ht _ (Or.inr (Or.inl rfl))
      have l3 := hc.live t ht _ (Or.inr (Or.inr rfl))
      have key := tetra (pos t.1) (pos t.2.1) (pos t.2.2) (pos m) x (hx _ _ (by omega) (by omega) m1) (hx _ _ (by omega) (by omega) m2)
        (hx _ _ (by omega) (by omega) n1) (hx _ _ (by omega) (by omega) m3) (hx _ _ (by omega) (by omega) n2) (hx _ _ (by omega) (by omega) n3)
      rw [List.countP_cons, List.flatMap_cons, List.filter_append, List.length_append]
      have e3 : ((ed t).filter (fun e => decide (InT (pos e.1) (pos e.2) (pos m) x))).length =
          (if InT (pos t.1) (pos t.2.1) (pos m) x then 1 else 0) + (if InT (pos t.1) (pos t.2.2) (pos m) x then 1 else 0) +
          (if InT (pos t.2.1) (pos t.2.2) (pos m) x then 1 else 0) := by
        simp only [ed, List.filter_cons, List.filter_nil, decide_eq_true_eq]
        split <;> split <;> split <;> rfl
      rw [e3]
      clear e3 hpar
      have hI : (decide (InTr pos x t) = true) = InT (pos t.1) (pos t.2.1) (pos t.2.2) x := by rw [decide_eq_true_eq]; rfl
      simp only [hI]
      by_cases g1 : InT (pos t.1) (pos t.2.1) (pos t.2.2) x <;> by_cases g2 : InT (pos t.1) (pos t.2.1) (pos m) x <;>
        by_cases g3 : InT (pos t.1) (pos t.2.2) (pos m) x <;> by_cases g4 : InT (pos t.2.1) (pos t.2.2) (pos m) x <;>
        simp only [g1, g2, g3, g4, if_true, if_false] at key ⊢ <;> omega
  have h1 := hbadpar bad (fun t ht => List.mem_filter.mp ht)
  rw [countP_split tri (fun t => test inC pos t m), ← hbad] at ho
  unfold after
  rw [← hbad, List.countP_append, List.countP_map]
  have h2 : (poly bad).countP ((fun t => decide (InTr pos x t)) ∘ fun e => srt e m) =
      ((poly bad).filter (fun e => decide (InT (pos e.1) (pos e.2) (pos m) x))).length := by
    rw [← List.countP_eq_length_filter]
    apply List.countP_congr
    intro p _
    simp only [Function.comp, decide_eq_true_eq]
    exact inTr_srt pos x p m
  rw [h2]
  rw [Nat.even_iff, Nat.even_iff] at hpar
  rw [Nat.odd_iff] at *
  omega

/-! ### generic points exist -/

theorem quad_ne {α β γ : ℝ} (h : α ≠ 0 ∨ β ≠ 0 ∨ γ ≠ 0) : ∀ᶠ s in 𝓝[>] (0 : ℝ), α + s * β + s ^ 2 * γ ≠ 0 := by
  have cont : ∀ a b c : ℝ, a ≠ 0 → ∀ᶠ s in 𝓝[>] (0 : ℝ), a + s * b + s ^ 2 * c ≠ 0 := by
    intro a b c ha
    have : Continuous (fun s : ℝ => a + s * b + s ^ 2 * c) := by fun_prop
    have h0 := (this.tendsto 0).mono_left (nhdsWithin_le_nhds (s := Set.Ioi 0))
    have h1 : a + 0 * b + 0 ^ 2 * c ≠ 0 := by simpa using ha
    exact h0.eventually_ne h1
  by_cases ha : α = 0
  · by_cases hb : β = 0
    · have hg : γ ≠ 0 := by
        rcases h with h | h | h
        · exact absurd ha h
        · exact absurd hb h
        · exact h
      filter_upwards [self_mem_nhdsWithin (a := (0 : ℝ)) (s := Set.Ioi 0)] with s hs
      have : (0 : ℝ) < s := hs
      rw [ha, hb]
      simp only [mul_zero, add_zero, zero_add]
      exact mul_ne_zero (pow_ne_zero _ this.ne') hg
    · filter_upwards [self_mem_nhdsWithin (a := (0 : ℝ)) (s := Set.Ioi 0), cont β γ 0 hb] with s hs h'
      have : (0 : ℝ) < s := hs
      rw [ha]
      have : α + s * β + s ^ 2 * γ = s * (β + s * γ + s ^ 2 * 0) + α := by ring
      rw [show (0 : ℝ) + s * β + s ^ 2 * γ = s * (β + s * γ + s ^ 2 * 0) by ring]
      exact mul_ne_zero (ne_of_gt hs) h'
  · exact cont α β γ ha

/-- a triangle contains a generic point -/
theorem exists_generic (n : Nat) (pos : Nat → Pt) (a b c : Pt) (h : area2 a b c ≠ 0) : ∃ x, Generic n pos x ∧ InT a b c x := by
  set X : ℝ → Pt := fun s => (a.1 + s * (b.1 - a.1) + s ^ 2 * (c.1 - a.1), a.2 + s * (b.2 - a.2) + s ^ 2 * (c.2 - a.2)) with hX
  have hfin : ∀ k ∈ Set.Iio (n + 3) ×ˢ Set.Iio (n + 3), ∀ᶠ s in 𝓝[>] (0 : ℝ), pos k.1 ≠ pos k.2 → area2 (pos k.1) (pos k.2) (X s) ≠ 0 := by
    rintro ⟨p, q⟩ _
    by_cases hpq : pos p = pos q
    · exact Eventually.of_forall (fun s h' => absurd hpq h')
    · have key : ∀ s, area2 (pos p) (pos q) (X s) = area2 (pos p) (pos q) a + s * (area2 (pos p) (pos q) b - area2 (pos p) (pos q) a) +
          s ^ 2 * (area2 (pos p) (pos q) c - area2 (pos p) (pos q) a) := by
        intro s
        simp only [hX, area2]
        ring
      have hne : area2 (pos p) (pos q) a ≠ 0 ∨ area2 (pos p) (pos q) b - area2 (pos p) (pos q) a ≠ 0 ∨
          area2 (pos p) (pos q) c - area2 (pos p) (pos q) a ≠ 0 := by
        by_contra hno
        push Not at hno
        obtain ⟨e1, e2, e3⟩ := hno
        rw [e1, sub_zero] at e2 e3
        -- a, b, c all on the line through p and q
        set P := pos p
        set Q := pos q
        simp only [area2] at *
        have g1 : (Q.1 - P.1) * ((b.1 - a.1) * (c.2 - a.2) - (b.2 - a.2) * (c.1 - a.1)) = 0 := by
          linear_combination (b.1 - a.1) * (e3 - e1) - (c.1 - a.1) * (e2 - e1)
        have g2 : (Q.2 - P.2) * ((b.1 - a.1) * (c.2 - a.2) - (b.2 - a.2) * (c.1 - a.1)) = 0 := by
          linear_combination (b.2 - a.2) * (e3 - e1) - (c.2 - a.2) * (e2 - e1)
        have k1 := (mul_eq_zero.mp g1).resolve_right h
        have k2 := (mul_eq_zero.mp g2).resolve_right h
        apply hpq
        apply Prod.ext <;> linarith
      filter_upwards [quad_ne hne] with s hs _
      rw [key]
      exact hs
  have h1 := (eventually_all_finite ((Set.finite_Iio (n + 3)).prod (Set.finite_Iio (n + 3)))).mpr hfin
  have h2 : ∀ᶠ s in 𝓝[>] (0 : ℝ), s < 1 / 2 := by
    have : ∀ᶠ s in 𝓝 (0 : ℝ), s < 1 / 2 := gt_mem_nhds (by norm_num)
    exact this.filter_mono nhdsWithin_le_nhds
  obtain ⟨s, ⟨h3, h4⟩, h5⟩ := ((h1.and h2).and (self_mem_nhdsWithin (a := (0 : ℝ)) (s := Set.Ioi 0))).exists
  have s0 : (0 : ℝ) < s := h5
  refine ⟨X s, fun p q hp hq hpq => h3 (p, q) ⟨hp, hq⟩ hpq, ?_⟩
  have a1 : area2 a b (X s) = s ^ 2 * area2 a b c := by simp only [hX, area2]; ring
  have a2 : area2 b c (X s) = (1 - s - s ^ 2) * area2 a b c := by simp only [hX, area2]; ring
  have a3 : area2 c a (X s) = s * area2 a b c := by simp only [hX, area2]; ring
  have p1 : 0 < s ^ 2 := by positivity
  have p2 : 0 < 1 - s - s ^ 2 := by nlinarith
  unfold InT
  rw [a1, a2, a3]
  rcases lt_or_gt_of_ne h with h | h
  · right; exact ⟨mul_neg_of_pos_of_neg p1 h, mul_neg_of_pos_of_neg p2 h, mul_neg_of_pos_of_neg s0 h⟩
  · left; exact ⟨mul_pos p1 h, mul_pos p2 h, mul_pos s0 h⟩

end Toppo.Geom
