import Verif.Proof.Delaunay
import Mathlib.Topology.Instances.Real.Lemmas
import Mathlib.Topology.Order.LeftRightNhds
set_option linter.unusedVariables false
/-! Heights for the lifting argument exist, and the auxiliary triangle contains everything. -/
namespace Toppo.Geom
open Toppo.GeomProps Filter Topology

def nrm (p : Pt) : ℝ := p.1 ^ 2 + p.2 ^ 2

/-- the value at `p` of the affine function with given values at the corners -/
noncomputable def interp (a b c p : Pt) (x y z : ℝ) : ℝ := (area2 p b c * x + area2 a p c * y + area2 a b p * z) / area2 a b c

theorem ev_interp {A : ℝ × ℝ × ℝ} {a b c p : Pt} (h : area2 a b c ≠ 0) : ev A p = interp a b c p (ev A a) (ev A b) (ev A c) := by
  unfold interp
  rw [← ev_bary]
  field_simp

/-- height above the plane on the paraboloid is the power of the point -/
theorem power_eq {a b c o : Pt} (h : area2 a b c ≠ 0) (h2 : sqDist b o = sqDist a o) (h3 : sqDist c o = sqDist a o) (p : Pt) :
    nrm p - interp a b c p (nrm a) (nrm b) (nrm c) = sqDist p o - sqDist a o := by
  set B : ℝ × ℝ × ℝ := (2 * o.1, 2 * o.2, nrm a - 2 * o.1 * a.1 - 2 * o.2 * a.2) with hB
  have e1 : ev B a = nrm a := by simp only [hB, ev]; ring
  have e2 : ev B b = nrm b := by simp only [hB, ev, nrm, sqDist] at *; linarith
  have e3 : ev B c = nrm c := by simp only [hB, ev, nrm, sqDist] at *; linarith
  have := ev_interp (A := B) (p := p) h
  rw [e1, e2, e3] at this
  rw [← this]
  simp only [hB, ev, nrm, sqDist]
  ring

/-- in the circle means below the plane on the paraboloid -/
theorem contains_iff {a b c : Pt} (h : area2 a b c ≠ 0) (p : Pt) :
    circumContains a b c p ↔ nrm p - interp a b c p (nrm a) (nrm b) (nrm c) < 0 := by
  obtain ⟨o, h1, h2, h3, -⟩ := center_spec a b c h
  rw [h1, power_eq h h2 h3]
  constructor <;> intro hh <;> linarith

/-- a perturbation small enough to keep finitely many signs -/
theorem exists_small {ι : Type} (s : Set ι) (hs : s.Finite) (F G : ι → ℝ) :
    ∃ δ : ℝ, 0 < δ ∧ ∀ k ∈ s, (F k < 0 → F k + δ * G k < 0) ∧ (0 < F k → 0 < F k + δ * G k) := by
  have h : ∀ k ∈ s, ∀ᶠ δ in 𝓝[>] (0 : ℝ), (F k < 0 → F k + δ * G k < 0) ∧ (0 < F k → 0 < F k + δ * G k) := by
    intro k _
    have ht : Tendsto (fun δ : ℝ => F k + δ * G k) (𝓝[>] 0) (𝓝 (F k)) := by
      have : Continuous (fun δ : ℝ => F k + δ * G k) := by fun_prop
      have h0 := (this.tendsto 0).mono_left (nhdsWithin_le_nhds (s := Set.Ioi 0))
      simpa using h0
    rcases lt_trichotomy (F k) 0 with h | h | h
    · filter_upwards [ht.eventually (gt_mem_nhds h)] with δ hδ
      exact ⟨fun _ => hδ, fun h' => absurd h' (not_lt.mpr h.le)⟩
    · filter_upwards with δ
      exact ⟨fun h' => absurd h' (by rw [h]; exact lt_irrefl _), fun h' => absurd h' (by rw [h]; exact lt_irrefl _)⟩
    · filter_upwards [ht.eventually (lt_mem_nhds h)] with δ hδ
      exact ⟨fun h' => absurd h' (not_lt.mpr h.le), fun _ => hδ⟩
  have h1 := (eventually_all_finite hs).mpr h
  obtain ⟨δ, h2, h3⟩ := (h1.and (self_mem_nhdsWithin (a := (0 : ℝ)) (s := Set.Ioi 0))).exists
  exact ⟨δ, h3, h2⟩

theorem exists_bound {ι : Type} (s : Set ι) (hs : s.Finite) (F : ι → ℝ) : ∃ M : ℝ, 0 ≤ M ∧ ∀ k ∈ s, |F k| ≤ M := by
  obtain ⟨M, hM⟩ := (hs.image (fun k => |F k|)).bddAbove
  refine ⟨max M 0, le_max_right _ _, fun k hk => le_trans (hM ⟨k, hk, rfl⟩) (le_max_left _ _)⟩

section
variable (n : Nat) (pos : Nat → Pt)

noncomputable def lam (k : Triple × Nat) (j : Fin 3) : ℝ :=
  match j with
  | 0 => area2 (pos k.2) (pos k.1.2.1) (pos k.1.2.2) / ar pos k.1
  | 1 => area2 (pos k.1.1) (pos k.2) (pos k.1.2.2) / ar pos k.1
  | 2 => area2 (pos k.1.1) (pos k.1.2.1) (pos k.2) / ar pos k.1

noncomputable def gap (g : Nat → ℝ) (k : Triple × Nat) : ℝ :=
  g k.2 - (lam pos k 0 * g k.1.1 + lam pos k 1 * g k.1.2.1 + lam pos k 2 * g k.1.2.2)

theorem gap_interp (g : Nat → ℝ) (t : Triple) (q : Nat) :
    gap pos g (t, q) = g q - interp (pos t.1) (pos t.2.1) (pos t.2.2) (pos q) (g t.1) (g t.2.1) (g t.2.2) := by
  simp only [gap, lam, interp, ar]; ring

theorem gap_ev {Z : Nat → ℝ} {A : ℝ × ℝ × ℝ} {t : Triple} (h : ar pos t ≠ 0) (hA : On pos Z A t) (q : Nat) :
    gap pos Z (t, q) = Z q - ev A (pos q) := by
  rw [gap_interp, ev_interp (A := A) (p := pos q) h, hA _ (Or.inl rfl), hA _ (Or.inr (Or.inl rfl)), hA _ (Or.inr (Or.inr rfl))]

theorem gap_add (f g : Nat → ℝ) (δ : ℝ) (k : Triple × Nat) : gap pos (fun v => f v + δ * g v) k = gap pos f k + δ * gap pos g k := by
  simp only [gap]; ring

def box : Set (Triple × Nat) := {k | k.1.1 < n + 3 ∧ k.1.2.1 < n + 3 ∧ k.1.2.2 < n + 3 ∧ k.2 < n + 3}

theorem box_finite : (box n).Finite := by
  have : (Set.Iio (n + 3) ×ˢ (Set.Iio (n + 3) ×ˢ Set.Iio (n + 3))) ×ˢ Set.Iio (n + 3) = box n := by
    ext k
    simp only [box, Set.mem_prod, Set.mem_Iio, Set.mem_setOf_eq]
    constructor
    · rintro ⟨⟨a, b, c⟩, d⟩; exact ⟨a, b, c, d⟩
    · rintro ⟨a, b, c, d⟩; exact ⟨⟨a, b, c⟩, d⟩
  rw [← this]
  exact ((Set.finite_Iio _).prod ((Set.finite_Iio _).prod (Set.finite_Iio _))).prod (Set.finite_Iio _)

/-- the heights: on the paraboloid, with a tiny extra that grows fast with the index -/
theorem exists_lift (inC : Pt → Pt → Pt → Pt → Bool) (hinC : ∀ a b c p, inC a b c p = true ↔ circumContains a b c p) :
    ∃ Z, Lift n pos inC Z ∧ (∀ t q A, (∀ v, Mem v t → v < n + 3) → q < n + 3 → ar pos t ≠ 0 → On pos Z A t → ev A (pos q) ≤ Z q →
      ¬ circumContains (pos t.1) (pos t.2.1) (pos t.2.2) (pos q)) ∧ ∀ t q A o, (∀ v, Mem v t → v < n + 3) → q < n + 3 → ar pos t ≠ 0 →
        On pos Z A t → sqDist (pos t.2.1) o = sqDist (pos t.1) o → sqDist (pos t.2.2) o = sqDist (pos t.1) o →
        sqDist (pos t.1) o < sqDist (pos q) o → ev A (pos q) < Z q := by
  obtain ⟨M, hM0, hM⟩ : ∃ M : ℝ, 0 ≤ M ∧ ∀ k ∈ box n, ∀ j, |lam pos k j| ≤ M := by
    obtain ⟨M0, a0, b0⟩ := exists_bound (box n) (box_finite n) (fun k => lam pos k 0)
    obtain ⟨M1, a1, b1⟩ := exists_bound (box n) (box_finite n) (fun k => lam pos k 1)
    obtain ⟨M2, a2, b2⟩ := exists_bound (box n) (box_finite n) (fun k => lam pos k 2)
    refine ⟨M0 + M1 + M2, by positivity, ?_⟩
    intro k hk j
    have := b0 k hk
    have := b1 k hk
    have := b2 k hk
    fin_cases j <;> simp only [] at * <;> (simp only [Fin.zero_eta, Fin.mk_one, Fin.reduceFinMk]; linarith)
  set K := 3 * M + 1 with hK
  have hK1 : 1 ≤ K := by linarith
  set g : Nat → ℝ := fun v => if v < n then K ^ (v + 1) else 0 with hg
  have hgap : ∀ t i, i < n → (∀ v, Mem v t → Live n i v) → 0 < gap pos g (t, i) := by
    intro t i hi hl
    have hb : (t, i) ∈ box n := by
      have l1 := hl _ (Or.inl rfl)
      have l2 := hl _ (Or.inr (Or.inl rfl))
      have l3 := hl _ (Or.inr (Or.inr rfl))
      simp only [box, Set.mem_setOf_eq, Live] at *
      omega
    have hgv : ∀ v, Mem v t → |g v| ≤ K ^ i := by
      intro v hv
      have := hl v hv
      simp only [hg]
      split
      · rw [abs_of_nonneg (by positivity)]
        exact pow_le_pow_right₀ hK1 (by unfold Live at this; omega)
      · simp; positivity
    have hp : ∀ j v, Mem v t → lam pos (t, i) j * g v ≤ M * K ^ i := by
      intro j v hv
      calc lam pos (t, i) j * g v ≤ |lam pos (t, i) j * g v| := le_abs_self _
        _ = |lam pos (t, i) j| * |g v| := abs_mul _ _
        _ ≤ M * K ^ i := mul_le_mul (hM _ hb j) (hgv v hv) (abs_nonneg _) hM0
    have h0 := hp 0 _ (Or.inl rfl)
    have h1 := hp 1 _ (Or.inr (Or.inl rfl))
    have h2 := hp 2 _ (Or.inr (Or.inr rfl))
    have hgi : g i = K ^ (i + 1) := by simp only [hg, if_pos hi]
    have hpos : (0 : ℝ) < K ^ i := by positivity
    have : K ^ (i + 1) = 3 * M * K ^ i + K ^ i := by rw [pow_succ, hK]; ring
    simp only [gap]
    rw [hgi, this]
    linarith
  set W : Nat → ℝ := fun v => nrm (pos v) with hW
  obtain ⟨δ, hδ, hsmall⟩ := exists_small (box n) (box_finite n) (gap pos W) (gap pos g)
  have hcont : ∀ t q, ar pos t ≠ 0 → (circumContains (pos t.1) (pos t.2.1) (pos t.2.2) (pos q) ↔ gap pos W (t, q) < 0) := by
    intro t q ha
    rw [contains_iff ha, gap_interp]
  refine ⟨fun v => W v + δ * g v, ⟨?_, ?_⟩, ?_, ?_⟩
  · intro i t A hi hl ha hA htest
    have hb : (t, i) ∈ box n := by
      have l1 := hl _ (Or.inl rfl)
      have l2 := hl _ (Or.inr (Or.inl rfl))
      have l3 := hl _ (Or.inr (Or.inr rfl))
      simp only [box, Set.mem_setOf_eq, Live] at *
      omega
    have h1 := gap_ev pos ha hA i
    rw [gap_add] at h1
    have h2 := (hcont t i ha).mp ((hinC _ _ _ _).mp htest)
    have h3 := (hsmall _ hb).1 h2
    linarith
  · intro i t A hi hl ha hA htest
    have hb : (t, i) ∈ box n := by
      have l1 := hl _ (Or.inl rfl)
      have l2 := hl _ (Or.inr (Or.inl rfl))
      have l3 := hl _ (Or.inr (Or.inr rfl))
      simp only [box, Set.mem_setOf_eq, Live] at *
      omega
    have h1 := gap_ev pos ha hA i
    rw [gap_add] at h1
    have h2 : ¬ gap pos W (t, i) < 0 := by
      rw [← hcont t i ha, ← hinC]
      intro h
      have : test inC pos t i = true := h
      rw [this] at htest
      exact absurd htest (by decide)
    have h3 := hgap t i hi hl
    rcases (not_lt.mp h2).lt_or_eq with h | h
    · have := (hsmall _ hb).2 h
      linarith
    · rw [← h] at h1
      have := mul_pos hδ h3
      linarith
  · intro t q A ht hq ha hA hle hc
    have hb : (t, q) ∈ box n := by
      have l1 := ht _ (Or.inl rfl)
      have l2 := ht _ (Or.inr (Or.inl rfl))
      have l3 := ht _ (Or.inr (Or.inr rfl))
      exact ⟨l1, l2, l3, hq⟩
    have h1 := gap_ev pos ha hA q
    rw [gap_add] at h1
    have h3 := (hsmall _ hb).1 ((hcont t q ha).mp hc)
    linarith
  · intro t q A o ht hq ha hA ho1 ho2 hlt
    have hb : (t, q) ∈ box n := by
      have l1 := ht _ (Or.inl rfl)
      have l2 := ht _ (Or.inr (Or.inl rfl))
      have l3 := ht _ (Or.inr (Or.inr rfl))
      exact ⟨l1, l2, l3, hq⟩
    have h1 := gap_ev pos ha hA q
    rw [gap_add] at h1
    have h2 : 0 < gap pos W (t, q) := by
      rw [gap_interp, power_eq ha ho1 ho2]
      linarith
    have h3 := (hsmall _ hb).2 h2
    linarith
end

/-! ### the auxiliary triangle -/

theorem foldl_max_le (c : Pt) : ∀ (ps : List Pt) (r : ℝ), r ≤ ps.foldl (fun r q => max r (twoNorm (q - c))) r ∧
    ∀ q ∈ ps, twoNorm (q - c) ≤ ps.foldl (fun r q => max r (twoNorm (q - c))) r := by
  intro ps
  induction ps with
  | nil => intro r; exact ⟨le_refl _, by simp⟩
  | cons p ps ih =>
    intro r
    rw [List.foldl_cons]
    obtain ⟨h1, h2⟩ := ih (max r (twoNorm (p - c)))
    refine ⟨le_trans (le_max_left _ _) h1, ?_⟩
    intro q hq
    rcases List.mem_cons.mp hq with rfl | hq
    · exact le_trans (le_max_right _ _) h1
    · exact h2 q hq

theorem maxDist_spec {c : Pt} {ps : List Pt} {m : ℝ} (h : maxDist c ps = some m) : 0 ≤ m ∧ ∀ q ∈ ps, twoNorm (q - c) ≤ m := by
  cases ps with
  | nil => exact absurd h (by simp [maxDist])
  | cons p ps =>
    simp only [maxDist, Option.some.injEq] at h
    obtain ⟨h1, h2⟩ := foldl_max_le c ps (twoNorm (p - c))
    rw [h] at h1 h2
    refine ⟨le_trans (Real.sqrt_nonneg _) h1, ?_⟩
    intro q hq
    rcases List.mem_cons.mp hq with rfl | hq
    · exact h1
    · exact h2 q hq

theorem index_lt {P : Type} {points sup : List P} {i : Nat} {x : P} (hi : i < points.length) (h : index points sup i = some x) : x ∈ points := by
  unfold index at h
  rw [if_pos hi] at h
  exact List.mem_of_getElem? h

theorem hull_aux {points sup : List Pt} (hs : auxiliary points = some sup) (pos : Nat → Pt)
    (hpos : ∀ i, i < points.length + 3 → index points sup i = some (pos i)) : Hull points.length pos := by
  unfold auxiliary at hs
  dsimp only at hs
  cases hm : maxDist (centroid points) points with
  | none => rw [hm] at hs; simp at hs
  | some m =>
    rw [hm] at hs
    simp only [Option.bind_eq_bind, Option.bind_some, Option.pure_def, Option.some.injEq] at hs
    obtain ⟨m0, hle⟩ := maxDist_spec hm
    set c := centroid points with hc
    obtain ⟨r, hr⟩ : ∃ r, r = m + 1 := ⟨_, rfl⟩
    rw [← hr] at hs
    set n := points.length with hn
    have q1 : pos n = c + (0, 2 * r) := by
      have := hpos n (by omega)
      unfold index at this
      rw [if_neg (by omega), Nat.sub_self, ← hs] at this
      simpa using this.symm
    have q2 : pos (n + 1) = c + (Real.sqrt 3 * r, -r) := by
      have := hpos (n + 1) (by omega)
      unfold index at this
      rw [if_neg (by omega), Nat.add_sub_cancel_left, ← hs] at this
      simpa using this.symm
    have q3 : pos (n + 2) = c + (-Real.sqrt 3 * r, -r) := by
      have := hpos (n + 2) (by omega)
      unfold index at this
      rw [if_neg (by omega), Nat.add_sub_cancel_left, ← hs] at this
      simpa using this.symm
    have s3 : Real.sqrt 3 * Real.sqrt 3 = 3 := Real.mul_self_sqrt (by norm_num)
    have s0 : 0 < Real.sqrt 3 := Real.sqrt_pos.mpr (by norm_num)
    have r0 : 0 < r := by linarith
    have hdist : ∀ q, q < n → ((pos q).1 - c.1) * ((pos q).1 - c.1) + ((pos q).2 - c.2) * ((pos q).2 - c.2) < r * r := by
      intro q hq
      have h1 := hle _ (index_lt hq (hpos q (by omega)))
      have h2 : twoNorm (pos q - c) < r := by linarith
      unfold twoNorm at h2
      rw [Real.sqrt_lt' r0] at h2
      simp only [Prod.fst_sub, Prod.snd_sub] at h2
      rw [sq] at h2
      exact h2
    generalize Real.sqrt 3 = s at *
    have hcases : ∀ q, q < n + 3 → q < n ∨ q = n ∨ q = n + 1 ∨ q = n + 2 := by intro q hq; omega
    -- the three lines
    have b23 : ∀ q, q < n → 0 < ev (0, 1, r - c.2) (pos q) := by
      intro q hq
      have := hdist q hq
      simp only [ev]
      nlinarith [mul_self_nonneg ((pos q).1 - c.1)]
    have b12 : ∀ q, q < n → 0 < ev (-s, -1, 2 * r + s * c.1 + c.2) (pos q) := by
      intro q hq
      have := hdist q hq
      simp only [ev]
      generalize (pos q).1 = x at *
      generalize (pos q).2 = y at *
      have hx : (s * (x - c.1) + (y - c.2)) * (s * (x - c.1) + (y - c.2)) ≤ 4 * ((x - c.1) * (x - c.1) + (y - c.2) * (y - c.2)) := by
        have e : 4 * ((x - c.1) * (x - c.1) + (y - c.2) * (y - c.2)) - (s * (x - c.1) + (y - c.2)) * (s * (x - c.1) + (y - c.2)) =
            ((x - c.1) - s * (y - c.2)) * ((x - c.1) - s * (y - c.2)) := by
          linear_combination (-(y - c.2) * (y - c.2) - (x - c.1) * (x - c.1)) * s3
        nlinarith [mul_self_nonneg ((x - c.1) - s * (y - c.2))]
      nlinarith
    have b13 : ∀ q, q < n → 0 < ev (s, -1, 2 * r - s * c.1 + c.2) (pos q) := by
      intro q hq
      have := hdist q hq
      simp only [ev]
      generalize (pos q).1 = x at *
      generalize (pos q).2 = y at *
      have hx : (-s * (x - c.1) + (y - c.2)) * (-s * (x - c.1) + (y - c.2)) ≤ 4 * ((x - c.1) * (x - c.1) + (y - c.2) * (y - c.2)) := by
        have e : 4 * ((x - c.1) * (x - c.1) + (y - c.2) * (y - c.2)) - (-s * (x - c.1) + (y - c.2)) * (-s * (x - c.1) + (y - c.2)) =
            ((x - c.1) + s * (y - c.2)) * ((x - c.1) + s * (y - c.2)) := by
          linear_combination (-(y - c.2) * (y - c.2) - (x - c.1) * (x - c.1)) * s3
        nlinarith [mul_self_nonneg ((x - c.1) + s * (y - c.2))]
      nlinarith
    have sr : 0 < s * r := mul_pos s0 r0
    refine ⟨?_, ?_⟩
    · simp only [ar, q1, q2, q3, area2, Prod.fst_add, Prod.snd_add]
      have : s * r * r ≠ 0 := (mul_pos sr r0).ne'
      intro h
      apply this
      linarith
    · intro a b ha hab hb
      have : (a = n ∧ b = n + 1) ∨ (a = n ∧ b = n + 2) ∨ (a = n + 1 ∧ b = n + 2) := by omega
      rcases this with ⟨rfl, rfl⟩ | ⟨rfl, rfl⟩ | ⟨rfl, rfl⟩
      · refine ⟨(-s, -1, 2 * r + s * c.1 + c.2), ?_, ?_, ?_⟩
        · simp only [ev, q1, Prod.fst_add, Prod.snd_add]; ring
        · simp only [ev, q2, Prod.fst_add, Prod.snd_add]; linear_combination -r * s3
        · intro q hq h1 h2
          rcases hcases q hq with h | h | h | h
          · exact b12 q h
          · exact absurd h h1
          · exact absurd h h2
          · rw [h]; simp only [ev, q3, Prod.fst_add, Prod.snd_add]; nlinarith
      · refine ⟨(s, -1, 2 * r - s * c.1 + c.2), ?_, ?_, ?_⟩
        · simp only [ev, q1, Prod.fst_add, Prod.snd_add]; ring
        · simp only [ev, q3, Prod.fst_add, Prod.snd_add]; linear_combination -r * s3
        · intro q hq h1 h2
          rcases hcases q hq with h | h | h | h
          · exact b13 q h
          · exact absurd h h1
          · rw [h]; simp only [ev, q2, Prod.fst_add, Prod.snd_add]; nlinarith
          · exact absurd h h2
      · refine ⟨(0, 1, r - c.2), ?_, ?_, ?_⟩
        · simp only [ev, q2, Prod.fst_add, Prod.snd_add]; ring
        · simp only [ev, q3, Prod.fst_add, Prod.snd_add]; ring
        · intro q hq h1 h2
          rcases hcases q hq with h | h | h | h
          · exact b23 q h
          · rw [h]; simp only [ev, q1, Prod.fst_add, Prod.snd_add]; linarith
          · exact absurd h h1
          · exact absurd h h2

end Toppo.Geom
