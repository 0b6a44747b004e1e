import Verif.Proof.FloatAux
set_option linter.unusedVariables false
set_option maxHeartbeats 1000000

/-!
The auxiliary points computed in `f64`.
-/
namespace Toppo.FloatGeom
open F64 FloatAlg Geom GeomProps

theorem u_eq : (u : ℚ) = 1 / 2 ^ 53 := by
  have := u_cast (K := ℚ)
  rw [zpow_neg] at this
  rw [one_div]
  simpa using this

theorem eta_le : eta ≤ 1 / 2 ^ 100 := by
  refine eta_small.trans ?_
  have h1 : (1 : ℚ) / 2 ^ 1022 ≤ 1 / 2 ^ 100 := one_div_le_one_div_of_le (by positivity) (pow_le_pow_right₀ (by norm_num) (by norm_num))
  have h2 : u ≤ 1 := by rw [u_eq]; norm_num
  have h3 : (0 : ℚ) ≤ 1 / 2 ^ 100 := by positivity
  calc u * (1 / 2 ^ 1022) ≤ u * (1 / 2 ^ 100) := mul_le_mul_of_nonneg_left h1 u_pos.le
    _ ≤ 1 * (1 / 2 ^ 100) := mul_le_mul_of_nonneg_right h2 h3
    _ = _ := one_mul _

theorem tau_le : tau ≤ 1 / 2 ^ 100 := by
  unfold tau
  exact one_div_le_one_div_of_le (by positivity) (pow_le_pow_right₀ (by norm_num) (by norm_num))

theorem asum_le {M : ℚ} : ∀ (l : List F64), (∀ x ∈ l, |val x| ≤ M) → asum l ≤ l.length * M := by
  intro l
  induction l with
  | nil => intro _; simp [asum]
  | cons x l ih =>
    intro h
    have h1 := h x (by simp)
    have h2 := ih (fun y hy => h y (by simp [hy]))
    have : asum (x :: l) = |val x| + asum l := by simp [asum]
    rw [this, List.length_cons]
    push_cast
    linarith

theorem vsum_le {M : ℚ} : ∀ (l : List F64), (∀ x ∈ l, |val x| ≤ M) → |vsum l| ≤ l.length * M := by
  intro l
  induction l with
  | nil => intro _; simp [vsum]
  | cons x l ih =>
    intro h
    have h1 := h x (by simp)
    have h2 := ih (fun y hy => h y (by simp [hy]))
    have : vsum (x :: l) = val x + vsum l := by simp [vsum]
    rw [this, List.length_cons]
    have := abs_add_le (val x) (vsum l)
    push_cast
    linarith

theorem rep_zero : Rep 0 := ⟨0, 0, by norm_num, by norm_num, by norm_num, by simp⟩

/-- a coordinate of the mean -/
theorem mean_coord {M : ℚ} (l : List F64) (hl : ∀ x ∈ l, Rep x ∧ x.isFinite = true ∧ |val x| ≤ M) (h0 : l ≠ []) (hn : l.length ≤ 2 ^ 40) (hM : M ≤ 2 ^ 30) :
    Rep (l.foldl (· + ·) 0 / lit l.length) ∧ (l.foldl (· + ·) 0 / lit l.length).isFinite = true ∧ |val (l.foldl (· + ·) 0 / lit l.length)| ≤ 2 * M + 1 := by
  have hlen : (1 : ℚ) ≤ l.length := by exact_mod_cast List.length_pos_iff.mpr h0
  have hlen2 : (l.length : ℚ) ≤ 2 ^ 40 := by exact_mod_cast hn
  have M0 : 0 ≤ M := by
    obtain ⟨x, hx⟩ := List.exists_mem_of_ne_nil l h0
    exact (abs_nonneg _).trans (hl x hx).2.2
  have ha := asum_le l (fun x hx => (hl x hx).2.2)
  have hv := vsum_le l (fun x hx => (hl x hx).2.2)
  have hg := gpow_le_two (k := l.length) (hn.trans (by norm_num))
  have hg1 := gpow_ge l.length
  have hz : val (0 : F64) = 0 := by decide +kernel
  have hA := asum_nonneg l
  have hnM : (l.length : ℚ) * M ≤ 2 ^ 40 * 2 ^ 30 := mul_le_mul hlen2 hM M0 (by positivity)
  have f : (l.foldl (· + ·) 0).isFinite = true := by
    refine acc_fin l 0 rep_zero (fun x hx => (hl x hx).1) rfl (fun x hx => (hl x hx).2.1) ?_
    rw [hz, abs_zero, zero_add]
    have h1 : g ^ l.length * asum l ≤ 2 * (2 ^ 40 * 2 ^ 30) := mul_le_mul hg (ha.trans hnM) hA (by norm_num)
    refine lt_of_le_of_lt h1 (lt_of_le_of_lt ?_ big_lt)
    refine le_trans ?_ (big_ge (n := 71) (by norm_num))
    norm_num
  obtain ⟨-, -, he⟩ := acc_err l 0 rep_zero (fun x hx => (hl x hx).1) f
  rw [hz, zero_add, abs_zero, zero_add] at he
  have hs : |val (l.foldl (· + ·) 0)| ≤ 2 * (l.length * M) := by
    have h1 : (g ^ l.length - 1) * asum l ≤ 1 * (l.length * M) := mul_le_mul (by linarith) ha hA (by norm_num)
    have := abs_sub_abs_le_abs_sub (val (l.foldl (· + ·) 0)) (vsum l)
    linarith
  have hL : (lit l.length).isFinite = true ∧ val (lit l.length) = l.length := by
    have := ofExact_exact (s := false) (x := (l.length : ℚ)) (by
      rw [abs_of_nonneg (by linarith)]
      refine ⟨l.length, 0, lt_of_le_of_lt hn (by norm_num), by norm_num, by simp⟩) (by
      rw [abs_of_nonneg (by linarith)]
      refine lt_of_le_of_lt hlen2 ?_
      exact pow_lt_pow_right₀ (by norm_num) (by norm_num))
    exact this
  obtain ⟨s, e⟩ := div_ex f hL.1 (by rw [hL.2]; linarith)
  refine ⟨rep_div _ _, ?_⟩
  rw [e, hL.2]
  have hq : |val (l.foldl (· + ·) 0) / l.length| ≤ 2 * M := by
    rw [abs_div, abs_of_pos (show (0 : ℚ) < l.length by linarith), div_le_iff₀ (by linarith)]
    linarith
  have hb30 : 2 * M ≤ 2 ^ 31 := by linarith
  have := round_err (s := s) (z := val (l.foldl (· + ·) 0) / l.length) (v := 0) (e := 2 * M) (r := 2 * M + 1) (by rw [sub_zero]; exact hq)
    (by rw [abs_zero, zero_add]; exact hb30.trans (big_ge (by norm_num)))
    (by
      rw [abs_zero, zero_add]
      have := eta_le
      have h2 : u * (2 * M) ≤ u * 2 ^ 31 := mul_le_mul_of_nonneg_left hb30 u_pos.le
      rw [u_eq] at h2 ⊢
      norm_num at *
      linarith)
  rw [sub_zero] at this
  exact this

theorem maxBy_spec : ∀ (xs : List F64) (x m : F64), (∀ y ∈ x :: xs, y.isFinite = true) → maxBy x xs = some m → m ∈ x :: xs ∧ ∀ y ∈ x :: xs, val y ≤ val m := by
  intro xs
  induction xs with
  | nil =>
    intro x m _ h
    simp only [maxBy, Option.some.injEq] at h
    subst h
    simp
  | cons y ys ih =>
    intro x m hf h
    unfold maxBy at h
    by_cases hn : x = nan ∨ y = nan
    · rw [if_pos hn] at h; cases h
    rw [if_neg hn] at h
    have fx := hf x (by simp)
    have fy := hf y (by simp)
    obtain ⟨h1, h2⟩ := ih _ m (by
      intro z hz
      rcases List.mem_cons.mp hz with rfl | hz
      · split_ifs <;> assumption
      · exact hf z (by simp [hz])) h
    have h3 := h2 _ (List.mem_cons_self ..)
    by_cases hle : x.le y = true
    · rw [if_pos hle] at h1 h3
      refine ⟨List.mem_cons_of_mem _ h1, ?_⟩
      intro z hz
      rcases List.mem_cons.mp hz with rfl | hz
      · exact ((le_fin fx fy).mp hle).trans h3
      · rcases List.mem_cons.mp hz with rfl | hz
        · exact h3
        · exact h2 z (by simp [hz])
    · rw [if_neg hle] at h1 h3
      refine ⟨?_, ?_⟩
      · rcases List.mem_cons.mp h1 with rfl | h1
        · simp
        · simp [h1]
      · intro z hz
        rcases List.mem_cons.mp hz with rfl | hz
        · exact h3
        · rcases List.mem_cons.mp hz with rfl | hz
          · have : val z ≤ val x := by
              by_contra hlt
              exact hle ((le_fin fx fy).mpr (le_of_lt (not_le.mp hlt)))
            linarith
          · exact h2 z (by simp [hz])

theorem norm_rep {w : P2} (hx : Rep w.1) (hy : Rep w.2) (fx : w.1.isFinite = true) (fy : w.2.isFinite = true) (hb : 4 * (val w.1 * val w.1 + val w.2 * val w.2) ≤ big) :
    Rep (norm w) := by
  have hs := norm_sq hx hy fx fy hb
  have hpos : 0 ≤ val (fsum [w.1 * w.1, w.2 * w.2]) := by
    have n1 := nn_add (Or.inr ⟨0, le_refl _, rfl⟩ : NN 0) (sq_nn (x := w.1) (by rintro h; rw [h] at fx; cases fx))
    have n2 := sq_nn (x := w.2) (by rintro h; rw [h] at fy; cases fy)
    have n3 : NN (fsum [w.1 * w.1, w.2 * w.2]) := nn_add n1 n2
    rcases n3 with h | ⟨m, hm, h⟩
    · rw [h]; rfl
    · rw [h]; exact hm
  exact (sqrt_spec hs.1 hs.2.1 hpos).2.1

/-- the distance of a point of the list from the mean -/
theorem dist_ap {p c : P2} {M : ℚ} (hp : In M p) (hc : In (2 * M + 1) c) (hM : M ≤ 2 ^ 30) :
    (norm (vsub p c)).isFinite = true ∧ |((val (norm (vsub p c)) : ℚ) : ℝ) - Real.sqrt (((val p.1 : ℝ) - val c.1) ^ 2 + ((val p.2 : ℝ) - val c.2) ^ 2)| ≤ 1 / 2 ^ 14 ∧
      val (norm (vsub p c)) ≤ 6 * M + 3 ∧ Rep (norm (vsub p c)) := by
  have M0 : 0 ≤ M := (abs_nonneg _).trans hp.1.2.2
  have coord : ∀ x y : F64, Rep x → Rep y → x.isFinite = true → y.isFinite = true → |val x| ≤ M → |val y| ≤ 2 * M + 1 →
      Rep (x - y) ∧ (x - y).isFinite = true ∧ |val (x - y) - (val x - val y)| ≤ 1 / 2 ^ 21 ∧ |val x - val y| ≤ 3 * M + 1 := by
    intro x y rx ry fx fy bx b_y
    have hd : |val x - val y| ≤ 3 * M + 1 := by have := abs_sub (val x) (val y); linarith
    have hb : 3 * M + 1 ≤ 2 ^ 32 := by norm_num at *; linarith
    have h := ap_diff rx ry fx fy (hd.trans (hb.trans (big_ge (by norm_num))))
    refine ⟨h.1, h.2.1, h.2.2.trans ?_, hd⟩
    have := mul_le_mul_of_nonneg_left (hd.trans hb) u_pos.le
    refine this.trans ?_
    rw [u_eq]; norm_num
  obtain ⟨r1, f1, e1, b1⟩ := coord p.1 c.1 hp.1.1 hc.1.1 hp.1.2.1 hc.1.2.1 hp.1.2.2 hc.1.2.2
  obtain ⟨r2, f2, e2, b2⟩ := coord p.2 c.2 hp.2.1 hc.2.1 hp.2.2.1 hc.2.2.1 hp.2.2.2 hc.2.2.2
  have w1 : |val (p.1 - c.1)| ≤ 3 * M + 1 + 1 / 2 ^ 21 := by have := abs_sub_abs_le_abs_sub (val (p.1 - c.1)) (val p.1 - val c.1); linarith
  have w2 : |val (p.2 - c.2)| ≤ 3 * M + 1 + 1 / 2 ^ 21 := by have := abs_sub_abs_le_abs_sub (val (p.2 - c.2)) (val p.2 - val c.2); linarith
  have hb33 : 3 * M + 1 + 1 / 2 ^ 21 ≤ 2 ^ 33 := by norm_num at *; linarith
  have sqb : ∀ x : ℚ, |x| ≤ 3 * M + 1 + 1 / 2 ^ 21 → x * x ≤ 2 ^ 33 * 2 ^ 33 := by
    intro x hx
    rw [← abs_mul_abs_self]
    exact mul_le_mul (hx.trans hb33) (hx.trans hb33) (abs_nonneg _) (by positivity)
  have hbig : 4 * (val (p.1 - c.1) * val (p.1 - c.1) + val (p.2 - c.2) * val (p.2 - c.2)) ≤ big := by
    have a1 := sqb _ w1
    have a2 := sqb _ w2
    refine le_trans ?_ (big_ge (n := 69) (by norm_num))
    norm_num at *
    linarith
  obtain ⟨fn, en⟩ := norm_err (w := vsub p c) r1 r2 f1 f2 hbig
  refine ⟨fn, ?_⟩
  have hW : Real.sqrt ((val (vsub p c).1 : ℝ) ^ 2 + (val (vsub p c).2 : ℝ) ^ 2) ≤ |(val (vsub p c).1 : ℝ)| + |(val (vsub p c).2 : ℝ)| := by
    have := norm_sub_le (val (vsub p c).1 : ℝ) (val (vsub p c).2 : ℝ) 0 0
    rw [sub_zero, sub_zero] at this
    have e0 : Real.sqrt ((0 : ℝ) ^ 2 + 0 ^ 2) = 0 := by norm_num
    rw [e0, sub_zero] at this
    exact (le_abs_self _).trans this
  have w1' : |(val (vsub p c).1 : ℝ)| ≤ 3 * M + 1 + 1 / 2 ^ 21 := by
    have : ((|val (p.1 - c.1)| : ℚ) : ℝ) ≤ ((3 * M + 1 + 1 / 2 ^ 21 : ℚ) : ℝ) := by exact_mod_cast w1
    push_cast at this; exact this
  have w2' : |(val (vsub p c).2 : ℝ)| ≤ 3 * M + 1 + 1 / 2 ^ 21 := by
    have : ((|val (p.2 - c.2)| : ℚ) : ℝ) ≤ ((3 * M + 1 + 1 / 2 ^ 21 : ℚ) : ℝ) := by exact_mod_cast w2
    push_cast at this; exact this
  have e1' : |(val (vsub p c).1 : ℝ) - ((val p.1 : ℝ) - val c.1)| ≤ 1 / 2 ^ 21 := by
    have : ((|val (p.1 - c.1) - (val p.1 - val c.1)| : ℚ) : ℝ) ≤ ((1 / 2 ^ 21 : ℚ) : ℝ) := by exact_mod_cast e1
    push_cast at this; exact this
  have e2' : |(val (vsub p c).2 : ℝ) - ((val p.2 : ℝ) - val c.2)| ≤ 1 / 2 ^ 21 := by
    have : ((|val (p.2 - c.2) - (val p.2 - val c.2)| : ℚ) : ℝ) ≤ ((1 / 2 ^ 21 : ℚ) : ℝ) := by exact_mod_cast e2
    push_cast at this; exact this
  have hMR : (M : ℝ) ≤ 2 ^ 30 := by exact_mod_cast hM
  have hn := norm_sub_le (val (vsub p c).1 : ℝ) (val (vsub p c).2 : ℝ) ((val p.1 : ℝ) - val c.1) ((val p.2 : ℝ) - val c.2)
  have huR : ((u : ℚ) : ℝ) = 1 / 2 ^ 53 := by rw [u_eq]; push_cast; ring
  have ht := tau_le
  rw [huR] at en
  generalize Real.sqrt ((val (vsub p c).1 : ℝ) ^ 2 + (val (vsub p c).2 : ℝ) ^ 2) = W at *
  generalize Real.sqrt (((val p.1 : ℝ) - val c.1) ^ 2 + ((val p.2 : ℝ) - val c.2) ^ 2) = D at *
  have hWb : W ≤ 2 ^ 34 := by norm_num at *; linarith
  have hen : 21 / 10 * (1 / 2 ^ 53) * W + tau ≤ 1 / 2 ^ 16 := by norm_num at *; linarith
  refine ⟨?_, ?_, norm_rep r1 r2 f1 f2 hbig⟩
  · have := abs_sub_le ((val (norm (vsub p c)) : ℚ) : ℝ) W D
    norm_num at *
    linarith
  · have h1 := (le_abs_self _).trans (en.trans hen)
    have h2 : ((val (norm (vsub p c)) : ℚ) : ℝ) ≤ ((6 * M + 3 : ℚ) : ℝ) := by
      push_cast
      norm_num at *
      linarith
    exact_mod_cast h2

/-- the rounded square root of 3 -/
theorem sqrt_three : Ap (F64.sqrt (lit 3)) (7800463371553962 / 2 ^ 52) 0 := by
  have h : F64.sqrt (lit 3) = num false (7800463371553962 / 2 ^ 52) := by rw [sqrt_eq]; decide +kernel
  rw [h]
  refine ⟨⟨7800463371553962, -52, by norm_num, by norm_num, by norm_num, by norm_num⟩, rfl, by simp [val]⟩

theorem sqrt_three_err : |((7800463371553962 / 2 ^ 52 : ℚ) : ℝ) - Real.sqrt 3| ≤ 1 / 2 ^ 51 := by
  have h1 : ((7800463371553962 / 2 ^ 52 : ℚ) : ℝ) - 1 / 2 ^ 51 ≤ Real.sqrt 3 := Real.le_sqrt_of_sq_le (by norm_num)
  have h2 : Real.sqrt 3 ≤ ((7800463371553962 / 2 ^ 52 : ℚ) : ℝ) + 1 / 2 ^ 51 := by
    rw [Real.sqrt_le_left (by norm_num)]; norm_num
  rw [abs_le]
  constructor <;> linarith

theorem sum_ap {c x : F64} {v e : ℚ} (hr : Rep c) (hf : c.isFinite = true) (hc : |val c| ≤ 2 ^ 32) (hx : Ap x v e) (hv : |v| ≤ 2 ^ 35) (he : e ≤ 1 / 2 ^ 17) :
    Ap (c + x) (val c + v) (1 / 2 ^ 15) := by
  refine ap_add (ap_exact hr hf) hx (b := 2 ^ 36) ?_ (big_ge (by norm_num)) ?_
  · have := abs_add_le (val c) v
    norm_num at *
    linarith
  · rw [u_eq]; norm_num at *; linarith

theorem aux_spec (points : List P2) (h0 : points ≠ []) (hn : points.length ≤ 2 ^ 40) {M : ℚ} (hp : ∀ p ∈ points, In M p) (hM : M ≤ 2 ^ 30) :
    ∃ aux, auxiliary points = some aux ∧ aux.length = 3 ∧ (∀ q ∈ aux, In (16 * (M + 1)) q) ∧
      ∀ pos : Nat → Geom.Pt, (∀ i, i < points.length + 3 → index (points.map rp) (aux.map rp) i = some (pos i)) → Hull points.length pos := by
  cases points with
  | nil => exact absurd rfl h0
  | cons q ps =>
  have M0 : 0 ≤ M := (abs_nonneg _).trans (hp q (by simp)).1.2.2
  set c := centroid (q :: ps) with hcdef
  have hc : In (2 * M + 1) c := by
    constructor
    · have := mean_coord ((q :: ps).map Prod.fst) (by
        intro x hx
        obtain ⟨p, hp', rfl⟩ := List.mem_map.mp hx
        exact (hp p hp').1) (by simp) (by simpa using hn) hM
      have e : c.1 = ((q :: ps).map Prod.fst).foldl (· + ·) 0 / lit ((q :: ps).map Prod.fst).length := by
        show ((q :: ps).foldl vadd (0, 0)).1 / lit _ = _
        rw [fst_foldl, List.length_map]
      rw [e]; exact this
    · have := mean_coord ((q :: ps).map Prod.snd) (by
        intro x hx
        obtain ⟨p, hp', rfl⟩ := List.mem_map.mp hx
        exact (hp p hp').2) (by simp) (by simpa using hn) hM
      have e : c.2 = ((q :: ps).map Prod.snd).foldl (· + ·) 0 / lit ((q :: ps).map Prod.snd).length := by
        show ((q :: ps).foldl vadd (0, 0)).2 / lit _ = _
        rw [snd_foldl, List.length_map]
      rw [e]; exact this
  have hd : ∀ p ∈ q :: ps, _ := fun p h => dist_ap (hp p h) hc hM
  have e : auxiliary (q :: ps) = (maxBy (norm (vsub q c)) (ps.map fun p => norm (vsub p c))).bind
      fun m => some [vadd c (0, lit 2 * (m + 1)), vadd c (F64.sqrt (lit 3) * (m + 1), -(m + 1)), vadd c (-(F64.sqrt (lit 3)) * (m + 1), -(m + 1))] := rfl
  have hmem : ∀ y, y ∈ norm (vsub q c) :: ps.map (fun p => norm (vsub p c)) ↔ ∃ p ∈ q :: ps, y = norm (vsub p c) := by
    intro y
    rw [show norm (vsub q c) :: ps.map (fun p => norm (vsub p c)) = (q :: ps).map (fun p => norm (vsub p c)) from rfl, List.mem_map]
    exact ⟨fun ⟨p, h1, h2⟩ => ⟨p, h1, h2.symm⟩, fun ⟨p, h1, h2⟩ => ⟨p, h1, h2.symm⟩⟩
  have hfin : ∀ y ∈ norm (vsub q c) :: ps.map (fun p => norm (vsub p c)), y.isFinite = true := by
    intro y hy
    obtain ⟨p, h1, rfl⟩ := (hmem y).mp hy
    exact (hd p h1).1
  obtain ⟨m, hm⟩ : ∃ m, maxBy (norm (vsub q c)) (ps.map fun p => norm (vsub p c)) = some m := by
    rw [← Option.ne_none_iff_exists', Ne, maxBy_none]
    rintro ⟨-, y, hy, rfl⟩
    exact absurd (hfin nan hy) (by simp [isFinite])
  obtain ⟨hm1, hm2⟩ := maxBy_spec _ _ _ hfin hm
  obtain ⟨p0, hp0, hmp⟩ := (hmem m).mp hm1
  obtain ⟨mf, me, mb, mr⟩ := hd p0 hp0
  rw [← hmp] at mf me mb mr
  rw [hm, Option.bind_some] at e
  have mlow : -(1 / 2 ^ 14) ≤ val m := by
    have h1 := (abs_le.mp me).1
    have h2 := Real.sqrt_nonneg (((val p0.1 : ℝ) - val c.1) ^ 2 + ((val p0.2 : ℝ) - val c.2) ^ 2)
    have h3 : ((-(1 / 2 ^ 14) : ℚ) : ℝ) ≤ ((val m : ℚ) : ℝ) := by push_cast; linarith
    exact_mod_cast h3
  set R := val m + 1 with hR
  have R0 : 1 / 2 ≤ R := by rw [hR]; norm_num at *; linarith
  have Rb : R ≤ 6 * M + 4 := by rw [hR]; linarith
  have R33 : R ≤ 2 ^ 33 := by norm_num at *; linarith
  have aR : |R| = R := abs_of_pos (by linarith)
  have one : Ap (1 : F64) 1 0 := ⟨⟨1, 0, by norm_num, by norm_num, by norm_num, by norm_num⟩, rfl, by
    have : val (1 : F64) = 1 := by decide +kernel
    rw [this]; simp⟩
  have two : Ap (lit 2) 2 0 := by rw [lit_two]; exact ⟨⟨2, 0, by norm_num, by norm_num, by norm_num, by norm_num⟩, rfl, by simp [val]⟩
  have zero : Ap (0 : F64) 0 0 := ⟨rep_zero, rfl, by
    have : val (0 : F64) = 0 := by decide +kernel
    rw [this]; simp⟩
  have hr : Ap (m + 1) R (1 / 2 ^ 20) := by
    refine ap_add (ap_exact mr mf) one (b := 2 ^ 33) ?_ (big_ge (by norm_num)) ?_
    · rw [← hR, aR]; linarith
    · rw [u_eq]; norm_num
  have heta := eta_le
  have h2r : Ap (lit 2 * (m + 1)) (2 * R) (1 / 2 ^ 17) := by
    refine ap_mul two hr (k := 1 / 2 ^ 19) (b := 2 ^ 35) ?_ ?_ (big_ge (by norm_num)) ?_
    · norm_num
    · rw [abs_mul, aR]; norm_num at *; linarith
    · rw [u_eq]; norm_num at *; linarith
  have hs3 : ∀ x v, Ap x v 0 → |v| ≤ 2 → Ap (x * (m + 1)) (v * R) (1 / 2 ^ 17) := by
    intro x v hx hv
    refine ap_mul hx hr (k := 1 / 2 ^ 19) (b := 2 ^ 35) ?_ ?_ (big_ge (by norm_num)) ?_
    · have : |v| * (1 / 2 ^ 20) ≤ 2 * (1 / 2 ^ 20) := mul_le_mul_of_nonneg_right hv (by positivity)
      norm_num at *; linarith
    · rw [abs_mul, aR]
      have : |v| * R ≤ 2 * R := mul_le_mul_of_nonneg_right hv (by linarith)
      norm_num at *; linarith
    · rw [u_eq]; norm_num at *; linarith
  have hσ : |(7800463371553962 / 2 ^ 52 : ℚ)| ≤ 2 := by rw [abs_of_pos (by norm_num)]; norm_num
  have hσ' : |-(7800463371553962 / 2 ^ 52 : ℚ)| ≤ 2 := by rw [abs_neg]; exact hσ
  have hcb : 2 * M + 1 ≤ 2 ^ 32 := by norm_num at *; linarith
  have c1 : |val c.1| ≤ 2 ^ 32 := hc.1.2.2.trans hcb
  have c2 : |val c.2| ≤ 2 ^ 32 := hc.2.2.2.trans hcb
  have vb : ∀ v : ℚ, |v| ≤ 2 → |v * R| ≤ 2 * R := by
    intro v hv
    rw [abs_mul, aR]; exact mul_le_mul_of_nonneg_right hv (by linarith)
  have R35 : 2 * R ≤ 2 ^ 35 := by norm_num at *; linarith
  have a11 := sum_ap hc.1.1 hc.1.2.1 c1 zero (by norm_num) (by norm_num)
  have a12 := sum_ap hc.2.1 hc.2.2.1 c2 h2r (by rw [abs_mul, aR, abs_of_pos (by norm_num : (0 : ℚ) < 2)]; exact R35) le_rfl
  have a21 := sum_ap hc.1.1 hc.1.2.1 c1 (hs3 _ _ sqrt_three hσ) ((vb _ hσ).trans R35) le_rfl
  have a31 := sum_ap hc.1.1 hc.1.2.1 c1 (hs3 _ _ (ap_neg sqrt_three) hσ') ((vb _ hσ').trans R35) le_rfl
  have a22 := sum_ap hc.2.1 hc.2.2.1 c2 (ap_neg hr) (by rw [abs_neg, aR]; linarith) (by norm_num)
  refine ⟨_, e, rfl, ?_, ?_⟩
  · have key : ∀ (z : F64) (cc v : ℚ), Ap z (cc + v) (1 / 2 ^ 15) → |cc| ≤ 2 * M + 1 → |v| ≤ 2 * R → Rep z ∧ z.isFinite = true ∧ |val z| ≤ 16 * (M + 1) := by
      intro z cc v hz hcc hv
      refine ⟨hz.1, hz.2.1, ?_⟩
      have h1 := ap_abs hz
      have h2 := abs_add_le cc v
      norm_num at *
      linarith
    intro z hz
    simp only [List.mem_cons, List.not_mem_nil, or_false] at hz
    rcases hz with rfl | rfl | rfl
    · exact ⟨key _ _ _ a11 hc.1.2.2 (by rw [abs_zero]; linarith), key _ _ _ a12 hc.2.2.2 (by rw [abs_mul, aR, abs_of_pos (by norm_num : (0 : ℚ) < 2)])⟩
    · exact ⟨key _ _ _ a21 hc.1.2.2 (vb _ hσ), key _ _ _ a22 hc.2.2.2 (by rw [abs_neg, aR]; linarith)⟩
    · exact ⟨key _ _ _ a31 hc.1.2.2 (vb _ hσ'), key _ _ _ a22 hc.2.2.2 (by rw [abs_neg, aR]; linarith)⟩
  · intro pos hpos
    have hget : ∀ k (hk : k < 3), pos ((q :: ps).length + k) = rp ([vadd c (0, lit 2 * (m + 1)), vadd c (F64.sqrt (lit 3) * (m + 1), -(m + 1)), vadd c (-(F64.sqrt (lit 3)) * (m + 1), -(m + 1))][k]'(by simpa using hk)) := by
      intro k hk
      have h := hpos ((q :: ps).length + k) (by omega)
      unfold index at h
      rw [if_neg (by rw [List.length_map]; omega), List.length_map, Nat.add_sub_cancel_left, List.getElem?_map, List.getElem?_eq_getElem (by simpa using hk)] at h
      simp only [Option.map_some, Option.some.injEq] at h
      exact h.symm
    have cast : ∀ (z : F64) (cc v : ℚ), Ap z (cc + v) (1 / 2 ^ 15) → |(val z : ℝ) - cc - v| ≤ 1 / 2 ^ 15 := by
      intro z cc v hz
      have h : ((|val z - (cc + v)| : ℚ) : ℝ) ≤ ((1 / 2 ^ 15 : ℚ) : ℝ) := by exact_mod_cast hz.2.2
      push_cast at h
      rwa [← sub_sub] at h
    have RR : ((R : ℚ) : ℝ) ≤ 2 ^ 33 := by exact_mod_cast R33
    have RR0 : (1 : ℝ) / 2 ≤ (R : ℝ) := by
      have : ((1 / 2 : ℚ) : ℝ) ≤ (R : ℝ) := by exact_mod_cast R0
      push_cast at this; exact this
    have hσR : |(((7800463371553962 / 2 ^ 52 : ℚ) : ℝ) - Real.sqrt 3) * R| ≤ 1 / 2 ^ 18 := by
      rw [abs_mul, abs_of_pos (by linarith : (0 : ℝ) < R)]
      have := mul_le_mul sqrt_three_err RR (by linarith) (by positivity)
      refine this.trans ?_
      norm_num
    have b11 := cast _ _ _ a11
    have b12 := cast _ _ _ a12
    have b21 := cast _ _ _ a21
    have b22 := cast _ _ _ a22
    have b31 := cast _ _ _ a31
    push_cast at b11 b12 b21 b22 b31 hσR
    refine hull_perturbed (c := rp c) (r := (R : ℝ)) RR0
      ((val (vadd c (0, lit 2 * (m + 1))).1 : ℝ) - val c.1 - 0, (val (vadd c (0, lit 2 * (m + 1))).2 : ℝ) - val c.2 - 2 * R)
      ((val (vadd c (F64.sqrt (lit 3) * (m + 1), -(m + 1))).1 : ℝ) - val c.1 - Real.sqrt 3 * R, (val (vadd c (F64.sqrt (lit 3) * (m + 1), -(m + 1))).2 : ℝ) - val c.2 - (-R))
      ((val (vadd c (-(F64.sqrt (lit 3)) * (m + 1), -(m + 1))).1 : ℝ) - val c.1 - (-(Real.sqrt 3 * R)), (val (vadd c (-(F64.sqrt (lit 3)) * (m + 1), -(m + 1))).2 : ℝ) - val c.2 - (-R))
      ⟨?_, ?_⟩ ⟨?_, ?_⟩ ⟨?_, ?_⟩ ?_ ?_ ?_ ?_
    · exact b11.trans (by norm_num)
    · exact b12.trans (by norm_num)
    · have h := abs_add_le ((val (c.1 + F64.sqrt (lit 3) * (m + 1)) : ℝ) - val c.1 - 7800463371553962 / 2 ^ 52 * R) ((7800463371553962 / 2 ^ 52 - Real.sqrt 3) * R)
      have e2 : (val (c.1 + F64.sqrt (lit 3) * (m + 1)) : ℝ) - val c.1 - 7800463371553962 / 2 ^ 52 * R + (7800463371553962 / 2 ^ 52 - Real.sqrt 3) * R =
        (val (vadd c (F64.sqrt (lit 3) * (m + 1), -(m + 1))).1 : ℝ) - val c.1 - Real.sqrt 3 * R := by simp only [vadd]; ring
      rw [e2] at h
      refine h.trans ((add_le_add b21 hσR).trans (by norm_num))
    · exact b22.trans (by norm_num)
    · have h := abs_sub ((val (c.1 + -F64.sqrt (lit 3) * (m + 1)) : ℝ) - val c.1 - -(7800463371553962 / 2 ^ 52) * R) ((7800463371553962 / 2 ^ 52 - Real.sqrt 3) * R)
      have e2 : (val (c.1 + -F64.sqrt (lit 3) * (m + 1)) : ℝ) - val c.1 - -(7800463371553962 / 2 ^ 52) * R - (7800463371553962 / 2 ^ 52 - Real.sqrt 3) * R =
        (val (vadd c (-(F64.sqrt (lit 3)) * (m + 1), -(m + 1))).1 : ℝ) - val c.1 - (-(Real.sqrt 3 * R)) := by simp only [vadd]; ring
      rw [e2] at h
      refine h.trans ((add_le_add b31 hσR).trans (by norm_num))
    · exact b22.trans (by norm_num)
    · have := hget 0 (by norm_num)
      rw [Nat.add_zero] at this
      rw [this]
      simp only [rp, List.getElem_cons_zero]
      apply Prod.ext <;> simp only <;> ring
    · rw [hget 1 (by norm_num)]
      simp only [rp, List.getElem_cons_zero, List.getElem_cons_succ]
      apply Prod.ext <;> simp only <;> ring
    · rw [hget 2 (by norm_num)]
      simp only [rp, List.getElem_cons_zero, List.getElem_cons_succ]
      apply Prod.ext <;> simp only <;> ring
    · intro i hi
      have h := hpos i (by omega)
      unfold index at h
      rw [if_pos (by rw [List.length_map]; exact hi), List.getElem?_map, List.getElem?_eq_getElem hi, Option.map_some, Option.some.injEq] at h
      have hmemi : (q :: ps)[i] ∈ q :: ps := List.getElem_mem hi
      obtain ⟨-, d2, -, -⟩ := hd _ hmemi
      have d3 := hm2 _ ((hmem _).mpr ⟨_, hmemi, rfl⟩)
      refine ⟨Real.sqrt (((val (q :: ps)[i].1 : ℝ) - val c.1) ^ 2 + ((val (q :: ps)[i].2 : ℝ) - val c.2) ^ 2), Real.sqrt_nonneg _, ?_, ?_⟩
      · have h1 := (abs_le.mp d2).1
        have h2 : ((val (norm (vsub (q :: ps)[i] c)) : ℚ) : ℝ) ≤ ((val m : ℚ) : ℝ) := by exact_mod_cast d3
        rw [hR]
        push_cast
        norm_num at h1
        linarith
      · rw [← h, Real.sq_sqrt (by positivity)]
        simp only [rp]
        exact le_rfl

end Toppo.FloatGeom
