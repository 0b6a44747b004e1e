import Verif.Proof.FloatSum
set_option linter.unusedVariables false

/-!
Backward error of the `f64` version of `lu`.
-/
namespace Toppo.F64

section
variable {K : Type} [Field K] [LinearOrder K] [IsStrictOrderedRing K] [FloorRing K]

/-- rounding error relative to the result -/
theorem rnd_err_cases' {x : K} (hx : 0 < x) : |((rnd x : ℚ) : K) - x| ≤ (u : K) * ((rnd x : ℚ) : K) ∨ (expo x = -1074 ∧ |((rnd x : ℚ) : K) - x| ≤ (eta : K)) := by
  have h := rnd_err_ulp hx
  rcases le_total (-1074) (Int.log 2 x - 52) with hl | hl
  · left
    rw [expo_normal hl] at h
    refine h.trans ?_
    have e : (2 : K) ^ (Int.log 2 x - 52) / 2 = 2 ^ (-53 : ℤ) * 2 ^ Int.log 2 x := by
      rw [← zpow_add₀ (by norm_num), show (-53 + Int.log 2 x : ℤ) = (Int.log 2 x - 52) - 1 by ring, zpow_sub_one₀ (by norm_num), div_eq_mul_inv]
    rw [e, u_cast]
    refine mul_le_mul_of_nonneg_left ?_ (two_zpow_pos _).le
    have hp := two_zpow_pos (K := K) (Int.log 2 x)
    have h1 := rnd_mono hp (log_le hx)
    have h2 : ((rnd ((2 : K) ^ Int.log 2 x) : ℚ) : K) = 2 ^ Int.log 2 x :=
      rnd_fixed ⟨1, Int.log 2 x, by norm_num, by omega, by simp⟩ hp
    rw [← h2]
    exact_mod_cast h1
  · right
    refine ⟨expo_small hl, h.trans (le_of_eq ?_)⟩
    rw [expo_small hl, eta_cast, show (-1075 : ℤ) = -1074 - 1 by norm_num, zpow_sub_one₀ (by norm_num), div_eq_mul_inv]

theorem rnd_err_grid' {x : K} (hx : 0 < x) (hg : Grid x) : |((rnd x : ℚ) : K) - x| ≤ (u : K) * ((rnd x : ℚ) : K) := by
  have hu : (0 : K) < (u : K) := by exact_mod_cast u_pos
  rcases rnd_err_cases' hx with h | ⟨he, -⟩
  · exact h
  · obtain ⟨k, rfl⟩ := hg
    have e : ((k : K) * 2 ^ (-1074 : ℤ)) / 2 ^ (-1074 : ℤ) = k := by
      field_simp
    rw [rnd_cast, he, e, roundEven_int, sub_self, abs_zero]
    exact (mul_pos hu hx).le

theorem rnd_err' {x : K} (hx : 0 < x) : |((rnd x : ℚ) : K) - x| ≤ (u : K) * ((rnd x : ℚ) : K) + (eta : K) := by
  have hu : (0 : K) < (u : K) := by exact_mod_cast u_pos
  have he : (0 : K) < (eta : K) := by exact_mod_cast eta_pos
  have h0 : (0 : K) ≤ ((rnd x : ℚ) : K) := by exact_mod_cast rnd_nonneg hx
  have := mul_nonneg hu.le h0
  rcases rnd_err_cases' hx with h | ⟨-, h⟩ <;> linarith

end

theorem ofExact_err' {s : Bool} {x : ℚ} (h : (ofExact s x).isFinite = true) : |val (ofExact s x) - x| ≤ u * |val (ofExact s x)| + eta := by
  have hu := u_pos
  have he := eta_pos
  unfold ofExact at *
  split_ifs at * with h1 h2
  · subst h1; simp [val_num]; exact he.le
  · cases h
  · rw [val_signed h1, abs_val_num _ (rnd_nonneg (abs_pos.mpr h1))]
    simpa using rnd_err' (abs_pos.mpr h1)

theorem ofExact_err_grid' {s : Bool} {x : ℚ} (hg : Grid x) (h : (ofExact s x).isFinite = true) : |val (ofExact s x) - x| ≤ u * |val (ofExact s x)| := by
  unfold ofExact at *
  split_ifs at * with h1 h2
  · subst h1; simp [val_num]
  · cases h
  · rw [val_signed h1, abs_val_num _ (rnd_nonneg (abs_pos.mpr h1))]
    simpa using rnd_err_grid' (abs_pos.mpr h1) (grid_abs hg)

theorem add_fin' {x y : F64} (hx : Rep x) (hy : Rep y) (h : (x + y).isFinite = true) : |val (x + y) - (val x + val y)| ≤ u * |val (x + y)| := by
  obtain ⟨h1, h2, -⟩ := add_fin hx hy h
  obtain ⟨s, m, rfl⟩ := fin_iff.mp h1
  obtain ⟨t, n, rfl⟩ := fin_iff.mp h2
  exact ofExact_err_grid' (grid_add (grid_val hx) (grid_val hy)) h

theorem sub_fin' {x y : F64} (hx : Rep x) (hy : Rep y) (h : (x - y).isFinite = true) : |val (x - y) - (val x - val y)| ≤ u * |val (x - y)| := by
  rw [sub_def] at *
  have h3 := add_fin' hx (rep_neg hy) h
  rwa [val_neg, ← sub_eq_add_neg] at h3

theorem div_fin' {x y : F64} (hy : Rep y) (hf : y.isFinite = true) (h : (x / y).isFinite = true) :
    |val (x / y) - val x / val y| ≤ u * |val (x / y)| + eta := by
  obtain ⟨h1, h2, -⟩ := div_fin hy hf h
  obtain ⟨s, m, rfl⟩ := fin_iff.mp h1
  obtain ⟨t, n, rfl⟩ := fin_iff.mp hf
  have hn : n ≠ 0 := by
    rintro rfl
    rw [val_num] at h2; split at h2 <;> simp at h2
  have e : (num s m : F64) / num t n = ofExact (xor s t) (val (num s m) / val (num t n)) := by
    rw [div_def, div, if_neg hn]
  rw [e] at h ⊢
  exact ofExact_err' h

end Toppo.F64

namespace Toppo.FloatAlg
open F64

theorem fsum_single {p : F64} (hp : Rep p) (h : (fsum [p]).isFinite = true) : p.isFinite = true ∧ val (fsum [p]) = val p := by
  have h' : (0 + p).isFinite = true := h
  have h1 := (add_fin rep_zero' hp h').2.1
  exact ⟨h1, (zero_add_val hp h1).2⟩

theorem rep_fsum {l : List F64} : Rep (fsum l) := by
  unfold fsum
  have : ∀ (l : List F64) (s : F64), Rep s → Rep (l.foldl (· + ·) s) := by
    intro l
    induction l with
    | nil => intro s h; exact h
    | cons p t ih => intro s _; exact ih _ (rep_add s p)
  exact this l 0 rep_zero'

/-- a number from which products are subtracted one after the other -/
theorem chain_err (l w : Nat → F64) : ∀ (m : Nat) (s : Nat → F64), (∀ t ≤ m, Rep (s t)) → (∀ t < m, s (t + 1) = s t - fsum [l t * w t]) → (s m).isFinite = true →
    ((s 0).isFinite = true ∧ ∀ t < m, (l t).isFinite = true ∧ (w t).isFinite = true) ∧
    |val (s 0) - (val (s m) + ∑ t ∈ Finset.range m, val (l t) * val (w t))| ≤
      (g ^ m - 1) * (|val (s m)| + ∑ t ∈ Finset.range m, |val (l t) * val (w t)|) + m * g ^ m * eta := by
  intro m
  induction m generalizing l w with
  | zero => intro s h0 _ hf; exact ⟨⟨hf, by simp⟩, by simp⟩
  | succ m ih =>
    intro s hr hs hf
    obtain ⟨⟨i1, i2⟩, i3⟩ := ih (fun t => l (t + 1)) (fun t => w (t + 1)) (fun t => s (t + 1)) (fun t ht => hr (t + 1) (by omega)) (fun t ht => hs (t + 1) (by omega)) hf
    simp only [zero_add] at i1 i2 i3
    have h0 := hs 0 (by omega)
    simp only [zero_add] at h0
    rw [h0] at i1
    obtain ⟨f1, f2, -⟩ := sub_fin (hr 0 (by omega)) rep_fsum i1
    have f3 := sub_fin' (hr 0 (by omega)) rep_fsum i1
    obtain ⟨f4, f5⟩ := fsum_single (rep_mul _ _) f2
    obtain ⟨f6, f7, f8⟩ := mul_fin f4
    refine ⟨⟨f1, ?_⟩, ?_⟩
    · intro t ht
      cases t with
      | zero => exact ⟨f6, f7⟩
      | succ t => exact i2 t (by omega)
    · rw [f5, ← h0] at f3
      rw [Finset.sum_range_succ', Finset.sum_range_succ']
      set S := ∑ t ∈ Finset.range m, val (l (t + 1)) * val (w (t + 1))
      set T := ∑ t ∈ Finset.range m, |val (l (t + 1)) * val (w (t + 1))| with hT
      have hT0 : 0 ≤ T := Finset.sum_nonneg fun _ _ => abs_nonneg _
      have hST : |S| ≤ T := Finset.abs_sum_le_sum_abs _ _
      set z := val (s (m + 1))
      set q := val (l 0) * val (w 0)
      set p := val (l 0 * w 0)
      set s0 := val (s 0)
      set s1 := val (s 1)
      set G := g ^ m with hG
      have hG1 : 1 ≤ G := gpow_ge m
      have hu := u_pos
      have he := eta_pos
      have hm : (0 : ℚ) ≤ m := Nat.cast_nonneg m
      set D := (G - 1) * (|z| + T) + m * G * eta with hD
      -- size of s1
      have b1 : |s1| ≤ |z| + T + D := by
        have a1 := abs_sub_abs_le_abs_sub s1 (z + S)
        have a2 := abs_add_le z S
        linarith
      have e : s0 - (z + (S + q)) = (s1 - (z + S)) + (p - q) + -(s1 - (s0 - p)) := by ring
      have b2 : |s0 - (z + (S + q))| ≤ |s1 - (z + S)| + |p - q| + |s1 - (s0 - p)| := by
        rw [e]
        refine (abs_add_le _ _).trans ?_
        rw [abs_neg]
        linarith [abs_add_le (s1 - (z + S)) (p - q)]
      have b3 : u * |s1| ≤ u * (|z| + T + D) := mul_le_mul_of_nonneg_left b1 hu.le
      refine b2.trans ?_
      have b4 : |s1 - (z + S)| + |p - q| + |s1 - (s0 - p)| ≤ D + (u * |q| + eta) + u * (|z| + T + D) := by linarith
      refine b4.trans ?_
      rw [pow_succ, ← hG]
      push_cast
      have hq := abs_nonneg q
      have key : (G * g - 1) * (|z| + (T + |q|)) + (m + 1) * (G * g) * eta - (D + (u * |q| + eta) + u * (|z| + T + D)) =
          (G * g - 1 - u) * |q| + (G * g - 1) * eta := by
        rw [hD, g_eq]; ring
      have hGg : g ≤ G * g := le_mul_of_one_le_left g_pos.le hG1
      have k1 : 0 ≤ (G * g - 1 - u) * |q| := mul_nonneg (by rw [g_eq] at hGg ⊢; linarith) hq
      have k2 : 0 ≤ (G * g - 1) * eta := mul_nonneg (by have := g_ge; linarith) he.le
      linarith

/-- the matrix after `t` rounds -/
def luAt (n : Nat) (a : Nat → Nat → F64) (t : Nat) : Nat → Nat → F64 := (List.range t).foldl (luStep n) a

theorem luAt_succ (n : Nat) (a : Nat → Nat → F64) (t : Nat) : luAt n a (t + 1) = luStep n (luAt n a t) t := by
  unfold luAt; rw [List.range_succ, List.foldl_append]; rfl

/-- rows up to the pivot and columns before it are not touched -/
theorem luStep_same {n : Nat} {a : Nat → Nat → F64} {i r c : Nat} (h : r ≤ i ∨ c < i) : luStep n a i r c = a r c := by
  unfold luStep
  simp only
  rw [if_neg (by omega), if_neg (by omega)]

theorem luAt_stable {n : Nat} {a : Nat → Nat → F64} {r c t : Nat} : ∀ k, (r ≤ t ∨ c < t) → luAt n a (t + k) r c = luAt n a t r c := by
  intro k h
  induction k with
  | zero => rfl
  | succ k ih => rw [← add_assoc, luAt_succ, luStep_same (by omega), ih]

/-- an entry right of and below the pivot -/
theorem luAt_inner {n : Nat} {a : Nat → Nat → F64} {r c t : Nat} (hr : t < r) (hc : t < c) (hrn : r < n) (hcn : c < n) :
    luAt n a (t + 1) r c = luAt n a t r c - fsum [luAt n a (t + 1) r t * luAt n a (t + 1) t c] := by
  rw [luAt_succ]
  have e1 : luStep n (luAt n a t) t t c = luAt n a t t c := luStep_same (Or.inl le_rfl)
  have e2 : luStep n (luAt n a t) t r t = luAt n a t r t / luAt n a t t t := by
    unfold luStep
    simp only
    rw [if_neg (by omega), if_pos ⟨by omega, hrn, trivial⟩]
  rw [e1, e2]
  conv_lhs => unfold luStep
  simp only
  rw [if_pos ⟨by omega, hrn, by omega, hcn⟩, if_neg (by omega), if_pos ⟨by omega, hrn, trivial⟩, if_neg (by omega)]

theorem luAt_col {n : Nat} {a : Nat → Nat → F64} {r t : Nat} (hr : t < r) (hrn : r < n) : luAt n a (t + 1) r t = luAt n a t r t / luAt n a t t t := by
  rw [luAt_succ]
  unfold luStep
  simp only
  rw [if_neg (by omega), if_pos ⟨by omega, hrn, trivial⟩]

/-- exact description of the result in terms of the chains -/
theorem lu_chain {n : Nat} {a b : Nat → Nat → F64} (h : lu n a = some b) {r c : Nat} (hr : r < n) (hc : c < n) :
    (∀ t, t < r → t < c → luAt n a (t + 1) r c = luAt n a t r c - fsum [b r t * b t c]) ∧
    (r ≤ c → b r c = luAt n a r r c) ∧ (c < r → b r c = luAt n a c r c / b c c) := by
  unfold lu at h
  split at h
  · cases h
  rename_i hn
  injection h with h
  have hb : b = luAt n a (n - 1) := h.symm
  have st : ∀ r c t, t ≤ n - 1 → (r ≤ t ∨ c < t) → b r c = luAt n a t r c := by
    intro r c t ht hrc
    obtain ⟨k, hk⟩ : ∃ k, n - 1 = t + k := ⟨n - 1 - t, by omega⟩
    rw [hb, hk]; exact luAt_stable k hrc
  refine ⟨fun t h1 h2 => ?_, fun h1 => st r c r (by omega) (Or.inl le_rfl), fun h1 => ?_⟩
  · rw [luAt_inner h1 h2 hr hc, st r t (t + 1) (by omega) (Or.inr (by omega)), st t c (t + 1) (by omega) (Or.inl (by omega))]
  · rw [st r c (c + 1) (by omega) (Or.inr (by omega)), luAt_col h1 hr, ← st c c c (by omega) (Or.inl le_rfl)]

theorem rep_luAt {n : Nat} {a : Nat → Nat → F64} (ha : ∀ i < n, ∀ j < n, Rep (a i j)) : ∀ t, ∀ i < n, ∀ j < n, Rep (luAt n a t i j) := by
  intro t
  induction t with
  | zero => exact ha
  | succ t ih =>
    intro i hi j hj
    rw [luAt_succ]
    unfold luStep
    simp only
    split
    · exact rep_sub _ _
    · split
      · exact rep_div _ _
      · exact ih i hi j hj

/-- an entry on or above the diagonal -/
theorem lu_upper {n : Nat} {a b : Nat → Nat → F64} (ha : ∀ i < n, ∀ j < n, Rep (a i j)) (h : lu n a = some b) (hf : ∀ i < n, ∀ j < n, (b i j).isFinite = true)
    {r c : Nat} (hc : c < n) (hrc : r ≤ c) :
    |val (a r c) - (val (b r c) + ∑ t ∈ Finset.range r, val (b r t) * val (b t c))| ≤
      (g ^ r - 1) * (|val (b r c)| + ∑ t ∈ Finset.range r, |val (b r t) * val (b t c)|) + r * g ^ r * eta := by
  obtain ⟨h1, h2, h3⟩ := lu_chain h (show r < n by omega) hc
  have := (chain_err (fun t => b r t) (fun t => b t c) r (fun t => luAt n a t r c) (fun t _ => rep_luAt ha t r (by omega) c hc)
    (fun t ht => h1 t ht (by omega)) (by rw [← h2 hrc]; exact hf r (by omega) c hc)).2
  rw [← h2 hrc] at this
  exact this

theorem lower_arith {A s p l S T G u g' e c GG : ℚ} (hG1 : 1 ≤ G) (hu : 0 < u) (he : 0 < e) (hc0 : 0 ≤ c) (hT : 0 ≤ T) (hp0 : p ≠ 0)
    (d3 : |l - s / p| ≤ u * |l| + e) (key : |A - (s + S)| ≤ (G - 1) * (|s| + T) + c * G * e) (hGG : GG = G * g') (hg : g' = 1 + u) :
    |A - (l * p + S)| ≤ (GG - 1) * (|l * p| + T) + (c + |p|) * GG * e := by
  have hp := abs_nonneg p
  have hlp := abs_nonneg (l * p)
  have k1 : |s - l * p| ≤ u * |l * p| + e * |p| := by
    have e1 : s - l * p = -(l - s / p) * p := by field_simp; ring
    rw [e1, abs_mul, abs_neg]
    calc |l - s / p| * |p| ≤ (u * |l| + e) * |p| := mul_le_mul_of_nonneg_right d3 hp
      _ = u * |l * p| + e * |p| := by rw [abs_mul]; ring
  have k2 : |s| ≤ |l * p| + (u * |l * p| + e * |p|) := by
    have := abs_sub_abs_le_abs_sub s (l * p); linarith
  have k3 : |A - (l * p + S)| ≤ |A - (s + S)| + |s - l * p| := by
    have e1 : A - (l * p + S) = (A - (s + S)) + (s - l * p) := by ring
    rw [e1]; exact abs_add_le _ _
  have k4 : (G - 1) * (|s| + T) ≤ (G - 1) * (|l * p| + (u * |l * p| + e * |p|) + T) := mul_le_mul_of_nonneg_left (by linarith) (by linarith)
  refine k3.trans ?_
  refine (add_le_add (key.trans (add_le_add k4 le_rfl)) k1).trans ?_
  have id : (GG - 1) * (|l * p| + T) + (c + |p|) * GG * e - ((G - 1) * (|l * p| + (u * |l * p| + e * |p|) + T) + c * G * e + (u * |l * p| + e * |p|)) =
      G * u * T + c * G * e * u + |p| * G * e * u := by
    rw [hGG, hg]; ring
  have i1 : 0 ≤ G * u * T + c * G * e * u + |p| * G * e * u := by positivity
  linarith

/-- an entry below the diagonal -/
theorem lu_lower {n : Nat} {a b : Nat → Nat → F64} (ha : ∀ i < n, ∀ j < n, Rep (a i j)) (h : lu n a = some b) (hf : ∀ i < n, ∀ j < n, (b i j).isFinite = true)
    {r c : Nat} (hr : r < n) (hrc : c < r) : val (b c c) ≠ 0 ∧
    |val (a r c) - (val (b r c) * val (b c c) + ∑ t ∈ Finset.range c, val (b r t) * val (b t c))| ≤
      (g ^ (c + 1) - 1) * (|val (b r c) * val (b c c)| + ∑ t ∈ Finset.range c, |val (b r t) * val (b t c)|) + (c + |val (b c c)|) * g ^ (c + 1) * eta := by
  have hc : c < n := by omega
  obtain ⟨h1, h2, h3⟩ := lu_chain h hr hc
  have hq := hf r hr c hc
  have hcc := hf c hc c hc
  have hrep : Rep (b c c) := by
    rw [(lu_chain h hc hc).2.1 le_rfl]; exact rep_luAt ha c c hc c hc
  rw [h3 hrc] at hq
  obtain ⟨d1, d2, -⟩ := div_fin hrep hcc hq
  have d3 := div_fin' hrep hcc hq
  rw [← h3 hrc] at d3
  refine ⟨d2, ?_⟩
  have key := (chain_err (fun t => b r t) (fun t => b t c) c (fun t => luAt n a t r c) (fun t _ => rep_luAt ha t r hr c hc)
    (fun t ht => h1 t (by omega) ht) d1).2
  have e0 : luAt n a 0 r c = a r c := rfl
  rw [e0] at key
  refine lower_arith (gpow_ge c) u_pos eta_pos (Nat.cast_nonneg c) (Finset.sum_nonneg fun _ _ => abs_nonneg _) d2 d3 key (pow_succ g c) g_eq

theorem lu_input_finite {n : Nat} {a b : Nat → Nat → F64} (ha : ∀ i < n, ∀ j < n, Rep (a i j)) (h : lu n a = some b)
    (hf : ∀ i < n, ∀ j < n, (b i j).isFinite = true) {r c : Nat} (hr : r < n) (hc : c < n) : (a r c).isFinite = true := by
  obtain ⟨h1, h2, h3⟩ := lu_chain h hr hc
  rcases le_or_gt r c with hrc | hrc
  · exact (chain_err (fun t => b r t) (fun t => b t c) r (fun t => luAt n a t r c) (fun t _ => rep_luAt ha t r hr c hc)
      (fun t ht => h1 t ht (by omega)) (by rw [← h2 hrc]; exact hf r hr c hc)).1.1
  · have hq := hf r hr c hc
    have hrep : Rep (b c c) := by
      rw [(lu_chain h hc hc).2.1 le_rfl]; exact rep_luAt ha c c hc c hc
    rw [h3 hrc] at hq
    exact (chain_err (fun t => b r t) (fun t => b t c) c (fun t => luAt n a t r c) (fun t _ => rep_luAt ha t r hr c hc)
      (fun t ht => h1 t (by omega) ht) (div_fin hrep (hf c hc c hc) hq).1).1.1

end Toppo.FloatAlg
