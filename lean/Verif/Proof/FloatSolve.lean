import Verif.Proof.FloatLU
set_option linter.unusedVariables false

/-!
Residual of the `f64` version of `solve`.
-/
namespace Toppo.FloatAlg
open F64

/-! ### the two substitutions as equations -/

theorem rep_dotF {lo hi : Nat} {a b : Nat → F64} : Rep (dotF lo hi a b) := rep_fsum

theorem dotF_congr {lo hi : Nat} {a b b' : Nat → F64} (h : ∀ k, lo ≤ k → k < hi → b k = b' k) : dotF lo hi a b = dotF lo hi a b' := by
  unfold dotF
  congr 1
  apply List.map_congr_left
  intro k hk
  rw [List.mem_range'_1] at hk
  rw [h k hk.1 (by omega)]

theorem fwd_eq (f : Nat → Nat → F64) (b : Nat → F64) : ∀ m, let y := (List.range' 1 m).foldl (fwdStep f) b
    y 0 = b 0 ∧ (∀ i, 1 ≤ i → i ≤ m → y i = b i - dotF 0 i (f i) y) ∧ ∀ i, m < i → y i = b i := by
  intro m
  induction m with
  | zero => simp; omega
  | succ m ih =>
    intro y
    obtain ⟨h1, h2, h3⟩ := ih
    have e : y = fwdStep f ((List.range' 1 m).foldl (fwdStep f) b) (m + 1) := by
      change (List.range' 1 (m + 1)).foldl (fwdStep f) b = _
      rw [List.range'_concat, List.foldl_append, List.foldl_cons, List.foldl_nil]
      congr 1; omega
    set z := (List.range' 1 m).foldl (fwdStep f) b
    have es : ∀ i, i ≠ m + 1 → y i = z i := fun i hi => by rw [e]; unfold fwdStep; rw [if_neg hi]
    refine ⟨by rw [es 0 (by omega), h1], fun i a1 a2 => ?_, fun i hi => by rw [es i (by omega), h3 i (by omega)]⟩
    rcases Nat.lt_or_ge i (m + 1) with hi | hi
    · rw [es i (by omega), h2 i a1 (by omega)]
      congr 1
      exact dotF_congr fun k _ hk => (es k (by omega)).symm
    · have : i = m + 1 := by omega
      subst this
      have e2 : y (m + 1) = z (m + 1) - dotF 0 (m + 1) (f (m + 1)) z := by rw [e]; unfold fwdStep; rw [if_pos rfl]
      rw [e2, h3 (m + 1) (by omega)]
      congr 1
      exact dotF_congr fun k _ hk => (es k (by omega)).symm

theorem bwd_eq (n : Nat) (f : Nat → Nat → F64) (b : Nat → F64) : ∀ m, let x := (List.range m).reverse.foldl (bwdStep n f) b
    (∀ i < m, x i = (b i - dotF (i + 1) n (f i) x) / f i i) ∧ ∀ i, m ≤ i → x i = b i := by
  intro m
  induction m generalizing b with
  | zero => simp
  | succ m ih =>
    intro x
    have e : x = (List.range m).reverse.foldl (bwdStep n f) (bwdStep n f b m) := by
      change (List.range (m + 1)).reverse.foldl (bwdStep n f) b = _
      rw [List.range_succ, List.reverse_append]; rfl
    obtain ⟨h1, h2⟩ := ih (bwdStep n f b m)
    rw [← e] at h1 h2
    have es : ∀ i, i ≠ m → bwdStep n f b m i = b i := fun i hi => by unfold bwdStep; rw [if_neg hi]
    refine ⟨fun i hi => ?_, fun i hi => by rw [h2 i (by omega), es i (by omega)]⟩
    rcases Nat.lt_or_ge i m with h | h
    · rw [h1 i h, es i (by omega)]
    · have : i = m := by omega
      subst this
      have e1 : bwdStep n f b i i = (b i - dotF (i + 1) n (f i) b) / f i i := by unfold bwdStep; rw [if_pos rfl]
      rw [h2 i le_rfl, e1]
      congr 2
      exact dotF_congr fun k h1 h3 => by rw [h2 k (by omega), es k (by omega)]

/-- `solve` in terms of the intermediate vector `y` -/
theorem solve_eq {n : Nat} {a : Nat → Nat → F64} {b x : Nat → F64} (h : solve n a b = some x) : ∃ f y, lu n a = some f ∧ 0 < n ∧
    y 0 = b 0 ∧ (∀ i, 1 ≤ i → i < n → y i = b i - dotF 0 i (f i) y) ∧
    x (n - 1) = y (n - 1) / f (n - 1) (n - 1) ∧ ∀ i, i + 1 < n → x i = (y i - dotF (i + 1) n (f i) x) / f i i := by
  unfold solve at h
  cases hl : lu n a with
  | none => rw [hl] at h; cases h
  | some f =>
    rw [hl] at h
    have hn : 0 < n := by
      unfold lu at hl; split at hl
      · cases hl
      · omega
    simp only [Option.bind_eq_bind, Option.bind_some, Option.pure_def, Option.some.injEq] at h
    obtain ⟨h1, h2, h3⟩ := fwd_eq f b (n - 1)
    set y := (List.range' 1 (n - 1)).foldl (fwdStep f) b
    obtain ⟨h4, h5⟩ := bwd_eq n f (bwdLast n f y) (n - 1)
    rw [h] at h4 h5
    refine ⟨f, y, rfl, hn, h1, fun i a1 a2 => h2 i a1 (by omega), ?_, fun i hi => ?_⟩
    · rw [h5 (n - 1) le_rfl]; unfold bwdLast; rw [if_pos rfl]
    · rw [h4 i (by omega)]
      congr 2
      unfold bwdLast; rw [if_neg (by omega)]

/-! ### errors of one row -/

theorem range'_sum (lo m : Nat) (h : Nat → ℚ) : ((List.range' lo m).map h).sum = ∑ k ∈ Finset.Ico lo (lo + m), h k := by
  induction m with
  | zero => simp
  | succ m ih => rw [List.range'_concat, List.map_append, List.sum_append, ih, ← add_assoc, Finset.sum_Ico_succ_top (by omega)]; simp

theorem dotF_err {lo hi : Nat} {a b : Nat → F64} (hle : lo ≤ hi) (h : (dotF lo hi a b).isFinite = true) :
    (∀ k, lo ≤ k → k < hi → (a k).isFinite = true ∧ (b k).isFinite = true) ∧
    |val (dotF lo hi a b) - ∑ k ∈ Finset.Ico lo hi, val (a k) * val (b k)| ≤
      (g ^ (hi - lo) - 1) * ∑ k ∈ Finset.Ico lo hi, |val (a k) * val (b k)| + (hi - lo : ℕ) * g ^ (hi - lo) * eta := by
  obtain ⟨h1, h2⟩ := prod_err _ a b h
  refine ⟨fun k a1 a2 => h1 k (by rw [List.mem_range'_1]; omega), ?_⟩
  rw [range'_sum, range'_sum, List.length_range', show lo + (hi - lo) = hi by omega] at h2
  exact h2

theorem fwd_arith {B y d S T G u e G' c c' : ℚ} (hu : 0 ≤ u) (he : 0 ≤ e) (hT : 0 ≤ T) (hG0 : 1 ≤ G) (hG : G ≤ G') (huG : 1 + u ≤ G') (hc : 0 ≤ c) (hcc : c ≤ c')
    (h1 : |y - (B - d)| ≤ u * |y|) (h2 : |d - S| ≤ (G - 1) * T + c * G * e) : |B - (y + S)| ≤ (G' - 1) * (|y| + T) + c' * G' * e := by
  have e1 : B - (y + S) = -(y - (B - d)) + (d - S) := by ring
  have h3 := abs_add_le (-(y - (B - d))) (d - S)
  rw [← e1, abs_neg] at h3
  have h4 : u * |y| ≤ (G' - 1) * |y| := mul_le_mul_of_nonneg_right (by linarith) (abs_nonneg y)
  have h5 : (G - 1) * T ≤ (G' - 1) * T := mul_le_mul_of_nonneg_right (by linarith) hT
  have h6 : c * G * e ≤ c' * G' * e := mul_le_mul_of_nonneg_right (mul_le_mul hcc hG (by linarith) (by linarith)) he
  linarith

theorem bwd_arith {y x t p d S T G u e G' c c' : ℚ} (hu : 0 ≤ u) (he : 0 ≤ e) (hT : 0 ≤ T) (hG0 : 1 ≤ G) (hG : G ≤ G') (huG : (1 + u) * (1 + u) ≤ G') (hc : 0 ≤ c) (hcc : c ≤ c')
    (hp : p ≠ 0) (h1 : |t - (y - d)| ≤ u * |t|) (h2 : |d - S| ≤ (G - 1) * T + c * G * e) (h3 : |x - t / p| ≤ u * |x| + e) :
    |y - (p * x + S)| ≤ (G' - 1) * (|p * x| + T) + (c' + |p|) * G' * e := by
  have hp0 := abs_nonneg p
  have k1 : |t - p * x| ≤ u * |p * x| + e * |p| := by
    have e1 : t - p * x = -(x - t / p) * p := by field_simp; ring
    rw [e1, abs_mul, abs_neg]
    calc |x - t / p| * |p| ≤ (u * |x| + e) * |p| := mul_le_mul_of_nonneg_right h3 hp0
      _ = u * |p * x| + e * |p| := by rw [abs_mul]; ring
  have k2 : |t| ≤ |p * x| + (u * |p * x| + e * |p|) := by
    have := abs_sub_abs_le_abs_sub t (p * x); linarith
  have e1 : y - (p * x + S) = -(t - (y - d)) + (t - p * x) + (d - S) := by ring
  have k3 : |y - (p * x + S)| ≤ |t - (y - d)| + |t - p * x| + |d - S| := by
    rw [e1]
    refine (abs_add_le _ _).trans ?_
    have := abs_add_le (-(t - (y - d))) (t - p * x)
    rw [abs_neg] at this
    linarith
  have k4 : u * |t| ≤ u * (|p * x| + (u * |p * x| + e * |p|)) := mul_le_mul_of_nonneg_left k2 hu
  have h5 : (G - 1) * T ≤ (G' - 1) * T := mul_le_mul_of_nonneg_right (by linarith) hT
  have h6 : c * G * e ≤ c' * G' * e := mul_le_mul_of_nonneg_right (mul_le_mul hcc hG (by linarith) (by linarith)) he
  have h7 : ((1 + u) * (1 + u) - 1) * |p * x| ≤ (G' - 1) * |p * x| := mul_le_mul_of_nonneg_right (by linarith) (abs_nonneg _)
  have h8 : (1 + u) * (e * |p|) ≤ G' * (e * |p|) := by
    refine mul_le_mul_of_nonneg_right ?_ (mul_nonneg he hp0)
    nlinarith
  linarith

theorem fwd_row {n : Nat} {f : Nat → Nat → F64} {b y : Nat → F64} (hb : ∀ i < n, Rep (b i)) {i : Nat} (hi : i < n)
    (h0 : y 0 = b 0) (he : ∀ i, 1 ≤ i → i < n → y i = b i - dotF 0 i (f i) y) (hy : (y i).isFinite = true) :
    (b i).isFinite = true ∧ |val (b i) - (val (y i) + ∑ k ∈ Finset.range i, val (f i k) * val (y k))| ≤
      (g ^ n - 1) * (|val (y i)| + ∑ k ∈ Finset.range i, |val (f i k) * val (y k)|) + n * g ^ n * eta := by
  have hn : 1 ≤ n := by omega
  rcases Nat.eq_zero_or_pos i with rfl | hi1
  · rw [h0] at hy ⊢
    refine ⟨hy, ?_⟩
    simp only [Finset.range_zero, Finset.sum_empty, add_zero, sub_self, abs_zero]
    have a1 := mul_nonneg (gpow_sub_nonneg n) (abs_nonneg (val (b 0)))
    have a2 : 0 ≤ (n : ℚ) * g ^ n * eta := mul_nonneg (mul_nonneg (Nat.cast_nonneg n) (pow_pos g_pos n).le) eta_pos.le
    linarith
  · have hyi := he i hi1 hi
    rw [hyi] at hy
    obtain ⟨f1, f2, -⟩ := sub_fin (hb i hi) rep_dotF hy
    have f3 := sub_fin' (hb i hi) rep_dotF hy
    obtain ⟨-, f4⟩ := dotF_err (Nat.zero_le i) f2
    refine ⟨f1, ?_⟩
    rw [Finset.range_eq_Ico]
    rw [← hyi] at f3
    refine fwd_arith u_pos.le eta_pos.le (Finset.sum_nonneg fun _ _ => abs_nonneg _) (gpow_ge i) (gpow_mono hi.le) ?_ (Nat.cast_nonneg i) (by exact_mod_cast hi.le) f3 f4
    rw [← g_eq]
    simpa using gpow_mono hn

theorem bwd_row {n : Nat} {f : Nat → Nat → F64} {y x : Nat → F64} (hf : ∀ i < n, Rep (f i i) ∧ (f i i).isFinite = true) (hy : ∀ i < n, Rep (y i)) {i : Nat} (hi : i < n)
    (hl : x (n - 1) = y (n - 1) / f (n - 1) (n - 1)) (he : ∀ i, i + 1 < n → x i = (y i - dotF (i + 1) n (f i) x) / f i i) (hx : (x i).isFinite = true) :
    val (f i i) ≠ 0 ∧ (y i).isFinite = true ∧ |val (y i) - (val (f i i) * val (x i) + ∑ k ∈ Finset.Ico (i + 1) n, val (f i k) * val (x k))| ≤
      (g ^ (n + 1) - 1) * (|val (f i i) * val (x i)| + ∑ k ∈ Finset.Ico (i + 1) n, |val (f i k) * val (x k)|) + (n + |val (f i i)|) * g ^ (n + 1) * eta := by
  obtain ⟨r1, r2⟩ := hf i hi
  have hgg : (1 + u) * (1 + u) ≤ g ^ (n + 1) := by
    rw [← g_eq, ← sq]; exact gpow_mono (by omega)
  by_cases hin : i + 1 = n
  · subst hin
    simp only [Nat.add_sub_cancel] at hl
    rw [hl] at hx
    obtain ⟨d1, d2, -⟩ := div_fin r1 r2 hx
    have d3 := div_fin' r1 r2 hx
    rw [← hl] at d3
    refine ⟨d2, d1, ?_⟩
    have := bwd_arith (y := val (y i)) (x := val (x i)) (t := val (y i)) (p := val (f i i)) (d := 0) (S := 0) (T := 0) (G := 1) (u := u) (e := eta) (G' := g ^ (i + 1 + 1)) (c := 0)
      (c' := ((i + 1 : ℕ) : ℚ)) u_pos.le eta_pos.le le_rfl le_rfl (gpow_ge _) hgg le_rfl (Nat.cast_nonneg _) d2 (by
        rw [sub_zero, sub_self, abs_zero]; exact mul_nonneg u_pos.le (abs_nonneg _)) (by simp) d3
    simpa using this
  · have hxi := he i (by omega)
    rw [hxi] at hx
    obtain ⟨d1, d2, -⟩ := div_fin r1 r2 hx
    have d3 := div_fin' r1 r2 hx
    rw [← hxi] at d3
    obtain ⟨f1, f2, -⟩ := sub_fin (hy i hi) rep_dotF d1
    have f3 := sub_fin' (hy i hi) rep_dotF d1
    obtain ⟨-, f4⟩ := dotF_err (show i + 1 ≤ n by omega) f2
    refine ⟨d2, f1, ?_⟩
    exact bwd_arith u_pos.le eta_pos.le (Finset.sum_nonneg fun _ _ => abs_nonneg _) (gpow_ge _) (gpow_mono (by omega)) hgg (Nat.cast_nonneg _)
      (by exact_mod_cast (show n - (i + 1) ≤ n by omega)) d2 f3 f4 d3

end Toppo.FloatAlg
