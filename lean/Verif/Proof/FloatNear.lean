import Verif.Proof.FloatSolve
import Verif.Proof.FloatSqrt
set_option linter.unusedVariables false

/-!
Relative closeness and ranges of positive numbers, for computations of `f64` in the normal range.
-/
namespace Toppo.FloatAlg
open F64

/-- equal up to a factor `(1 + u)^k` -/
def Near (k : Nat) (x y : ℚ) : Prop := x ≤ g ^ k * y ∧ y ≤ g ^ k * x

theorem near_refl (x : ℚ) : Near 0 x x := by unfold Near; simp
theorem near_symm {k : Nat} {x y : ℚ} (h : Near k x y) : Near k y x := ⟨h.2, h.1⟩

theorem near_mono {j k : Nat} {x y : ℚ} (h : Near j x y) (hjk : j ≤ k) (hx : 0 ≤ x) (hy : 0 ≤ y) : Near k x y :=
  ⟨h.1.trans (mul_le_mul_of_nonneg_right (gpow_mono hjk) hy), h.2.trans (mul_le_mul_of_nonneg_right (gpow_mono hjk) hx)⟩

theorem near_trans {j k : Nat} {x y z : ℚ} (h : Near j x y) (h' : Near k y z) : Near (j + k) x z := by
  have gj := (pow_pos g_pos j).le
  have gk := (pow_pos g_pos k).le
  constructor
  · calc x ≤ g ^ j * y := h.1
      _ ≤ g ^ j * (g ^ k * z) := mul_le_mul_of_nonneg_left h'.1 gj
      _ = g ^ (j + k) * z := by rw [pow_add]; ring
  · calc z ≤ g ^ k * y := h'.2
      _ ≤ g ^ k * (g ^ j * x) := mul_le_mul_of_nonneg_left h.2 gk
      _ = g ^ (j + k) * x := by rw [pow_add]; ring

theorem near_mul {j k : Nat} {x y z w : ℚ} (h : Near j x y) (h' : Near k z w) (hx : 0 ≤ x) (hy : 0 ≤ y) (hz : 0 ≤ z) (hw : 0 ≤ w) : Near (j + k) (x * z) (y * w) := by
  have gj := (pow_pos g_pos j).le
  have gk := (pow_pos g_pos k).le
  constructor
  · calc x * z ≤ (g ^ j * y) * (g ^ k * w) := mul_le_mul h.1 h'.1 hz (mul_nonneg gj hy)
      _ = g ^ (j + k) * (y * w) := by rw [pow_add]; ring
  · calc y * w ≤ (g ^ j * x) * (g ^ k * z) := mul_le_mul h.2 h'.2 hw (mul_nonneg gj hx)
      _ = g ^ (j + k) * (x * z) := by rw [pow_add]; ring

theorem near_add {k : Nat} {x y z w : ℚ} (h : Near k x y) (h' : Near k z w) : Near k (x + z) (y + w) := by
  constructor
  · rw [mul_add]; exact add_le_add h.1 h'.1
  · rw [mul_add]; exact add_le_add h.2 h'.2

theorem near_inv {k : Nat} {x y : ℚ} (h : Near k x y) (hx : 0 < x) (hy : 0 < y) : Near k x⁻¹ y⁻¹ := by
  have gk := pow_pos g_pos k
  constructor
  · rw [inv_le_iff_one_le_mul₀ hx, mul_right_comm, ← div_eq_mul_inv, le_div_iff₀ hy, one_mul]; exact h.2
  · rw [inv_le_iff_one_le_mul₀ hy, mul_right_comm, ← div_eq_mul_inv, le_div_iff₀ hx, one_mul]; exact h.1

theorem near_div {j k : Nat} {x y z w : ℚ} (h : Near j x y) (h' : Near k z w) (hx : 0 ≤ x) (hy : 0 ≤ y) (hz : 0 < z) (hw : 0 < w) : Near (j + k) (x / z) (y / w) := by
  rw [div_eq_mul_inv, div_eq_mul_inv]
  exact near_mul h (near_inv h' hz hw) hx hy (inv_pos.mpr hz).le (inv_pos.mpr hw).le

theorem near_sq {k : Nat} {x y : ℚ} (h : Near k x y) (hx : 0 ≤ x) (hy : 0 ≤ y) : Near (2 * k) (x ^ 2) (y ^ 2) := by
  rw [two_mul, sq, sq]; exact near_mul h h hx hy hx hy

theorem near_sum {ι : Type} (s : Finset ι) (f h : ι → ℚ) {k : Nat} (hn : ∀ i ∈ s, Near k (f i) (h i)) : Near k (∑ i ∈ s, f i) (∑ i ∈ s, h i) := by
  constructor
  · rw [Finset.mul_sum]; exact Finset.sum_le_sum fun i hi => (hn i hi).1
  · rw [Finset.mul_sum]; exact Finset.sum_le_sum fun i hi => (hn i hi).2

/-- from squares to numbers -/
theorem near_of_sq {k : Nat} {x y : ℚ} (h : Near k (x ^ 2) (y ^ 2)) (hx : 0 ≤ x) (hy : 0 ≤ y) : Near k x y := by
  have gk := gpow_ge k
  have h1 : g ^ k ≤ (g ^ k) ^ 2 := by nlinarith
  constructor
  · refine (abs_le_of_sq_le_sq' ?_ (mul_nonneg (by linarith) hy)).2
    rw [mul_pow]; exact h.1.trans (mul_le_mul_of_nonneg_right h1 (sq_nonneg y))
  · refine (abs_le_of_sq_le_sq' ?_ (mul_nonneg (by linarith) hx)).2
    rw [mul_pow]; exact h.2.trans (mul_le_mul_of_nonneg_right h1 (sq_nonneg x))

theorem near_abs_sub {k : Nat} {x y : ℚ} (h : Near k x y) (hx : 0 ≤ x) (hy : 0 ≤ y) : |x - y| ≤ (g ^ k - 1) * y := by
  have gk := gpow_ge k
  rw [abs_le]
  constructor
  · have h1 : y ≤ g ^ k * x := h.2
    by_contra hlt
    push Not at hlt
    have h2 : g ^ k * x < g ^ k * (y - (g ^ k - 1) * y) := mul_lt_mul_of_pos_left (by linarith) (by linarith)
    have h3 : g ^ k * (y - (g ^ k - 1) * y) ≤ y := by nlinarith [mul_nonneg (sq_nonneg (g ^ k - 1)) hy]
    linarith
  · have := h.1; linarith

/-! ### `(1 + u)^k ≤ 2` -/

theorem gpow_le_two {k : Nat} (hk : k ≤ 2 ^ 52) : g ^ k ≤ 2 := by
  have h : ∀ k : Nat, g ^ k * (1 - k * u) ≤ 1 := by
    intro k
    induction k with
    | zero => simp
    | succ k ih =>
      have hp := pow_pos g_pos k
      have hu := u_pos
      have hk0 : (0 : ℚ) ≤ k := Nat.cast_nonneg k
      have e : g ^ (k + 1) * (1 - (k + 1 : ℕ) * u) = g ^ k * (1 - k * u) - g ^ k * ((k + 1) * u ^ 2) := by
        rw [pow_succ, g_eq]; push_cast; ring
      rw [e]
      have : 0 ≤ g ^ k * ((k + 1) * u ^ 2) := mul_nonneg hp.le (mul_nonneg (by linarith) (sq_nonneg u))
      linarith
  have h1 := h k
  have h2 : (k : ℚ) * u ≤ 1 / 2 := by
    have hk' : (k : ℚ) ≤ 2 ^ 52 := by exact_mod_cast hk
    have e : (2 : ℚ) ^ 52 * u = 1 / 2 := by
      have : u = 2 ^ (-53 : ℤ) := by simpa using (u_cast (K := ℚ))
      rw [this]; norm_num
    rw [← e]
    exact mul_le_mul_of_nonneg_right hk' u_pos.le
  have hp := pow_pos g_pos k
  nlinarith

/-! ### ranges -/

/-- between two powers of two -/
def Rg (lo hi : ℤ) (x : ℚ) : Prop := (2 : ℚ) ^ lo ≤ x ∧ x ≤ 2 ^ hi

theorem rg_pos {lo hi : ℤ} {x : ℚ} (h : Rg lo hi x) : 0 < x := lt_of_lt_of_le (two_zpow_pos lo) h.1

theorem rg_mono {lo hi lo' hi' : ℤ} {x : ℚ} (h : Rg lo hi x) (h1 : lo' ≤ lo) (h2 : hi ≤ hi') : Rg lo' hi' x :=
  ⟨(zpow_le_zpow_right₀ (by norm_num) h1).trans h.1, h.2.trans (zpow_le_zpow_right₀ (by norm_num) h2)⟩

theorem rg_mul {l1 h1 l2 h2 : ℤ} {x y : ℚ} (hx : Rg l1 h1 x) (hy : Rg l2 h2 y) : Rg (l1 + l2) (h1 + h2) (x * y) := by
  unfold Rg
  rw [zpow_add₀ (by norm_num), zpow_add₀ (by norm_num)]
  exact ⟨mul_le_mul hx.1 hy.1 (two_zpow_pos _).le (rg_pos hx).le, mul_le_mul hx.2 hy.2 (rg_pos hy).le (two_zpow_pos _).le⟩

theorem rg_inv {l h : ℤ} {x : ℚ} (hx : Rg l h x) : Rg (-h) (-l) x⁻¹ := by
  unfold Rg
  rw [zpow_neg, zpow_neg]
  exact ⟨inv_anti₀ (rg_pos hx) hx.2, inv_anti₀ (two_zpow_pos _) hx.1⟩

theorem rg_div {l1 h1 l2 h2 : ℤ} {x y : ℚ} (hx : Rg l1 h1 x) (hy : Rg l2 h2 y) : Rg (l1 - h2) (h1 - l2) (x / y) := by
  rw [div_eq_mul_inv, sub_eq_add_neg, sub_eq_add_neg]; exact rg_mul hx (rg_inv hy)

theorem rg_sq {l h : ℤ} {x : ℚ} (hx : Rg l h x) : Rg (2 * l) (2 * h) (x ^ 2) := by
  rw [two_mul, two_mul, sq]; exact rg_mul hx hx

theorem rg_add {l h : ℤ} {x y : ℚ} (hx : Rg l h x) (hy0 : 0 ≤ y) (hy : y ≤ 2 ^ h) : Rg l (h + 1) (x + y) := by
  refine ⟨hx.1.trans (by linarith), ?_⟩
  rw [zpow_add_one₀ (by norm_num)]
  have := hx.2
  linarith

theorem rg_near {k : Nat} {l h : ℤ} {x y : ℚ} (hk : k ≤ 2 ^ 52) (hn : Near k x y) (hy : Rg l h y) : Rg (l - 1) (h + 1) x := by
  have h2 := gpow_le_two hk
  have hp := pow_pos g_pos k
  have hx : 0 < x := by
    have := lt_of_lt_of_le (rg_pos hy) hn.2
    exact pos_of_mul_pos_right this hp.le
  constructor
  · rw [zpow_sub_one₀ (by norm_num)]
    have h3 : g ^ k * x ≤ 2 * x := mul_le_mul_of_nonneg_right h2 hx.le
    have := hn.2
    have := hy.1
    linarith
  · rw [zpow_add_one₀ (by norm_num)]
    have h3 : g ^ k * y ≤ 2 * y := mul_le_mul_of_nonneg_right h2 (rg_pos hy).le
    have := hn.1
    have := hy.2
    linarith

theorem rg_of_sq {l h : ℤ} {x : ℚ} (hx0 : 0 ≤ x) (hx : Rg (2 * l) (2 * h) (x ^ 2)) : Rg l h x := by
  obtain ⟨h1, h2⟩ := hx
  have e : ∀ z : ℤ, (2 : ℚ) ^ (2 * z) = (2 ^ z) ^ 2 := fun z => by rw [two_mul, zpow_add₀ (by norm_num), sq]
  rw [e] at h1 h2
  exact ⟨(abs_le_of_sq_le_sq' h1 hx0).2, (abs_le_of_sq_le_sq' h2 (two_zpow_pos _).le).2⟩

theorem rg_lt {lo hi : ℤ} {x : ℚ} (h : Rg lo hi x) (h1 : hi ≤ 1022) : x < 2 ^ 1023 := by
  refine lt_of_le_of_lt h.2 ?_
  rw [← zpow_natCast]
  exact zpow_lt_zpow_right₀ (by norm_num) (by push_cast; omega)

/-! ### operations in the normal range -/

theorem ofExact_sign {s : Bool} {x : ℚ} (hf : (ofExact s x).isFinite = true) : (0 ≤ x → 0 ≤ val (ofExact s x)) ∧ (x ≤ 0 → val (ofExact s x) ≤ 0) := by
  unfold ofExact at *
  split_ifs at * with h1 h2
  · have : val (num s 0) = 0 := by rw [val_num]; split <;> simp
    rw [this]; exact ⟨fun _ => le_rfl, fun _ => le_rfl⟩
  · cases hf
  · have hr := rnd_nonneg (abs_pos.mpr h1)
    constructor
    · intro h
      rw [decide_eq_false (not_lt.mpr h)]; exact hr
    · intro h
      rw [decide_eq_true (lt_of_le_of_ne h h1)]
      change -rnd |x| ≤ 0
      linarith

/-- an operation whose exact value is zero or in the range of the normal numbers -/
theorem op_near {s : Bool} {x : ℚ} {lo hi : ℤ} (h : x = 0 ∨ Rg lo hi |x|) (h1 : -1022 ≤ lo) (h2 : hi ≤ 1022) :
    (ofExact s x).isFinite = true ∧ Near 1 |val (ofExact s x)| |x| := by
  rcases h with rfl | h
  · have e : ofExact s 0 = num s 0 := by simp [ofExact]
    have : val (num s 0) = 0 := by rw [val_num]; split <;> simp
    rw [e, this]
    exact ⟨rfl, by unfold Near; simp⟩
  · have hf : (ofExact s x).isFinite = true := ofExact_fin s (rg_lt h h2)
    refine ⟨hf, ?_⟩
    have hx : x ≠ 0 := by
      rintro rfl
      have := rg_pos h
      simp at this
    have hn := rnd_normal (K := ℚ) (x := |x|) ((zpow_le_zpow_right₀ (by norm_num) h1).trans h.1)
    unfold ofExact at *
    rw [if_neg hx] at *
    split_ifs at * with h3
    · cases hf
    · rw [abs_val_num _ (rnd_nonneg (abs_pos.mpr hx))]
      unfold Near
      rw [pow_one, g_eq]
      simpa using hn

theorem mul_ex {x y : F64} (hx : x.isFinite = true) (hy : y.isFinite = true) : ∃ s, x * y = ofExact s (val x * val y) := by
  obtain ⟨s, m, rfl⟩ := fin_iff.mp hx
  obtain ⟨t, n, rfl⟩ := fin_iff.mp hy
  exact ⟨_, rfl⟩

theorem add_ex {x y : F64} (hx : x.isFinite = true) (hy : y.isFinite = true) : ∃ s, x + y = ofExact s (val x + val y) := by
  obtain ⟨s, m, rfl⟩ := fin_iff.mp hx
  obtain ⟨t, n, rfl⟩ := fin_iff.mp hy
  exact ⟨_, rfl⟩

theorem sub_ex {x y : F64} (hx : x.isFinite = true) (hy : y.isFinite = true) : ∃ s, x - y = ofExact s (val x - val y) := by
  obtain ⟨s, h⟩ := add_ex hx (show (-y).isFinite = true by rw [fin_neg]; exact hy)
  rw [val_neg, ← sub_eq_add_neg] at h
  exact ⟨s, h⟩

theorem div_ex {x y : F64} (hx : x.isFinite = true) (hy : y.isFinite = true) (h0 : val y ≠ 0) : ∃ s, x / y = ofExact s (val x / val y) := by
  obtain ⟨s, m, rfl⟩ := fin_iff.mp hx
  obtain ⟨t, n, rfl⟩ := fin_iff.mp hy
  have hn : n ≠ 0 := by rintro rfl; apply h0; rw [val_num]; split <;> simp
  exact ⟨_, by rw [div_def, div, if_neg hn]⟩

/-- a sum of numbers that are not negative -/
theorem fsum_near : ∀ (l : List F64) (s : F64), Rep s → (∀ x ∈ l, Rep x) → 0 ≤ val s → (∀ x ∈ l, 0 ≤ val x) → (l.foldl (· + ·) s).isFinite = true →
    Near l.length (val (l.foldl (· + ·) s)) (val s + vsum l) := by
  intro l
  induction l with
  | nil => intro s _ _ h _ _; simpa [vsum] using near_refl (val s)
  | cons p t ih =>
    intro s hs hl h0 hl0 hf
    rw [List.foldl_cons] at hf ⊢
    have h1 := (acc_err t (s + p) (rep_add s p) (fun x hx => hl x (by simp [hx])) hf).1
    obtain ⟨f1, f2, f3⟩ := add_fin hs (hl p (by simp)) h1
    have f4 := add_fin' hs (hl p (by simp)) h1
    have hp := hl0 p (by simp)
    obtain ⟨sg, he⟩ := add_ex f1 f2
    have hv0 : 0 ≤ val (s + p) := by
      rw [he]; rw [he] at h1
      exact (ofExact_sign h1).1 (add_nonneg h0 hp)
    have h2 := ih (s + p) (rep_add s p) (fun x hx => hl x (by simp [hx])) hv0 (fun x hx => hl0 x (by simp [hx])) hf
    have h3 : Near 1 (val (s + p)) (val s + val p) := by
      rw [abs_of_nonneg (add_nonneg h0 hp)] at f3
      rw [abs_of_nonneg hv0] at f4
      unfold Near
      rw [pow_one, g_eq]
      constructor
      · have := le_of_abs_le f3; linarith
      · have := neg_le_of_abs_le f4; linarith
    have hvs : 0 ≤ vsum t := by
      apply List.sum_nonneg
      intro x hx
      obtain ⟨y, hy, rfl⟩ := List.mem_map.mp hx
      exact hl0 y (by simp [hy])
    have h4 : Near 1 (val (s + p) + vsum t) (val s + val p + vsum t) := near_add h3 (near_mono (near_refl _) (by omega) hvs hvs)
    have e : val s + vsum (p :: t) = val s + val p + vsum t := by simp [vsum]; ring
    rw [e, List.length_cons]
    exact near_trans h2 h4

end Toppo.FloatAlg
