import Verif.Proof.FloatNear
import Verif.Props.FloatGivens
set_option linter.unusedVariables false

/-!
# `householder_vec` on `f64` (C110)

Specification: `val` is the exact value of a number, `u = 2^-53`, `eta = 2^-1075`; for the answer `(v, β)` the matrix `H = I - β v vᵀ` is a reflection if `β vᵀv = 2`,
and `H x` is a multiple of the first unit vector if `x i = β v i (vᵀ x)` for all `i ≥ 1`.
-/
namespace Toppo.FloatProps
open Toppo F64 FloatAlg

/-! ### the exact part of the argument -/

/-- negative first entry -/
theorem house_neg {n : Nat} {A b R w C : ℚ} (hA : 0 < A) (hR : 0 < R) (hw : 0 < w) (hC : 0 ≤ C) (hb : b ≤ 0)
    (h1 : Near (n + 4) (R ^ 2) (A + b ^ 2)) (h2 : Near 1 w (-b + R)) (h3 : Near 1 C (A / w)) : Near (2 * n + 12) (2 * w * (C - b) / (A + w ^ 2)) 1 := by
  set B := -b with hB
  have hB0 : 0 ≤ B := by linarith
  have hbB : b ^ 2 = B ^ 2 := by rw [hB]; ring
  have e0 : C - b = C + B := by rw [hB]; ring
  rw [e0]
  rw [hbB] at h1
  have hW : 0 < B + R := by linarith
  have hM : 0 < 2 * (R ^ 2 + B * R) := by nlinarith [mul_nonneg hB0 hR.le]
  -- numerator
  have a1 : Near 1 (w * (C + B)) (A + B * w) := by
    have := near_mul (near_refl w) (near_add h3 (near_mono (near_refl B) (Nat.zero_le 1) hB0 hB0)) hw.le hw.le (by positivity) (by positivity)
    have e : w * (A / w + B) = A + B * w := by field_simp
    rw [e] at this
    simpa using this
  have a2 : Near 1 (A + B * w) (A + B * (B + R)) := near_add (near_mono (near_refl A) (Nat.zero_le 1) hA.le hA.le) (by
    have := near_mul (near_refl B) h2 hB0 hB0 hw.le hW.le
    simpa using this)
  have a3 : Near (n + 4) (A + B * (B + R)) (R ^ 2 + B * R) := by
    have := near_add (near_symm h1) (near_mono (near_refl (B * R)) (Nat.zero_le (n + 4)) (by positivity) (by positivity))
    have e : A + B ^ 2 + B * R = A + B * (B + R) := by ring
    rwa [e] at this
  have a4 : Near (n + 6) (2 * (w * (C + B))) (2 * (R ^ 2 + B * R)) := by
    have := near_mul (near_refl 2) (near_trans a1 (near_trans a2 a3)) (by norm_num) (by norm_num) (by positivity) (by positivity)
    have e : 0 + (1 + (1 + (n + 4))) = n + 6 := by omega
    rwa [e] at this
  -- denominator
  have c1 : Near 2 (A + w ^ 2) (A + (B + R) ^ 2) := near_add (near_mono (near_refl A) (Nat.zero_le 2) hA.le hA.le) (near_sq h2 hw.le hW.le)
  have c2 : Near (n + 4) (A + (B + R) ^ 2) (2 * (R ^ 2 + B * R)) := by
    have := near_add (near_symm h1) (near_mono (near_refl (R ^ 2 + 2 * (B * R))) (Nat.zero_le (n + 4)) (by positivity) (by positivity))
    have e : A + B ^ 2 + (R ^ 2 + 2 * (B * R)) = A + (B + R) ^ 2 := by ring
    have e' : R ^ 2 + (R ^ 2 + 2 * (B * R)) = 2 * (R ^ 2 + B * R) := by ring
    rwa [e, e'] at this
  have c3 := near_trans c1 c2
  have key := near_div a4 c3 (by positivity) hM.le (by positivity) hM
  rw [div_self hM.ne'] at key
  have e : n + 6 + (2 + (n + 4)) = 2 * n + 12 := by omega
  rw [e, ← mul_assoc] at key
  exact key

/-- positive first entry -/
theorem house_pos {n : Nat} {A b R w C : ℚ} (hA : 0 < A) (hR : 0 < R) (hw : 0 < w) (hC : 0 ≤ C) (hb : 0 < b)
    (h1 : Near (n + 4) (R ^ 2) (A + b ^ 2)) (h2 : Near (n + 3) w (A / (b + R))) (h3 : Near 1 C (A / w)) :
    Near (4 * n + 13) (2 * w * R / (A + w ^ 2)) 1 ∧ |(C - b) - R| ≤ (g ^ (2 * n + 8) - 1) * R := by
  set P := b + R with hP
  have hP0 : 0 < P := by linarith
  constructor
  · have a1 : Near (n + 3) (2 * R * w) (2 * R * (A / P)) := by
      have := near_mul (near_refl (2 * R)) h2 (by positivity) (by positivity) hw.le (by positivity)
      simpa using this
    have c1 : Near (2 * (n + 3)) (A + w ^ 2) (A + (A / P) ^ 2) :=
      near_add (near_mono (near_refl A) (Nat.zero_le _) hA.le hA.le) (near_sq h2 hw.le (by positivity))
    have key := near_div a1 c1 (by positivity) (by positivity) (by positivity) (by positivity)
    have e1 : 2 * R * (A / P) / (A + (A / P) ^ 2) = 2 * R * P / (P ^ 2 + A) := by field_simp
    rw [e1] at key
    have c2 : Near (n + 4) (P ^ 2 + A) (2 * R * P) := by
      have := near_add (near_symm h1) (near_mono (near_refl (R ^ 2 + 2 * (b * R))) (Nat.zero_le (n + 4)) (by positivity) (by positivity))
      have e : A + b ^ 2 + (R ^ 2 + 2 * (b * R)) = P ^ 2 + A := by rw [hP]; ring
      have e' : R ^ 2 + (R ^ 2 + 2 * (b * R)) = 2 * R * P := by rw [hP]; ring
      rwa [e, e'] at this
    have c3 := near_div (near_refl (2 * R * P)) c2 (by positivity) (by positivity) (by positivity) (by positivity)
    rw [div_self (by positivity : 2 * R * P ≠ 0)] at c3
    have := near_trans key c3
    have e2 : n + 3 + 2 * (n + 3) + (0 + (n + 4)) = 4 * n + 13 := by omega
    have e3 : 2 * w * R = 2 * R * w := by ring
    rw [e2] at this
    rw [e3]; exact this
  · have b1 : Near (n + 3) (A / w) P := by
      have := near_div (near_refl A) h2 hA.le hA.le hw (by positivity)
      have e : A / (A / P) = P := by field_simp
      rw [e, zero_add] at this
      exact this
    have b2 := near_trans h3 b1
    have e2 : 1 + (n + 3) = n + 4 := by omega
    rw [e2] at b2
    have b3 := near_abs_sub b2 hC hP0.le
    have e3 : (C - b) - R = C - P := by rw [hP]; ring
    rw [e3]
    refine b3.trans ?_
    have hG := gpow_ge (n + 4)
    have b4 : b ≤ g ^ (n + 4) * R := by
      refine (abs_le_of_sq_le_sq' ?_ (by positivity)).2
      rw [mul_pow]
      have := h1.2
      have hGG : g ^ (n + 4) ≤ (g ^ (n + 4)) ^ 2 := by nlinarith
      have : g ^ (n + 4) * R ^ 2 ≤ (g ^ (n + 4)) ^ 2 * R ^ 2 := mul_le_mul_of_nonneg_right hGG (sq_nonneg R)
      linarith
    have e4 : g ^ (2 * n + 8) = g ^ (n + 4) * g ^ (n + 4) := by rw [← pow_add]; congr 1; omega
    rw [e4]
    have : (g ^ (n + 4) - 1) * P ≤ (g ^ (n + 4) - 1) * ((g ^ (n + 4) + 1) * R) := mul_le_mul_of_nonneg_left (by rw [hP]; linarith) (by linarith)
    refine this.trans (le_of_eq ?_)
    ring

/-- what the reflection does to a component -/
theorem house_comp {n : Nat} {A b R w C β x v : ℚ} (hA : 0 < A) (hR : 0 < R) (hw : 0 < w) (hC : 0 ≤ C) (hβ : 0 ≤ β)
    (h1 : Near (n + 4) (R ^ 2) (A + b ^ 2)) (h3 : Near 1 C (A / w)) (h2 : (b ≤ 0 ∧ Near 1 w (-b + R)) ∨ (0 < b ∧ Near (n + 3) w (A / (b + R))))
    (h4 : Near (n + 5) β (2 * w ^ 2 / (A + w ^ 2))) (h5 : Near 1 |v| (|x| / w)) (h6 : v * x ≤ 0) :
    |x - β * v * (b - C)| ≤ (g ^ (7 * n + 27) - 1) * |x| := by
  have hx0 := abs_nonneg x
  have hv0 := abs_nonneg v
  -- reduction to absolute values
  have e1 : |x - β * v * (b - C)| = _root_.abs (β * |v| * (C - b) - |x|) := by
    rcases lt_trichotomy x 0 with hx | hx | hx
    · have hv : 0 ≤ v := by
        by_contra h; push Not at h
        have := mul_pos_of_neg_of_neg h hx; linarith
      rw [abs_of_neg hx, abs_of_nonneg hv]; congr 1; ring
    · subst hx
      have : v = 0 := by
        have := h5.1
        rw [abs_zero, zero_div, mul_zero] at this
        exact abs_eq_zero.mp (le_antisymm this hv0)
      subst this; simp
    · have hv : v ≤ 0 := by
        by_contra h; push Not at h
        have := mul_pos h hx; linarith
      rw [abs_of_pos hx, abs_of_nonpos hv, ← abs_neg]; congr 1; ring
  rw [e1]
  have k1 : Near (n + 6) (β * |v|) (2 * w ^ 2 / (A + w ^ 2) * (|x| / w)) := by
    have := near_mul h4 h5 hβ (by positivity) hv0 (by positivity)
    exact this
  have e2 : 2 * w ^ 2 / (A + w ^ 2) * (|x| / w) = |x| * (2 * w / (A + w ^ 2)) := by field_simp
  rw [e2] at k1
  have hgm : ∀ j, j ≤ 7 * n + 27 → (g ^ j - 1) * |x| ≤ (g ^ (7 * n + 27) - 1) * |x| := fun j hj =>
    mul_le_mul_of_nonneg_right (by have := gpow_mono hj; linarith) hx0
  rcases h2 with ⟨hb, h2⟩ | ⟨hb, h2⟩
  · have q := house_neg hA hR hw hC hb h1 h2 h3
    have hD : 0 ≤ C - b := by linarith
    have k2 := near_mul k1 (near_refl (C - b)) (by positivity) (by positivity) hD hD
    have e3 : |x| * (2 * w / (A + w ^ 2)) * (C - b) = |x| * (2 * w * (C - b) / (A + w ^ 2)) := by ring
    rw [e3] at k2
    have k3 := near_mul (near_refl |x|) q hx0 hx0 (by positivity) (by norm_num)
    rw [mul_one] at k3
    have k4 := near_abs_sub (near_trans k2 k3) (by positivity) hx0
    exact k4.trans (hgm _ (by omega))
  · obtain ⟨q, qd⟩ := house_pos hA hR hw hC hb h1 h2 h3
    have k2 := near_mul k1 (near_refl R) (by positivity) (by positivity) hR.le hR.le
    have e3 : |x| * (2 * w / (A + w ^ 2)) * R = |x| * (2 * w * R / (A + w ^ 2)) := by ring
    rw [e3] at k2
    have k3 := near_mul (near_refl |x|) q hx0 hx0 (by positivity) (by norm_num)
    rw [mul_one] at k3
    have k4 := near_trans k2 k3
    have e5 : n + 6 + 0 + (0 + (4 * n + 13)) = 5 * n + 19 := by omega
    rw [e5] at k4
    have k5 := near_abs_sub k4 (by positivity) hx0
    set Y := β * |v| * R with hY
    have hY0 : 0 ≤ Y := by positivity
    have k6 : |β * |v| * (C - b) - Y| ≤ (g ^ (2 * n + 8) - 1) * Y := by
      have e6 : β * |v| * (C - b) - Y = β * |v| * ((C - b) - R) := by rw [hY]; ring
      rw [e6, abs_mul, abs_of_nonneg (by positivity : 0 ≤ β * |v|)]
      refine (mul_le_mul_of_nonneg_left qd (by positivity)).trans (le_of_eq ?_)
      rw [hY]; ring
    have k7 : (g ^ (2 * n + 8) - 1) * Y ≤ (g ^ (2 * n + 8) - 1) * (g ^ (5 * n + 19) * |x|) := mul_le_mul_of_nonneg_left k4.1 (gpow_sub_nonneg _)
    have k8 := abs_add_le (β * |v| * (C - b) - Y) (Y - |x|)
    rw [sub_add_sub_cancel] at k8
    have e7 : g ^ (7 * n + 27) = g ^ (2 * n + 8) * g ^ (5 * n + 19) := by rw [← pow_add]; congr 1; omega
    rw [e7]
    refine k8.trans ?_
    have : (g ^ (2 * n + 8) * g ^ (5 * n + 19) - 1) * |x| = (g ^ (2 * n + 8) - 1) * (g ^ (5 * n + 19) * |x|) + (g ^ (5 * n + 19) - 1) * |x| := by ring
    linarith

/-! ### the computation -/

/-- an operation with a positive exact value in the normal range -/
theorem op_pos {s : Bool} {x : ℚ} {lo hi : ℤ} (h : Rg lo hi x) (h1 : -1022 ≤ lo) (h2 : hi ≤ 1022) :
    (ofExact s x).isFinite = true ∧ Near 1 (val (ofExact s x)) x ∧ Rg (lo - 1) (hi + 1) (val (ofExact s x)) := by
  have hx := rg_pos h
  obtain ⟨f, hn⟩ := op_near (s := s) (x := x) (lo := lo) (hi := hi) (Or.inr (by rw [abs_of_pos hx]; exact h)) h1 h2
  rw [abs_of_pos hx, abs_of_nonneg ((ofExact_sign f).1 hx.le)] at hn
  exact ⟨f, hn, rg_near (by norm_num) hn h⟩

theorem mul_pos' {x y : F64} {l1 h1 l2 h2 : ℤ} (fx : x.isFinite = true) (fy : y.isFinite = true) (rx : Rg l1 h1 (val x)) (ry : Rg l2 h2 (val y))
    (b1 : -1022 ≤ l1 + l2) (b2 : h1 + h2 ≤ 1022) : (x * y).isFinite = true ∧ Near 1 (val (x * y)) (val x * val y) ∧ Rg (l1 + l2 - 1) (h1 + h2 + 1) (val (x * y)) := by
  obtain ⟨s, e⟩ := mul_ex fx fy
  rw [e]; exact op_pos (rg_mul rx ry) b1 b2

theorem div_pos' {x y : F64} {l h : ℤ} (fx : x.isFinite = true) (fy : y.isFinite = true) (hy : val y ≠ 0) (r : Rg l h (val x / val y))
    (b1 : -1022 ≤ l) (b2 : h ≤ 1022) : (x / y).isFinite = true ∧ Near 1 (val (x / y)) (val x / val y) ∧ Rg (l - 1) (h + 1) (val (x / y)) := by
  obtain ⟨s, e⟩ := div_ex fx fy hy
  rw [e]; exact op_pos r b1 b2

theorem add_pos' {x y : F64} {l h : ℤ} (fx : x.isFinite = true) (fy : y.isFinite = true) (r : Rg l h (val x + val y))
    (b1 : -1022 ≤ l) (b2 : h ≤ 1022) : (x + y).isFinite = true ∧ Near 1 (val (x + y)) (val x + val y) ∧ Rg (l - 1) (h + 1) (val (x + y)) := by
  obtain ⟨s, e⟩ := add_ex fx fy
  rw [e]; exact op_pos r b1 b2

/-- entries of moderate size: zero, or between `2^-150` and `2^150` -/
def Mod (x : F64) : Prop := Rep x ∧ x.isFinite = true ∧ (val x = 0 ∨ Rg (-150) 150 |val x|)

theorem mod_sq {x : F64} (h : Mod x) : (x * x).isFinite = true ∧ 0 ≤ val (x * x) ∧ Near 1 (val (x * x)) (val x ^ 2) ∧ val x ^ 2 ≤ 2 ^ (300 : ℤ) ∧ val (x * x) ≤ 2 ^ (301 : ℤ) := by
  obtain ⟨-, f, hv⟩ := h
  obtain ⟨s, e⟩ := mul_ex f f
  have hr : val x * val x = 0 ∨ Rg (-300) 300 |val x * val x| := by
    rcases hv with hv | hv
    · left; rw [hv, mul_zero]
    · right; rw [abs_mul]; exact rg_mul hv hv
  obtain ⟨f', hn⟩ := op_near (s := s) hr (by norm_num) (by norm_num)
  have hs := (ofExact_sign f').1 (mul_self_nonneg _)
  have h3 : val x ^ 2 ≤ 2 ^ (300 : ℤ) := by
    rw [sq]
    rcases hr with hr | hr
    · rw [hr]; positivity
    · exact (le_abs_self _).trans hr.2
  rw [abs_of_nonneg hs, abs_of_nonneg (mul_self_nonneg _), ← sq] at hn
  rw [e, sq] at *
  refine ⟨f', hs, hn, h3, ?_⟩
  rcases hr with hr | hr
  · have := hn.1
    have h4 : g ^ 1 * (val x * val x) = 0 := by rw [hr, mul_zero]
    rw [h4] at this
    exact this.trans (by positivity)
  · rw [abs_of_nonneg (mul_self_nonneg _)] at hr
    exact (rg_near (by norm_num) hn hr).2

/-- the sum of the squares of the entries `1 .. n-1` -/
theorem house_sum0 {n : Nat} {x : Nat → F64} (hn : 0 < n) (hn2 : n ≤ 2 ^ 50) (hx : ∀ i < n, Mod (x i)) :
    (dotF 1 n x x).isFinite = true ∧ Near n (val (dotF 1 n x x)) (∑ k ∈ Finset.Ico 1 n, val (x k) ^ 2) ∧ (∑ k ∈ Finset.Ico 1 n, val (x k) ^ 2) ≤ 2 ^ (350 : ℤ) := by
  have hlen : (List.range' 1 (n - 1)).length = n - 1 := List.length_range'
  have hmem : ∀ k ∈ List.range' 1 (n - 1), k < n := by
    intro k hk; rw [List.mem_range'_1] at hk; omega
  set l := (List.range' 1 (n - 1)).map (fun k => x k * x k) with hl
  have hll : l.length = n - 1 := by rw [hl, List.length_map, hlen]
  have hrep : ∀ y ∈ l, Rep y := by
    intro y hy; obtain ⟨k, hk, rfl⟩ := List.mem_map.mp hy; exact rep_mul _ _
  have hfin : ∀ y ∈ l, y.isFinite = true := by
    intro y hy; obtain ⟨k, hk, rfl⟩ := List.mem_map.mp hy; exact (mod_sq (hx k (hmem k hk))).1
  have hpos : ∀ y ∈ l, 0 ≤ val y := by
    intro y hy; obtain ⟨k, hk, rfl⟩ := List.mem_map.mp hy; exact (mod_sq (hx k (hmem k hk))).2.1
  have hle : ∀ y ∈ l, |val y| ≤ 2 ^ (301 : ℤ) := by
    intro y hy
    rw [abs_of_nonneg (hpos y hy)]
    obtain ⟨k, hk, rfl⟩ := List.mem_map.mp hy; exact (mod_sq (hx k (hmem k hk))).2.2.2.2
  have hnq : (n : ℚ) ≤ 2 ^ (50 : ℤ) := by
    have : ((n : ℕ) : ℚ) ≤ ((2 ^ 50 : ℕ) : ℚ) := by exact_mod_cast hn2
    refine this.trans (le_of_eq ?_); norm_num
  have hlq : (l.length : ℚ) ≤ 2 ^ (50 : ℤ) := by
    refine le_trans ?_ hnq
    rw [hll]; exact_mod_cast Nat.sub_le n 1
  have hasum : asum l ≤ 2 ^ (351 : ℤ) := by
    have h1 : asum l ≤ l.length • (2 : ℚ) ^ (301 : ℤ) := by
      unfold asum
      have := List.sum_le_card_nsmul (l.map (fun x => |val x|)) ((2 : ℚ) ^ (301 : ℤ)) (by
        intro y hy; obtain ⟨z, hz, rfl⟩ := List.mem_map.mp hy; exact hle z hz)
      rwa [List.length_map] at this
    rw [nsmul_eq_mul] at h1
    have e : (2 : ℚ) ^ (351 : ℤ) = 2 ^ (50 : ℤ) * 2 ^ (301 : ℤ) := by rw [← zpow_add₀ (by norm_num)]; norm_num
    rw [e]
    exact h1.trans (mul_le_mul_of_nonneg_right hlq (two_zpow_pos _).le)
  have hf : (dotF 1 n x x).isFinite = true := by
    refine fsum_fin hrep hfin ?_
    have h2 : g ^ l.length ≤ 2 := gpow_le_two (by rw [hll]; omega)
    have h3 : g ^ l.length * asum l ≤ 2 * 2 ^ (351 : ℤ) := mul_le_mul h2 hasum (asum_nonneg l) (by norm_num)
    refine lt_of_le_of_lt h3 ?_
    rw [← zpow_one_add₀ (by norm_num), ← zpow_natCast]
    exact zpow_lt_zpow_right₀ (by norm_num) (by norm_num)
  have hs := fsum_near l 0 rep_zero' hrep (by rw [val_zero]) hpos hf
  rw [val_zero, zero_add] at hs
  have hv : Near 1 (vsum l) (∑ k ∈ Finset.Ico 1 n, val (x k) ^ 2) := by
    have e1 : vsum l = ∑ k ∈ Finset.Ico 1 n, val (x k * x k) := by
      unfold vsum
      rw [hl, List.map_map]
      have := range'_sum 1 (n - 1) (fun k => val (x k * x k))
      rw [show 1 + (n - 1) = n by omega] at this
      exact this
    rw [e1]
    refine near_sum _ _ _ fun k hk => ?_
    exact (mod_sq (hx k (Finset.mem_Ico.mp hk).2)).2.2.1
  have hA : (∑ k ∈ Finset.Ico 1 n, val (x k) ^ 2) ≤ 2 ^ (350 : ℤ) := by
    have h1 := Finset.sum_le_card_nsmul (Finset.Ico 1 n) (fun k => val (x k) ^ 2) ((2 : ℚ) ^ (300 : ℤ)) (fun k hk => (mod_sq (hx k (Finset.mem_Ico.mp hk).2)).2.2.2.1)
    rw [nsmul_eq_mul, Nat.card_Ico] at h1
    have e : (2 : ℚ) ^ (350 : ℤ) = 2 ^ (50 : ℤ) * 2 ^ (300 : ℤ) := by rw [← zpow_add₀ (by norm_num)]; norm_num
    rw [e]
    refine h1.trans (mul_le_mul_of_nonneg_right ?_ (two_zpow_pos _).le)
    exact (show ((n - 1 : ℕ) : ℚ) ≤ n by exact_mod_cast Nat.sub_le n 1).trans hnq
  have hN : Near n (val (dotF 1 n x x)) (∑ k ∈ Finset.Ico 1 n, val (x k) ^ 2) := by
    have := near_trans hs hv
    rw [hll, Nat.sub_add_cancel hn] at this
    exact this
  exact ⟨hf, hN, hA⟩

theorem house_sum {n : Nat} {x : Nat → F64} (hn : 0 < n) (hn2 : n ≤ 2 ^ 50) (hx : ∀ i < n, Mod (x i)) (h0 : ∃ i, 1 ≤ i ∧ i < n ∧ val (x i) ≠ 0) :
    (dotF 1 n x x).isFinite = true ∧ Near n (val (dotF 1 n x x)) (∑ k ∈ Finset.Ico 1 n, val (x k) ^ 2) ∧
    Rg (-300) 350 (∑ k ∈ Finset.Ico 1 n, val (x k) ^ 2) ∧ Rg (-301) 351 (val (dotF 1 n x x)) := by
  obtain ⟨hf, hN, hU⟩ := house_sum0 hn hn2 hx
  have hA : Rg (-300) 350 (∑ k ∈ Finset.Ico 1 n, val (x k) ^ 2) := by
    constructor
    · obtain ⟨i, h1, h2, h3⟩ := h0
      have := Finset.single_le_sum (f := fun k => val (x k) ^ 2) (s := Finset.Ico 1 n) (fun k _ => sq_nonneg _) (Finset.mem_Ico.mpr ⟨h1, h2⟩)
      refine le_trans ?_ this
      rcases (hx i h2).2.2 with h4 | h4
      · exact absurd h4 h3
      · have := (rg_sq h4).1
        rw [sq_abs] at this
        exact this
    · exact hU
  exact ⟨hf, hN, hA, rg_near (by omega) hN hA⟩

/-- the square root of a positive number -/
theorem sqrt_pos' {x : F64} {l h : ℤ} (hr : Rep x) (hf : x.isFinite = true) (rx : Rg (2 * l) (2 * h) (val x)) :
    (sqrt x).isFinite = true ∧ Near 2 (val (sqrt x) ^ 2) (val x) ∧ Rg (l - 1) (h + 1) (val (sqrt x)) := by
  obtain ⟨h1, -, h3, h4, h5⟩ := sqrt_spec hr hf (rg_pos rx).le
  have hN : Near 2 (val (sqrt x) ^ 2) (val x) := ⟨h4, h5⟩
  refine ⟨h1, hN, rg_of_sq h3 ?_⟩
  exact rg_mono (rg_near (by norm_num) hN rx) (by omega) (by omega)

/-- the sign of a negative operation -/
theorem op_neg {s : Bool} {x : ℚ} {lo hi : ℤ} (h : Rg lo hi (-x)) (h1 : -1022 ≤ lo) (h2 : hi ≤ 1022) :
    (ofExact s x).isFinite = true ∧ Near 1 (-val (ofExact s x)) (-x) ∧ Rg (lo - 1) (hi + 1) (-val (ofExact s x)) := by
  have hx : x < 0 := by have := rg_pos h; linarith
  obtain ⟨f, hn⟩ := op_near (s := s) (x := x) (lo := lo) (hi := hi) (Or.inr (by rw [abs_of_neg hx]; exact h)) h1 h2
  rw [abs_of_neg hx, abs_of_nonpos ((ofExact_sign f).2 hx.le)] at hn
  exact ⟨f, hn, rg_near (by norm_num) hn h⟩

/-- bounds for the first entry before the division, `w = -v0` -/
theorem house_w {n : Nat} {a b v0 : F64} {A : ℚ} (hn : 0 < n) (hn2 : n ≤ 2 ^ 50) (hra : Rep a) (fa : a.isFinite = true) (na : Near n (val a) A) (rA : Rg (-300) 350 A) (ra : Rg (-301) 351 (val a)) (hb : Mod b)
    (hv0 : v0 = if b.le 0 then b - (a + b * b).sqrt else -a / (b + (a + b * b).sqrt)) :
    let R := val (a + b * b).sqrt
    v0.isFinite = true ∧ 0 < R ∧ Near (n + 4) (R ^ 2) (A + val b ^ 2) ∧ Rg (-482) 505 (-val v0) ∧ val a ≤ 2 ^ (670 : ℤ) * (-val v0) ^ 2 ∧
    ((val b ≤ 0 ∧ Near 1 (-val v0) (-val b + R)) ∨ (0 < val b ∧ Near (n + 3) (-val v0) (A / (val b + R)))) := by
  intro R
  obtain ⟨q1, q2, q3, q4, q5⟩ := mod_sq hb
  have hA := rg_pos rA
  have ha := rg_pos ra
  obtain ⟨s1, s2, s3⟩ := add_pos' (x := a) (y := b * b) (l := -301) (h := 352) fa q1 (rg_add ra q2 (q5.trans (zpow_le_zpow_right₀ (by norm_num) (by norm_num)))) (by norm_num) (by norm_num)
  obtain ⟨r1, r2, r3⟩ := sqrt_pos' (l := -151) (h := 177) (rep_add _ _) s1 (rg_mono s3 (by norm_num) (by norm_num))
  have hR : 0 < R := rg_pos r3
  have nS : Near (n + 4) (R ^ 2) (A + val b ^ 2) := by
    have h1 : Near n (val a + val (b * b)) (A + val b ^ 2) := near_add na (near_mono q3 hn q2 (sq_nonneg _))
    have h2 := near_trans r2 (near_trans s2 h1)
    exact near_mono h2 (by omega) (sq_nonneg _) (by positivity)
  have hab : |val b| ≤ 2 ^ (150 : ℤ) := by
    rcases hb.2.2 with h | h
    · rw [h, abs_zero]; positivity
    · exact h.2
  have hble : b.le 0 = true ↔ val b ≤ 0 := by rw [le_fin hb.2.1 rfl, val_zero]
  rw [show -151 - 1 = (-152 : ℤ) by norm_num, show (177 : ℤ) + 1 = 178 by norm_num] at r3
  have a351 := ra.2
  by_cases hbs : val b ≤ 0
  · rw [if_pos (hble.mpr hbs)] at hv0
    obtain ⟨s, e⟩ := sub_ex hb.2.1 r1
    have hrg : Rg (-152) 179 (-(val b - R)) := by
      have e2 : -(val b - R) = R + -val b := by ring
      rw [e2]
      refine rg_add r3 (by linarith) ?_
      rw [← abs_of_nonpos hbs]
      exact hab.trans (zpow_le_zpow_right₀ (by norm_num) (by norm_num))
    obtain ⟨o1, o2, o3⟩ := op_neg (s := s) hrg (by norm_num) (by norm_num)
    rw [← e, ← hv0] at o1 o2 o3
    refine ⟨o1, hR, nS, rg_mono o3 (by norm_num) (by norm_num), ?_, Or.inl ⟨hbs, ?_⟩⟩
    · have h1 := (rg_sq o3).1
      have h2 : (2 : ℚ) ^ (670 : ℤ) * 2 ^ (2 * (-152 - 1) : ℤ) ≤ 2 ^ (670 : ℤ) * (-val v0) ^ 2 := mul_le_mul_of_nonneg_left h1 (two_zpow_pos _).le
      refine a351.trans (le_trans ?_ h2)
      rw [← zpow_add₀ (by norm_num)]
      exact zpow_le_zpow_right₀ (by norm_num) (by norm_num)
    · have e2 : -(val b - R) = -val b + R := by ring
      rw [e2] at o2; exact o2
  · have hbp : 0 < val b := by push Not at hbs; exact hbs
    rw [if_neg (fun h => hbs (hble.mp h))] at hv0
    have rp : Rg (-152) 179 (val b + R) := by
      rw [add_comm]
      refine rg_add r3 hbp.le ?_
      rw [← abs_of_pos hbp]
      exact hab.trans (zpow_le_zpow_right₀ (by norm_num) (by norm_num))
    obtain ⟨p1, p2, p3⟩ := add_pos' hb.2.1 r1 rp (by norm_num) (by norm_num)
    have hP := rg_pos p3
    have hP' := rg_pos rp
    set p := b + (a + b * b).sqrt with hp
    obtain ⟨s, e⟩ := div_ex (x := -a) (y := p) (by rw [fin_neg]; exact fa) p1 hP.ne'
    rw [val_neg] at e
    have hrg : Rg (-301 - (179 + 1)) (351 - (-152 - 1)) (-(-val a / val p)) := by
      rw [neg_div, neg_neg]
      exact rg_div ra p3
    obtain ⟨o1, o2, o3⟩ := op_neg (s := s) hrg (by norm_num) (by norm_num)
    rw [← e, ← hv0] at o1 o2 o3
    rw [neg_div, neg_neg] at o2
    refine ⟨o1, hR, nS, rg_mono o3 (by norm_num) (by norm_num), ?_, Or.inr ⟨hbp, ?_⟩⟩
    · have hw := rg_pos o3
      have h1 : val a ≤ 2 ^ (181 : ℤ) * -val v0 := by
        have h2 := o2.2
        rw [pow_one, div_le_iff₀ hP] at h2
        have h3 : g ≤ 2 := by have := gpow_le_two (k := 1) (by norm_num); rwa [pow_one] at this
        have h4 : g * -val v0 * val p ≤ 2 * -val v0 * 2 ^ (180 : ℤ) :=
          mul_le_mul (mul_le_mul_of_nonneg_right h3 hw.le) p3.2 hP.le (by linarith)
        have e2 : (2 : ℚ) ^ (181 : ℤ) = 2 * 2 ^ (180 : ℤ) := by rw [← zpow_one_add₀ (by norm_num)]; norm_num
        rw [e2]; linarith
      have h2 : val a ^ 2 ≤ (2 ^ (181 : ℤ) * -val v0) ^ 2 := pow_le_pow_left₀ ha.le h1 2
      have h3 : val a * 2 ^ (-301 : ℤ) ≤ val a ^ 2 := by rw [sq]; exact mul_le_mul_of_nonneg_left ra.1 ha.le
      rw [mul_pow, ← zpow_natCast ((2 : ℚ) ^ (181 : ℤ)), ← zpow_mul] at h2
      have h4 := mul_le_mul_of_nonneg_right (h3.trans h2) (two_zpow_pos (K := ℚ) 301).le
      rw [mul_assoc, ← zpow_add₀ (by norm_num), mul_right_comm, ← zpow_add₀ (by norm_num)] at h4
      norm_num at h4
      refine h4.trans ?_
      have h5 : (2 : ℚ) ^ (663 : ℤ) ≤ 2 ^ (670 : ℤ) := zpow_le_zpow_right₀ (by norm_num) (by norm_num)
      have := mul_le_mul_of_nonneg_right h5 (sq_nonneg (val v0))
      rw [neg_sq]
      refine le_trans (le_of_eq ?_) this
      norm_num
    · have h1 := near_div na p2 ha.le hA.le hP hP'
      have h2 := near_trans o2 h1
      exact near_mono h2 (by omega) (rg_pos o3).le (div_pos hA hP').le

/-- the quotient of the last line -/
theorem house_ratio {a d t q : ℚ} (ha : 0 < a) (hd : 0 < d) (h : a ≤ 2 ^ (671 : ℤ) * d) (ht : Near 1 t (2 * d)) (hq : Near 1 q (a + d)) : Rg (-674) 3 (t / q) := by
  have hg : g ≤ 2 := by have := gpow_le_two (k := 1) (by norm_num); rwa [pow_one] at this
  have hg1 := g_ge
  have gp := g_pos
  obtain ⟨t1, t2⟩ := ht
  obtain ⟨q1, q2⟩ := hq
  rw [pow_one] at t1 t2 q1 q2
  have ht0 : 0 < t := pos_of_mul_pos_right (lt_of_lt_of_le (by linarith : 0 < 2 * d) t2) gp.le
  have hq0 : 0 < q := pos_of_mul_pos_right (lt_of_lt_of_le (by linarith : 0 < a + d) q2) gp.le
  have u1 : t ≤ 4 * d := by nlinarith
  have u2 : d ≤ t := by nlinarith
  have u3 : q ≤ 2 * (a + d) := by nlinarith
  have u4 : a + d ≤ 2 * q := by nlinarith
  constructor
  · rw [le_div_iff₀ hq0]
    have h1 : q ≤ 2 ^ (674 : ℤ) * d := by
      have e : (2 : ℚ) ^ (674 : ℤ) = 8 * 2 ^ (671 : ℤ) := by
        have : (8 : ℚ) = 2 ^ (3 : ℤ) := by norm_num
        rw [this, ← zpow_add₀ (by norm_num)]; norm_num
      have h1 : (1 : ℚ) ≤ 2 ^ (671 : ℤ) := one_le_zpow₀ (by norm_num) (by norm_num)
      rw [e]
      generalize (2 : ℚ) ^ (671 : ℤ) = P at *
      have := mul_le_mul_of_nonneg_right h1 hd.le
      linarith
    have h2 := mul_le_mul_of_nonneg_left h1 (two_zpow_pos (K := ℚ) (-674)).le
    rw [← mul_assoc, ← zpow_add₀ (by norm_num)] at h2
    norm_num at h2 ⊢
    linarith
  · rw [div_le_iff₀ hq0]; norm_num; linarith

theorem lit_two : val (lit 2) = 2 ∧ (lit 2).isFinite = true := by constructor <;> decide +kernel

/-- the factor `β` -/
theorem house_beta {n : Nat} {a v0 : F64} {A : ℚ} (hn : 0 < n) (fa : a.isFinite = true) (fv : v0.isFinite = true) (na : Near n (val a) A) (hA : 0 < A) (ra : Rg (-301) 351 (val a)) (rw0 : Rg (-482) 505 (-val v0))
    (hq : val a ≤ 2 ^ (670 : ℤ) * (-val v0) ^ 2) :
    (lit 2 * (v0 * v0) / (a + v0 * v0)).isFinite = true ∧ 0 < val (lit 2 * (v0 * v0) / (a + v0 * v0)) ∧
    Near (n + 5) (val (lit 2 * (v0 * v0) / (a + v0 * v0))) (2 * (-val v0) ^ 2 / (A + (-val v0) ^ 2)) := by
  obtain ⟨t2, f2⟩ := lit_two
  have ha := rg_pos ra
  set w := -val v0 with hw
  have w0 := rg_pos rw0
  obtain ⟨s, e⟩ := mul_ex fv fv
  have hsq : val v0 * val v0 = w ^ 2 := by rw [hw]; ring
  rw [hsq] at e
  obtain ⟨d1, d2, d3⟩ := op_pos (s := s) (rg_sq rw0) (by norm_num) (by norm_num)
  rw [← e] at d1 d2 d3
  set d := v0 * v0 with hd
  have d0 := rg_pos d3
  have r2 : Rg 1 1 (val (lit 2)) := by rw [t2]; unfold Rg; norm_num
  obtain ⟨m1, m2, m3⟩ := mul_pos' f2 d1 r2 d3 (by norm_num) (by norm_num)
  rw [t2] at m2
  have rs : Rg (-301) (1011 + 1) (val a + val d) :=
    rg_add (rg_mono ra le_rfl (by norm_num)) d0.le (d3.2.trans (zpow_le_zpow_right₀ (by norm_num) (by norm_num)))
  obtain ⟨p1, p2, p3⟩ := add_pos' fa d1 rs (by norm_num) (by norm_num)
  have p0 := rg_pos p3
  have m0 := rg_pos m3
  have hq2 : val a ≤ 2 ^ (671 : ℤ) * val d := by
    have h1 := d2.2
    have hg : g ≤ 2 := by have := gpow_le_two (k := 1) (by norm_num); rwa [pow_one] at this
    rw [pow_one] at h1
    have e2 : (2 : ℚ) ^ (671 : ℤ) = 2 ^ (670 : ℤ) * 2 := by
      rw [← zpow_add_one₀ (by norm_num)]; norm_num
    rw [e2, mul_assoc]
    refine hq.trans (mul_le_mul_of_nonneg_left ?_ (two_zpow_pos _).le)
    have := mul_le_mul_of_nonneg_right hg d0.le
    linarith
  obtain ⟨b1, b2, b3⟩ := div_pos' m1 p1 p0.ne' (house_ratio ha d0 hq2 m2 p2) (by norm_num) (by norm_num)
  refine ⟨b1, rg_pos b3, ?_⟩
  have hw2 : 0 < w ^ 2 := pow_pos w0 2
  have k1 : Near (1 + (0 + 1)) (val (lit 2 * d)) (2 * w ^ 2) :=
    near_trans m2 (near_mul (near_refl 2) d2 (by norm_num) (by norm_num) d0.le hw2.le)
  have k2 : Near (1 + n) (val (a + d)) (A + w ^ 2) := near_trans p2 (near_add na (near_mono d2 hn d0.le hw2.le))
  have k3 := near_div k1 k2 m0.le (by linarith) p0 (by linarith)
  have k4 := near_trans b2 k3
  exact near_mono k4 (by omega) (rg_pos b3).le (div_nonneg (by linarith) (by linarith))

/-- the entries after the division -/
theorem house_entry {y v0 : F64} (hy : Mod y) (fv : v0.isFinite = true) (rw0 : Rg (-482) 505 (-val v0)) :
    (y / v0).isFinite = true ∧ Near 1 |val (y / v0)| (|val y| / -val v0) ∧ val (y / v0) * val y ≤ 0 := by
  have w0 := rg_pos rw0
  have hv : val v0 < 0 := by linarith
  obtain ⟨s, e⟩ := div_ex hy.2.1 fv hv.ne
  have hab : |val y / val v0| = |val y| / -val v0 := by rw [abs_div, abs_of_neg hv]
  have hr : val y / val v0 = 0 ∨ Rg (-150 - 505) (150 - -482) |val y / val v0| := by
    rcases hy.2.2 with h | h
    · left; rw [h, zero_div]
    · right; rw [hab]; exact rg_div h rw0
  obtain ⟨f, hn⟩ := op_near (s := s) hr (by norm_num) (by norm_num)
  rw [← e, hab] at hn
  have hs := ofExact_sign f
  rw [← e] at f hs
  refine ⟨f, hn, ?_⟩
  rcases le_total 0 (val y) with h | h
  · exact mul_nonpos_of_nonpos_of_nonneg (hs.2 (div_nonpos_of_nonneg_of_nonpos h hv.le)) h
  · exact mul_nonpos_of_nonneg_of_nonpos (hs.1 (div_nonneg_of_nonpos h hv.le)) h

theorem div_self' {x : F64} (fx : x.isFinite = true) (h : val x ≠ 0) : (x / x).isFinite = true ∧ val (x / x) = 1 := by
  obtain ⟨s, e⟩ := div_ex fx fx h
  rw [div_self h] at e
  rw [e]
  refine ofExact_exact ⟨1, 0, ?_⟩ ?_
  · norm_num
  · rw [abs_one]; exact one_lt_pow₀ (by norm_num) (by norm_num)

theorem eqv_zero {x : F64} (fx : x.isFinite = true) : x.eqv 0 = true ↔ val x = 0 := by
  obtain ⟨s, m, rfl⟩ := fin_iff.mp fx
  rw [zero_def, eqv, decide_eq_true_iff]; exact Iff.rfl

/-- **C110**: `householder_vec` on a column of at most `2^50` finite numbers, each zero or of absolute value between `2^-150` and `2^150`.  The answer `(v, β)` consists
of finite numbers and `v 0 = 1`.  If an entry below the first is not zero, then `β vᵀv = 2` up to a relative error of `(1 + u)^(n + 7)` (so `H = I - β v vᵀ` is a
reflection up to rounding), and `H x` has the components `x i - β v i (vᵀ x)`, `i ≥ 1`, zero up to `((1 + u)^(7n + 27) - 1) |x i|`: each entry below the first is annihilated
with a small error relative to itself.  If all entries below the first are zero, then `v` is the first unit vector and `β` is `0` for `x 0 ≥ 0`, `-2` for `x 0 < 0`. -/
theorem c110_householder (n : Nat) (x : Nat → F64) (hn : 0 < n) (hn2 : n ≤ 2 ^ 50)
    (hx : ∀ i < n, Rep (x i) ∧ (x i).isFinite = true ∧ (val (x i) = 0 ∨ (2 : ℚ) ^ (-150 : ℤ) ≤ |val (x i)| ∧ |val (x i)| ≤ 2 ^ (150 : ℤ))) :
    ∃ v β, householderVec n x = some (v, β) ∧ (∀ i < n, (v i).isFinite = true) ∧ β.isFinite = true ∧ val (v 0) = 1 ∧
    ((∃ i, 1 ≤ i ∧ i < n ∧ val (x i) ≠ 0) →
      val β * ∑ i ∈ Finset.range n, val (v i) ^ 2 ≤ (1 + u) ^ (n + 7) * 2 ∧ 2 ≤ (1 + u) ^ (n + 7) * (val β * ∑ i ∈ Finset.range n, val (v i) ^ 2) ∧
      ∀ i, 1 ≤ i → i < n → |val (x i) - val β * val (v i) * ∑ j ∈ Finset.range n, val (v j) * val (x j)| ≤ ((1 + u) ^ (7 * n + 27) - 1) * |val (x i)|) ∧
    ((∀ i, 1 ≤ i → i < n → val (x i) = 0) → (∀ i, 1 ≤ i → i < n → val (v i) = 0) ∧ val β = if 0 ≤ val (x 0) then 0 else -2) := by
  have hm : ∀ i < n, Mod (x i) := hx
  have hb := hm 0 hn
  have split : ∀ f : Nat → ℚ, ∑ i ∈ Finset.range n, f i = f 0 + ∑ i ∈ Finset.Ico 1 n, f i := by
    intro f
    rw [Finset.range_eq_Ico, Finset.sum_eq_sum_Ico_succ_bot hn]
  by_cases h0 : ∃ i, 1 ≤ i ∧ i < n ∧ val (x i) ≠ 0
  · obtain ⟨fa, na, rA, ra⟩ := house_sum hn hn2 hm h0
    set a := dotF 1 n x x with ha
    set A := ∑ k ∈ Finset.Ico 1 n, val (x k) ^ 2 with hA
    have hA0 := rg_pos rA
    have ha0 : a.eqv 0 = false := by
      rw [Bool.eq_false_iff]; intro h
      exact (rg_pos ra).ne' ((eqv_zero fa).mp h)
    set v0 := (if (x 0).le 0 then x 0 - (a + x 0 * x 0).sqrt else -a / (x 0 + (a + x 0 * x 0).sqrt)) with hv0
    obtain ⟨fv, hR, nS, rw0, hq, hcase⟩ := house_w hn hn2 rep_dotF fa na rA ra hb hv0
    set R := val (a + x 0 * x 0).sqrt with hRd
    obtain ⟨fβ, β0, nβ⟩ := house_beta hn fa fv na hA0 ra rw0 hq
    set β := lit 2 * (v0 * v0) / (a + v0 * v0) with hβ
    have hw := rg_pos rw0
    have hv0n : val v0 ≠ 0 := by intro h'; rw [h', neg_zero] at hw; exact lt_irrefl _ hw
    obtain ⟨f0, e0⟩ := div_self' fv hv0n
    have he : householderVec n x = some (fun i => (if i = 0 then v0 else x i) / v0, β) := by
      unfold householderVec
      rw [if_neg hn.ne']
      simp only [← ha, ha0, Bool.false_and, Bool.false_eq_true, if_false]
      rfl
    have hent : ∀ i, 1 ≤ i → i < n → (x i / v0).isFinite = true ∧ Near 1 |val (x i / v0)| (|val (x i)| / -val v0) ∧ val (x i / v0) * val (x i) ≤ 0 :=
      fun i h1 h2 => house_entry (hm i h2) fv rw0
    have hif : ∀ i, 1 ≤ i → (if i = 0 then v0 else x i) / v0 = x i / v0 := fun i hi => by rw [if_neg (by omega)]
    refine ⟨_, β, he, ?_, fβ, e0, fun _ => ?_, fun h => ?_⟩
    · intro i hi
      rcases Nat.eq_zero_or_pos i with rfl | hp
      · exact f0
      · rw [hif i hp]; exact (hent i hp hi).1
    · set w := -val v0 with hwd
      have hw2 : 0 < w ^ 2 := pow_pos hw 2
      set C := ∑ i ∈ Finset.Ico 1 n, |val (x i / v0)| * |val (x i)| with hC
      have hC0 : 0 ≤ C := Finset.sum_nonneg fun i _ => mul_nonneg (abs_nonneg _) (abs_nonneg _)
      have nC : Near 1 C (A / w) := by
        have e : A / w = ∑ i ∈ Finset.Ico 1 n, |val (x i)| / w * |val (x i)| := by
          rw [hA, Finset.sum_div]
          refine Finset.sum_congr rfl fun i _ => ?_
          rw [← sq_abs]; ring
        rw [e]
        refine near_sum _ _ _ fun i hi => ?_
        rw [Finset.mem_Ico] at hi
        have := near_mul (hent i hi.1 hi.2).2.1 (near_refl |val (x i)|) (abs_nonneg _) (div_nonneg (abs_nonneg _) hw.le) (abs_nonneg _) (abs_nonneg _)
        simpa using this
      have key : Near (n + 7) (val β * ∑ i ∈ Finset.range n, val ((if i = 0 then v0 else x i) / v0) ^ 2) 2 := by
        rw [split, if_pos rfl, e0]
        have e : ∑ i ∈ Finset.Ico 1 n, val ((if i = 0 then v0 else x i) / v0) ^ 2 = ∑ i ∈ Finset.Ico 1 n, |val (x i / v0)| ^ 2 :=
          Finset.sum_congr rfl fun i hi => by rw [hif i (Finset.mem_Ico.mp hi).1, sq_abs]
        rw [e]
        have h1 : Near 2 (∑ i ∈ Finset.Ico 1 n, |val (x i / v0)| ^ 2) (A / w ^ 2) := by
          have e : A / w ^ 2 = ∑ i ∈ Finset.Ico 1 n, (|val (x i)| / w) ^ 2 := by
            rw [hA, Finset.sum_div]
            refine Finset.sum_congr rfl fun i _ => ?_
            rw [div_pow, sq_abs]
          rw [e]
          refine near_sum _ _ _ fun i hi => ?_
          rw [Finset.mem_Ico] at hi
          exact FloatAlg.near_sq (hent i hi.1 hi.2).2.1 (abs_nonneg _) (div_nonneg (abs_nonneg _) hw.le)
        have h2 : Near 2 (1 ^ 2 + ∑ i ∈ Finset.Ico 1 n, |val (x i / v0)| ^ 2) (1 + A / w ^ 2) := by
          rw [one_pow]
          exact near_add (near_mono (near_refl 1) (by norm_num) (by norm_num) (by norm_num)) h1
        have hs : 0 ≤ ∑ i ∈ Finset.Ico 1 n, |val (x i / v0)| ^ 2 := Finset.sum_nonneg fun i _ => sq_nonneg _
        have h3 := near_mul nβ h2 β0.le (by positivity) (by positivity) (by positivity)
        have e3 : 2 * w ^ 2 / (A + w ^ 2) * (1 + A / w ^ 2) = 2 := by field_simp; ring
        rw [e3] at h3
        exact h3
      refine ⟨key.1, key.2, fun i h1 h2 => ?_⟩
      have es : ∑ j ∈ Finset.range n, val ((if j = 0 then v0 else x j) / v0) * val (x j) = val (x 0) - C := by
        rw [split, if_pos rfl, e0, one_mul, hC, sub_eq_add_neg, ← Finset.sum_neg_distrib]
        congr 1
        refine Finset.sum_congr rfl fun j hj => ?_
        rw [Finset.mem_Ico] at hj
        rw [hif j hj.1, ← abs_mul, abs_of_nonpos (hent j hj.1 hj.2).2.2, neg_neg]
      rw [es, hif i h1]
      exact house_comp hA0 hR hw hC0 β0.le nS nC hcase nβ (hent i h1 h2).2.1 (hent i h1 h2).2.2
    · obtain ⟨i, h1, h2, h3⟩ := h0
      exact absurd (h i h1 h2) h3
  · have h0' : ∀ i, 1 ≤ i → i < n → val (x i) = 0 := by
      intro i h1 h2; by_contra h; exact h0 ⟨i, h1, h2, h⟩
    obtain ⟨fa, na, -⟩ := house_sum0 hn hn2 hm
    have hA : ∑ k ∈ Finset.Ico 1 n, val (x k) ^ 2 = 0 := by
      refine Finset.sum_eq_zero fun k hk => ?_
      rw [Finset.mem_Ico] at hk
      rw [h0' k hk.1 hk.2]; norm_num
    rw [hA] at na
    have hav : val (dotF 1 n x x) = 0 := by
      obtain ⟨n1, n2⟩ := na
      rw [mul_zero] at n1
      exact le_antisymm n1 (nonneg_of_mul_nonneg_right n2 (pow_pos g_pos n))
    have ha0 : (dotF 1 n x x).eqv 0 = true := (eqv_zero fa).mpr hav
    have hfin : ∀ i < n, (if i = 0 then (1 : F64) else x i).isFinite = true := by
      intro i hi
      split
      · rfl
      · exact (hm i hi).2.1
    have hv : ∀ i, 1 ≤ i → i < n → val (if i = 0 then (1 : F64) else x i) = 0 := by
      intro i h1 h2; rw [if_neg (by omega)]; exact h0' i h1 h2
    have hle : le 0 (x 0) = true ↔ 0 ≤ val (x 0) := by rw [le_fin rfl hb.2.1, val_zero]
    have hlt : (x 0).lt 0 = true ↔ val (x 0) < 0 := by rw [lt_fin hb.2.1 rfl, val_zero]
    by_cases hs : 0 ≤ val (x 0)
    · refine ⟨fun i => if i = 0 then 1 else x i, 0, ?_, hfin, rfl, rfl, fun h => absurd h h0, fun _ => ⟨hv, ?_⟩⟩
      · unfold householderVec
        rw [if_neg hn.ne']
        simp only [ha0, hle.mpr hs, Bool.and_self, if_true]
      · rw [if_pos hs]; rfl
    · have hle' : le 0 (x 0) = false := by rw [Bool.eq_false_iff]; exact fun h => hs (hle.mp h)
      refine ⟨fun i => if i = 0 then 1 else x i, lit (-2), ?_, hfin, by decide +kernel, rfl, fun h => absurd h h0, fun _ => ⟨hv, ?_⟩⟩
      · unfold householderVec
        rw [if_neg hn.ne']
        simp only [ha0, hle', hlt.mpr (not_le.mp hs), Bool.and_self, Bool.and_false, Bool.false_eq_true, if_false, if_true]
      · rw [if_neg hs]; decide +kernel

/-- a concrete case: `x = (3, 4)` -/
example : ∀ i < 2, Rep ((fun i => if i = 0 then num false 3 else num false 4) i) ∧ ((fun i => if i = 0 then num false 3 else num false 4 : Nat → F64) i).isFinite = true ∧
    (val ((fun i => if i = 0 then num false 3 else num false 4 : Nat → F64) i) = 0 ∨
      (2 : ℚ) ^ (-150 : ℤ) ≤ |val ((fun i => if i = 0 then num false 3 else num false 4 : Nat → F64) i)| ∧ |val ((fun i => if i = 0 then num false 3 else num false 4 : Nat → F64) i)| ≤ 2 ^ (150 : ℤ)) := by
  intro i hi
  interval_cases i
  · exact ⟨⟨3, 0, by norm_num, by norm_num, by norm_num, by norm_num⟩, rfl, Or.inr (by norm_num [val])⟩
  · exact ⟨⟨4, 0, by norm_num, by norm_num, by norm_num, by norm_num⟩, rfl, Or.inr (by norm_num [val])⟩

/-! ### outside of this range -/

/-- the square root of a square is exact -/
theorem sqrt_square {q : ℚ} (hq : 0 < q) (hr : RepM q) : sqrt (num false (q * q)) = num false q := by
  have h : q * q ≠ 0 := (mul_pos hq hq).ne'
  simp only [sqrt, if_neg h, Bool.false_eq_true, if_false]
  have e : Real.sqrt ((q * q : ℚ) : ℝ) = (q : ℝ) := by
    push_cast
    exact Real.sqrt_mul_self (by exact_mod_cast hq.le)
  rw [e]
  have hr' : RepM (q : ℝ) := by
    obtain ⟨k, ex, h1, h2, rfl⟩ := hr
    exact ⟨k, ex, h1, h2, by push_cast; rfl⟩
  have := rnd_fixed hr' (by exact_mod_cast hq)
  congr 1
  exact_mod_cast this

/-- a column with two entries -/
def pair (p q : F64) : Nat → F64 := fun i => if i = 0 then p else q

theorem dot_pair (p q : F64) : dotF 1 2 (pair p q) (pair p q) = 0 + q * q := rfl

/-- `householder_vec` with given intermediate results -/
theorem house_eval {n : Nat} {x : Nat → F64} {a b r v0 : F64} (hn : 0 < n) (ha : dotF 1 n x x = a) (hb : x 0 = b) (h0 : a.eqv 0 = false) (hr : sqrt (a + b * b) = r)
    (hv : (if b.le 0 then b - r else -a / (b + r)) = v0) : householderVec n x = some (fun i => (if i = 0 then v0 else x i) / v0, lit 2 * (v0 * v0) / (a + v0 * v0)) := by
  unfold householderVec
  rw [if_neg hn.ne']
  simp only [ha, hb, hr, hv, h0, Bool.false_and, Bool.false_eq_true, if_false]

/-- **C110**: what the statement above leaves out does fail.  (1) For the finite, nonzero column `(2^500, 2^-500)` the first entry underflows to zero and the answer has
the entry NaN.  (2) For `(2^600, 2^600)` the sum of squares overflows and all of the answer is NaN.  (3) For `(0, 1.1875 * 2^-537)` the answer is finite, but `H` is far from
a reflection: `β vᵀv = 2.41015625`.  (4) For the column `(-1)` the answer is `v = 1`, `β = -2`, so `H` multiplies by 3. -/
theorem c110_householder_limits :
    (∃ v β, householderVec 2 (pair (num false (2 ^ 500)) (num false ((2 ^ 500)⁻¹))) = some (v, β) ∧ v 0 = nan ∧ v 1 = inf true ∧ β = 0) ∧
    (∃ v, householderVec 2 (pair (num false (2 ^ 600)) (num false (2 ^ 600))) = some (v, nan) ∧ v 0 = nan ∧ v 1 = nan) ∧
    (∃ v, householderVec 2 (pair 0 (num false (19 / 16 * (2 ^ 537)⁻¹))) = some (v, 1) ∧ v 0 = 1 ∧ v 1 = num true (19 / 16) ∧
      val 1 * (val (v 0) ^ 2 + val (v 1) ^ 2) = 2.41015625) ∧
    (∃ v β, householderVec 1 (fun _ => num true 1) = some (v, β) ∧ val (v 0) = 1 ∧ val β = -2 ∧
      val (num true 1) - val β * val (v 0) * (val (v 0) * val (num true 1)) = 3 * val (num true 1)) := by
  refine ⟨?_, ?_, ?_, ?_⟩
  · refine ⟨_, _, house_eval (a := num false (2 ^ 500 * 2 ^ 500)⁻¹) (b := num false (2 ^ 500)) (r := num false (2 ^ 500)) (v0 := num true 0) (by norm_num) ?_ rfl ?_ ?_ ?_, ?_, ?_, ?_⟩
    · rw [dot_pair]; decide +kernel
    · decide +kernel
    · have e : (num false (2 ^ 500 * 2 ^ 500)⁻¹ + num false (2 ^ 500) * num false (2 ^ 500) : F64) = num false (2 ^ 500 * 2 ^ 500) := by decide +kernel
      rw [e]
      exact sqrt_square (by positivity) ⟨1, 500, by norm_num, by norm_num, by norm_num⟩
    all_goals decide +kernel
  · have e := house_eval (n := 2) (x := pair (num false (2 ^ 600)) (num false (2 ^ 600))) (a := inf false) (b := num false (2 ^ 600)) (r := inf false) (v0 := nan) (by norm_num)
      (by rw [dot_pair]; decide +kernel) rfl (by decide +kernel) ?_ (by decide +kernel)
    · have e1 : lit 2 * (nan * nan) / (inf false + nan * nan) = nan := by decide +kernel
      rw [e1] at e
      refine ⟨_, e, ?_, ?_⟩
      all_goals decide +kernel
    · have e : (inf false + num false (2 ^ 600) * num false (2 ^ 600) : F64) = inf false := by decide +kernel
      rw [e]; rfl
  · have e := house_eval (n := 2) (x := pair 0 (num false (19 / 16 * (2 ^ 537)⁻¹))) (a := num false ((2 ^ 537)⁻¹ * (2 ^ 537)⁻¹)) (b := 0) (r := num false ((2 ^ 537)⁻¹)) (v0 := num true ((2 ^ 537)⁻¹)) (by norm_num)
      (by rw [dot_pair]; decide +kernel) rfl (by decide +kernel) ?_ (by decide +kernel)
    · have e1 : lit 2 * (num true ((2 ^ 537)⁻¹) * num true ((2 ^ 537)⁻¹)) / (num false ((2 ^ 537)⁻¹ * (2 ^ 537)⁻¹) + num true ((2 ^ 537)⁻¹) * num true ((2 ^ 537)⁻¹)) = 1 := by decide +kernel
      rw [e1] at e
      refine ⟨_, e, ?_, ?_, ?_⟩
      all_goals decide +kernel
    · have e : (num false ((2 ^ 537)⁻¹ * (2 ^ 537)⁻¹) + 0 * 0 : F64) = num false ((2 ^ 537)⁻¹ * (2 ^ 537)⁻¹) := by decide +kernel
      rw [e]
      refine sqrt_square (by positivity) ⟨1, -537, by norm_num, by norm_num, ?_⟩
      rw [Nat.cast_one, one_mul, zpow_neg]; norm_cast
  · refine ⟨fun i => if i = 0 then 1 else num true 1, lit (-2), ?_, ?_, ?_, ?_⟩
    · unfold householderVec
      have h1 : (dotF 1 1 (fun _ => num true 1) (fun _ => num true 1)).eqv 0 = true := by decide +kernel
      have h2 : le 0 (num true 1) = false := by decide +kernel
      have h3 : (num true 1).lt 0 = true := by decide +kernel
      simp only [h1, h2, h3, if_neg (show (1 : Nat) ≠ 0 by norm_num), Bool.and_self, Bool.and_false, Bool.false_eq_true, if_false, if_true]
    all_goals decide +kernel

end Toppo.FloatProps
