import Verif.Proof.Float64
import Verif.Model.FloatAlg
set_option linter.unusedVariables false

/-!
Sums and dot products of `f64`: error bounds and freedom from overflow.
-/
namespace Toppo.FloatAlg
open F64

/-- `1 + 2^-53` -/
def g : ℚ := 1 + u

theorem g_pos : 0 < g := by have := u_pos; unfold g; linarith
theorem g_ge : 1 ≤ g := by have := u_pos; unfold g; linarith
theorem g_eq : g = 1 + u := rfl
theorem gpow_ge (n : Nat) : 1 ≤ g ^ n := one_le_pow₀ g_ge
theorem gpow_mono {m n : Nat} (h : m ≤ n) : g ^ m ≤ g ^ n := pow_le_pow_right₀ g_ge h
theorem gpow_sub_nonneg (n : Nat) : 0 ≤ g ^ n - 1 := by have := gpow_ge n; linarith

/-- sum of the exact values -/
def vsum (l : List F64) : ℚ := (l.map val).sum
/-- sum of the exact absolute values -/
def asum (l : List F64) : ℚ := (l.map (fun x => |val x|)).sum

theorem asum_nonneg (l : List F64) : 0 ≤ asum l := by
  apply List.sum_nonneg
  intro x hx
  obtain ⟨y, -, rfl⟩ := List.mem_map.mp hx
  exact abs_nonneg _

theorem acc_err : ∀ (l : List F64) (s : F64), Rep s → (∀ x ∈ l, Rep x) → (l.foldl (· + ·) s).isFinite = true →
    s.isFinite = true ∧ (∀ x ∈ l, x.isFinite = true) ∧ |val (l.foldl (· + ·) s) - (val s + vsum l)| ≤ (g ^ l.length - 1) * (|val s| + asum l) := by
  intro l
  induction l with
  | nil => intro s _ _ h; exact ⟨h, by simp, by simp [vsum]⟩
  | cons p t ih =>
    intro s hs hl h
    rw [List.foldl_cons] at h
    obtain ⟨h1, h2, h3⟩ := ih (s + p) (rep_add s p) (fun x hx => hl x (by simp [hx])) h
    obtain ⟨f1, f2, f3⟩ := add_fin hs (hl p (by simp)) h1
    refine ⟨f1, by simpa [f2] using h2, ?_⟩
    rw [List.foldl_cons]
    have ev : vsum (p :: t) = val p + vsum t := by simp [vsum]
    have ea : asum (p :: t) = |val p| + asum t := by simp [asum]
    rw [ev, ea, List.length_cons, pow_succ]
    have hu := u_pos
    have hG := gpow_ge t.length
    have hT := asum_nonneg t
    have hX : |val s + val p| ≤ |val s| + |val p| := abs_add_le _ _
    have hX0 := abs_nonneg (val s + val p)
    have hb : |val (s + p)| ≤ |val s + val p| + u * |val s + val p| := by
      have := abs_sub_abs_le_abs_sub (val (s + p)) (val s + val p)
      linarith
    generalize hr : val (t.foldl (· + ·) (s + p)) = r at *
    have e : r - (val s + (val p + vsum t)) = (r - (val (s + p) + vsum t)) + (val (s + p) - (val s + val p)) := by ring
    rw [e]
    refine (abs_add_le _ _).trans ?_
    set X := |val s| + |val p| with hXd
    have hXu : u * |val s + val p| ≤ u * X := mul_le_mul_of_nonneg_left hX hu.le
    have h4 : (g ^ t.length - 1) * (|val (s + p)| + asum t) ≤ (g ^ t.length - 1) * (g * X + asum t) := by
      refine mul_le_mul_of_nonneg_left ?_ (by linarith)
      rw [g_eq]; linarith
    have h5 : |val s| + (|val p| + asum t) = X + asum t := by rw [hXd]; ring
    rw [h5]
    set G := g ^ t.length
    have h6 : (G * g - 1) * (X + asum t) - ((G - 1) * (g * X + asum t) + u * X) = G * (g - 1) * asum t := by
      rw [g_eq]; ring
    have h7 : 0 ≤ G * (g - 1) * asum t := by
      apply mul_nonneg (mul_nonneg (by linarith) _) hT
      rw [g_eq]; linarith
    linarith

theorem zero_add_val {p : F64} (hp : Rep p) (hf : p.isFinite = true) : (0 + p).isFinite = true ∧ val (0 + p) = val p := by
  obtain ⟨s, m, rfl⟩ := fin_iff.mp hf
  have hm := rep_nonneg hp
  have e : (0 : F64) + num s m = ofExact (false && s) (0 + val (num s m)) := rfl
  rw [e, zero_add]
  have ha := abs_val_num s hm
  obtain ⟨k, e, h1, h2, h3, h4⟩ := hp
  refine ofExact_exact ?_ ?_
  · rw [ha]; exact ⟨k, e, h1, h2, by simpa using h4⟩
  · rw [ha, h4]
    have a1 : (k : ℚ) < 2 ^ 53 := by exact_mod_cast h1
    have a2 : (2 : ℚ) ^ e ≤ 2 ^ 971 := by
      rw [← zpow_natCast]
      exact zpow_le_zpow_right₀ (by norm_num) (by push_cast; exact h3)
    calc (k : ℚ) * 2 ^ e < 2 ^ 53 * 2 ^ e := mul_lt_mul_of_pos_right a1 (two_zpow_pos e)
      _ ≤ 2 ^ 53 * 2 ^ 971 := mul_le_mul_of_nonneg_left a2 (by positivity)
      _ = 2 ^ 1024 := by rw [← pow_add]

/-- a finite sum: all summands are finite; error bound -/
theorem fsum_err {l : List F64} (hl : ∀ x ∈ l, Rep x) (h : (fsum l).isFinite = true) :
    (∀ x ∈ l, x.isFinite = true) ∧ |val (fsum l) - vsum l| ≤ (g ^ (l.length - 1) - 1) * asum l := by
  cases l with
  | nil => simp [fsum, vsum, asum, val_zero]
  | cons p t =>
    unfold fsum at *
    rw [List.foldl_cons] at *
    obtain ⟨h1, h2, h3⟩ := acc_err t (0 + p) (rep_add 0 p) (fun x hx => hl x (by simp [hx])) h
    obtain ⟨-, f2, -⟩ := add_fin rep_zero' (hl p (by simp)) h1
    have e := (zero_add_val (hl p (by simp)) f2).2
    rw [e] at h3
    refine ⟨by simpa [f2] using h2, ?_⟩
    simpa [vsum, asum] using h3

theorem acc_fin : ∀ (l : List F64) (s : F64), Rep s → (∀ x ∈ l, Rep x) → s.isFinite = true → (∀ x ∈ l, x.isFinite = true) →
    g ^ l.length * (|val s| + asum l) < 2 ^ 1023 → (l.foldl (· + ·) s).isFinite = true := by
  intro l
  induction l with
  | nil => intro s _ _ h _ _; exact h
  | cons p t ih =>
    intro s hs hl h1 h2 hb
    have ea : asum (p :: t) = |val p| + asum t := by simp [asum]
    rw [ea, List.length_cons] at hb
    have hG := gpow_ge (t.length + 1)
    have hT := asum_nonneg t
    have hu := u_pos
    have hX : |val s + val p| ≤ |val s| + |val p| := abs_add_le _ _
    have hX0 : 0 ≤ |val s| + (|val p| + asum t) := by positivity
    have hle : |val s| + (|val p| + asum t) ≤ g ^ (t.length + 1) * (|val s| + (|val p| + asum t)) := le_mul_of_one_le_left hX0 hG
    have hf : (s + p).isFinite = true := add_isFinite h1 (h2 p (by simp)) (lt_of_le_of_lt (by linarith) hb)
    rw [List.foldl_cons]
    refine ih (s + p) (rep_add s p) (fun x hx => hl x (by simp [hx])) hf (fun x hx => h2 x (by simp [hx])) (lt_of_le_of_lt ?_ hb)
    obtain ⟨-, -, f3⟩ := add_fin hs (hl p (by simp)) hf
    have hb : |val (s + p)| ≤ |val s + val p| + u * |val s + val p| := by
      have := abs_sub_abs_le_abs_sub (val (s + p)) (val s + val p)
      linarith
    rw [pow_succ, mul_assoc]
    refine mul_le_mul_of_nonneg_left ?_ (by have := gpow_ge t.length; linarith)
    have : u * |val s + val p| ≤ u * (|val s| + |val p|) := mul_le_mul_of_nonneg_left hX hu.le
    have h8 : 0 ≤ u * asum t := mul_nonneg hu.le hT
    rw [g_eq]; nlinarith

/-- no overflow in a sum of moderate size -/
theorem fsum_fin {l : List F64} (hl : ∀ x ∈ l, Rep x) (hf : ∀ x ∈ l, x.isFinite = true) (hb : g ^ l.length * asum l < 2 ^ 1023) : (fsum l).isFinite = true := by
  refine acc_fin l 0 rep_zero' hl rfl hf ?_
  rw [val_zero, abs_zero, zero_add]; exact hb

/-! ### dot products -/

theorem map_sum_le {α : Type} (l : List α) (p q : α → ℚ) (h : ∀ x ∈ l, p x ≤ q x) : (l.map p).sum ≤ (l.map q).sum :=
  List.sum_le_sum h

theorem abs_map_sum_sub {α : Type} (l : List α) (p q : α → ℚ) : |(l.map p).sum - (l.map q).sum| ≤ (l.map (fun x => |p x - q x|)).sum := by
  induction l with
  | nil => simp
  | cons x t ih =>
    simp only [List.map_cons, List.sum_cons]
    have : p x + (t.map p).sum - (q x + (t.map q).sum) = (p x - q x) + ((t.map p).sum - (t.map q).sum) := by ring
    rw [this]
    exact (abs_add_le _ _).trans (by linarith)

theorem map_affine {α : Type} (l : List α) (p : α → ℚ) (c d : ℚ) : (l.map (fun x => c * p x + d)).sum = c * (l.map p).sum + l.length * d := by
  induction l with
  | nil => simp
  | cons x t ih => simp only [List.map_cons, List.sum_cons, ih, List.length_cons]; push_cast; ring

/-- sum of products, computed with `f64`: error bound -/
theorem prod_err {α : Type} (l : List α) (a b : α → F64) (h : (fsum (l.map (fun k => a k * b k))).isFinite = true) :
    (∀ k ∈ l, (a k).isFinite = true ∧ (b k).isFinite = true) ∧
    |val (fsum (l.map (fun k => a k * b k))) - (l.map (fun k => val (a k) * val (b k))).sum| ≤
      (g ^ l.length - 1) * (l.map (fun k => |val (a k) * val (b k)|)).sum + l.length * g ^ l.length * eta := by
  have hrep : ∀ x ∈ l.map (fun k => a k * b k), Rep x := by
    intro x hx
    obtain ⟨k, -, rfl⟩ := List.mem_map.mp hx
    exact rep_mul _ _
  obtain ⟨h1, h2⟩ := fsum_err hrep h
  have h3 : ∀ k ∈ l, (a k * b k).isFinite = true := fun k hk => h1 _ (List.mem_map_of_mem hk)
  refine ⟨fun k hk => ⟨(mul_fin (h3 k hk)).1, (mul_fin (h3 k hk)).2.1⟩, ?_⟩
  rw [List.length_map] at h2
  set S := (l.map (fun k => |val (a k) * val (b k)|)).sum with hS
  have hS0 : 0 ≤ S := by
    apply List.sum_nonneg
    intro x hx
    obtain ⟨y, -, rfl⟩ := List.mem_map.mp hx
    exact abs_nonneg _
  have hu := u_pos
  have he := eta_pos
  -- products
  have h4 : |vsum (l.map (fun k => a k * b k)) - (l.map (fun k => val (a k) * val (b k))).sum| ≤ u * S + l.length * eta := by
    unfold vsum
    rw [List.map_map]
    refine (abs_map_sum_sub l _ _).trans ?_
    rw [hS, ← map_affine]
    exact map_sum_le _ _ _ (fun k hk => (mul_fin (h3 k hk)).2.2)
  have h5 : asum (l.map (fun k => a k * b k)) ≤ g * S + l.length * eta := by
    unfold asum
    rw [List.map_map, hS, ← map_affine]
    refine map_sum_le _ _ _ (fun k hk => ?_)
    have := (mul_fin (h3 k hk)).2.2
    have h6 := abs_sub_abs_le_abs_sub (val (a k * b k)) (val (a k) * val (b k))
    simp only [Function.comp]
    rw [g_eq]; linarith
  cases l with
  | nil => simp [fsum, val_zero]
  | cons k0 t =>
    simp only [List.length_cons, Nat.add_sub_cancel] at h2 h4 h5 ⊢
    generalize (k0 :: t) = l at *
    set r := val (fsum (l.map (fun k => a k * b k)))
    set q := (l.map (fun k => val (a k) * val (b k))).sum
    set v := vsum (l.map (fun k => a k * b k))
    have h7 : |r - q| ≤ |r - v| + |v - q| := by
      have := abs_add_le (r - v) (v - q)
      rwa [sub_add_sub_cancel] at this
    set G := g ^ t.length with hG
    have hG1 : 1 ≤ G := gpow_ge _
    have h8 : (G - 1) * asum (l.map (fun k => a k * b k)) ≤ (G - 1) * (g * S + ((t.length + 1 : ℕ) : ℚ) * eta) :=
      mul_le_mul_of_nonneg_left h5 (by linarith)
    rw [pow_succ, ← hG]
    set N : ℚ := ((t.length + 1 : ℕ) : ℚ)
    have hN : 0 ≤ N := Nat.cast_nonneg _
    have h9 : (G * g - 1) * S + N * (G * g) * eta - ((G - 1) * (g * S + N * eta) + (u * S + N * eta)) = N * eta * G * u := by
      rw [g_eq]; ring
    have h10 : 0 ≤ N * eta * G * u := by positivity
    linarith

/-- no overflow in a sum of products of moderate size -/
theorem prod_fin {α : Type} (l : List α) (a b : α → F64) (ha : ∀ k ∈ l, (a k).isFinite = true) (hb : ∀ k ∈ l, (b k).isFinite = true)
    (h : g ^ (l.length + 1) * ((l.map (fun k => |val (a k) * val (b k)|)).sum + l.length * eta) < 2 ^ 1023) :
    (fsum (l.map (fun k => a k * b k))).isFinite = true := by
  set S := (l.map (fun k => |val (a k) * val (b k)|)).sum with hS
  have he := eta_pos
  have hu := u_pos
  have hS0 : 0 ≤ S := by
    apply List.sum_nonneg
    intro x hx
    obtain ⟨y, -, rfl⟩ := List.mem_map.mp hx
    exact abs_nonneg _
  have hN : (0 : ℚ) ≤ l.length := Nat.cast_nonneg _
  have hone : ∀ k ∈ l, |val (a k) * val (b k)| ≤ S := by
    intro k hk
    refine List.single_le_sum ?_ _ (List.mem_map_of_mem (f := fun k => |val (a k) * val (b k)|) hk)
    intro x hx
    obtain ⟨y, -, rfl⟩ := List.mem_map.mp hx
    exact abs_nonneg _
  have h3 : ∀ k ∈ l, (a k * b k).isFinite = true := by
    intro k hk
    refine mul_isFinite (ha k hk) (hb k hk) (lt_of_le_of_lt ?_ h)
    have hG := gpow_ge (l.length + 1)
    have : S + l.length * eta ≤ g ^ (l.length + 1) * (S + l.length * eta) := le_mul_of_one_le_left (add_nonneg hS0 (mul_nonneg hN he.le)) hG
    have h1 := hone k hk
    have : 0 ≤ (l.length : ℚ) * eta := mul_nonneg hN he.le
    linarith
  refine fsum_fin ?_ ?_ (lt_of_le_of_lt ?_ h)
  · intro x hx
    obtain ⟨k, -, rfl⟩ := List.mem_map.mp hx
    exact rep_mul _ _
  · intro x hx
    obtain ⟨k, hk, rfl⟩ := List.mem_map.mp hx
    exact h3 k hk
  · have h5 : asum (l.map (fun k => a k * b k)) ≤ g * S + l.length * eta := by
      unfold asum
      rw [List.map_map, hS, ← map_affine]
      refine map_sum_le _ _ _ (fun k hk => ?_)
      have := (mul_fin (h3 k hk)).2.2
      have h6 := abs_sub_abs_le_abs_sub (val (a k * b k)) (val (a k) * val (b k))
      simp only [Function.comp]
      rw [g_eq]; linarith
    rw [List.length_map, pow_succ, mul_assoc]
    refine mul_le_mul_of_nonneg_left (h5.trans ?_) (by have := gpow_ge l.length; linarith)
    have : (l.length : ℚ) * eta ≤ g * (l.length * eta) := le_mul_of_one_le_left (mul_nonneg hN he.le) g_ge
    linarith

end Toppo.FloatAlg
