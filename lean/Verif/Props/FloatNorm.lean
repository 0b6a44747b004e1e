import Verif.Proof.FloatSqrt
import Verif.Props.FloatSolve
set_option linter.unusedVariables false

/-!
# Norms on `f64` (C108)

Specification: exact sums of absolute values and of squares of the exact values `val`; `u = 2^-53`, `eta = 2^-1075`.
-/
namespace Toppo.FloatProps
open Toppo F64 FloatAlg

/-- a finite number that is not negative, or `+∞` -/
def NN (x : F64) : Prop := x = inf false ∨ (x.isFinite = true ∧ 0 ≤ val x)

theorem nn_ofExact {s : Bool} {x : ℚ} (h : 0 ≤ x) : NN (ofExact s x) := by
  unfold ofExact
  split_ifs with h1 h2
  · right; exact ⟨rfl, by rw [val_num]; split <;> simp⟩
  · left; rw [decide_eq_false (not_lt.mpr h)]
  · right; rw [decide_eq_false (not_lt.mpr h)]
    exact ⟨rfl, rnd_nonneg (abs_pos.mpr h1)⟩

theorem nn_add {x y : F64} (hx : NN x) (hy : NN y) : NN (x + y) := by
  rcases hx with rfl | ⟨h1, h2⟩
  · rcases hy with rfl | ⟨h3, h4⟩
    · exact Or.inl rfl
    · obtain ⟨t, n, rfl⟩ := fin_iff.mp h3; exact Or.inl rfl
  · obtain ⟨s, m, rfl⟩ := fin_iff.mp h1
    rcases hy with rfl | ⟨h3, h4⟩
    · exact Or.inl rfl
    · obtain ⟨t, n, rfl⟩ := fin_iff.mp h3
      exact nn_ofExact (add_nonneg h2 h4)

theorem nn_fsum {l : List F64} (h : ∀ x ∈ l, NN x) : NN (fsum l) := by
  have : ∀ (l : List F64) (s : F64), NN s → (∀ x ∈ l, NN x) → NN (l.foldl (· + ·) s) := by
    intro l
    induction l with
    | nil => intro s h _; exact h
    | cons p t ih => intro s hs hl; exact ih _ (nn_add hs (hl p (by simp))) (fun x hx => hl x (by simp [hx]))
  exact this l 0 (Or.inr ⟨rfl, le_rfl⟩) h

theorem nn_le_total {x y : F64} (hx : NN x) (hy : NN y) : x.le y = true ∨ y.le x = true := by
  rcases hx with rfl | ⟨h1, h2⟩
  · right; rcases hy with rfl | ⟨h3, h4⟩
    · rfl
    · obtain ⟨t, n, rfl⟩ := fin_iff.mp h3; rfl
  · rcases hy with rfl | ⟨h3, h4⟩
    · left; obtain ⟨t, n, rfl⟩ := fin_iff.mp h1; rfl
    · rw [le_fin h1 h3, le_fin h3 h1]; exact le_total _ _

theorem nn_le_trans {x y z : F64} (hx : NN x) (hy : NN y) (hz : NN z) (h : x.le y = true) (h' : y.le z = true) : x.le z = true := by
  rcases hz with rfl | ⟨h5, h6⟩
  · rcases hx with rfl | ⟨h1, h2⟩
    · rfl
    · obtain ⟨t, n, rfl⟩ := fin_iff.mp h1; rfl
  · rcases hy with rfl | ⟨h3, h4⟩
    · obtain ⟨t, n, rfl⟩ := fin_iff.mp h5; cases h'
    · rcases hx with rfl | ⟨h1, h2⟩
      · obtain ⟨t, n, rfl⟩ := fin_iff.mp h3; cases h
      · rw [le_fin h1 h3] at h; rw [le_fin h3 h5] at h'; rw [le_fin h1 h5]; exact h.trans h'

/-- the loop that looks for the largest number -/
theorem max_fold : ∀ (l : List F64) (s : F64), NN s → (∀ x ∈ l, NN x) →
    let r := l.foldl (fun mx v => if mx.le v then v else mx) s
    NN r ∧ (r = s ∨ r ∈ l) ∧ s.le r = true ∧ ∀ v ∈ l, v.le r = true := by
  intro l
  induction l with
  | nil =>
    intro s hs _
    refine ⟨hs, Or.inl rfl, ?_, by simp⟩
    rcases nn_le_total hs hs with h | h <;> exact h
  | cons p t ih =>
    intro s hs hl
    have hp := hl p (by simp)
    have ht := fun x hx => hl x (List.mem_cons_of_mem p hx)
    intro r
    by_cases h : s.le p = true
    · obtain ⟨h1, h2, h3, h4⟩ := ih p hp ht
      have e : r = t.foldl (fun mx v => if mx.le v then v else mx) p := by
        change (p :: t).foldl _ s = _
        rw [List.foldl_cons, if_pos h]
      rw [← e] at h1 h2 h3 h4
      refine ⟨h1, ?_, nn_le_trans hs hp h1 h h3, ?_⟩
      · rcases h2 with h2 | h2
        · right; rw [h2]; simp
        · right; simp [h2]
      · intro v hv
        rcases List.mem_cons.mp hv with rfl | hv
        · exact h3
        · exact h4 v hv
    · obtain ⟨h1, h2, h3, h4⟩ := ih s hs ht
      have e : r = t.foldl (fun mx v => if mx.le v then v else mx) s := by
        change (p :: t).foldl _ s = _
        rw [List.foldl_cons, if_neg h]
      rw [← e] at h1 h2 h3 h4
      refine ⟨h1, ?_, h3, ?_⟩
      · rcases h2 with h2 | h2
        · left; exact h2
        · right; simp [h2]
      · intro v hv
        rcases List.mem_cons.mp hv with rfl | hv
        · exact nn_le_trans hp hs h1 ((nn_le_total hs hp).resolve_left h) h3
        · exact h4 v hv

theorem le_finite {x y : F64} (hx : NN x) (hy : y.isFinite = true) (h : x.le y = true) : x.isFinite = true ∧ val x ≤ val y := by
  rcases hx with rfl | ⟨h1, -⟩
  · obtain ⟨t, n, rfl⟩ := fin_iff.mp hy; cases h
  · exact ⟨h1, (le_fin h1 hy).mp h⟩

/-- largest of `p` sums of `q` absolute values -/
theorem max_sum (p q : Nat) (e : Nat → Nat → F64) (hr : ∀ j < p, ∀ i < q, Rep (e j i)) (hf : ∀ j < p, ∀ i < q, (e j i).isFinite = true)
    (N : ℚ) (hN : IsGreatest (insert 0 {S | ∃ j < p, S = ∑ i ∈ Finset.range q, |val (e j i)|}) N) :
    let r := ((List.range p).map (fun j => fsum ((List.range q).map (fun i => (e j i).abs)))).foldl (fun mx v => if mx.le v then v else mx) 0
    (r = inf false ∨ (r.isFinite = true ∧ 0 ≤ val r ∧ |val r - N| ≤ (g ^ (q - 1) - 1) * N)) ∧ (g ^ q * N < 2 ^ 1023 → r.isFinite = true) := by
  intro r
  have hrep : ∀ j < p, ∀ x ∈ (List.range q).map (fun i => (e j i).abs), Rep x := by
    intro j hj x hx
    obtain ⟨i, hi, rfl⟩ := List.mem_map.mp hx
    exact rep_abs (hr j hj i (List.mem_range.mp hi))
  have hfin : ∀ j < p, ∀ x ∈ (List.range q).map (fun i => (e j i).abs), x.isFinite = true := by
    intro j hj x hx
    obtain ⟨i, hi, rfl⟩ := List.mem_map.mp hx
    rw [abs_finite]; exact hf j hj i (List.mem_range.mp hi)
  have hnn : ∀ j < p, ∀ x ∈ (List.range q).map (fun i => (e j i).abs), NN x := by
    intro j hj x hx
    obtain ⟨i, hi, rfl⟩ := List.mem_map.mp hx
    right
    rw [abs_finite, val_abs (hr j hj i (List.mem_range.mp hi))]
    exact ⟨hf j hj i (List.mem_range.mp hi), abs_nonneg _⟩
  have hv : ∀ j < p, vsum ((List.range q).map (fun i => (e j i).abs)) = ∑ i ∈ Finset.range q, |val (e j i)| := by
    intro j hj
    unfold vsum
    rw [List.map_map, range_sum]
    exact Finset.sum_congr rfl fun i hi => val_abs (hr j hj i (Finset.mem_range.mp hi))
  have ha : ∀ j < p, asum ((List.range q).map (fun i => (e j i).abs)) = ∑ i ∈ Finset.range q, |val (e j i)| := by
    intro j hj
    unfold asum
    rw [List.map_map, range_sum]
    refine Finset.sum_congr rfl fun i hi => ?_
    simp only [Function.comp]
    rw [val_abs (hr j hj i (Finset.mem_range.mp hi)), abs_abs]
  have hS : ∀ j < p, ∑ i ∈ Finset.range q, |val (e j i)| ≤ N := fun j hj => hN.2 (Or.inr ⟨j, hj, rfl⟩)
  have hN0 : 0 ≤ N := hN.2 (Or.inl rfl)
  obtain ⟨m1, m2, m3, m4⟩ := max_fold ((List.range p).map (fun j => fsum ((List.range q).map (fun i => (e j i).abs)))) 0 (Or.inr ⟨rfl, le_rfl⟩) (by
    intro x hx
    obtain ⟨j, hj, rfl⟩ := List.mem_map.mp hx
    exact nn_fsum (hnn j (List.mem_range.mp hj)))
  change NN r at m1
  change r = 0 ∨ r ∈ _ at m2
  change ∀ v : F64, v ∈ _ → v.le r = true at m4
  change (0 : F64).le r = true at m3
  refine ⟨?_, fun hb => ?_⟩
  · rcases m1 with h | ⟨h1, h2⟩
    · exact Or.inl h
    right
    refine ⟨h1, h2, ?_⟩
    have hs : ∀ j < p, (fsum ((List.range q).map (fun i => (e j i).abs))).isFinite = true ∧ val (fsum ((List.range q).map (fun i => (e j i).abs))) ≤ val r ∧
        _root_.abs (val (fsum ((List.range q).map (fun i => (e j i).abs))) - ∑ i ∈ Finset.range q, |val (e j i)|) ≤ (g ^ (q - 1) - 1) * ∑ i ∈ Finset.range q, |val (e j i)| := by
      intro j hj
      obtain ⟨k1, k2⟩ := le_finite (nn_fsum (hnn j hj)) h1 (m4 _ (List.mem_map_of_mem (List.mem_range.mpr hj)))
      have := (fsum_err (hrep j hj) k1).2
      rw [hv j hj, ha j hj, List.length_map, List.length_range] at this
      exact ⟨k1, k2, this⟩
    have hg := gpow_sub_nonneg (q - 1)
    rw [abs_le]
    constructor
    · rcases hN.1 with h0 | ⟨j, hj, hj2⟩
      · rw [h0]; linarith
      · obtain ⟨-, k2, k3⟩ := hs j hj
        rw [← hj2] at k3
        have := neg_le_of_abs_le k3
        linarith
    · have h0 : 0 ≤ (g ^ (q - 1) - 1) * N := mul_nonneg hg hN0
      rcases m2 with h | h
      · rw [h, val_zero]; linarith
      · obtain ⟨j, hj, hj2⟩ := List.mem_map.mp h
        obtain ⟨-, k2, k3⟩ := hs j (List.mem_range.mp hj)
        rw [hj2] at k3
        have := le_of_abs_le k3
        have a1 := hS j (List.mem_range.mp hj)
        have a2 := mul_le_mul_of_nonneg_left a1 hg
        linarith
  · rcases m2 with h | h
    · rw [h]; rfl
    · obtain ⟨j, hj, hj2⟩ := List.mem_map.mp h
      have hj := List.mem_range.mp hj
      rw [← hj2]
      refine fsum_fin (hrep j hj) (hfin j hj) ?_
      rw [List.length_map, List.length_range, ha j hj]
      exact lt_of_le_of_lt (mul_le_mul_of_nonneg_left (hS j hj) (by have := gpow_ge q; linarith)) hb

/-- **C108**, `one_norm` of a matrix of finite numbers: `+∞` or the largest column sum up to a relative error (`0` for a matrix without columns); it does not
overflow as long as the exact norm is (by the factor of the bound) below `2^1023`. -/
theorem c108_one_norm (n m : Nat) (a : Nat → Nat → F64) (hr : ∀ i < n, ∀ j < m, Rep (a i j)) (hf : ∀ i < n, ∀ j < m, (a i j).isFinite = true)
    (N : ℚ) (hN : IsGreatest (insert 0 {S | ∃ j < m, S = ∑ i ∈ Finset.range n, |val (a i j)|}) N) :
    (oneNorm n m a = inf false ∨ ((oneNorm n m a).isFinite = true ∧ 0 ≤ val (oneNorm n m a) ∧ |val (oneNorm n m a) - N| ≤ ((1 + u) ^ (n - 1) - 1) * N)) ∧
    ((1 + u) ^ n * N < 2 ^ 1023 → (oneNorm n m a).isFinite = true) :=
  max_sum m n (fun j i => a i j) (fun j hj i hi => hr i hi j hj) (fun j hj i hi => hf i hi j hj) N hN

/-- **C108**, `inf_norm`: the same for row sums. -/
theorem c108_inf_norm (n m : Nat) (a : Nat → Nat → F64) (hr : ∀ i < n, ∀ j < m, Rep (a i j)) (hf : ∀ i < n, ∀ j < m, (a i j).isFinite = true)
    (N : ℚ) (hN : IsGreatest (insert 0 {S | ∃ i < n, S = ∑ j ∈ Finset.range m, |val (a i j)|}) N) :
    (infNorm n m a = inf false ∨ ((infNorm n m a).isFinite = true ∧ 0 ≤ val (infNorm n m a) ∧ |val (infNorm n m a) - N| ≤ ((1 + u) ^ (m - 1) - 1) * N)) ∧
    ((1 + u) ^ m * N < 2 ^ 1023 → (infNorm n m a).isFinite = true) :=
  max_sum n m a hr hf N hN

/-! ### norms with squares -/

theorem nn_sq {x : F64} (h : (x * x).isFinite = true ∨ x.isFinite = true) : NN (x * x) := by
  have hx : x.isFinite = true := by
    rcases h with h | h
    · exact (mul_fin h).1
    · exact h
  obtain ⟨s, m, rfl⟩ := fin_iff.mp hx
  exact nn_ofExact (mul_self_nonneg _)

theorem sq_arith {S T R G q D : ℚ} (hS : 0 ≤ S) (hD : 0 ≤ D) (hG : 1 ≤ G) (hq : 1 ≤ q) (h1 : |T - S| ≤ (G - 1) * S + D) (h2 : R ≤ q * T) (h3 : T ≤ q * R) :
    |R - S| ≤ (q * G - 1) * S + q * D := by
  rw [abs_le] at *
  obtain ⟨a1, a2⟩ := h1
  constructor
  · have b1 : S * (2 - G) - D ≤ q * R := by linarith
    have b2 : 0 ≤ S * ((q - 1) * (G * (q + 1) - 2)) := mul_nonneg hS (mul_nonneg (by linarith) (by nlinarith))
    have b3 : q * (S - R) ≤ q * ((q * G - 1) * S + q * D) := by nlinarith [mul_nonneg hD (mul_nonneg (show (0 : ℚ) ≤ q - 1 by linarith) (show (0 : ℚ) ≤ q + 1 by linarith))]
    have b4 := le_of_mul_le_mul_left b3 (by linarith)
    linarith
  · have : q * T ≤ q * (S + ((G - 1) * S + D)) := mul_le_mul_of_nonneg_left (by linarith) (by linarith)
    linarith

/-- **C108**, `two_norm` of a column (the code panics for more columns): if the answer is finite, its square is the sum of the squares up to a relative error and a tiny
error from underflow. -/
theorem c108_two_norm (n m : Nat) (a : Nat → Nat → F64) : (m ≠ 1 → twoNorm n m a = none) ∧ (m = 1 → ∃ r, twoNorm n m a = some r ∧
    ((∀ i < n, (a i 0).isFinite = true) → (1 + u) ^ (n + 1) * (∑ i ∈ Finset.range n, val (a i 0) ^ 2 + n * eta) < 2 ^ 1023 → r.isFinite = true) ∧
    (r.isFinite = true → (∀ i < n, (a i 0).isFinite = true) ∧ 0 ≤ val r ∧
      |val r ^ 2 - ∑ i ∈ Finset.range n, val (a i 0) ^ 2| ≤ ((1 + u) ^ (n + 2) - 1) * ∑ i ∈ Finset.range n, val (a i 0) ^ 2 + n * (1 + u) ^ (n + 2) * eta)) := by
  refine ⟨fun h => by unfold twoNorm; rw [if_neg h], fun h => ⟨_, by unfold twoNorm; rw [if_pos h], ?_, ?_⟩⟩
  · intro hfin hb
    have hs : ∑ i ∈ Finset.range n, |val (a i 0) * val (a i 0)| = ∑ i ∈ Finset.range n, val (a i 0) ^ 2 :=
      Finset.sum_congr rfl fun i _ => by rw [abs_of_nonneg (mul_self_nonneg _)]; ring
    have h1 := prod_fin (List.range n) (fun i => a i 0) (fun i => a i 0) (fun i hi => hfin i (List.mem_range.mp hi)) (fun i hi => hfin i (List.mem_range.mp hi)) (by
      rw [List.length_range, range_sum, hs]; exact hb)
    have h2 : NN (fsum ((List.range n).map (fun i => a i 0 * a i 0))) := nn_fsum fun x hx => by
      obtain ⟨i, hi, rfl⟩ := List.mem_map.mp hx
      exact nn_sq (Or.inr (hfin i (List.mem_range.mp hi)))
    rcases h2 with h2 | ⟨-, h2⟩
    · rw [h2] at h1; cases h1
    · exact (sqrt_spec rep_fsum h1 h2).1
  · intro hfin
    have h1 : (fsum ((List.range n).map (fun i => a i 0 * a i 0))).isFinite = true := by
      generalize fsum ((List.range n).map (fun i => a i 0 * a i 0)) = z at *
      cases z with
      | nan => exact absurd hfin (by simp [sqrt, isFinite])
      | inf s => exact absurd hfin (by cases s <;> simp [sqrt, isFinite])
      | num s m => rfl
    obtain ⟨h2, h3⟩ := prod_err (List.range n) (fun i => a i 0) (fun i => a i 0) h1
    have h4 : NN (fsum ((List.range n).map (fun i => a i 0 * a i 0))) := nn_fsum fun x hx => by
      obtain ⟨i, hi, rfl⟩ := List.mem_map.mp hx
      exact nn_sq (Or.inr (h2 i hi).1)
    have h5 : 0 ≤ val (fsum ((List.range n).map (fun i => a i 0 * a i 0))) := by
      rcases h4 with h4 | ⟨-, h4⟩
      · rw [h4] at h1; cases h1
      · exact h4
    obtain ⟨-, -, s1, s2, s3⟩ := sqrt_spec rep_fsum h1 h5
    refine ⟨fun i hi => (h2 i (List.mem_range.mpr hi)).1, s1, ?_⟩
    have hs : ∑ i ∈ Finset.range n, |val (a i 0) * val (a i 0)| = ∑ i ∈ Finset.range n, val (a i 0) ^ 2 :=
      Finset.sum_congr rfl fun i _ => by rw [abs_of_nonneg (mul_self_nonneg _)]; ring
    have hs' : ∑ i ∈ Finset.range n, val (a i 0) * val (a i 0) = ∑ i ∈ Finset.range n, val (a i 0) ^ 2 := Finset.sum_congr rfl fun i _ => by ring
    rw [List.length_range, range_sum, range_sum, hs, hs'] at h3
    have hD : 0 ≤ (n : ℚ) * g ^ n * eta := mul_nonneg (mul_nonneg (Nat.cast_nonneg n) (pow_pos g_pos n).le) eta_pos.le
    have key := sq_arith (Finset.sum_nonneg fun i _ => sq_nonneg (val (a i 0))) hD (gpow_ge n) (gpow_ge 2) h3 s2 s3
    refine key.trans (le_of_eq ?_)
    rw [← g_eq, pow_add]; ring

/-- **C108**, `frobenius_norm`: the same for the sum of the squares of all entries. -/
theorem c108_frobenius_norm (n m : Nat) (a : Nat → Nat → F64) :
    ((frobeniusNorm n m a).isFinite = true → (∀ i < n, ∀ j < m, (a i j).isFinite = true) ∧ 0 ≤ val (frobeniusNorm n m a) ∧
      |val (frobeniusNorm n m a) ^ 2 - ∑ i ∈ Finset.range n, ∑ j ∈ Finset.range m, val (a i j) ^ 2| ≤
        ((1 + u) ^ (n + m + 2) - 1) * ∑ i ∈ Finset.range n, ∑ j ∈ Finset.range m, val (a i j) ^ 2 + n * m * (1 + u) ^ (n + m + 2) * eta) := by
  intro hfin
  set rowF : Nat → F64 := fun i => fsum ((List.range m).map (fun j => a i j * a i j)) with hrow
  have h1 : (fsum ((List.range n).map rowF)).isFinite = true := by
    unfold frobeniusNorm at hfin
    change ((fsum ((List.range n).map rowF)).sqrt).isFinite = true at hfin
    generalize fsum ((List.range n).map rowF) = z at *
    cases z with
    | nan => exact absurd hfin (by simp [sqrt, isFinite])
    | inf s => exact absurd hfin (by cases s <;> simp [sqrt, isFinite])
    | num s m => rfl
  obtain ⟨h2, h3⟩ := fsum_err (fun x hx => by
    obtain ⟨i, hi, rfl⟩ := List.mem_map.mp hx
    exact rep_fsum) h1
  have hrf : ∀ i < n, (rowF i).isFinite = true := fun i hi => h2 _ (List.mem_map_of_mem (List.mem_range.mpr hi))
  have hpe := fun i hi => prod_err (List.range m) (fun j => a i j) (fun j => a i j) (hrf i hi)
  have hnn : ∀ i < n, NN (rowF i) := fun i hi => nn_fsum fun x hx => by
    obtain ⟨j, hj, rfl⟩ := List.mem_map.mp hx
    exact nn_sq (Or.inr ((hpe i hi).1 j hj).1)
  have h4 : NN (fsum ((List.range n).map rowF)) := nn_fsum fun x hx => by
    obtain ⟨i, hi, rfl⟩ := List.mem_map.mp hx
    exact hnn i (List.mem_range.mp hi)
  have h5 : 0 ≤ val (fsum ((List.range n).map rowF)) := by
    rcases h4 with h4 | ⟨-, h4⟩
    · rw [h4] at h1; cases h1
    · exact h4
  obtain ⟨-, -, s1, s2, s3⟩ := sqrt_spec rep_fsum h1 h5
  refine ⟨fun i hi j hj => ((hpe i hi).1 j (List.mem_range.mpr hj)).1, s1, ?_⟩
  set T : Nat → ℚ := fun i => ∑ j ∈ Finset.range m, val (a i j) ^ 2 with hT
  have hT0 : ∀ i, 0 ≤ T i := fun i => Finset.sum_nonneg fun j _ => sq_nonneg _
  have hb : ∀ i < n, |val (rowF i) - T i| ≤ (g ^ m - 1) * T i + m * g ^ m * eta := by
    intro i hi
    have := (hpe i hi).2
    have hs : ∑ j ∈ Finset.range m, |val (a i j) * val (a i j)| = T i := Finset.sum_congr rfl fun j _ => by
      rw [abs_of_nonneg (mul_self_nonneg _)]; ring
    have hs' : ∑ j ∈ Finset.range m, val (a i j) * val (a i j) = T i := Finset.sum_congr rfl fun j _ => by ring
    rw [List.length_range, range_sum, range_sum, hs, hs'] at this
    exact this
  have ev : vsum ((List.range n).map rowF) = ∑ i ∈ Finset.range n, val (rowF i) := by unfold vsum; rw [List.map_map, range_sum]; rfl
  have ea : asum ((List.range n).map rowF) = ∑ i ∈ Finset.range n, |val (rowF i)| := by unfold asum; rw [List.map_map, range_sum]; rfl
  rw [ev, ea, List.length_map, List.length_range] at h3
  have hn : (0 : ℚ) ≤ n := Nat.cast_nonneg n
  have hm : (0 : ℚ) ≤ m := Nat.cast_nonneg m
  set S := ∑ i ∈ Finset.range n, T i with hS
  have hS0 : 0 ≤ S := Finset.sum_nonneg fun i _ => hT0 i
  have c1 : ∑ i ∈ Finset.range n, |val (rowF i)| ≤ g ^ m * S + n * (m * g ^ m * eta) := by
    have : g ^ m * S + n * (m * g ^ m * eta) = ∑ i ∈ Finset.range n, (g ^ m * T i + m * g ^ m * eta) := by
      rw [Finset.sum_add_distrib, ← Finset.mul_sum, Finset.sum_const, Finset.card_range, nsmul_eq_mul]
    rw [this]
    refine Finset.sum_le_sum fun i hi => ?_
    have a1 := hb i (Finset.mem_range.mp hi)
    have a2 := abs_sub_abs_le_abs_sub (val (rowF i)) (T i)
    rw [abs_of_nonneg (hT0 i)] at a2
    linarith
  have c2 : |∑ i ∈ Finset.range n, val (rowF i) - S| ≤ (g ^ m - 1) * S + n * (m * g ^ m * eta) := by
    have : (g ^ m - 1) * S + n * (m * g ^ m * eta) = ∑ i ∈ Finset.range n, ((g ^ m - 1) * T i + m * g ^ m * eta) := by
      rw [Finset.sum_add_distrib, ← Finset.mul_sum, Finset.sum_const, Finset.card_range, nsmul_eq_mul]
    rw [this, hS, ← Finset.sum_sub_distrib]
    exact (Finset.abs_sum_le_sum_abs _ _).trans (Finset.sum_le_sum fun i hi => hb i (Finset.mem_range.mp hi))
  have hE : 0 ≤ (n : ℚ) * (m * g ^ m * eta) := mul_nonneg hn (mul_nonneg (mul_nonneg hm (pow_pos g_pos m).le) eta_pos.le)
  have c3 : |val (fsum ((List.range n).map rowF)) - S| ≤ (g ^ n * g ^ m - 1) * S + g ^ n * (n * (m * g ^ m * eta)) := by
    have a1 : (g ^ (n - 1) - 1) * ∑ i ∈ Finset.range n, |val (rowF i)| ≤ (g ^ n - 1) * (g ^ m * S + n * (m * g ^ m * eta)) :=
      mul_le_mul (by have := gpow_mono (show n - 1 ≤ n by omega); linarith) c1 (Finset.sum_nonneg fun _ _ => abs_nonneg _) (gpow_sub_nonneg n)
    have a2 := abs_add_le (val (fsum ((List.range n).map rowF)) - ∑ i ∈ Finset.range n, val (rowF i)) (∑ i ∈ Finset.range n, val (rowF i) - S)
    rw [sub_add_sub_cancel] at a2
    linarith
  have hG : 1 ≤ g ^ n * g ^ m := by rw [← pow_add]; exact gpow_ge _
  have key := sq_arith hS0 (mul_nonneg (pow_pos g_pos n).le hE) hG (gpow_ge 2) c3 s2 s3
  refine key.trans (le_of_eq ?_)
  rw [← g_eq, pow_add, pow_add]; ring

/-- **C108**, `frobenius_norm`, no overflow: finite entries whose sum of squares is (by the factor of the bound) below `2^1023` -/
theorem c108_frobenius_finite (n m : Nat) (a : Nat → Nat → F64) (hf : ∀ i < n, ∀ j < m, (a i j).isFinite = true)
    (hb : (1 + u) ^ (n + m + 1) * (∑ i ∈ Finset.range n, ∑ j ∈ Finset.range m, val (a i j) ^ 2 + n * m * eta) < 2 ^ 1023) : (frobeniusNorm n m a).isFinite = true := by
  set rowF : Nat → F64 := fun i => fsum ((List.range m).map (fun j => a i j * a i j)) with hrow
  set T : Nat → ℚ := fun i => ∑ j ∈ Finset.range m, val (a i j) ^ 2 with hT
  set S := ∑ i ∈ Finset.range n, T i with hS
  have hT0 : ∀ i, 0 ≤ T i := fun i => Finset.sum_nonneg fun j _ => sq_nonneg _
  have hS0 : 0 ≤ S := Finset.sum_nonneg fun i _ => hT0 i
  have he := eta_pos
  have hn : (0 : ℚ) ≤ n := Nat.cast_nonneg n
  have hm : (0 : ℚ) ≤ m := Nat.cast_nonneg m
  rw [← g_eq] at hb
  have hs : ∀ i, ∑ j ∈ Finset.range m, |val (a i j) * val (a i j)| = T i := fun i => Finset.sum_congr rfl fun j _ => by
    rw [abs_of_nonneg (mul_self_nonneg _)]; ring
  have hs' : ∀ i, ∑ j ∈ Finset.range m, val (a i j) * val (a i j) = T i := fun i => Finset.sum_congr rfl fun j _ => by ring
  have hrf : ∀ i < n, (rowF i).isFinite = true := by
    intro i hi
    refine prod_fin (List.range m) (fun j => a i j) (fun j => a i j) (fun j hj => hf i hi j (List.mem_range.mp hj)) (fun j hj => hf i hi j (List.mem_range.mp hj)) (lt_of_le_of_lt ?_ hb)
    rw [List.length_range, range_sum, hs]
    have h1 : T i ≤ S := Finset.single_le_sum (f := T) (fun i _ => hT0 i) (Finset.mem_range.mpr hi)
    have h2 : (m : ℚ) * eta ≤ n * m * eta := by
      have : (1 : ℚ) ≤ n := by exact_mod_cast (show 1 ≤ n by omega)
      rw [mul_assoc]
      exact le_mul_of_one_le_left (mul_nonneg hm he.le) this
    exact mul_le_mul (gpow_mono (by omega)) (by linarith) (add_nonneg (hT0 i) (mul_nonneg hm he.le)) (pow_pos g_pos _).le
  have hc : ∑ i ∈ Finset.range n, |val (rowF i)| ≤ g ^ m * (S + n * m * eta) := by
    have : g ^ m * (S + n * m * eta) = ∑ i ∈ Finset.range n, (g ^ m * T i + m * g ^ m * eta) := by
      rw [Finset.sum_add_distrib, ← Finset.mul_sum, Finset.sum_const, Finset.card_range, nsmul_eq_mul]; ring
    rw [this]
    refine Finset.sum_le_sum fun i hi => ?_
    have a1 := (prod_err (List.range m) (fun j => a i j) (fun j => a i j) (hrf i (Finset.mem_range.mp hi))).2
    rw [List.length_range, range_sum, range_sum, hs, hs'] at a1
    have a2 := abs_sub_abs_le_abs_sub (val (rowF i)) (T i)
    rw [abs_of_nonneg (hT0 i)] at a2
    linarith
  have h1 : (fsum ((List.range n).map rowF)).isFinite = true := by
    refine fsum_fin (fun x hx => ?_) (fun x hx => ?_) (lt_of_le_of_lt ?_ hb)
    · obtain ⟨i, hi, rfl⟩ := List.mem_map.mp hx; exact rep_fsum
    · obtain ⟨i, hi, rfl⟩ := List.mem_map.mp hx; exact hrf i (List.mem_range.mp hi)
    · have ea : asum ((List.range n).map rowF) = ∑ i ∈ Finset.range n, |val (rowF i)| := by unfold asum; rw [List.map_map, range_sum]; rfl
      rw [ea, List.length_map, List.length_range]
      refine (mul_le_mul_of_nonneg_left hc (pow_pos g_pos n).le).trans ?_
      rw [← mul_assoc, ← pow_add]
      exact mul_le_mul_of_nonneg_right (gpow_mono (by omega)) (add_nonneg hS0 (mul_nonneg (mul_nonneg hn hm) he.le))
  have h4 : NN (fsum ((List.range n).map rowF)) := nn_fsum fun x hx => by
    obtain ⟨i, hi, rfl⟩ := List.mem_map.mp hx
    refine nn_fsum fun x hx => ?_
    obtain ⟨j, hj, rfl⟩ := List.mem_map.mp hx
    exact nn_sq (Or.inr (hf i (List.mem_range.mp hi) j (List.mem_range.mp hj)))
  rcases h4 with h4 | ⟨-, h4⟩
  · rw [h4] at h1; cases h1
  · exact (sqrt_spec rep_fsum h1 h4).1

/-- Example for `one_norm` and `inf_norm`: the hypotheses hold for a matrix with exact 1-norm `6` and infinity norm `7`. -/
example : IsGreatest (insert 0 {S | ∃ j < 2, S = ∑ i ∈ Finset.range 2, |val (rows [[1, -2], [3, 4]] i j)|}) 6 ∧
    (∀ i < 2, ∀ j < 2, (rows [[1, -2], [3, 4]] i j).isFinite = true) ∧ oneNorm 2 2 (rows [[1, -2], [3, 4]]) = lit 6 ∧ infNorm 2 2 (rows [[1, -2], [3, 4]]) = lit 7 := by
  have h0 : ∑ i ∈ Finset.range 2, |val (rows [[1, -2], [3, 4]] i 0)| = 4 := by decide +kernel
  have h1 : ∑ i ∈ Finset.range 2, |val (rows [[1, -2], [3, 4]] i 1)| = 6 := by decide +kernel
  refine ⟨⟨Or.inr ⟨1, by norm_num, h1.symm⟩, ?_⟩, ?_, by decide +kernel, by decide +kernel⟩
  · rintro x (rfl | ⟨j, hj, rfl⟩)
    · norm_num
    · interval_cases j
      · rw [h0]; norm_num
      · rw [h1]
  · intro i hi j hj
    interval_cases i <;> interval_cases j <;> decide +kernel

/-- **C108**, findings: a column (row) with a NaN does not count for `one_norm` (`inf_norm`), so that the norm of a matrix with NaNs can be `0`; the 2-norm and the
Frobenius norm of a vector with entries of moderate size is `+∞` (overflow of the square) or `0` (underflow). -/
theorem c108_norm_limits :
    oneNorm 2 2 (fun i j => if j = 0 then nan else 1) = lit 2 ∧ infNorm 1 1 (fun _ _ => nan) = 0 ∧
    twoNorm 1 1 (rows [[2 ^ 600]]) = some (inf false) ∧ twoNorm 1 1 (rows [[1 / 2 ^ 600]]) = some 0 ∧
    frobeniusNorm 1 1 (rows [[2 ^ 600]]) = inf false ∧ frobeniusNorm 1 1 (rows [[1 / 2 ^ 600]]) = 0 := by
  have h1 : fsum ((List.range 1).map (fun i => rows [[2 ^ 600]] i 0 * rows [[2 ^ 600]] i 0)) = inf false := by decide +kernel
  have h2 : fsum ((List.range 1).map (fun i => rows [[1 / 2 ^ 600]] i 0 * rows [[1 / 2 ^ 600]] i 0)) = 0 := by decide +kernel
  have h3 : fsum ((List.range 1).map (fun i => fsum ((List.range 1).map (fun j => rows [[2 ^ 600]] i j * rows [[2 ^ 600]] i j)))) = inf false := by decide +kernel
  have h4 : fsum ((List.range 1).map (fun i => fsum ((List.range 1).map (fun j => rows [[1 / 2 ^ 600]] i j * rows [[1 / 2 ^ 600]] i j)))) = 0 := by decide +kernel
  have s0 : sqrt 0 = 0 := by rw [zero_def]; simp [sqrt]
  have s1 : sqrt (inf false) = inf false := by simp [sqrt]
  refine ⟨by decide +kernel, by decide +kernel, ?_, ?_, ?_, ?_⟩
  · unfold twoNorm; rw [if_pos rfl, h1, s1]
  · unfold twoNorm; rw [if_pos rfl, h2, s0]
  · unfold frobeniusNorm; rw [h3, s1]
  · unfold frobeniusNorm; rw [h4, s0]

/-- Example for `two_norm`: the hypothesis of the bound holds for the vector `(3, 4)`. -/
example : ∀ i < 2, (rows [[3], [4]] i 0).isFinite = true := by
  intro i hi
  interval_cases i <;> decide +kernel

end Toppo.FloatProps
