import Verif.Proof.FloatSum
import Verif.Props.MatrixOps
set_option linter.unusedVariables false

/-!
# Arithmetic of `Matrix<f64>` (C104)

Specification: the exact value `val x` of a finite `f64` is a rational number; `u = 2^-53`, `eta = 2^-1075` (half of the smallest
positive number).  The bounds are those of the standard analysis of floating-point sums.
-/
namespace Toppo.FloatProps
open Toppo Toppo.View Toppo.MatrixProps F64 FloatAlg

theorem u_value : u = 1 / 2 ^ 53 := by unfold u; rfl
theorem eta_value : eta = 1 / 2 ^ 1075 := by unfold eta; rfl

theorem range_sum {M : Type} [AddCommMonoid M] (n : Nat) (h : Nat → M) : ((List.range n).map h).sum = ∑ k ∈ Finset.range n, h k := by
  induction n with
  | zero => simp
  | succ n ih => rw [List.range_succ, List.map_append, List.sum_append, ih, Finset.sum_range_succ]; simp

/-- **C104**, product: whatever the entries are, `a * b` is computed for matching sizes.  An entry of the result that is finite comes from finite entries, and it
differs from the exact sum of products by a relative error in the size of the terms and a tiny error from underflow. -/
theorem c104_mul (mem mem' : List F64) (v w : View) (n l m : Nat) (f g' : Nat → Nat → F64)
    (hf : Entries mem v n l f) (hg : Entries mem' w l m g') (hv : v.Fits) (hw : w.Fits) (hn : 0 < n) (hl : 0 < l) (hm : 0 < m) :
    ∃ c h, Mat.mul mem v mem' w = some c ∧ c.size = (n, m) ∧ Entries c.data c.view n m h ∧
      ∀ i < n, ∀ j < m, (h i j).isFinite = true →
        (∀ k < l, (f i k).isFinite = true ∧ (g' k j).isFinite = true) ∧
        |val (h i j) - ∑ k ∈ Finset.range l, val (f i k) * val (g' k j)| ≤
          ((1 + u) ^ l - 1) * ∑ k ∈ Finset.range l, |val (f i k) * val (g' k j)| + l * (1 + u) ^ l * eta := by
  obtain ⟨c, h1, h2, h3⟩ := (mul_fold mem mem' v w n l l m f g' hf hg hv hw hn hl hl hm).2 rfl
  refine ⟨c, _, h1, h2, h3, fun i hi j hj hfin => ?_⟩
  obtain ⟨a1, a2⟩ := prod_err (List.range l) (fun k => f i k) (fun k => g' k j) hfin
  refine ⟨fun k hk => a1 k (List.mem_range.mpr hk), ?_⟩
  rw [List.length_range, range_sum, range_sum] at a2
  exact a2

/-- **C104**, product, no overflow: if the entries of a row and of a column are finite and the sum of the sizes of their products stays (by the factor of the
bound) below `2^1023`, the entry of the product is finite. -/
theorem c104_mul_finite (mem mem' : List F64) (v w : View) (n l m : Nat) (f g' : Nat → Nat → F64)
    (hf : Entries mem v n l f) (hg : Entries mem' w l m g') (hv : v.Fits) (hw : w.Fits) (hn : 0 < n) (hl : 0 < l) (hm : 0 < m) :
    ∃ c h, Mat.mul mem v mem' w = some c ∧ Entries c.data c.view n m h ∧
      ∀ i < n, ∀ j < m, (∀ k < l, (f i k).isFinite = true ∧ (g' k j).isFinite = true) →
        (1 + u) ^ (l + 1) * (∑ k ∈ Finset.range l, |val (f i k) * val (g' k j)| + l * eta) < 2 ^ 1023 → (h i j).isFinite = true := by
  obtain ⟨c, h1, h2, h3⟩ := (mul_fold mem mem' v w n l l m f g' hf hg hv hw hn hl hl hm).2 rfl
  refine ⟨c, _, h1, h3, fun i hi j hj hfin hb => ?_⟩
  refine prod_fin (List.range l) (fun k => f i k) (fun k => g' k j) (fun k hk => (hfin k (List.mem_range.mp hk)).1)
    (fun k hk => (hfin k (List.mem_range.mp hk)).2) ?_
  rw [List.length_range, range_sum]
  exact hb

/-! ### integers -/

theorem repM_int {z : ℤ} (h : |z| ≤ 2 ^ 53) : RepM |(z : ℚ)| := by
  rw [← Int.cast_abs]
  obtain ⟨k, hk⟩ := Int.eq_ofNat_of_zero_le (abs_nonneg z)
  rw [hk] at h ⊢
  have h' : k ≤ 2 ^ 53 := by exact_mod_cast h
  rcases lt_or_eq_of_le h' with h2 | h2
  · exact ⟨k, 0, h2, by norm_num, by simp⟩
  · refine ⟨2 ^ 52, 1, by norm_num, by norm_num, ?_⟩
    rw [h2]; norm_num

theorem int_lt {z : ℤ} (h : |z| ≤ 2 ^ 53) : |(z : ℚ)| < 2 ^ 1024 := by
  have h1 : |(z : ℚ)| ≤ 2 ^ 53 := by exact_mod_cast h
  exact lt_of_le_of_lt h1 (pow_lt_pow_right₀ (by norm_num) (by norm_num))

/-- a finite number with an integral value -/
def IsInt (x : F64) (z : ℤ) : Prop := x.isFinite = true ∧ val x = z

theorem isInt_add {x y : F64} {z w : ℤ} (hx : IsInt x z) (hy : IsInt y w) (h : |z + w| ≤ 2 ^ 53) : IsInt (x + y) (z + w) := by
  obtain ⟨⟨s, m, rfl⟩, e1⟩ := And.imp_left fin_iff.mp hx
  obtain ⟨⟨t, n, rfl⟩, e2⟩ := And.imp_left fin_iff.mp hy
  have e : (num s m : F64) + num t n = ofExact (s && t) (val (num s m) + val (num t n)) := rfl
  rw [e, e1, e2, ← Int.cast_add]
  exact ofExact_exact (repM_int h) (int_lt h)

theorem isInt_mul {x y : F64} {z w : ℤ} (hx : IsInt x z) (hy : IsInt y w) (h : |z * w| ≤ 2 ^ 53) : IsInt (x * y) (z * w) := by
  obtain ⟨⟨s, m, rfl⟩, e1⟩ := And.imp_left fin_iff.mp hx
  obtain ⟨⟨t, n, rfl⟩, e2⟩ := And.imp_left fin_iff.mp hy
  have e : (num s m : F64) * num t n = ofExact (xor s t) (val (num s m) * val (num t n)) := rfl
  rw [e, e1, e2, ← Int.cast_mul]
  exact ofExact_exact (repM_int h) (int_lt h)

theorem isInt_acc {α : Type} (a : α → F64) (z : α → ℤ) : ∀ (l : List α) (s : F64) (t : ℤ), IsInt s t → (∀ k ∈ l, IsInt (a k) (z k)) →
    |t| + (l.map (fun k => |z k|)).sum ≤ 2 ^ 53 → IsInt ((l.map a).foldl (· + ·) s) (t + (l.map z).sum) := by
  intro l
  induction l with
  | nil => intro s t h _ _; simpa using h
  | cons k r ih =>
    intro s t hs hl hb
    simp only [List.map_cons, List.sum_cons, List.foldl_cons] at hb ⊢
    have h0 : 0 ≤ (r.map (fun k => |z k|)).sum := by
      apply List.sum_nonneg
      intro x hx
      obtain ⟨y, -, rfl⟩ := List.mem_map.mp hx
      exact abs_nonneg _
    have h1 := abs_add_le t (z k)
    rw [← add_assoc]
    exact ih (s + a k) (t + z k) (isInt_add hs (hl k (by simp)) (by linarith)) (fun x hx => hl x (by simp [hx])) (by linarith)

/-- **C104**, integers: the product of matrices of integers is exact as long as the sums of the sizes of the terms do not exceed `2^53`. -/
theorem c104_mul_integers (mem mem' : List F64) (v w : View) (n l m : Nat) (f g' : Nat → Nat → F64) (p q : Nat → Nat → ℤ)
    (hf : Entries mem v n l f) (hg : Entries mem' w l m g') (hv : v.Fits) (hw : w.Fits) (hn : 0 < n) (hl : 0 < l) (hm : 0 < m)
    (hp : ∀ i < n, ∀ k < l, (f i k).isFinite = true ∧ val (f i k) = p i k) (hq : ∀ k < l, ∀ j < m, (g' k j).isFinite = true ∧ val (g' k j) = q k j)
    (hb : ∀ i < n, ∀ j < m, ∑ k ∈ Finset.range l, |p i k * q k j| ≤ 2 ^ 53) :
    ∃ c h, Mat.mul mem v mem' w = some c ∧ c.size = (n, m) ∧ Entries c.data c.view n m h ∧
      ∀ i < n, ∀ j < m, (h i j).isFinite = true ∧ val (h i j) = ∑ k ∈ Finset.range l, p i k * q k j := by
  obtain ⟨c, h1, h2, h3⟩ := (mul_fold mem mem' v w n l l m f g' hf hg hv hw hn hl hl hm).2 rfl
  refine ⟨c, _, h1, h2, h3, fun i hi j hj => ?_⟩
  have hb' := hb i hi j hj
  have := isInt_acc (fun k => f i k * g' k j) (fun k => p i k * q k j) (List.range l) 0 0 ⟨rfl, by simp [val_zero]⟩ (fun k hk => by
    have hk := List.mem_range.mp hk
    refine isInt_mul (hp i hi k hk) (hq k hk j hj) (le_trans ?_ hb')
    exact Finset.single_le_sum (f := fun k => |p i k * q k j|) (fun k _ => abs_nonneg _) (Finset.mem_range.mpr hk)) (by
    rw [range_sum, abs_zero, zero_add]; exact hb')
  rw [zero_add, range_sum] at this
  refine ⟨this.1, this.2.trans ?_⟩
  push_cast; rfl

/-- **C104**, sums and differences: entrywise, with a relative error of at most `2^-53` in every finite entry (the entries of the arguments are numbers of the
format). -/
theorem c104_add_sub (mem mem' : List F64) (v w : View) (n m : Nat) (f g' : Nat → Nat → F64)
    (hf : Entries mem v n m f) (hg : Entries mem' w n m g') (hn : n < 65536) (hm : m < 65536)
    (hrf : ∀ i < n, ∀ j < m, Rep (f i j)) (hrg : ∀ i < n, ∀ j < m, Rep (g' i j)) :
    (∃ c h, Mat.zipWith (· + ·) mem v mem' w = some c ∧ c.size = (n, m) ∧ Entries c.data c.view n m h ∧ ∀ i < n, ∀ j < m, (h i j).isFinite = true →
      (f i j).isFinite = true ∧ (g' i j).isFinite = true ∧ |val (h i j) - (val (f i j) + val (g' i j))| ≤ u * |val (f i j) + val (g' i j)|) ∧
    (∃ c h, Mat.zipWith (· - ·) mem v mem' w = some c ∧ c.size = (n, m) ∧ Entries c.data c.view n m h ∧ ∀ i < n, ∀ j < m, (h i j).isFinite = true →
      (f i j).isFinite = true ∧ (g' i j).isFinite = true ∧ |val (h i j) - (val (f i j) - val (g' i j))| ≤ u * |val (f i j) - val (g' i j)|) := by
  constructor
  · obtain ⟨c, h1, h2, h3⟩ := (c31_add_sub (· + ·) mem mem' v w n m n m f g' hf hg hn hm).2 rfl
    exact ⟨c, _, h1, h2, h3, fun i hi j hj h => add_fin (hrf i hi j hj) (hrg i hi j hj) h⟩
  · obtain ⟨c, h1, h2, h3⟩ := (c31_add_sub (· - ·) mem mem' v w n m n m f g' hf hg hn hm).2 rfl
    exact ⟨c, _, h1, h2, h3, fun i hi j hj h => sub_fin (hrf i hi j hj) (hrg i hi j hj) h⟩

/-- every entry of a product, sum or difference is a number of the format -/
theorem c104_representable (x y : F64) : Rep (x + y) ∧ Rep (x - y) ∧ Rep (x * y) ∧ Rep (x / y) := ⟨rep_add x y, rep_sub x y, rep_mul x y, rep_div x y⟩

/-! ### the rounding is that of IEEE 754 -/

/-- **C104**, the operations round correctly: the finite result of an operation with exact value `x` is a number of the format, and no number of the format is
nearer to `x`. -/
theorem c104_nearest (s : Bool) (x : ℚ) (h : (ofExact s x).isFinite = true) (z : F64) (hz : Rep z) (hzf : z.isFinite = true) :
    Rep (ofExact s x) ∧ |val (ofExact s x) - x| ≤ |val z - x| := by
  refine ⟨ofExact_rep s x, ?_⟩
  obtain ⟨t, m, rfl⟩ := fin_iff.mp hzf
  have hm := rep_nonneg hz
  by_cases h0 : x = 0
  · subst h0
    simp [ofExact, val_num]
  · unfold ofExact at *
    rw [if_neg h0] at *
    split_ifs at * with h2
    · cases h
    · rw [val_signed h0]
      have hn := rnd_nearest (abs_pos.mpr h0) (rep_repM hz)
      have e : ((rnd |x| : ℚ) : ℚ) = rnd |x| := Rat.cast_id _
      rw [e] at hn
      refine hn.trans ?_
      have := abs_abs_sub_abs_le (val (num t m)) x
      rwa [abs_val_num t hm] at this

/-- Example: the row `(0.1, 0.2)` times the column `(0.1, 0.2)`.  The hypotheses hold, the product is finite and is not the number nearest to `0.05`. -/
example : let row : List F64 := [lit (1 / 10), lit (2 / 10)]
    let v : View := ⟨0, (1, 2), (2, 1)⟩
    let w : View := ⟨0, (2, 1), (1, 1)⟩
    let f : Nat → Nat → F64 := fun i j => if j = 0 then lit (1 / 10) else lit (2 / 10)
    let g' : Nat → Nat → F64 := fun i j => if i = 0 then lit (1 / 10) else lit (2 / 10)
    Entries row v 1 2 f ∧ Entries row w 2 1 g' ∧ v.Fits ∧ w.Fits ∧
    ∃ c x, Mat.mul row v row w = some c ∧ c.data = [x] ∧ x.isFinite = true ∧ x ≠ lit (5 / 100) := by
  intro row v w f g'
  refine ⟨⟨rfl, ?_⟩, ⟨rfl, ?_⟩, by unfold View.Fits; decide, by unfold View.Fits; decide, ?_⟩
  · intro i j hi hj
    have : i = 0 := by omega
    subst this
    interval_cases j <;> decide +kernel
  · intro i j hi hj
    have : j = 0 := by omega
    subst this
    interval_cases i <;> decide +kernel
  · have h : (Mat.mul row v row w).any (fun c => match c.data with
      | [x] => x.isFinite && decide (x ≠ lit (5 / 100))
      | _ => false) = true := by decide +kernel
    cases hc : Mat.mul row v row w with
    | none => rw [hc] at h; cases h
    | some c =>
      rw [hc, Option.any_some] at h
      split at h
      · rename_i x hx
        rw [Bool.and_eq_true, decide_eq_true_iff] at h
        exact ⟨c, x, rfl, hx, h.1, h.2⟩
      · cases h

/-- Example for integers: `2` and `3` are such entries. -/
example : IsInt (lit 2) 2 ∧ IsInt (lit (-3)) (-3) ∧ Rep (lit 2) := by
  refine ⟨⟨by decide +kernel, ?_⟩, ⟨by decide +kernel, ?_⟩, ofExact_rep _ _⟩
  · have : val (lit 2) = 2 := by decide +kernel
    rw [this]; rfl
  · have : val (lit (-3)) = -3 := by decide +kernel
    rw [this]; rfl

end Toppo.FloatProps
