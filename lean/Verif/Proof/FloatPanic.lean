import Verif.Proof.FloatNear
import Verif.Model.FloatGeom
set_option linter.unusedVariables false

/-!
Where NaN and the infinities arise in the `f64` computations of geom/src/lib.rs.
-/
namespace Toppo.FloatGeom
open F64 FloatAlg

/-- a number with sign bit 0 or positive infinity -/
def NN (x : F64) : Prop := x = inf false ∨ ∃ m, 0 ≤ m ∧ x = num false m

theorem ofExact_ne_nan (s : Bool) (x : ℚ) : ofExact s x ≠ nan := by
  unfold ofExact; split_ifs <;> simp

theorem ofExact_nn {x : ℚ} (h : 0 ≤ x) : NN (ofExact false x) := by
  unfold ofExact
  split_ifs with h1 h2
  · exact Or.inr ⟨0, le_refl _, rfl⟩
  · left; rw [decide_eq_false (not_lt.mpr h)]
  · right; rw [decide_eq_false (not_lt.mpr h)]
    exact ⟨_, rnd_nonneg (abs_pos.mpr h1), rfl⟩

theorem sq_nn {x : F64} (h : x ≠ nan) : NN (x * x) := by
  rw [mul_def]
  cases x with
  | nan => exact absurd rfl h
  | inf s => left; simp [mul]
  | num s m =>
    simp only [mul, Bool.xor_self]
    exact ofExact_nn (mul_self_nonneg _)

theorem nn_add {x y : F64} (hx : NN x) (hy : NN y) : NN (x + y) := by
  rw [add_def]
  rcases hx with rfl | ⟨m, hm, rfl⟩ <;> rcases hy with rfl | ⟨n, hn, rfl⟩
  · left; simp [add]
  · left; rfl
  · left; rfl
  · simp only [add, Bool.and_self]
    exact ofExact_nn (add_nonneg hm hn)

theorem nn_sqrt {x : F64} (hx : NN x) : sqrt x ≠ nan := by
  rcases hx with rfl | ⟨m, hm, rfl⟩
  · simp [sqrt]
  · simp only [sqrt]
    by_cases h : m = 0
    · rw [if_pos h]; simp
    · rw [if_neg h]; simp

theorem nan_add (x : F64) : nan + x = nan := rfl
theorem add_nan (x : F64) : x + nan = nan := by cases x <;> rfl

theorem norm_nan (p : P2) : norm p = nan ↔ p.1 = nan ∨ p.2 = nan := by
  obtain ⟨x, y⟩ := p
  show sqrt ((0 + x * x) + y * y) = nan ↔ x = nan ∨ y = nan
  constructor
  · intro h
    by_contra hno
    push Not at hno
    exact nn_sqrt (nn_add (nn_add (Or.inr ⟨0, le_refl _, rfl⟩) (sq_nn hno.1)) (sq_nn hno.2)) h
  · rintro (rfl | rfl)
    · rw [show (nan * nan : F64) = nan from rfl, add_nan, nan_add]; rfl
    · rw [show (nan * nan : F64) = nan from rfl, add_nan]; rfl

theorem sq_inf {x : F64} (s : Bool) (h : x = inf s) : x * x = inf false := by
  subst h; cases s <;> rfl

/-- a vector that is not finite has a norm that is infinite or NaN -/
theorem norm_not_finite {p : P2} (h : p.1.isFinite = false ∨ p.2.isFinite = false) : norm p = nan ∨ norm p = inf false := by
  by_cases hn : p.1 = nan ∨ p.2 = nan
  · exact Or.inl ((norm_nan p).mpr hn)
  · push Not at hn
    right
    obtain ⟨x, y⟩ := p
    simp only at hn h
    show sqrt ((0 + x * x) + y * y) = inf false
    have n1 := nn_add (Or.inr ⟨0, le_refl _, rfl⟩ : NN 0) (sq_nn hn.1)
    have n2 := sq_nn hn.2
    rcases h with h | h
    · have : ∃ s, x = inf s := by cases x <;> simp_all [isFinite]
      obtain ⟨s, hs⟩ := this
      rw [sq_inf s hs, show (0 : F64) + inf false = inf false from rfl]
      rcases n2 with e | ⟨m, -, e⟩ <;> rw [e] <;> rfl
    · have : ∃ s, y = inf s := by cases y <;> simp_all [isFinite]
      obtain ⟨s, hs⟩ := this
      rw [sq_inf s hs]
      rcases n1 with e | ⟨m, -, e⟩ <;> rw [e] <;> rfl

theorem lt_irrefl (x : F64) : x.lt x = false := by
  cases x with
  | nan => rfl
  | inf s => cases s <;> rfl
  | num s m => simp [lt]

theorem lt_nan_inf {x y : F64} (h : x = nan ∨ x = inf false) : x.lt y = false := by
  rcases h with rfl | rfl
  · rfl
  · cases y with
    | nan => rfl
    | inf t => rfl
    | num t n => rfl

theorem add_finite_iff {x y : F64} (h : x.isFinite = false ∨ y.isFinite = false) : (x + y).isFinite = false := by
  rw [add_def]
  cases x <;> cases y <;> first | rfl | (simp only [add]; split_ifs <;> rfl) | (rcases h with h | h <;> cases h)

/-- a center that is not finite: nothing is inside -/
theorem contains_center {d0 d1 d2 : P2} (h : (center d0 d1 d2).1.isFinite = false ∨ (center d0 d1 d2).2.isFinite = false) (p : P2) :
    contains d0 d1 d2 p = false := by
  unfold contains containsW
  refine lt_nan_inf (norm_not_finite ?_)
  unfold vsub
  rcases h with h | h
  · left; exact add_finite_iff (Or.inr (by rw [← neg_def, fin_neg]; exact h))
  · right; exact add_finite_iff (Or.inr (by rw [← neg_def, fin_neg]; exact h))

/-! ### the mean -/

theorem fst_foldl (l : List P2) : ∀ acc : P2, (l.foldl vadd acc).1 = (l.map Prod.fst).foldl (· + ·) acc.1 := by
  induction l with
  | nil => intro acc; rfl
  | cons x l ih => intro acc; rw [List.foldl_cons, ih]; rfl

theorem snd_foldl (l : List P2) : ∀ acc : P2, (l.foldl vadd acc).2 = (l.map Prod.snd).foldl (· + ·) acc.2 := by
  induction l with
  | nil => intro acc; rfl
  | cons x l ih => intro acc; rw [List.foldl_cons, ih]; rfl

theorem add_fin_ne_nan {x y : F64} (hx : x ≠ nan) (hy : y.isFinite = true) : x + y ≠ nan := by
  obtain ⟨s, m, rfl⟩ := fin_iff.mp hy
  rw [add_def]
  cases x with
  | nan => exact absurd rfl hx
  | inf t => simp [add]
  | num t n => exact ofExact_ne_nan _ _

theorem foldl_ne_nan : ∀ (l : List F64) (acc : F64), acc ≠ nan → (∀ x ∈ l, x.isFinite = true) → l.foldl (· + ·) acc ≠ nan := by
  intro l
  induction l with
  | nil => intro acc h _; exact h
  | cons x l ih =>
    intro acc h hl
    rw [List.foldl_cons]
    exact ih _ (add_fin_ne_nan h (hl x (by simp))) fun y hy => hl y (by simp [hy])

theorem foldl_nan (l : List F64) : l.foldl (· + ·) nan = nan := by
  induction l with
  | nil => rfl
  | cons x l ih => rw [List.foldl_cons, nan_add]; exact ih

theorem foldl_inf (s : Bool) : ∀ l : List F64, l.foldl (· + ·) (inf s) = nan ∨ l.foldl (· + ·) (inf s) = inf s := by
  intro l
  induction l with
  | nil => exact Or.inr rfl
  | cons x l ih =>
    rw [List.foldl_cons]
    have : inf s + x = nan ∨ inf s + x = inf s := by
      rw [add_def]
      cases x with
      | nan => exact Or.inl rfl
      | inf t => simp only [add]; split <;> simp
      | num t n => exact Or.inr rfl
    rcases this with e | e <;> rw [e]
    · exact Or.inl (foldl_nan l)
    · exact ih

theorem foldl_bad : ∀ (l : List F64) (acc : F64), (∃ x ∈ l, x.isFinite = false) → l.foldl (· + ·) acc = nan ∨ ∃ s, l.foldl (· + ·) acc = inf s ∧ inf s ∈ l := by
  intro l
  induction l with
  | nil => rintro acc ⟨x, hx, -⟩; simp at hx
  | cons x l ih =>
    intro acc h
    rw [List.foldl_cons]
    by_cases hl : ∃ y ∈ l, y.isFinite = false
    · rcases ih (acc + x) hl with h1 | ⟨s, h1, h2⟩
      · exact Or.inl h1
      · exact Or.inr ⟨s, h1, List.mem_cons_of_mem _ h2⟩
    · obtain ⟨y, hy, hf⟩ := h
      have hyx : y = x := by
        rcases List.mem_cons.mp hy with rfl | hy
        · rfl
        · exact absurd ⟨y, hy, hf⟩ hl
      subst hyx
      have : acc + y = nan ∨ ∃ s, y = inf s ∧ acc + y = inf s := by
        rw [add_def]
        cases y with
        | nan => left; exact add_nan acc
        | num s m => simp [isFinite] at hf
        | inf s =>
          cases acc with
          | nan => exact Or.inl rfl
          | num t n => exact Or.inr ⟨s, rfl, rfl⟩
          | inf t =>
            simp only [add]
            split
            · next h => subst h; exact Or.inr ⟨t, rfl, rfl⟩
            · exact Or.inl rfl
      rcases this with e | ⟨s, rfl, e⟩
      · rw [e]; exact Or.inl (foldl_nan l)
      · rw [e]
        rcases foldl_inf s l with e' | e'
        · exact Or.inl e'
        · exact Or.inr ⟨s, e', by simp⟩

/-- the number of points as `f64` -/
theorem lit_len {n : Nat} (h0 : n ≠ 0) (h : n < 2 ^ 64) : ∃ m, 0 < m ∧ lit n = num false m := by
  have hn : (1 : ℚ) ≤ n := by exact_mod_cast Nat.one_le_iff_ne_zero.mpr h0
  have hf : (lit n).isFinite = true := by
    refine ofExact_fin _ ?_
    rw [abs_of_nonneg (by linarith)]
    have : (n : ℚ) < 2 ^ 64 := by exact_mod_cast h
    exact this.trans (pow_lt_pow_right₀ (by norm_num) (by norm_num))
  unfold lit ofExact at *
  rw [if_neg (by linarith)] at *
  split_ifs at * with h2
  · cases hf
  · rw [decide_eq_false (by linarith)]
    refine ⟨_, ?_, rfl⟩
    rw [abs_of_nonneg (by linarith)]
    have h1 : rnd (1 : ℚ) = 1 := by
      have := rnd_fixed (K := ℚ) (m := 1) ⟨1, 0, by norm_num, by norm_num, by simp⟩ (by norm_num)
      simpa using this
    have := rnd_mono (K := ℚ) (x := 1) (y := n) (by norm_num) hn
    rw [h1] at this
    linarith

theorem div_len {x : F64} {m : ℚ} (hm : 0 < m) : (x / num false m = nan ↔ x = nan) ∧ (∀ s, x = inf s → x / num false m = inf s) := by
  rw [div_def]
  cases x with
  | nan => simp [div]
  | inf s => simp [div]
  | num s n =>
    simp only [div, if_neg (ne_of_gt hm)]
    exact ⟨⟨fun h => absurd h (ofExact_ne_nan _ _), by simp⟩, by simp⟩

/-! ### the maximum -/

theorem maxBy_none : ∀ (xs : List F64) (x : F64), maxBy x xs = none ↔ xs ≠ [] ∧ ∃ y ∈ x :: xs, y = nan := by
  intro xs
  induction xs with
  | nil => intro x; simp [maxBy]
  | cons y ys ih =>
    intro x
    unfold maxBy
    by_cases h : x = nan ∨ y = nan
    · rw [if_pos h]
      refine ⟨fun _ => ⟨by simp, ?_⟩, fun _ => rfl⟩
      rcases h with h | h
      · exact ⟨x, by simp, h⟩
      · exact ⟨y, by simp, h⟩
    · rw [if_neg h, ih]
      push Not at h
      have hne : (if x.le y = true then y else x) ≠ nan := by split <;> [exact h.2; exact h.1]
      constructor
      · rintro ⟨h1, z, hz, hzn⟩
        refine ⟨by simp, z, ?_, hzn⟩
        rcases List.mem_cons.mp hz with rfl | hz
        · exact absurd hzn hne
        · simp [hz]
      · rintro ⟨-, z, hz, hzn⟩
        have hz' : z ∈ ys := by
          simp only [List.mem_cons] at hz
          rcases hz with rfl | rfl | hz
          · exact absurd hzn h.1
          · exact absurd hzn h.2
          · exact hz
        exact ⟨by rintro rfl; simp at hz', z, by simp [hz'], hzn⟩

end Toppo.FloatGeom
