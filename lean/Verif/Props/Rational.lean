import Verif.Model.Rational
import Mathlib.Algebra.Order.Field.Rat
import Mathlib.Data.Rat.Lemmas
import Mathlib.Data.Nat.Cast.Field
import Mathlib.Algebra.Order.Ring.Abs
import Mathlib.Algebra.BigOperators.Group.List.Basic
import Mathlib.Tactic.Ring
import Mathlib.Tactic.Linarith
import Mathlib.Tactic.FieldSimp
import Mathlib.Tactic.Positivity
import Mathlib.Tactic.NormNum
/-!
# C12-C15: `Rational`

Specification side: the value of a representation as a Mathlib rational, histories as expression trees evaluated in ℚ.
`ok` is the overflow predicate: theorems hold for every `ok`, in particular for `u64` (the machine) and for
`fun _ => true` (unbounded).
-/
namespace Toppo.RationalProps
open Toppo Toppo.Rational

/-- the number represented -/
def val (r : Rational) : ℚ := (if r.sign then 1 else -1) * ((r.numerator : ℚ) / (r.denominator : ℚ))

/-- lowest terms and positive denominator (a negative zero is still allowed) -/
def Reduced (r : Rational) : Prop := 0 < r.denominator ∧ Nat.Coprime r.numerator r.denominator

/-- canonical representation: lowest terms, positive denominator, zero is `+0/1` -/
def Canonical (r : Rational) : Prop := Reduced r ∧ (r.numerator = 0 → r.sign = true)

/-- histories of the public operations, as expression trees -/
inductive Expr where
  | new (n d : Int)
  | add (a b : Expr)
  | sub (a b : Expr)
  | mul (a b : Expr)
  | div (a b : Expr)
  | neg (a : Expr)
  | abs (a : Expr)

/-- execution of a history by the code -/
def run (ok : Nat → Bool) : Expr → Option Rational
  | .new n d => Rational.new n d
  | .add a b => do Rational.add ok (← run ok a) (← run ok b)
  | .sub a b => do Rational.sub ok (← run ok a) (← run ok b)
  | .mul a b => do Rational.mul ok (← run ok a) (← run ok b)
  | .div a b => do Rational.div ok (← run ok a) (← run ok b)
  | .neg a => do return (← run ok a).neg
  | .abs a => do return (← run ok a).abs

/-- the value the history should have -/
def eval : Expr → ℚ
  | .new n d => n / d
  | .add a b => eval a + eval b
  | .sub a b => eval a - eval b
  | .mul a b => eval a * eval b
  | .div a b => eval a / eval b
  | .neg a => - eval a
  | .abs a => |eval a|

/-- no unary minus is applied to a number whose value is zero -/
def NegSafe : Expr → Prop
  | .new _ _ => True
  | .add a b | .sub a b | .mul a b | .div a b => NegSafe a ∧ NegSafe b
  | .neg a => NegSafe a ∧ eval a ≠ 0
  | .abs a => NegSafe a

/-- no division has a divisor of value zero -/
def DivSafe : Expr → Prop
  | .new _ _ => True
  | .add a b | .sub a b | .mul a b => DivSafe a ∧ DivSafe b
  | .div a b => DivSafe a ∧ DivSafe b ∧ eval b ≠ 0
  | .neg a | .abs a => DivSafe a

/-! ### helper lemmas -/

theorem optimize_spec (r s : Rational) (hd : 0 < r.denominator) (h : r.optimize = some s) :
    Canonical s ∧ val s = val r := by
  unfold optimize at h
  split at h
  · rename_i h0
    injection h with h; subst h
    refine ⟨⟨⟨by simp, by simp [h0]⟩, by simp⟩, by simp [val, h0]⟩
  · rename_i h0
    have hg : 0 < Nat.gcd r.numerator r.denominator := Nat.gcd_pos_of_pos_right _ hd
    simp only [udiv, hg.ne', if_false, Option.bind_eq_bind, Option.bind_some, pure, Option.some.injEq] at h
    subst h
    have hn : 0 < r.numerator / Nat.gcd r.numerator r.denominator :=
      Nat.div_pos (Nat.le_of_dvd (by omega) (Nat.gcd_dvd_left ..)) hg
    have hd' : 0 < r.denominator / Nat.gcd r.numerator r.denominator :=
      Nat.div_pos (Nat.le_of_dvd hd (Nat.gcd_dvd_right ..)) hg
    refine ⟨⟨⟨hd', Nat.coprime_div_gcd_div_gcd hg⟩, by simp only; omega⟩, ?_⟩
    unfold val
    simp only
    congr 1
    rw [Nat.cast_div (Nat.gcd_dvd_left ..) (by exact_mod_cast hg.ne'),
      Nat.cast_div (Nat.gcd_dvd_right ..) (by exact_mod_cast hg.ne')]
    have : ((Nat.gcd r.numerator r.denominator : ℕ) : ℚ) ≠ 0 := by exact_mod_cast hg.ne'
    have : (r.denominator : ℚ) ≠ 0 := by exact_mod_cast hd.ne'
    field_simp

theorem optimize_some (r : Rational) (hd : 0 < r.denominator) : ∃ s, r.optimize = some s := by
  unfold optimize
  split
  · exact ⟨_, rfl⟩
  · have hg : 0 < Nat.gcd r.numerator r.denominator := Nat.gcd_pos_of_pos_right _ hd
    simp [udiv, hg.ne']

theorem uck_eq {ok : Nat → Bool} {x y : Nat} (h : uck ok x = some y) : x = y := by
  unfold uck at h; split at h
  · injection h
  · cases h

/-- the number behind the common-denominator products -/
theorem cross {a b : Rational} (ha : 0 < a.denominator) (hb : 0 < b.denominator) :
    ∃ g p q : Nat, g = Nat.gcd a.denominator b.denominator ∧ 0 < g ∧ a.denominator = p * g ∧ b.denominator = q * g ∧
      a.denominator / g = p ∧ b.denominator / g = q ∧ 0 < p ∧ 0 < q := by
  have hg : 0 < Nat.gcd a.denominator b.denominator := Nat.gcd_pos_of_pos_right _ hb
  refine ⟨_, _, _, rfl, hg, (Nat.div_mul_cancel (Nat.gcd_dvd_left ..)).symm,
    (Nat.div_mul_cancel (Nat.gcd_dvd_right ..)).symm, rfl, rfl, ?_, ?_⟩
  · exact Nat.div_pos (Nat.le_of_dvd ha (Nat.gcd_dvd_left ..)) hg
  · exact Nat.div_pos (Nat.le_of_dvd hb (Nat.gcd_dvd_right ..)) hg

theorem val_abs (r : Rational) : val r.abs = |val r| := by
  unfold val Rational.abs
  have : (0 : ℚ) ≤ (r.numerator : ℚ) / r.denominator := by positivity
  cases r.sign <;> simp [abs_of_nonneg this]

theorem val_neg (r : Rational) : val r.neg = - val r := by
  unfold val Rational.neg
  cases r.sign <;> simp

theorem val_eq_zero {r : Rational} (h : 0 < r.denominator) : val r = 0 ↔ r.numerator = 0 := by
  unfold val
  have : (r.denominator : ℚ) ≠ 0 := by exact_mod_cast h.ne'
  cases r.sign <;> simp [this, h.ne']

/-- comparing the two cross products compares the absolute values -/
theorem cmp_some {ok : Nat → Bool} {a b : Rational} {o : Ordering} (ha : 0 < a.denominator) (hb : 0 < b.denominator)
    (h : Rational.cmp ok a b = some o) :
    (a.numerator ≠ 0 ∨ b.numerator ≠ 0) ∧
    (a.sign = b.sign ∨ a.numerator ≠ 0 ∨ b.numerator ≠ 0) ∧ o = compare (val a) (val b) := by
  unfold Rational.cmp at h
  obtain ⟨gd, p, q, hgd, hgd0, hda, hdb, hp, hq, hp0, hq0⟩ := cross ha hb
  simp only [← hgd] at h
  by_cases hgn0 : Nat.gcd a.numerator b.numerator = 0
  · simp [udiv, hgn0] at h
  · have hgn : 0 < Nat.gcd a.numerator b.numerator := Nat.pos_of_ne_zero hgn0
    have hne : a.numerator ≠ 0 ∨ b.numerator ≠ 0 := by
      by_contra hc; push Not at hc; rw [hc.1, hc.2] at hgn0; simp at hgn0
    refine ⟨hne, Or.inr hne, ?_⟩
    generalize hGn : Nat.gcd a.numerator b.numerator = gn at *
    obtain ⟨n, hn⟩ : ∃ n, a.numerator = n * gn := ⟨_, (Nat.div_mul_cancel (hGn ▸ Nat.gcd_dvd_left ..)).symm⟩
    obtain ⟨m, hm⟩ : ∃ m, b.numerator = m * gn := ⟨_, (Nat.div_mul_cancel (hGn ▸ Nat.gcd_dvd_right ..)).symm⟩
    have e1 : a.numerator / gn = n := by rw [hn]; exact Nat.mul_div_cancel _ hgn
    have e2 : b.numerator / gn = m := by rw [hm]; exact Nat.mul_div_cancel _ hgn
    simp only [udiv, hgn0, hgd0.ne', if_false, Option.bind_eq_bind, Option.bind_some, e1, e2, hp, hq,
      Option.bind_eq_some_iff] at h
    obtain ⟨x, hx, y, hy, h⟩ := h
    have hx := uck_eq hx; have hy := uck_eq hy
    subst hx; subst hy
    -- absolute values
    have hgnq : (0 : ℚ) < gn := by exact_mod_cast hgn
    have hgdq : (0 : ℚ) < gd := by exact_mod_cast hgd0
    have hpq : (0 : ℚ) < p := by exact_mod_cast hp0
    have hqq : (0 : ℚ) < q := by exact_mod_cast hq0
    have va : (a.numerator : ℚ) / a.denominator = (n * q : ℕ) * (gn / (p * q * gd)) := by
      rw [hn, hda]; push_cast; field_simp
    have vb : (b.numerator : ℚ) / b.denominator = (m * p : ℕ) * (gn / (p * q * gd)) := by
      rw [hm, hdb]; push_cast; field_simp
    have hpos : (0 : ℚ) < gn / (p * q * gd) := by positivity
    have hmono : ∀ u v : ℕ, compare ((u : ℚ) * (gn / (p * q * gd))) ((v : ℚ) * (gn / (p * q * gd))) = compare u v := by
      intro u v
      rcases lt_trichotomy u v with h | h | h
      · rw [compare_lt_iff_lt.mpr h, compare_lt_iff_lt]
        exact mul_lt_mul_of_pos_right (by exact_mod_cast h) hpos
      · subst h; simp
      · rw [compare_gt_iff_gt.mpr h, compare_gt_iff_gt]
        exact mul_lt_mul_of_pos_right (by exact_mod_cast h) hpos
    have hmononeg : ∀ u v : ℕ, compare (-1 * ((u : ℚ) * (gn / (p * q * gd)))) (-1 * ((v : ℚ) * (gn / (p * q * gd)))) = compare v u := by
      intro u v
      rcases lt_trichotomy u v with h | h | h
      · rw [compare_gt_iff_gt.mpr h, compare_gt_iff_gt]
        have := mul_lt_mul_of_pos_right (show (u : ℚ) < v by exact_mod_cast h) hpos
        linarith
      · subst h; simp
      · rw [compare_lt_iff_lt.mpr h, compare_lt_iff_lt]
        have := mul_lt_mul_of_pos_right (show (v : ℚ) < u by exact_mod_cast h) hpos
        linarith
    unfold val
    rw [va, vb]
    cases hsa : a.sign <;> cases hsb : b.sign <;> simp only [hsa, hsb, Bool.and_true, Bool.and_false, Bool.not_true,
      Bool.not_false, Bool.and_self, if_true, if_false, pure, Option.some.injEq, Bool.false_eq_true, one_mul] at h ⊢
    · rw [hmononeg, h]
    · subst h; symm
      rw [compare_lt_iff_lt]
      have h1 : (0 : ℚ) ≤ (n * q : ℕ) * (gn / (p * q * gd)) := by positivity
      have h2 : (0 : ℚ) ≤ (m * p : ℕ) * (gn / (p * q * gd)) := by positivity
      rcases hne with hne | hne
      · have : 0 < n * q := Nat.mul_pos (Nat.pos_of_ne_zero (fun h0 => hne (by rw [hn, h0]; simp))) hq0
        have h1 : (0 : ℚ) < (n * q : ℕ) * (gn / (p * q * gd)) := mul_pos (by exact_mod_cast this) hpos
        linarith
      · have : 0 < m * p := Nat.mul_pos (Nat.pos_of_ne_zero (fun h0 => hne (by rw [hm, h0]; simp))) hp0
        have h1 : (0 : ℚ) < (m * p : ℕ) * (gn / (p * q * gd)) := mul_pos (by exact_mod_cast this) hpos
        linarith
    · subst h; symm
      rw [compare_gt_iff_gt]
      have h1 : (0 : ℚ) ≤ (n * q : ℕ) * (gn / (p * q * gd)) := by positivity
      have h2 : (0 : ℚ) ≤ (m * p : ℕ) * (gn / (p * q * gd)) := by positivity
      rcases hne with hne | hne
      · have : 0 < n * q := Nat.mul_pos (Nat.pos_of_ne_zero (fun h0 => hne (by rw [hn, h0]; simp))) hq0
        have h1 : (0 : ℚ) < (n * q : ℕ) * (gn / (p * q * gd)) := mul_pos (by exact_mod_cast this) hpos
        linarith
      · have : 0 < m * p := Nat.mul_pos (Nat.pos_of_ne_zero (fun h0 => hne (by rw [hm, h0]; simp))) hp0
        have h1 : (0 : ℚ) < (m * p : ℕ) * (gn / (p * q * gd)) := mul_pos (by exact_mod_cast this) hpos
        linarith
    · rw [hmono, h]

theorem mul_some {ok : Nat → Bool} {a b r : Rational} (ha : 0 < a.denominator) (hb : 0 < b.denominator)
    (h : Rational.mul ok a b = some r) : Canonical r ∧ val r = val a * val b := by
  unfold Rational.mul at h
  simp only [Option.bind_eq_bind, Option.bind_eq_some_iff] at h
  obtain ⟨n, hn, d, hd, h⟩ := h
  have hn := uck_eq hn; have hd := uck_eq hd
  subst hn; subst hd
  have := optimize_spec _ r (by simp only; positivity) h
  refine ⟨this.1, this.2.trans ?_⟩
  unfold val
  simp only
  push_cast
  cases a.sign <;> cases b.sign <;> simp <;> ring

theorem div_some {ok : Nat → Bool} {a b r : Rational} (ha : 0 < a.denominator) (hb : 0 < b.denominator)
    (hbn : b.numerator ≠ 0)
    (h : Rational.div ok a b = some r) : Canonical r ∧ val r = val a / val b := by
  unfold Rational.div at h
  split at h
  · cases h
  · simp only [Option.bind_eq_bind, Option.bind_eq_some_iff] at h
    obtain ⟨n, hn, d, hd, h⟩ := h
    have hn := uck_eq hn; have hd := uck_eq hd
    subst hn; subst hd
    have := optimize_spec _ r (by simp only; exact Nat.mul_pos ha (Nat.pos_of_ne_zero hbn)) h
    refine ⟨this.1, this.2.trans ?_⟩
    unfold val
    simp only
    have h1 : (a.denominator : ℚ) ≠ 0 := by exact_mod_cast ha.ne'
    have h2 : (b.denominator : ℚ) ≠ 0 := by exact_mod_cast hb.ne'
    have h3 : (b.numerator : ℚ) ≠ 0 := by exact_mod_cast hbn
    push_cast
    cases a.sign <;> cases b.sign <;> simp <;> field_simp

theorem add_some {ok : Nat → Bool} {a b r : Rational} (ha : 0 < a.denominator) (hb : 0 < b.denominator)
    (h : Rational.add ok a b = some r) : Canonical r ∧ val r = val a + val b := by
  unfold Rational.add Rational.addParts at h
  obtain ⟨gd, p, q, hgd, hgd0, hda, hdb, hp, hq, hp0, hq0⟩ := cross ha hb
  have hgdq : (gd : ℚ) ≠ 0 := by exact_mod_cast hgd0.ne'
  have hpq : (p : ℚ) ≠ 0 := by exact_mod_cast hp0.ne'
  have hqq : (q : ℚ) ≠ 0 := by exact_mod_cast hq0.ne'
  have va : val a = (if a.sign then 1 else -1) * ((a.numerator * q : ℕ) / (p * gd * q : ℚ)) := by
    unfold val; rw [hda]; push_cast; congr 1; field_simp
  have vb : val b = (if b.sign then 1 else -1) * ((p * b.numerator : ℕ) / (p * gd * q : ℚ)) := by
    unfold val; rw [hdb]; push_cast; congr 1; field_simp
  simp only [← hgd, udiv, hgd0.ne', if_false, Option.bind_eq_bind, Option.bind_some, hp, hq,
    Option.bind_eq_some_iff] at h
  obtain ⟨⟨n, s⟩, hns, d, hd, h⟩ := h
  have hd := uck_eq hd
  subst hd
  simp only at h
  have hopt := optimize_spec _ r (by simp only; exact Nat.mul_pos ha hq0) h
  refine ⟨hopt.1, hopt.2.trans ?_⟩
  have vr : val ⟨n, a.denominator * q, s⟩ = (if s then 1 else -1) * ((n : ℚ) / (p * gd * q : ℚ)) := by
    unfold val; simp only; rw [hda]; push_cast; rfl
  rw [vr, va, vb]
  split at hns
  · rename_i hs
    have hs : a.sign = b.sign := by simpa using hs
    simp only [Option.bind_eq_some_iff] at hns
    obtain ⟨x, hx, y, hy, n', hn', e⟩ := hns
    have hx := uck_eq hx; have hy := uck_eq hy; have hn' := uck_eq hn'
    subst hx; subst hy; subst hn'
    simp only [pure, Option.some.injEq, Prod.mk.injEq] at e
    obtain ⟨rfl, rfl⟩ := e
    rw [hs]; push_cast; ring
  · rename_i hs
    have hs : a.sign ≠ b.sign := by simpa using hs
    simp only [Option.bind_eq_some_iff] at hns
    obtain ⟨c, hc, hns⟩ := hns
    split at hns
    · simp only [Option.bind_eq_some_iff] at hns
      obtain ⟨x, hx, y, hy, n', hn', e⟩ := hns
      have hx := uck_eq hx; have hy := uck_eq hy
      subst hx; subst hy
      simp only [pure, Option.some.injEq, Prod.mk.injEq] at e
      obtain ⟨rfl, rfl⟩ := e
      unfold usub at hn'
      split at hn'
      · rename_i hle
        injection hn' with hn'
        rw [← hn', Nat.cast_sub hle]
        have hs' : b.sign = !a.sign := by cases h1 : a.sign <;> cases h2 : b.sign <;> simp [h1, h2] at hs ⊢
        rw [hs']
        cases a.sign <;> simp <;> ring
      · cases hn'
    · simp only [Option.bind_eq_some_iff] at hns
      obtain ⟨x, hx, y, hy, n', hn', e⟩ := hns
      have hx := uck_eq hx; have hy := uck_eq hy
      subst hx; subst hy
      simp only [pure, Option.some.injEq, Prod.mk.injEq] at e
      obtain ⟨rfl, rfl⟩ := e
      unfold usub at hn'
      split at hn'
      · rename_i hle
        injection hn' with hn'
        rw [← hn', Nat.cast_sub hle]
        have hs' : b.sign = !a.sign := by cases h1 : a.sign <;> cases h2 : b.sign <;> simp [h1, h2] at hs ⊢
        rw [hs']
        cases a.sign <;> simp <;> ring
      · cases hn'

theorem val_negOne : val one.neg = -1 := by simp [val, Rational.neg, one]

theorem sub_some {ok : Nat → Bool} {a b r : Rational} (ha : 0 < a.denominator) (hb : 0 < b.denominator)
    (h : Rational.sub ok a b = some r) : Canonical r ∧ val r = val a - val b := by
  unfold Rational.sub at h
  simp only [Option.bind_eq_bind, Option.bind_eq_some_iff] at h
  obtain ⟨m, hm, h⟩ := h
  have h1 := mul_some hb (by simp [Rational.neg, one]) hm
  have h2 := add_some ha h1.1.1.1 h
  refine ⟨h2.1, ?_⟩
  rw [h2.2, h1.2, val_negOne]; ring

theorem new_some {n d : Int} {r : Rational} (h : Rational.new n d = some r) :
    d ≠ 0 ∧ Canonical r ∧ val r = n / d := by
  unfold Rational.new at h
  split at h
  · cases h
  · rename_i hd
    split at h
    · cases h
    · have := optimize_spec _ r (by simp only; omega) h
      refine ⟨hd, this.1, this.2.trans ?_⟩
      unfold val
      simp only [Nat.cast_natAbs, Int.cast_abs]
      have hd' : (d : ℚ) ≠ 0 := by exact_mod_cast hd
      by_cases h1 : n ≥ 0 <;> by_cases h2 : d ≥ 0
      · have e1 : (0 : ℚ) ≤ n := by exact_mod_cast h1
        have e2 : (0 : ℚ) ≤ d := by exact_mod_cast h2
        simp [h1, h2, abs_of_nonneg e1, abs_of_nonneg e2]
      · have e1 : (0 : ℚ) ≤ n := by exact_mod_cast h1
        have e2 : (d : ℚ) ≤ 0 := by exact_mod_cast (by omega : d ≤ 0)
        simp [h1, h2, abs_of_nonneg e1, abs_of_nonpos e2]; field_simp
      · have e1 : (n : ℚ) ≤ 0 := by exact_mod_cast (by omega : n ≤ 0)
        have e2 : (0 : ℚ) ≤ d := by exact_mod_cast h2
        simp [h1, h2, abs_of_nonpos e1, abs_of_nonneg e2]; field_simp
      · have e1 : (n : ℚ) ≤ 0 := by exact_mod_cast (by omega : n ≤ 0)
        have e2 : (d : ℚ) ≤ 0 := by exact_mod_cast (by omega : d ≤ 0)
        simp [h1, h2, abs_of_nonpos e1, abs_of_nonpos e2]

theorem canonical_ext {a b : Rational} (ha : Canonical a) (hb : Canonical b) (h : val a = val b) : a = b := by
  obtain ⟨⟨da, ca⟩, sa⟩ := ha
  obtain ⟨⟨db, cb⟩, sb⟩ := hb
  have hq : ∀ r : Rational, 0 < r.denominator → Nat.Coprime r.numerator r.denominator →
      (val r).den = r.denominator ∧ (val r).num = (if r.sign then 1 else -1) * (r.numerator : ℤ) := by
    intro r hd hc
    have hne : (r.denominator : ℤ) ≠ 0 := by exact_mod_cast hd.ne'
    have : val r = (⟨(if r.sign then 1 else -1) * (r.numerator : ℤ), r.denominator, hd.ne', by
        cases r.sign <;> simpa using hc⟩ : ℚ) := by
      rw [← Rat.num_div_den (⟨(if r.sign then 1 else -1) * (r.numerator : ℤ), r.denominator, hd.ne', by
        cases r.sign <;> simpa using hc⟩ : ℚ)]
      unfold val
      cases r.sign <;> simp <;> ring
    rw [this]; exact ⟨rfl, rfl⟩
  obtain ⟨a1, a2⟩ := hq a da ca
  obtain ⟨b1, b2⟩ := hq b db cb
  rw [h] at a1 a2
  have e1 : a.denominator = b.denominator := by rw [← a1, ← b1]
  have e2 := a2.symm.trans b2
  cases a with | mk na da' sga =>
  cases b with | mk nb db' sgb =>
  simp only at *
  subst e1
  by_cases h0 : na = 0
  · subst h0
    have : nb = 0 := by cases sgb <;> simp at e2 <;> omega
    subst this
    simp [sa rfl, sb rfl]
  · cases sga <;> cases sgb <;> simp at e2 ⊢ <;> omega

/-! ## Property theorems -/

/-- **C12 is false** of the code: negating zero yields a value that is not `==` zero although it represents zero, and
adding it to zero panics even without any overflow. -/
theorem c12_false :
    (∃ e : Expr, ∃ r, run u64 e = some r ∧ val r = 0 ∧ r ≠ zero) ∧
    run (fun _ => true) (.add (.new 0 1) (.neg (.new 0 1))) = none := by
  refine ⟨⟨.neg (.new 0 1), ⟨0, 1, false⟩, by decide, by simp [val], by decide⟩, by decide⟩

/-- **C12, the part that holds (values).** For every history in which no divisor has value zero, and every overflow
behaviour: a returned number is in lowest terms with positive denominator and has exactly the right value. -/
theorem c12_exact_partial (ok : Nat → Bool) (e : Expr) (hs : DivSafe e) (r : Rational) (h : run ok e = some r) :
    Reduced r ∧ val r = eval e := by
  induction e generalizing r with
  | new n d =>
    obtain ⟨_, h1, h2⟩ := new_some h
    exact ⟨h1.1, h2⟩
  | add a b iha ihb =>
    simp only [run, Option.bind_eq_bind, Option.bind_eq_some_iff] at h
    obtain ⟨x, hx, y, hy, h⟩ := h
    have h1 := iha hs.1 x hx; have h2 := ihb hs.2 y hy
    have := add_some h1.1.1 h2.1.1 h
    exact ⟨this.1.1, by rw [this.2, h1.2, h2.2]; rfl⟩
  | sub a b iha ihb =>
    simp only [run, Option.bind_eq_bind, Option.bind_eq_some_iff] at h
    obtain ⟨x, hx, y, hy, h⟩ := h
    have h1 := iha hs.1 x hx; have h2 := ihb hs.2 y hy
    have := sub_some h1.1.1 h2.1.1 h
    exact ⟨this.1.1, by rw [this.2, h1.2, h2.2]; rfl⟩
  | mul a b iha ihb =>
    simp only [run, Option.bind_eq_bind, Option.bind_eq_some_iff] at h
    obtain ⟨x, hx, y, hy, h⟩ := h
    have h1 := iha hs.1 x hx; have h2 := ihb hs.2 y hy
    have := mul_some h1.1.1 h2.1.1 h
    exact ⟨this.1.1, by rw [this.2, h1.2, h2.2]; rfl⟩
  | div a b iha ihb =>
    simp only [run, Option.bind_eq_bind, Option.bind_eq_some_iff] at h
    obtain ⟨x, hx, y, hy, h⟩ := h
    have h1 := iha hs.1 x hx; have h2 := ihb hs.2.1 y hy
    have hne : y.numerator ≠ 0 := by
      intro h0
      exact hs.2.2 (h2.2 ▸ (val_eq_zero h2.1.1).mpr h0)
    have := div_some h1.1.1 h2.1.1 hne h
    exact ⟨this.1.1, by rw [this.2, h1.2, h2.2]; rfl⟩
  | neg a iha =>
    simp only [run, Option.bind_eq_bind, Option.bind_eq_some_iff, pure, Option.some.injEq] at h
    obtain ⟨x, hx, rfl⟩ := h
    have h1 := iha hs x hx
    exact ⟨h1.1, by rw [val_neg, h1.2]; rfl⟩
  | abs a iha =>
    simp only [run, Option.bind_eq_bind, Option.bind_eq_some_iff, pure, Option.some.injEq] at h
    obtain ⟨x, hx, rfl⟩ := h
    have h1 := iha hs x hx
    exact ⟨h1.1, by rw [val_abs, h1.2]; rfl⟩

/-- **C12, the part that holds (canonical form).** For every history in which unary minus is not applied to zero, a
returned number is canonical and has the right value (a zero divisor then always panics). -/
theorem c12_canonical_partial (ok : Nat → Bool) (e : Expr) (hs : NegSafe e) (r : Rational) (h : run ok e = some r) :
    Canonical r ∧ val r = eval e := by
  induction e generalizing r with
  | new n d =>
    obtain ⟨_, h1, h2⟩ := new_some h
    exact ⟨h1, h2⟩
  | add a b iha ihb =>
    simp only [run, Option.bind_eq_bind, Option.bind_eq_some_iff] at h
    obtain ⟨x, hx, y, hy, h⟩ := h
    have h1 := iha hs.1 x hx; have h2 := ihb hs.2 y hy
    have := add_some h1.1.1.1 h2.1.1.1 h
    exact ⟨this.1, by rw [this.2, h1.2, h2.2]; rfl⟩
  | sub a b iha ihb =>
    simp only [run, Option.bind_eq_bind, Option.bind_eq_some_iff] at h
    obtain ⟨x, hx, y, hy, h⟩ := h
    have h1 := iha hs.1 x hx; have h2 := ihb hs.2 y hy
    have := sub_some h1.1.1.1 h2.1.1.1 h
    exact ⟨this.1, by rw [this.2, h1.2, h2.2]; rfl⟩
  | mul a b iha ihb =>
    simp only [run, Option.bind_eq_bind, Option.bind_eq_some_iff] at h
    obtain ⟨x, hx, y, hy, h⟩ := h
    have h1 := iha hs.1 x hx; have h2 := ihb hs.2 y hy
    have := mul_some h1.1.1.1 h2.1.1.1 h
    exact ⟨this.1, by rw [this.2, h1.2, h2.2]; rfl⟩
  | div a b iha ihb =>
    simp only [run, Option.bind_eq_bind, Option.bind_eq_some_iff] at h
    obtain ⟨x, hx, y, hy, h⟩ := h
    have h1 := iha hs.1 x hx; have h2 := ihb hs.2 y hy
    have hne : y.numerator ≠ 0 := by
      intro h0
      have hz : y = zero := canonical_ext h2.1 ⟨⟨by simp [zero], by simp [zero]⟩, by simp [zero]⟩ (by
        rw [(val_eq_zero h2.1.1.1).mpr h0]; simp [val, zero])
      subst hz
      simp [Rational.div] at h
    have := div_some h1.1.1.1 h2.1.1.1 hne h
    exact ⟨this.1, by rw [this.2, h1.2, h2.2]; rfl⟩
  | neg a iha =>
    simp only [run, Option.bind_eq_bind, Option.bind_eq_some_iff, pure, Option.some.injEq] at h
    obtain ⟨x, hx, rfl⟩ := h
    have h1 := iha hs.1 x hx
    refine ⟨⟨h1.1.1, ?_⟩, by rw [val_neg, h1.2]; rfl⟩
    intro h0
    exact absurd (h1.2 ▸ (val_eq_zero h1.1.1.1).mpr h0) hs.2
  | abs a iha =>
    simp only [run, Option.bind_eq_bind, Option.bind_eq_some_iff, pure, Option.some.injEq] at h
    obtain ⟨x, hx, rfl⟩ := h
    have h1 := iha hs x hx
    exact ⟨⟨h1.1.1, fun _ => rfl⟩, by rw [val_abs, h1.2]; rfl⟩

/-- **C12, the part that holds (equality).** For such histories `==` is equality of values. -/
theorem c12_eq_partial (ok : Nat → Bool) (e f : Expr) (he : NegSafe e) (hf : NegSafe f) (r s : Rational)
    (hr : run ok e = some r) (hs : run ok f = some s) : (r == s) = true ↔ eval e = eval f := by
  have h1 := c12_canonical_partial ok e he r hr
  have h2 := c12_canonical_partial ok f hf s hs
  rw [beq_iff_eq, ← h1.2, ← h2.2]
  exact ⟨fun h => by rw [h], fun h => canonical_ext h1.1 h2.1 h⟩

example : NegSafe (.sub (.neg (.new 1 2)) (.div (.new 3 (-4)) (.new 9 2))) ∧
    run u64 (.sub (.neg (.new 1 2)) (.div (.new 3 (-4)) (.new 9 2))) = some ⟨1, 3, false⟩ := by
  constructor
  · simp [NegSafe, eval]
  · decide

/-- canonical operands, unbounded arithmetic: `cmp` panics exactly when both are zero -/
theorem cmp_none_iff {a b : Rational} (ha : 0 < a.denominator) (hb : 0 < b.denominator) :
    Rational.cmp (fun _ => true) a b = none ↔ a.numerator = 0 ∧ b.numerator = 0 := by
  unfold Rational.cmp
  have hg : Nat.gcd a.denominator b.denominator ≠ 0 := (Nat.gcd_pos_of_pos_right _ hb).ne'
  by_cases h0 : Nat.gcd a.numerator b.numerator = 0
  · simp [udiv, h0, Nat.gcd_eq_zero_iff.mp h0]
  · have : ¬ (a.numerator = 0 ∧ b.numerator = 0) := fun h => h0 (by rw [h.1, h.2]; rfl)
    simp only [udiv, h0, hg, uck, if_false, if_true, Option.bind_eq_bind, Option.bind_some, this, iff_false]
    split
    · simp
    · split
      · simp
      · split <;> simp

/-- **C13 is false** of the code: comparing zero with zero panics (division by `gcd(0,0) = 0`). -/
theorem c13_false : Rational.new 0 1 = some zero ∧ Rational.cmp u64 zero zero = none ∧
    Rational.cmp (fun _ => true) zero zero = none := by decide

/-- **C13, the part that holds.** On numbers in lowest terms a returned ordering is the order of the values (so it is a
total order), for any overflow behaviour; without overflow the only panic is comparing zero with zero. -/
theorem c13_cmp_partial (a b : Rational) (ha : Reduced a) (hb : Reduced b) :
    (∀ ok o, Rational.cmp ok a b = some o → o = compare (val a) (val b)) ∧
    (Rational.cmp (fun _ => true) a b = none ↔ val a = 0 ∧ val b = 0) := by
  refine ⟨fun ok o h => (cmp_some ha.1 hb.1 h).2.2, ?_⟩
  rw [cmp_none_iff ha.1 hb.1, val_eq_zero ha.1, val_eq_zero hb.1]

example : Reduced ⟨1, 3, false⟩ ∧ Reduced ⟨0, 1, true⟩ ∧ Rational.cmp u64 ⟨1, 3, false⟩ ⟨0, 1, true⟩ = some .lt := by
  refine ⟨⟨by decide, by decide⟩, ⟨by decide, by decide⟩, by decide⟩

/-- **C14** (sum). A returned `iter.sum()` is the exact sum, canonical. -/
theorem c14_sum (ok : Nat → Bool) (l : List Rational) (hl : ∀ x ∈ l, Reduced x) (r : Rational)
    (h : Rational.sum ok l = some r) : Canonical r ∧ val r = (l.map val).sum := by
  unfold Rational.sum at h
  suffices H : ∀ (l : List Rational) (z r : Rational), (∀ x ∈ l, Reduced x) → Canonical z →
      l.foldlM (Rational.add ok) z = some r → Canonical r ∧ val r = val z + (l.map val).sum by
    have := H l zero r hl ⟨⟨by simp [zero], by simp [zero]⟩, by simp [zero]⟩ h
    refine ⟨this.1, this.2.trans ?_⟩
    simp [val, zero]
  intro l
  induction l with
  | nil => intro z r _ hz h; simp [pure] at h; subst h; simp [hz]
  | cons x xs ih =>
    intro z r hl hz h
    rw [List.foldlM_cons, Option.bind_eq_bind, Option.bind_eq_some_iff] at h
    obtain ⟨y, hy, h⟩ := h
    have h1 := add_some hz.1.1 (hl x List.mem_cons_self).1 hy
    have h2 := ih y r (fun w hw => hl w (List.mem_cons_of_mem _ hw)) h1.1 h
    refine ⟨h2.1, ?_⟩
    rw [h2.2, h1.2, List.map_cons, List.sum_cons]; ring

/-- **C14 is false** for products: the fold starts from zero, so `[2].product()` is 0. -/
theorem c14_product_false : Rational.product u64 [⟨2, 1, true⟩] = some zero ∧ val ⟨2, 1, true⟩ = 2 := by
  refine ⟨by decide, by norm_num [val]⟩

/-- What `product` really computes on numbers in lowest terms: always zero, whatever the items. -/
theorem c14_product_actual (ok : Nat → Bool) (l : List Rational) (hl : ∀ x ∈ l, Reduced x) (r : Rational)
    (h : Rational.product ok l = some r) : r = zero := by
  have hz : Canonical zero := ⟨⟨by simp [zero], by simp [zero]⟩, by simp [zero]⟩
  unfold Rational.product at h
  induction l with
  | nil => simp [pure] at h; exact h.symm
  | cons x xs ih =>
    rw [List.foldlM_cons, Option.bind_eq_bind, Option.bind_eq_some_iff] at h
    obtain ⟨y, hy, h⟩ := h
    have h1 := mul_some hz.1.1 (hl x List.mem_cons_self).1 hy
    have : y = zero := canonical_ext h1.1 hz (by rw [h1.2]; simp [val, zero])
    subst this
    exact ih (fun w hw => hl w (List.mem_cons_of_mem _ hw)) h

/-- **C15 is false** of the code: `1 / (-0)` is not rejected and yields denominator 0. -/
theorem c15_false : ∃ r, run u64 (.div (.new 1 1) (.neg (.new 0 1))) = some r ∧ r.denominator = 0 :=
  ⟨⟨1, 0, false⟩, by decide, rfl⟩

/-- **C15, the part that holds.** In every history where minus is not applied to zero, every returned number has a
positive denominator, and dividing by a history of value zero panics. -/
theorem c15_partial (ok : Nat → Bool) :
    (∀ e r, NegSafe e → run ok e = some r → 0 < r.denominator) ∧
    (∀ e f, NegSafe f → eval f = 0 → run ok (.div e f) = none) := by
  constructor
  · intro e r hs h; exact (c12_canonical_partial ok e hs r h).1.1.1
  · intro e f hf h0
    simp only [run, Option.bind_eq_bind]
    match hx : run ok e with
    | none => rfl
    | some x =>
      match hy : run ok f with
      | none => rfl
      | some y =>
        have h2 := c12_canonical_partial ok f hf y hy
        have hz : y = zero := canonical_ext h2.1 ⟨⟨by simp [zero], by simp [zero]⟩, by simp [zero]⟩ (by
          rw [h2.2, h0]; simp [val, zero])
        subst hz
        simp [Rational.div]

example : NegSafe (.sub (.new 1 2) (.new 2 4)) ∧ eval (.sub (.new 1 2) (.new 2 4)) = 0 ∧
    run u64 (.sub (.new 1 2) (.new 2 4)) = some zero := by
  refine ⟨by simp [NegSafe], by norm_num [eval], by decide⟩

/-- **C12** (no spurious panics). Without overflow, operators on canonical numbers panic only on division by zero. -/
theorem c12_total (a b : Rational) (ha : Canonical a) (hb : Canonical b) :
    (∃ r, Rational.mul (fun _ => true) a b = some r) ∧ (∃ r, Rational.add (fun _ => true) a b = some r) ∧
    (∃ r, Rational.sub (fun _ => true) a b = some r) ∧ (Rational.div (fun _ => true) a b = none ↔ val b = 0) := by
  have hadd : ∀ a b : Rational, Canonical a → Canonical b → ∃ r, Rational.add (fun _ => true) a b = some r := by
    intro a b ha hb
    obtain ⟨gd, p, q, hgd, hgd0, hda, hdb, hp, hq, hp0, hq0⟩ := cross ha.1.1 hb.1.1
    unfold Rational.add Rational.addParts
    simp only [← hgd, udiv, hgd0.ne', if_false, Option.bind_eq_bind, Option.bind_some, hp, hq, uck, if_true]
    split
    · simp only [pure, Option.bind_some]
      exact optimize_some _ (Nat.mul_pos ha.1.1 hq0)
    · rename_i hs
      match hc : Rational.cmp (fun _ => true) a.abs b.abs with
      | none =>
        exfalso
        rw [cmp_none_iff (by simpa [Rational.abs] using ha.1.1) (by simpa [Rational.abs] using hb.1.1)] at hc
        have h1 := ha.2 hc.1
        have h2 := hb.2 hc.2
        simp [h1, h2] at hs
      | some o =>
        have hc' := (cmp_some (by simpa [Rational.abs] using ha.1.1) (by simpa [Rational.abs] using hb.1.1) hc).2.2
        have hgdq : (0 : ℚ) < gd := by exact_mod_cast hgd0
        have hpq : (0 : ℚ) < p := by exact_mod_cast hp0
        have hqq : (0 : ℚ) < q := by exact_mod_cast hq0
        have va : val a.abs = (a.numerator * q : ℕ) / (p * gd * q : ℚ) := by
          simp only [val, Rational.abs, if_true]; rw [hda]; push_cast; field_simp
        have vb : val b.abs = (p * b.numerator : ℕ) / (p * gd * q : ℚ) := by
          simp only [val, Rational.abs, if_true]; rw [hdb]; push_cast; field_simp
        have hpos : (0 : ℚ) < p * gd * q := by positivity
        simp only [Option.bind_some]
        split
        · rename_i hne
          have hle : p * b.numerator ≤ a.numerator * q := by
            by_contra hlt
            apply hne
            rw [hc', compare_lt_iff_lt, va, vb]
            rw [div_lt_div_iff_of_pos_right hpos]
            exact_mod_cast (by omega : a.numerator * q < p * b.numerator)
          simp only [usub, hle, if_true, Option.bind_some, pure]
          exact optimize_some _ (Nat.mul_pos ha.1.1 hq0)
        · rename_i hne
          have hlt : o = .lt := by simpa using hne
          have hle : a.numerator * q ≤ p * b.numerator := by
            rw [hlt, eq_comm, compare_lt_iff_lt, va, vb, div_lt_div_iff_of_pos_right hpos] at hc'
            have := Nat.cast_lt.mp hc'
            omega
          simp only [usub, hle, if_true, Option.bind_some, pure]
          exact optimize_some _ (Nat.mul_pos ha.1.1 hq0)
  have hmul : ∀ a b : Rational, Canonical a → 0 < b.denominator → ∃ r, Rational.mul (fun _ => true) a b = some r := by
    intro a b ha hb
    simp only [Rational.mul, uck, if_true, Option.bind_eq_bind, Option.bind_some]
    exact optimize_some _ (Nat.mul_pos ha.1.1 hb)
  refine ⟨hmul a b ha hb.1.1, hadd a b ha hb, ?_, ?_⟩
  · obtain ⟨m, hm⟩ := hmul b one.neg hb (by simp [Rational.neg, one])
    obtain ⟨r, hr⟩ := hadd a m ha (mul_some hb.1.1 (by simp [Rational.neg, one]) hm).1
    exact ⟨r, by simp [Rational.sub, hm, hr]⟩
  · constructor
    · intro h
      by_contra hne
      rw [val_eq_zero hb.1.1] at hne
      unfold Rational.div at h
      rw [if_neg (by rintro rfl; exact hne rfl)] at h
      simp only [uck, if_true, Option.bind_eq_bind, Option.bind_some] at h
      obtain ⟨s, hs⟩ := optimize_some ⟨a.numerator * b.denominator, a.denominator * b.numerator, a.sign == b.sign⟩
        (Nat.mul_pos ha.1.1 (Nat.pos_of_ne_zero hne))
      rw [h] at hs; cases hs
    · intro h
      have : b = zero := canonical_ext hb ⟨⟨by simp [zero], by simp [zero]⟩, by simp [zero]⟩ (by
          rw [h]; simp [val, zero])
      simp [Rational.div, this]

example : Canonical ⟨3, 4, false⟩ ∧ Canonical ⟨0, 1, true⟩ :=
  ⟨⟨⟨by decide, by decide⟩, by decide⟩, ⟨⟨by decide, by decide⟩, by decide⟩⟩

end Toppo.RationalProps
