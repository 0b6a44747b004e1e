import Verif.Model.PID
import Mathlib.Data.Int.GCD
import Mathlib.Algebra.Order.Ring.Abs
import Mathlib.Data.Nat.Prime.Basic
import Mathlib.Data.Nat.Factors
import Mathlib.Tactic.Ring
import Mathlib.Tactic.Linarith
import Mathlib.Tactic.LinearCombination
/-!
# C08-C11: integer arithmetic of `commutative.rs`

`ok : Width` says which results are representable; `ideal` is unbounded, `fits w` is `w`-bit two's complement.
-/
namespace Toppo.PIDProps
open Toppo

/-! ### C08 -/

/-- **C08**. Whatever the width: if `euclid_div` returns `(q, r)` then `a = q*d + r` and `0 ≤ r < |d|`. -/
theorem c08_euclid_div (ok : Width) (a d q r : Int) (h : euclidDiv ok a d = some (q, r)) :
    a = q * d + r ∧ 0 ≤ r ∧ r < |d| := by
  obtain ⟨_, h1, h2, h3⟩ := euclidDiv_some h
  exact ⟨h1, h2, by rw [Int.abs_eq_natAbs]; exact h3⟩

/-- **C08** (panics, unbounded integers). It panics exactly for `d = 0`. -/
theorem c08_euclid_div_panics (a d : Int) : euclidDiv ideal a d = none ↔ d = 0 := by
  unfold euclidDiv
  by_cases hd : d = 0
  · simp [hd]
  · simp only [hd, if_false, ck, ideal, if_true, Option.bind_eq_bind, Option.bind_some, iff_false]
    split
    · split <;> simp
    · simp

/-- **C08** (panics, `w`-bit integers). On representable arguments it panics exactly for `d = 0` and for the one
overflowing quotient `MIN / -1`. -/
theorem c08_euclid_div_panics_machine (w : Nat) (hw : 2 ≤ w) (a d : Int) (ha : fits w a = true) (hd : fits w d = true) :
    euclidDiv (fits w) a d = none ↔ d = 0 ∨ (a = -(2 ^ (w - 1) : Int) ∧ d = -1) := by
  have hpow : (2 : Int) ≤ 2 ^ (w - 1) := by
    obtain ⟨k, hk⟩ := Nat.exists_eq_add_of_le hw
    have : w - 1 = k + 1 := by omega
    rw [this, pow_succ]
    have : (1 : Int) ≤ 2 ^ k := one_le_pow₀ (by norm_num)
    omega
  generalize hM : (2 : Int) ^ (w - 1) = M at *
  have hfit : ∀ x, fits w x = true ↔ -M ≤ x ∧ x < M := by intro x; simp [fits, hM]
  have hck : ∀ x, -M ≤ x ∧ x < M → ck (fits w) x = some x := by
    intro x hx; unfold ck; rw [if_pos ((hfit x).mpr hx)]
  have hck' : ∀ x, ¬ (-M ≤ x ∧ x < M) → ck (fits w) x = none := by
    intro x hx; unfold ck; rw [if_neg (fun h => hx ((hfit x).mp h))]
  rw [hfit] at ha hd
  by_cases h0 : d = 0
  · simp [euclidDiv, h0]
  · have hlt : (a.tmod d).natAbs < d.natAbs := by
      rw [Int.natAbs_tmod]; exact Nat.mod_lt _ (by omega)
    have hda := Int.mul_tdiv_add_tmod a d
    have habs : (a.tdiv d).natAbs = a.natAbs / d.natAbs := Int.natAbs_tdiv a d
    by_cases hov : a = -M ∧ d = -1
    · obtain ⟨rfl, rfl⟩ := hov
      have : (-M).tdiv (-1) = M := by simp
      unfold euclidDiv
      rw [if_neg h0, this, hck' M (by omega)]
      simp
    · have hq : (a.tdiv d).natAbs ≤ a.natAbs := by rw [habs]; exact Nat.div_le_self _ _
      have hqr : -M ≤ a.tdiv d ∧ a.tdiv d < M := by
        by_cases hd1 : d.natAbs = 1
        · have : d = 1 ∨ d = -1 := by omega
          rcases this with rfl | rfl
          · simp; omega
          · simp; omega
        · have h2 : 2 ≤ d.natAbs := by omega
          have : a.natAbs / d.natAbs ≤ a.natAbs / 2 := Nat.div_le_div_left h2 (by norm_num)
          omega
      have hqq : a.tmod d < 0 → -M ≤ a.tdiv d - 1 ∧ a.tdiv d + 1 < M ∧ True := by
        intro hr
        have h2 : 2 ≤ d.natAbs := by
          by_contra hc
          have : d.natAbs = 1 := by omega
          omega
        have : a.natAbs / d.natAbs ≤ a.natAbs / 2 := Nat.div_le_div_left h2 (by norm_num)
        refine ⟨?_, ?_, trivial⟩
        · omega
        · by_cases hM2 : M = 2
          · -- a ∈ {-2,..,1}, d = -2 : remainder of -1 by -2 is -1
            have hd2 : d = -2 := by omega
            subst hd2
            have : a = -2 ∨ a = -1 ∨ a = 0 ∨ a = 1 := by omega
            rcases this with rfl | rfl | rfl | rfl <;> simp_all
          · omega
      simp only [h0, false_or, hov, iff_false]
      unfold euclidDiv
      rw [if_neg h0, hck _ hqr]
      simp only [Option.bind_eq_bind, Option.bind_some]
      split
      · rename_i hr
        have hqq := hqq hr
        split
        · rw [hck _ (by omega), Option.bind_some, hck _ (by omega)]; simp
        · rw [hck _ (by omega), Option.bind_some, hck _ (by omega)]; simp
      · simp

example : fits 64 (-7) = true ∧ fits 64 2 = true ∧ euclidDiv (fits 64) (-7) 2 = some (-4, 1) := by decide
example : euclidDiv (fits 8) (-128) (-1) = none := by decide

/-! ### C10: simplify, divides -/

/-- **C10** (simplify). `simplify a = (u, n)` with `u*n = a`, `u = ±1`, `n = |a|`; unbounded integers never panic, `w`-bit
ones only when `|a|` is not representable. -/
theorem c10_simplify (ok : Width) (a : Int) :
    (∀ u n, simplify ok a = some (u, n) → u * n = a ∧ (u = 1 ∨ u = -1) ∧ n = |a|) ∧
    (simplify ok a = none ↔ ok |a| = false) := by
  unfold simplify ck
  by_cases h : a < 0
  · simp only [h, if_true, abs_of_neg h, neg_mul, one_mul]
    cases hk : ok (-a)
    · simp
    · simp
  · simp only [h, if_false, abs_of_nonneg (by omega : 0 ≤ a), one_mul]
    cases hk : ok a
    · simp
    · simp

/-- **C10** (divides). For `a ≠ 0`, `a.divides(n)` answers whether `n` is a multiple of `a`; for `a = 0` it panics. -/
theorem c10_divides (a n : Int) :
    divides ideal a n = if a = 0 then none else some (decide (a ∣ n)) := by
  unfold divides
  split
  · rename_i h; rw [(c08_euclid_div_panics n a).mpr h]; rfl
  · rename_i h
    match he : euclidDiv ideal n a with
    | none => exact absurd ((c08_euclid_div_panics n a).mp he) h
    | some (q, r) =>
      obtain ⟨h1, h2, h3⟩ := c08_euclid_div _ _ _ _ _ he
      simp only [Option.bind_eq_bind, Option.bind_some, pure, Option.some.injEq]
      rw [Bool.eq_iff_iff, beq_iff_eq, decide_eq_true_eq]
      constructor
      · rintro rfl; exact ⟨q, by linarith⟩
      · rintro ⟨k, hk⟩
        have : a ∣ r := ⟨k - q, by rw [hk] at h1; linear_combination -h1⟩
        rw [← Int.natAbs_dvd, Int.dvd_def] at this
        obtain ⟨c, hc⟩ := this
        rw [Int.abs_eq_natAbs] at h3
        have hc0 : c < 1 := by
          by_contra hcc
          have := Int.mul_le_mul_of_nonneg_left (by omega : (1:Int) ≤ c) (by omega : (0:Int) ≤ a.natAbs)
          omega
        have hc1 : 0 ≤ c := by
          by_contra hcc
          have := Int.mul_le_mul_of_nonneg_left (by omega : c ≤ (-1:Int)) (by omega : (0:Int) ≤ a.natAbs)
          omega
        have : c = 0 := by omega
        rw [hc, this]; simp

example : divides ideal (-3) 27 = some true ∧ divides ideal 2 5 = some false := by decide

/-! ### C09: gcd and Bezout -/

theorem gcd_some (ok : Width) : ∀ (n : Nat) (a b g : Int), a.natAbs = n → gcd ok a b = some g → g = Int.gcd a b := by
  intro n
  induction n using Nat.strongRecOn with
  | _ n ih =>
    intro a b g hn h
    rw [gcd] at h
    split at h
    · rename_i h0
      subst h0
      simp only [Option.map_eq_some_iff] at h
      obtain ⟨⟨u, v⟩, h1, h2⟩ := h
      have := (c10_simplify ok b).1 u v h1
      rw [← h2, this.2.2, Int.abs_eq_natAbs, Int.gcd_zero_left]
    · split at h
      · cases h
      · rename_i q r he
        obtain ⟨_, h1, h2, h3⟩ := euclidDiv_some he
        have := ih r.natAbs (by omega) r a g rfl h
        rw [this]
        congr 1
        rw [h1, Int.gcd_comm a]
        rw [show q * a + r = r + q * a by ring, Int.gcd_add_mul_right_left]

/-- **C09** (gcd). At any width, a returned value is the non-negative greatest common divisor. -/
theorem c09_gcd (ok : Width) (a b g : Int) (h : gcd ok a b = some g) :
    0 ≤ g ∧ g ∣ a ∧ g ∣ b ∧ ∀ d : Int, d ∣ a → d ∣ b → d ∣ g := by
  have := gcd_some ok _ a b g rfl h
  subst this
  exact ⟨by omega, Int.gcd_dvd_left .., Int.gcd_dvd_right .., fun d h1 h2 => Int.dvd_coe_gcd h1 h2⟩

/-- **C09** (gcd, totality). On unbounded integers `gcd` terminates and never panics. -/
theorem c09_gcd_total (a b : Int) : ∃ g, gcd ideal a b = some g := by
  induction hn : a.natAbs using Nat.strongRecOn generalizing a b with
  | _ n ih =>
    rw [gcd]
    split
    · have := (c10_simplify ideal b).2
      match hs : simplify ideal b with
      | none => rw [hs] at this; simp [ideal] at this
      | some (u, v) => exact ⟨v, rfl⟩
    · rename_i h0
      split
      · rename_i he; exact absurd ((c08_euclid_div_panics b a).mp he) h0
      · rename_i q r he
        obtain ⟨_, h1, h2, h3⟩ := euclidDiv_some he
        exact ih r.natAbs (by omega) r a rfl

/-- **C09** (gcd, machine integers). On `w`-bit integers other than `MIN` it never panics. -/
theorem c09_gcd_machine (w : Nat) (hw : 2 ≤ w) (a b : Int) (ha : |a| < (2 ^ (w - 1) : Int)) (hb : |b| < (2 ^ (w - 1) : Int)) :
    ∃ g, gcd (fits w) a b = some g := by
  have fitsOf : ∀ x : Int, |x| < (2 ^ (w - 1) : Int) → fits w x = true := by
    intro x hx; rw [abs_lt] at hx; simp [fits]; omega
  induction hn : a.natAbs using Nat.strongRecOn generalizing a b with
  | _ n ih =>
    rw [gcd]
    split
    · have := (c10_simplify (fits w) b).2
      match hs : simplify (fits w) b with
      | none => rw [hs, fitsOf |b| (by rwa [abs_abs])] at this; simp at this
      | some (u, v) => exact ⟨v, rfl⟩
    · rename_i h0
      split
      · rename_i he
        rw [c08_euclid_div_panics_machine w hw b a (fitsOf b hb) (fitsOf a ha)] at he
        rcases he with he | ⟨he, _⟩
        · exact absurd he h0
        · rw [he, abs_neg, abs_of_nonneg (by positivity)] at hb; exact absurd hb (lt_irrefl _)
      · rename_i q r he
        obtain ⟨_, h1, h2, h3⟩ := euclidDiv_some he
        refine ih r.natAbs (by omega) r a ?_ ha rfl
        rw [abs_of_nonneg h2]
        rw [Int.abs_eq_natAbs] at ha; omega

theorem bezoutRec_some (ok : Width) : ∀ (n : Nat) (a b x1 x2 y1 y2 g x y A B : Int), a.natAbs = n →
    a = A * x1 + B * y1 → b = A * x2 + B * y2 →
    bezoutRec ok a b x1 x2 y1 y2 = some (g, x, y) → g = Int.gcd a b ∧ A * x + B * y = g := by
  intro n
  induction n using Nat.strongRecOn with
  | _ n ih =>
    intro a b x1 x2 y1 y2 g x y A B hn ha hb h
    rw [bezoutRec] at h
    split at h
    · rename_i h0
      subst h0
      simp only [Option.bind_eq_bind, Option.bind_eq_some_iff] at h
      obtain ⟨⟨u, v⟩, h1, ⟨x', rx⟩, h2, ⟨y', ry⟩, h3, h4⟩ := h
      simp only [pure, Option.some.injEq, Prod.mk.injEq] at h4
      obtain ⟨rfl, rfl, rfl⟩ := h4
      obtain ⟨s1, s2, s3⟩ := (c10_simplify ok b).1 u v h1
      obtain ⟨_, e1, e2, e3⟩ := euclidDiv_some h2
      obtain ⟨_, f1, f2, f3⟩ := euclidDiv_some h3
      have hrx : rx = 0 := by rcases s2 with rfl | rfl <;> simp at e3 <;> omega
      have hry : ry = 0 := by rcases s2 with rfl | rfl <;> simp at f3 <;> omega
      refine ⟨by rw [s3, Int.abs_eq_natAbs, Int.gcd_zero_left], ?_⟩
      rw [hrx, add_zero] at e1; rw [hry, add_zero] at f1
      rcases s2 with rfl | rfl
      · simp at e1 f1 s1; rw [← e1, ← f1, s1, hb]
      · have : x' = -x2 := by omega
        have h' : y' = -y2 := by omega
        have : v = -b := by omega
        subst this; rw [‹x' = -x2›, h', hb]; ring
    · split at h
      · cases h
      · rename_i q r he
        obtain ⟨_, h1, h2, h3⟩ := euclidDiv_some he
        simp only [Option.bind_eq_bind, Option.bind_eq_some_iff] at h
        obtain ⟨p, hp, x', hx', p', hp', y', hy', h⟩ := h
        have hp := ck_eq hp; have hp' := ck_eq hp'; have hx' := ck_eq hx'; have hy' := ck_eq hy'
        subst hp; subst hp'; subst hx'; subst hy'
        have := ih r.natAbs (by omega) r a _ _ _ _ g x y A B rfl (by linear_combination hb - q * ha - h1) ha h
        refine ⟨?_, this.2⟩
        rw [this.1]; congr 1
        rw [h1, Int.gcd_comm a]
        rw [show q * a + r = r + q * a by ring, Int.gcd_add_mul_right_left]

/-- **C09** (Bezout). At any width, `bezout_identity(a,b) = (g,x,y)` implies `g = gcd(a,b) ≥ 0` and `a*x + b*y = g`. -/
theorem c09_bezout (ok : Width) (a b g x y : Int) (h : bezoutIdentity ok a b = some (g, x, y)) :
    a * x + b * y = g ∧ 0 ≤ g ∧ g ∣ a ∧ g ∣ b := by
  obtain ⟨h1, h2⟩ := bezoutRec_some ok _ a b 1 0 0 1 g x y a b rfl (by ring) (by ring) h
  subst h1
  exact ⟨h2, by omega, Int.gcd_dvd_left .., Int.gcd_dvd_right ..⟩

/-- **C09** (Bezout, totality on unbounded integers). -/
theorem c09_bezout_total (a b : Int) : ∃ r, bezoutIdentity ideal a b = some r := by
  unfold bezoutIdentity
  suffices h : ∀ x1 x2 y1 y2, ∃ r, bezoutRec ideal a b x1 x2 y1 y2 = some r from h _ _ _ _
  intro x1 x2 y1 y2
  induction hn : a.natAbs using Nat.strongRecOn generalizing a b x1 x2 y1 y2 with
  | _ n ih =>
    rw [bezoutRec]
    split
    · match hs : simplify ideal b with
      | none => have := (c10_simplify ideal b).2.mp hs; simp [ideal] at this
      | some (u, v) =>
        have hu : u ≠ 0 := by
          rcases ((c10_simplify ideal b).1 u v hs).2.1 with h | h <;> omega
        match h1 : euclidDiv ideal x2 u with
        | none => exact absurd ((c08_euclid_div_panics _ _).mp h1) hu
        | some (p, _) =>
          match h2 : euclidDiv ideal y2 u with
          | none => exact absurd ((c08_euclid_div_panics _ _).mp h2) hu
          | some (p', _) => exact ⟨(v, p, p'), by simp [h1, h2]⟩
    · rename_i h0
      split
      · rename_i he; exact absurd ((c08_euclid_div_panics b a).mp he) h0
      · rename_i q r he
        obtain ⟨_, h1, h2, h3⟩ := euclidDiv_some he
        simp only [ck, ideal, if_true, Option.bind_eq_bind, Option.bind_some]
        exact ih r.natAbs (by omega) r a _ _ _ _ rfl

theorem euclidDiv_nonneg {w : Nat} (hw : 2 ≤ w) {a d : Int} (ha : 0 ≤ a) (hd : 0 < d)
    (ha' : a < (2 ^ (w - 1) : Int)) (hd' : d < (2 ^ (w - 1) : Int)) :
    ∃ q r, euclidDiv (fits w) a d = some (q, r) ∧ 0 ≤ q ∧ 0 ≤ r ∧ r < d ∧ a = q * d + r := by
  have f1 : fits w a = true := by simp [fits]; omega
  have f2 : fits w d = true := by simp [fits]; omega
  match h : euclidDiv (fits w) a d with
  | none =>
    rw [c08_euclid_div_panics_machine w hw a d f1 f2] at h
    omega
  | some (q, r) =>
    obtain ⟨_, h1, h2, h3⟩ := euclidDiv_some h
    have h3 : r < d := by omega
    refine ⟨q, r, rfl, ?_, h2, h3, h1⟩
    by_contra hc
    have : q * d ≤ -1 * d := Int.mul_le_mul_of_nonneg_right (by omega) (by omega)
    omega

/-- **C09** (Bezout, machine integers, partial). On non-negative `w`-bit integers `bezout_identity` never panics: no
intermediate coefficient or product overflows.  (The statement for all integers other than `MIN` is false, see
`c09_bezout_machine_false`.) -/
theorem c09_bezout_machine_partial (w : Nat) (hw : 2 ≤ w) (a b : Int) (ha : 0 ≤ a) (hb : 0 ≤ b)
    (ha' : a < (2 ^ (w - 1) : Int)) (hb' : b < (2 ^ (w - 1) : Int)) :
    ∃ r, bezoutIdentity (fits w) a b = some r := by
  have hM : (2 : Int) ≤ 2 ^ (w - 1) := by
    obtain ⟨k, hk⟩ := Nat.exists_eq_add_of_le hw
    have : w - 1 = k + 1 := by omega
    rw [this, pow_succ]
    have : (1 : Int) ≤ 2 ^ k := one_le_pow₀ (by norm_num)
    omega
  have hck : ∀ x : Int, |x| < (2 ^ (w - 1) : Int) → ck (fits w) x = some x := by
    intro x hx
    rw [abs_lt] at hx
    unfold ck; rw [if_pos]; simp [fits]; omega
  suffices h : ∀ (n : Nat) (a b x1 x2 y1 y2 : Int), a.natAbs = n → 0 ≤ a → 0 ≤ b →
      a < (2 ^ (w - 1) : Int) → b < (2 ^ (w - 1) : Int) →
      |x1| < (2 ^ (w - 1) : Int) → |x2| < (2 ^ (w - 1) : Int) →
      |y1| < (2 ^ (w - 1) : Int) → |y2| < (2 ^ (w - 1) : Int) → x1 * x2 ≤ 0 → y1 * y2 ≤ 0 →
      a * |x2| + b * |x1| < (2 ^ (w - 1) : Int) → a * |y2| + b * |y1| < (2 ^ (w - 1) : Int) →
      ∃ r, bezoutRec (fits w) a b x1 x2 y1 y2 = some r by
    exact h a.natAbs a b 1 0 0 1 rfl ha hb ha' hb' (by simp; omega) (by simp) (by simp) (by simp; omega)
      (by simp) (by simp) (by simp; omega) (by simp; omega)
  intro n
  induction n using Nat.strongRecOn with
  | _ n ih =>
    intro a b x1 x2 y1 y2 hn ha hb ha' hb' bx1 bx2 by1 by2 sx sy cx cy
    rw [bezoutRec]
    split
    · have hs : simplify (fits w) b = some (1, b) := by
        unfold simplify
        simp only [if_neg (by omega : ¬ b < 0), one_mul]
        rw [hck b (by rw [abs_of_nonneg hb]; exact hb')]; rfl
      have e1 : ∀ x : Int, |x| < (2 ^ (w - 1) : Int) → ∃ q r, euclidDiv (fits w) x 1 = some (q, r) := by
        intro x hx
        have hx' := hx
        rw [abs_lt] at hx'
        have f1 : fits w x = true := by simp [fits]; omega
        have f2 : fits w 1 = true := by simp [fits]; omega
        match h : euclidDiv (fits w) x 1 with
        | none => rw [c08_euclid_div_panics_machine w hw x 1 f1 f2] at h; omega
        | some (q, r) => exact ⟨q, r, rfl⟩
      obtain ⟨q, r, h1⟩ := e1 x2 bx2
      obtain ⟨q', r', h2⟩ := e1 y2 by2
      exact ⟨(b, q, q'), by simp [hs, h1, h2]⟩
    · rename_i h0
      obtain ⟨q, r, he, hq, hr, hrd, hab⟩ := euclidDiv_nonneg hw hb (by omega : 0 < a) hb' ha'
      have key : ∀ u v : Int, u * v ≤ 0 → a * |v| + b * |u| < (2 ^ (w - 1) : Int) →
          |v - u * q| < (2 ^ (w - 1) : Int) ∧ |u * q| < (2 ^ (w - 1) : Int) ∧ (v - u * q) * u ≤ 0 ∧
          r * |u| + a * |v - u * q| < (2 ^ (w - 1) : Int) := by
        intro u v hs hc
        have habs : |v - u * q| = |v| + |u| * q := by
          rcases le_total 0 u with hu | hu
          · have hv : v ≤ 0 ∨ u = 0 := by
              by_contra hcon; push Not at hcon
              have : 0 < u * v := Int.mul_pos (by omega) (by omega)
              omega
            rcases hv with hv | hv
            · rw [abs_of_nonneg hu, abs_of_nonpos hv, abs_of_nonpos]
              · ring
              · have := mul_nonneg hu hq; omega
            · subst hv; simp
          · have hv : 0 ≤ v ∨ u = 0 := by
              by_contra hcon; push Not at hcon
              have : 0 < u * v := Int.mul_pos_of_neg_of_neg (by omega) (by omega)
              omega
            rcases hv with hv | hv
            · rw [abs_of_nonpos hu, abs_of_nonneg hv, abs_of_nonneg]
              · ring
              · have := mul_nonpos_of_nonpos_of_nonneg hu hq; omega
            · subst hv; simp
        have h4 : r * |u| + a * |v - u * q| = a * |v| + b * |u| := by rw [habs, hab]; ring
        have h5 : |v - u * q| ≤ a * |v - u * q| := le_mul_of_one_le_left (abs_nonneg _) (by omega)
        have h6 : 0 ≤ r * |u| := mul_nonneg hr (abs_nonneg _)
        have h7 : |u * q| ≤ |v - u * q| := by
          rw [habs, abs_mul, abs_of_nonneg hq]
          have := abs_nonneg v; omega
        refine ⟨by omega, by omega, ?_, by omega⟩
        have : (v - u * q) * u = u * v - (u * u) * q := by ring
        rw [this]
        have := mul_nonneg (mul_self_nonneg u) hq
        omega
      obtain ⟨k1, k2, k3, k4⟩ := key x1 x2 sx cx
      obtain ⟨l1, l2, l3, l4⟩ := key y1 y2 sy cy
      split
      · rename_i he'; rw [he] at he'; cases he'
      · rename_i q' r' he'
        rw [he] at he'
        simp only [Option.some.injEq, Prod.mk.injEq] at he'
        obtain ⟨rfl, rfl⟩ := he'
        simp only [hck _ k2, hck _ k1, hck _ l2, hck _ l1, Option.bind_eq_bind, Option.bind_some]
        exact ih r.natAbs (by omega) r a _ _ _ _ rfl hr ha (by omega) ha' k1 bx1 l1 by1 k3 l3 k4 l4

/-- **C09** (Bezout, machine integers): the unrestricted statement is false - `bezout_identity(-(2^63-1), 2)` overflows
an intermediate product on `i64` although inputs and result are representable. -/
theorem c09_bezout_machine_false :
    ¬ (∀ a b : Int, |a| < (2 ^ 63 : Int) → |b| < (2 ^ 63 : Int) → ∃ r, bezoutIdentity (fits 64) a b = some r) := by
  intro h
  obtain ⟨r, hr⟩ := h (-(2 ^ 63 - 1)) 2 (by norm_num) (by norm_num)
  simp [bezoutIdentity, bezoutRec, euclidDiv, simplify, ck, fits] at hr

example : bezoutIdentity (fits 64) 14 6 = some (2, 1, -2) ∧ gcd (fits 64) (-12) 15 = some 3 := by
  constructor
  · simp [bezoutIdentity, bezoutRec, euclidDiv, simplify, ck, fits]
  · simp [gcd, euclidDiv, simplify, ck, fits]

/-! ### C11: primality -/

/-- What `is_prime` really computes: everything except 0 and 1 is called prime. -/
theorem c11_is_prime_actual (n : Int) : isPrime n = true ↔ n ≠ 0 ∧ n ≠ 1 := by
  unfold isPrime
  split
  · simp; omega
  · rename_i h
    have h' : n ≠ 0 ∧ n ≠ 1 := by omega
    simp only [h', ne_eq, not_false_eq_true, and_self, iff_true]
    rw [List.all_eq_true]
    intro x hx
    simp only [intRange, List.mem_map, List.mem_range] at hx
    obtain ⟨k, hk, rfl⟩ := hx
    rw [bne_iff_ne]
    intro hc
    have := Int.natAbs_tdiv n (2 + (k : Int))
    rw [hc, Int.natAbs_zero] at this
    have h2 := (Nat.div_eq_zero_iff).mp this.symm
    omega

/-- **C11 is false** of the code: 4 is reported prime, and 4 has two prime factors but `n_prime_factors` says 1. -/
theorem c11_is_prime_false :
    ¬ (∀ n : Nat, isPrime (n : Int) = true ↔ n.Prime) ∧
    ¬ (∀ n : Nat, 0 < n → ∃ fuel, nPrimeFactors fuel (n : Int) = some n.primeFactorsList.length) := by
  constructor
  · intro h
    have := (h 4).mp ((c11_is_prime_actual 4).mpr ⟨by norm_num, by norm_num⟩)
    exact absurd this (by decide)
  · intro h
    obtain ⟨f, hf⟩ := h 4 (by norm_num)
    have h4 : isPrime (4 : Nat) = true := (c11_is_prime_actual 4).mpr ⟨by norm_num, by norm_num⟩
    have hl : (Nat.primeFactorsList 4).Perm [2, 2] :=
      (Nat.primeFactorsList_unique (n := 4) (l := [2, 2]) rfl (by simp [Nat.prime_two])).symm
    rw [nPrimeFactors, if_pos h4, hl.length_eq] at hf
    simp at hf

/-- **C11, the part that holds**: no prime is rejected; 0 and 1 are rejected; `n_prime_factors` is right (with any
positive loop bound) exactly when `n` is 1 or prime, and never diverges. -/
theorem c11_is_prime_partial (n : Nat) :
    (n.Prime → isPrime n = true) ∧ (n = 0 ∨ n = 1 → isPrime n = false) ∧
    (∀ fuel, nPrimeFactors fuel n = some (if n = 0 ∨ n = 1 then 0 else 1)) := by
  refine ⟨?_, ?_, ?_⟩
  · intro h
    rw [c11_is_prime_actual]
    have := h.two_le; omega
  · intro h
    rw [← Bool.not_eq_true, c11_is_prime_actual]; omega
  · intro fuel
    unfold nPrimeFactors
    by_cases h : n = 0 ∨ n = 1
    · have hp : isPrime (n : Int) = false := by rw [← Bool.not_eq_true, c11_is_prime_actual]; omega
      rw [if_neg (by simp [hp]), if_pos h]
      rcases h with rfl | rfl
      · rfl
      · have : (intRange 0 ((1 : Nat) : Int)).filter isPrime = [] := by
          have : intRange 0 ((1 : Nat) : Int) = [0] := by decide
          rw [this]; decide
        rw [this]; rfl
    · have hp : isPrime (n : Int) = true := by rw [c11_is_prime_actual]; omega
      rw [if_pos hp, if_neg h]

end Toppo.PIDProps
