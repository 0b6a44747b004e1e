import Verif.Model.Smith
import Verif.Props.PID
import Mathlib.Algebra.BigOperators.Ring.Finset
import Mathlib.Algebra.BigOperators.Intervals
import Mathlib.Tactic.LinearCombination
import Mathlib.Tactic.Ring
set_option linter.unusedVariables false

namespace Toppo.Smith
open Toppo Toppo.PIDProps

/-- product of entry functions over an inner dimension `n` -/
def mul (n : Nat) (f g : M) : M := fun i j => ∑ k ∈ Finset.range n, f i k * g k j

/-- rows `i, k` are replaced by combinations of them (in the first `N` columns) -/
structure RowT (N i k : Nat) (α β γ δ : Int) (f f' : M) : Prop where
  fst : ∀ c < N, f' i c = α * f i c + β * f k c
  snd : ∀ c < N, f' k c = γ * f i c + δ * f k c
  oth : ∀ r, r ≠ i → r ≠ k → ∀ c < N, f' r c = f r c

/-- columns `i, k` are replaced by combinations of them (in the first `N` rows) -/
structure ColT (N i k : Nat) (α β γ δ : Int) (f f' : M) : Prop where
  fst : ∀ r < N, f' r i = α * f r i + β * f r k
  snd : ∀ r < N, f' r k = γ * f r i + δ * f r k
  oth : ∀ c, c ≠ i → c ≠ k → ∀ r < N, f' r c = f r c

theorem mul_comb_left {n : Nat} {f f' g : M} {i i1 i2 : Nat} {α β : Int} (h : ∀ c < n, f' i c = α * f i1 c + β * f i2 c) (j : Nat) :
    mul n f' g i j = α * mul n f g i1 j + β * mul n f g i2 j := by
  simp only [mul, Finset.mul_sum, ← Finset.sum_add_distrib]
  apply Finset.sum_congr rfl
  intro c hc
  rw [h c (Finset.mem_range.mp hc)]; ring

theorem mul_comb_right {n : Nat} {f g g' : M} {j j1 j2 : Nat} {α β : Int} (h : ∀ c < n, g' c j = α * g c j1 + β * g c j2) (i : Nat) :
    mul n f g' i j = α * mul n f g i j1 + β * mul n f g i j2 := by
  simp only [mul, Finset.mul_sum, ← Finset.sum_add_distrib]
  apply Finset.sum_congr rfl
  intro c hc
  rw [h c (Finset.mem_range.mp hc)]; ring

theorem mul_congr_left {n : Nat} {f f' g : M} {i i' : Nat} (h : ∀ c < n, f' i c = f i' c) (j : Nat) : mul n f' g i j = mul n f g i' j := by
  simp only [mul]
  exact Finset.sum_congr rfl fun c hc => by rw [h c (Finset.mem_range.mp hc)]

theorem mul_congr_right {n : Nat} {f g g' : M} {j j' : Nat} (h : ∀ c < n, g' c j = g c j') (i : Nat) : mul n f g' i j = mul n f g i j' := by
  simp only [mul]
  exact Finset.sum_congr rfl fun c hc => by rw [h c (Finset.mem_range.mp hc)]

/-- `f` and `g` are inverse to each other (`f * g = 1`, size `n`) -/
def Inv (n : Nat) (f g : M) : Prop := ∀ i j, i < n → j < n → mul n f g i j = ident i j

/-- inverse 2 × 2 blocks -/
def Blk (α β γ δ α' β' γ' δ' : Int) : Prop :=
  α * α' + β * β' = 1 ∧ α * γ' + β * δ' = 0 ∧ γ * α' + δ * β' = 0 ∧ γ * γ' + δ * δ' = 1

theorem inv_step {n i k : Nat} {α β γ δ α' β' γ' δ' : Int} {f f' g g' : M} (hik : i ≠ k) (hi : i < n) (hk : k < n)
    (hb : Blk α β γ δ α' β' γ' δ') (hf : RowT n i k α β γ δ f f') (hg : ColT n i k α' β' γ' δ' g g') (h : Inv n f g) : Inv n f' g' := by
  have hcol : ∀ r c, r < n → c < n → mul n f g' r c =
      if c = i then α' * ident r i + β' * ident r k else if c = k then γ' * ident r i + δ' * ident r k else ident r c := by
    intro r c hr hc
    split
    · rename_i e; subst e
      rw [mul_comb_right hg.fst, h r c hr hi, h r k hr hk]
    · split
      · rename_i e; subst e
        rw [mul_comb_right hg.snd, h r i hr hi, h r c hr hk]
      · rename_i e1 e2
        rw [mul_congr_right (hg.oth c e1 e2), h r c hr hc]
  obtain ⟨b1, b2, b3, b4⟩ := hb
  intro r c hr hc
  by_cases e1 : r = i
  · subst e1
    rw [mul_comb_left hf.fst, hcol r c hr hc, hcol k c hk hc]
    by_cases c1 : c = r
    · subst c1
      simp only [ident, if_true, if_neg hik, if_neg hik.symm]; linear_combination b1
    · by_cases c2 : c = k
      · subst c2
        simp only [ident, if_true, if_neg hik, if_neg hik.symm]; linear_combination b2
      · simp [ident, c1, c2, Ne.symm c1, Ne.symm c2]
  · by_cases e2 : r = k
    · subst e2
      rw [mul_comb_left hf.snd, hcol r c hr hc, hcol i c hi hc]
      by_cases c1 : c = i
      · subst c1
        simp only [ident, if_true, if_neg hik, if_neg hik.symm]; linear_combination b3
      · by_cases c2 : c = r
        · subst c2
          simp only [ident, if_true, if_neg hik, if_neg hik.symm]; linear_combination b4
        · simp [ident, c1, c2, Ne.symm c1, Ne.symm c2]
    · rw [mul_congr_left (hf.oth r e1 e2), hcol r c hr hc]
      by_cases c1 : c = i
      · subst c1; simp [ident, e1, e2]
      · by_cases c2 : c = k
        · subst c2; simp [ident, e1, e2]
        · simp [c1, c2]

theorem ident_inv (n : Nat) : Inv n ident ident := by
  intro i j hi hj
  simp only [mul, ident]
  simp
  intro h; omega

/-- the running invariant of the five matrices -/
structure Sync (n m : Nat) (A0 : M) (st : St) : Prop where
  eq : ∀ i j, i < n → j < m → mul m (mul n st.p A0) st.q i j = st.a i j
  invP : Inv n st.p st.pinv
  invQ : Inv m st.qinv st.q

/-- a row transformation of the state -/
def RowStep (n m i k : Nat) (st st' : St) : Prop :=
  ∃ α β γ δ α' β' γ' δ', Blk α β γ δ α' β' γ' δ' ∧ RowT m i k α β γ δ st.a st'.a ∧ RowT n i k α β γ δ st.p st'.p ∧
    ColT n i k α' β' γ' δ' st.pinv st'.pinv ∧ st'.q = st.q ∧ st'.qinv = st.qinv

/-- a column transformation of the state -/
def ColStep (n m i k : Nat) (st st' : St) : Prop :=
  ∃ α β γ δ α' β' γ' δ', Blk α' β' γ' δ' α β γ δ ∧ ColT n i k α β γ δ st.a st'.a ∧ ColT m i k α β γ δ st.q st'.q ∧
    RowT m i k α' β' γ' δ' st.qinv st'.qinv ∧ st'.p = st.p ∧ st'.pinv = st.pinv

theorem eq_row {n m i k : Nat} {A0 : M} {α β γ δ : Int} {a a' p p' q : M} (hi : i < n) (hk : k < n)
    (ha : RowT m i k α β γ δ a a') (hp : RowT n i k α β γ δ p p')
    (h : ∀ i j, i < n → j < m → mul m (mul n p A0) q i j = a i j) : ∀ i j, i < n → j < m → mul m (mul n p' A0) q i j = a' i j := by
  intro r c hr hc
  by_cases e1 : r = i
  · subst e1
    rw [mul_comb_left (f := mul n p A0) (i1 := r) (i2 := k) (α := α) (β := β) (fun x _ => mul_comb_left hp.fst x),
      h r c hr hc, h k c hk hc, ha.fst c hc]
  · by_cases e2 : r = k
    · subst e2
      rw [mul_comb_left (f := mul n p A0) (i1 := i) (i2 := r) (α := γ) (β := δ) (fun x _ => mul_comb_left hp.snd x),
        h r c hr hc, h i c hi hc, ha.snd c hc]
    · rw [mul_congr_left (f := mul n p A0) (i' := r) (fun x _ => mul_congr_left (hp.oth r e1 e2) x), h r c hr hc, ha.oth r e1 e2 c hc]

theorem eq_col {n m i k : Nat} {A0 : M} {α β γ δ : Int} {a a' p q q' : M} (hi : i < m) (hk : k < m)
    (ha : ColT n i k α β γ δ a a') (hq : ColT m i k α β γ δ q q')
    (h : ∀ i j, i < n → j < m → mul m (mul n p A0) q i j = a i j) : ∀ i j, i < n → j < m → mul m (mul n p A0) q' i j = a' i j := by
  intro r c hr hc
  by_cases e1 : c = i
  · subst e1
    rw [mul_comb_right hq.fst, h r c hr hc, h r k hr hk, ha.fst r hr]
  · by_cases e2 : c = k
    · subst e2
      rw [mul_comb_right hq.snd, h r c hr hc, h r i hr hi, ha.snd r hr]
    · rw [mul_congr_right (hq.oth c e1 e2), h r c hr hc, ha.oth c e1 e2 r hr]

theorem Sync.row {n m i k : Nat} {A0 : M} {st st' : St} (h : Sync n m A0 st) (hik : i ≠ k) (hi : i < n) (hk : k < n)
    (hs : RowStep n m i k st st') : Sync n m A0 st' := by
  obtain ⟨α, β, γ, δ, α', β', γ', δ', hb, ha, hp, hpi, hq, hqi⟩ := hs
  refine ⟨?_, inv_step hik hi hk hb hp hpi h.invP, by rw [hq, hqi]; exact h.invQ⟩
  rw [hq]; exact eq_row hi hk ha hp h.eq

theorem Sync.col {n m i k : Nat} {A0 : M} {st st' : St} (h : Sync n m A0 st) (hik : i ≠ k) (hi : i < m) (hk : k < m)
    (hs : ColStep n m i k st st') : Sync n m A0 st' := by
  obtain ⟨α, β, γ, δ, α', β', γ', δ', hb, ha, hq, hqi, hp, hpi⟩ := hs
  refine ⟨?_, by rw [hp, hpi]; exact h.invP, inv_step hik hi hk hb hqi hq h.invQ⟩
  rw [hp]; exact eq_col hi hk ha hq h.eq

/-! ### the elementary operations as transformations -/

theorem mixRows_rowT {N i k j0 : Nat} {x y z w : Int} {a : M} (hik : i ≠ k) (h : ∀ c < N, c < j0 → a i c = 0 ∧ a k c = 0) :
    RowT N i k x y z w a (mixRows a i k j0 x y z w) := by
  refine ⟨fun c hc => ?_, fun c hc => ?_, fun r h1 h2 c hc => ?_⟩
  · by_cases e : c < j0
    · simp [mixRows, e, (h c hc e).1, (h c hc e).2]
    · simp [mixRows, e, hik]; ring
  · by_cases e : c < j0
    · simp [mixRows, e, (h c hc e).1, (h c hc e).2]
    · simp [mixRows, e]; ring
  · simp [mixRows, h1, h2]

theorem mixCols_colT {N i k i0 : Nat} {x y z w : Int} {a : M} (hik : i ≠ k) (h : ∀ r < N, r < i0 → a r i = 0 ∧ a r k = 0) :
    ColT N i k x y z w a (mixCols a i k i0 x y z w) := by
  refine ⟨fun c hc => ?_, fun c hc => ?_, fun r h1 h2 c hc => ?_⟩
  · by_cases e : c < i0
    · simp [mixCols, e, (h c hc e).1, (h c hc e).2]
    · simp [mixCols, e, hik]; ring
  · by_cases e : c < i0
    · simp [mixCols, e, (h c hc e).1, (h c hc e).2]
    · simp [mixCols, e]; ring
  · simp [mixCols, h1, h2]

theorem rowOp_rowT {N i k : Nat} {c : Int} {a : M} (hik : i ≠ k) : RowT N i k 1 0 c 1 a (rowOp a k i c) := by
  refine ⟨fun x _ => ?_, fun x _ => ?_, fun r h1 h2 x _ => ?_⟩
  · simp [rowOp, hik]
  · simp [rowOp]; ring
  · simp [rowOp, h2]

theorem rowOp_rowT' {N i k : Nat} {c : Int} {a : M} (hik : i ≠ k) : RowT N i k 1 c 0 1 a (rowOp a i k c) := by
  refine ⟨fun x _ => ?_, fun x _ => ?_, fun r h1 h2 x _ => ?_⟩
  · simp [rowOp]; ring
  · simp [rowOp, hik.symm]
  · simp [rowOp, h1]

theorem colOp_colT {N i k : Nat} {c : Int} {a : M} (hik : i ≠ k) : ColT N i k 1 0 c 1 a (colOp a k i c) := by
  refine ⟨fun x _ => ?_, fun x _ => ?_, fun r h1 h2 x _ => ?_⟩
  · simp [colOp, hik]
  · simp [colOp]; ring
  · simp [colOp, h2]

theorem colOp_colT' {N i k : Nat} {c : Int} {a : M} (hik : i ≠ k) : ColT N i k 1 c 0 1 a (colOp a i k c) := by
  refine ⟨fun x _ => ?_, fun x _ => ?_, fun r h1 h2 x _ => ?_⟩
  · simp [colOp]; ring
  · simp [colOp, hik.symm]
  · simp [colOp, h1]

theorem swapRows_rowT {N i k : Nat} {a : M} (hik : i ≠ k) : RowT N i k 0 1 1 0 a (swapRows a i k) := by
  refine ⟨fun x _ => ?_, fun x _ => ?_, fun r h1 h2 x _ => ?_⟩
  · simp [swapRows]
  · simp [swapRows, hik.symm]
  · simp [swapRows, h1, h2]

theorem swapCols_colT {N i k : Nat} {a : M} (hik : i ≠ k) : ColT N i k 0 1 1 0 a (swapCols a i k) := by
  refine ⟨fun x _ => ?_, fun x _ => ?_, fun r h1 h2 x _ => ?_⟩
  · simp [swapCols]
  · simp [swapCols, hik.symm]
  · simp [swapCols, h1, h2]

theorem swapRows_self (a : M) (i : Nat) : swapRows a i i = a := by
  funext r c; simp only [swapRows]; split
  · rename_i h; rw [h]
  · rfl

theorem swapCols_self (a : M) (i : Nat) : swapCols a i i = a := by
  funext r c; simp only [swapCols]; split
  · rename_i h; rw [h]
  · rfl

theorem swapRows_comm (a : M) (i k : Nat) : swapRows a i k = swapRows a k i := by
  funext r c; simp only [swapRows]
  by_cases h1 : r = i <;> by_cases h2 : r = k <;> simp_all

/-! ### loops over ranges -/

theorem mem_rng {lo hi k : Nat} : k ∈ rng lo hi ↔ lo ≤ k ∧ k < hi := by
  simp [rng]; omega

theorem rng_cons {lo hi : Nat} (h : lo < hi) : rng lo hi = lo :: rng (lo + 1) hi := by
  simp only [rng]
  obtain ⟨d, hd⟩ : ∃ d, hi - lo = d + 1 := ⟨hi - lo - 1, by omega⟩
  rw [hd, List.range'_succ]; congr 2; omega

theorem rng_nil {lo hi : Nat} (h : hi ≤ lo) : rng lo hi = [] := by
  simp only [rng]; rw [show hi - lo = 0 by omega]; rfl

/-- `for k in lo..hi` with an invariant indexed by the loop counter -/
theorem foldlM_rng {σ : Type} (P : Nat → σ → Prop) (step : σ → Nat → Option σ) (hi : Nat)
    (hs : ∀ k s, k < hi → P k s → ∃ s', step s k = some s' ∧ P (k + 1) s') :
    ∀ lo s, lo ≤ hi → P lo s → ∃ s', (rng lo hi).foldlM step s = some s' ∧ P hi s' := by
  intro lo s hle
  induction hd : hi - lo generalizing lo s with
  | zero =>
    intro h
    have : lo = hi := by omega
    subst this
    exact ⟨s, by rw [rng_nil (le_refl _)]; rfl, h⟩
  | succ d ih =>
    intro h
    obtain ⟨s1, h1, h2⟩ := hs lo s (by omega) h
    obtain ⟨s2, h3, h4⟩ := ih (lo + 1) s1 (by omega) (by omega) h2
    exact ⟨s2, by rw [rng_cons (by omega), List.foldlM_cons, h1]; exact h3, h4⟩

theorem allM_divides (l : List Nat) (d : Int) (f : Nat → Int) (hd : d ≠ 0) :
    l.allM (fun k => divides ideal d (f k)) = some (decide (∀ k ∈ l, d ∣ f k)) := by
  induction l with
  | nil => simp [List.allM, pure]
  | cons a l ih =>
    rw [List.allM]
    rw [c10_divides, if_neg hd, ih]
    by_cases h : d ∣ f a <;> simp [h, pure]

end Toppo.Smith
