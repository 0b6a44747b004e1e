import Verif.Model.SmithField
import Mathlib.Algebra.BigOperators.Ring.Finset
import Mathlib.Algebra.BigOperators.Intervals
import Mathlib.Tactic.LinearCombination
import Mathlib.Tactic.Ring
import Mathlib.Tactic.FieldSimp
set_option linter.unusedVariables false
set_option linter.unusedSectionVars false

/-
`smith_normal_form` over a field with exact arithmetic: the invariants of the algorithm.
-/
namespace Toppo.SmithF
open Toppo

variable {K : Type} [Field K] [DecidableEq K]

/-- the identity matrix -/
def identK : Nat → Nat → K := fun i j => if i = j then 1 else 0

/-- a row operation with exact arithmetic -/
def rowOpK (a : Nat → Nat → K) (r1 r2 : Nat) (c : K) : Nat → Nat → K := fun i j => if i = r1 then a r1 j + a r2 j * c else a i j

/-- a column operation with exact arithmetic -/
def colOpK (a : Nat → Nat → K) (c1 c2 : Nat) (c : K) : Nat → Nat → K := fun i j => if j = c1 then a i c1 + a i c2 * c else a i j

@[simp] theorem zero_exact : (exact K).zero = 0 := rfl
@[simp] theorem one_exact : (exact K).one = 1 := rfl
@[simp] theorem neg_exact (x : K) : (exact K).neg x = -x := rfl

theorem ident_exact : ident (exact K) = identK := rfl

theorem rowOp_exact (m : Nat) (a : Nat → Nat → K) (r1 r2 : Nat) (c : K) : rowOp (exact K) m a r1 r2 c = some (rowOpK a r1 r2 c) := by
  simp [rowOp, axpy, exact]; rfl

theorem colOp_exact (n : Nat) (a : Nat → Nat → K) (c1 c2 : Nat) (c : K) : colOp (exact K) n a c1 c2 c = some (colOpK a c1 c2 c) := by
  simp [colOp, axpy, exact]; rfl

theorem divides_exact {d x : K} (h : d ≠ 0) : divides (exact K) d x = some true := by
  simp [divides, euclidDiv, exact, h]

theorem euclidDiv_exact {x d : K} (h : d ≠ 0) : euclidDiv (exact K) x d = some (x / d, 0) := by
  simp [euclidDiv, exact, h]

theorem allM_divides (l : List Nat) (d : K) (f : Nat → K) (hd : d ≠ 0) : l.allM (fun k => divides (exact K) d (f k)) = some true := by
  induction l with
  | nil => simp [List.allM, pure]
  | cons a l ih => rw [List.allM, divides_exact hd, ih]; rfl

/-- product of entry functions over an inner dimension `n` -/
def mul (n : Nat) (f g : (Nat → Nat → K)) : (Nat → Nat → K) := fun i j => ∑ k ∈ Finset.range n, f i k * g k j

/-- rows `i, k` are replaced by combinations of them (in the first `N` columns) -/
structure RowT (N i k : Nat) (α β γ δ : K) (f f' : (Nat → Nat → K)) : Prop where
  fst : ∀ c < N, f' i c = α * f i c + β * f k c
  snd : ∀ c < N, f' k c = γ * f i c + δ * f k c
  oth : ∀ r, r ≠ i → r ≠ k → ∀ c < N, f' r c = f r c

/-- columns `i, k` are replaced by combinations of them (in the first `N` rows) -/
structure ColT (N i k : Nat) (α β γ δ : K) (f f' : (Nat → Nat → K)) : Prop where
  fst : ∀ r < N, f' r i = α * f r i + β * f r k
  snd : ∀ r < N, f' r k = γ * f r i + δ * f r k
  oth : ∀ c, c ≠ i → c ≠ k → ∀ r < N, f' r c = f r c

theorem mul_comb_left {n : Nat} {f f' g : (Nat → Nat → K)} {i i1 i2 : Nat} {α β : K} (h : ∀ c < n, f' i c = α * f i1 c + β * f i2 c) (j : Nat) :
    mul n f' g i j = α * mul n f g i1 j + β * mul n f g i2 j := by
  simp only [mul, Finset.mul_sum, ← Finset.sum_add_distrib]
  apply Finset.sum_congr rfl
  intro c hc
  rw [h c (Finset.mem_range.mp hc)]; ring

theorem mul_comb_right {n : Nat} {f g g' : (Nat → Nat → K)} {j j1 j2 : Nat} {α β : K} (h : ∀ c < n, g' c j = α * g c j1 + β * g c j2) (i : Nat) :
    mul n f g' i j = α * mul n f g i j1 + β * mul n f g i j2 := by
  simp only [mul, Finset.mul_sum, ← Finset.sum_add_distrib]
  apply Finset.sum_congr rfl
  intro c hc
  rw [h c (Finset.mem_range.mp hc)]; ring

theorem mul_congr_left {n : Nat} {f f' g : (Nat → Nat → K)} {i i' : Nat} (h : ∀ c < n, f' i c = f i' c) (j : Nat) : mul n f' g i j = mul n f g i' j := by
  simp only [mul]
  exact Finset.sum_congr rfl fun c hc => by rw [h c (Finset.mem_range.mp hc)]

theorem mul_congr_right {n : Nat} {f g g' : (Nat → Nat → K)} {j j' : Nat} (h : ∀ c < n, g' c j = g c j') (i : Nat) : mul n f g' i j = mul n f g i j' := by
  simp only [mul]
  exact Finset.sum_congr rfl fun c hc => by rw [h c (Finset.mem_range.mp hc)]

/-- `f` and `g` are inverse to each other (`f * g = 1`, size `n`) -/
def Inv (n : Nat) (f g : (Nat → Nat → K)) : Prop := ∀ i j, i < n → j < n → mul n f g i j = identK i j

/-- inverse 2 × 2 blocks -/
def Blk (α β γ δ α' β' γ' δ' : K) : Prop :=
  α * α' + β * β' = 1 ∧ α * γ' + β * δ' = 0 ∧ γ * α' + δ * β' = 0 ∧ γ * γ' + δ * δ' = 1

theorem inv_step {n i k : Nat} {α β γ δ α' β' γ' δ' : K} {f f' g g' : (Nat → Nat → K)} (hik : i ≠ k) (hi : i < n) (hk : k < n)
    (hb : Blk α β γ δ α' β' γ' δ') (hf : RowT n i k α β γ δ f f') (hg : ColT n i k α' β' γ' δ' g g') (h : Inv n f g) : Inv n f' g' := by
  have hcol : ∀ r c, r < n → c < n → mul n f g' r c =
      if c = i then α' * identK r i + β' * identK r k else if c = k then γ' * identK r i + δ' * identK r k else identK r c := by
    intro r c hr hc
    split
    · rename_i e; subst e
      rw [mul_comb_right hg.fst, h r c hr hi, h r k hr hk]
    · split
      · rename_i e; subst e
        rw [mul_comb_right hg.snd, h r i hr hi, h r c hr hk]
      · rename_i e1 e2
        rw [mul_congr_right (hg.oth c e1 e2), h r c hr hc]
  obtain ⟨b1, b2, b3, b4⟩ := hb
  intro r c hr hc
  by_cases e1 : r = i
  · subst e1
    rw [mul_comb_left hf.fst, hcol r c hr hc, hcol k c hk hc]
    by_cases c1 : c = r
    · subst c1
      simp only [identK, if_true, if_neg hik, if_neg hik.symm]; linear_combination b1
    · by_cases c2 : c = k
      · subst c2
        simp only [identK, if_true, if_neg hik, if_neg hik.symm]; linear_combination b2
      · simp [identK, c1, c2, Ne.symm c1, Ne.symm c2]
  · by_cases e2 : r = k
    · subst e2
      rw [mul_comb_left hf.snd, hcol r c hr hc, hcol i c hi hc]
      by_cases c1 : c = i
      · subst c1
        simp only [identK, if_true, if_neg hik, if_neg hik.symm]; linear_combination b3
      · by_cases c2 : c = r
        · subst c2
          simp only [identK, if_true, if_neg hik, if_neg hik.symm]; linear_combination b4
        · simp [identK, c1, c2, Ne.symm c1, Ne.symm c2]
    · rw [mul_congr_left (hf.oth r e1 e2), hcol r c hr hc]
      by_cases c1 : c = i
      · subst c1; simp [identK, e1, e2]
      · by_cases c2 : c = k
        · subst c2; simp [identK, e1, e2]
        · simp [c1, c2]

theorem ident_inv (n : Nat) : Inv n (identK (K := K)) identK := by
  intro i j hi hj
  simp only [mul, identK]
  simp
  intro h; omega

/-- the running invariant of the five matrices -/
structure Sync (n m : Nat) (A0 : (Nat → Nat → K)) (st : St K) : Prop where
  eq : ∀ i j, i < n → j < m → mul m (mul n st.p A0) st.q i j = st.a i j
  invP : Inv n st.p st.pinv
  invQ : Inv m st.qinv st.q

/-- a row transformation of the state -/
def RowStep (n m i k : Nat) (st st' : St K) : Prop :=
  ∃ α β γ δ α' β' γ' δ', Blk α β γ δ α' β' γ' δ' ∧ RowT m i k α β γ δ st.a st'.a ∧ RowT n i k α β γ δ st.p st'.p ∧
    ColT n i k α' β' γ' δ' st.pinv st'.pinv ∧ st'.q = st.q ∧ st'.qinv = st.qinv

/-- a column transformation of the state -/
def ColStep (n m i k : Nat) (st st' : St K) : Prop :=
  ∃ α β γ δ α' β' γ' δ', Blk α' β' γ' δ' α β γ δ ∧ ColT n i k α β γ δ st.a st'.a ∧ ColT m i k α β γ δ st.q st'.q ∧
    RowT m i k α' β' γ' δ' st.qinv st'.qinv ∧ st'.p = st.p ∧ st'.pinv = st.pinv

theorem eq_row {n m i k : Nat} {A0 : (Nat → Nat → K)} {α β γ δ : K} {a a' p p' q : (Nat → Nat → K)} (hi : i < n) (hk : k < n)
    (ha : RowT m i k α β γ δ a a') (hp : RowT n i k α β γ δ p p')
    (h : ∀ i j, i < n → j < m → mul m (mul n p A0) q i j = a i j) : ∀ i j, i < n → j < m → mul m (mul n p' A0) q i j = a' i j := by
  intro r c hr hc
  by_cases e1 : r = i
  · subst e1
    rw [mul_comb_left (f := mul n p A0) (i1 := r) (i2 := k) (α := α) (β := β) (fun x _ => mul_comb_left hp.fst x),
      h r c hr hc, h k c hk hc, ha.fst c hc]
  · by_cases e2 : r = k
    · subst e2
      rw [mul_comb_left (f := mul n p A0) (i1 := i) (i2 := r) (α := γ) (β := δ) (fun x _ => mul_comb_left hp.snd x),
        h r c hr hc, h i c hi hc, ha.snd c hc]
    · rw [mul_congr_left (f := mul n p A0) (i' := r) (fun x _ => mul_congr_left (hp.oth r e1 e2) x), h r c hr hc, ha.oth r e1 e2 c hc]

theorem eq_col {n m i k : Nat} {A0 : (Nat → Nat → K)} {α β γ δ : K} {a a' p q q' : (Nat → Nat → K)} (hi : i < m) (hk : k < m)
    (ha : ColT n i k α β γ δ a a') (hq : ColT m i k α β γ δ q q')
    (h : ∀ i j, i < n → j < m → mul m (mul n p A0) q i j = a i j) : ∀ i j, i < n → j < m → mul m (mul n p A0) q' i j = a' i j := by
  intro r c hr hc
  by_cases e1 : c = i
  · subst e1
    rw [mul_comb_right hq.fst, h r c hr hc, h r k hr hk, ha.fst r hr]
  · by_cases e2 : c = k
    · subst e2
      rw [mul_comb_right hq.snd, h r c hr hc, h r i hr hi, ha.snd r hr]
    · rw [mul_congr_right (hq.oth c e1 e2), h r c hr hc, ha.oth c e1 e2 r hr]

theorem Sync.row {n m i k : Nat} {A0 : (Nat → Nat → K)} {st st' : St K} (h : Sync n m A0 st) (hik : i ≠ k) (hi : i < n) (hk : k < n)
    (hs : RowStep n m i k st st') : Sync n m A0 st' := by
  obtain ⟨α, β, γ, δ, α', β', γ', δ', hb, ha, hp, hpi, hq, hqi⟩ := hs
  refine ⟨?_, inv_step hik hi hk hb hp hpi h.invP, by rw [hq, hqi]; exact h.invQ⟩
  rw [hq]; exact eq_row hi hk ha hp h.eq

theorem Sync.col {n m i k : Nat} {A0 : (Nat → Nat → K)} {st st' : St K} (h : Sync n m A0 st) (hik : i ≠ k) (hi : i < m) (hk : k < m)
    (hs : ColStep n m i k st st') : Sync n m A0 st' := by
  obtain ⟨α, β, γ, δ, α', β', γ', δ', hb, ha, hq, hqi, hp, hpi⟩ := hs
  refine ⟨?_, by rw [hp, hpi]; exact h.invP, inv_step hik hi hk hb hqi hq h.invQ⟩
  rw [hp]; exact eq_col hi hk ha hq h.eq

theorem rowOp_rowT {N i k : Nat} {c : K} {a : (Nat → Nat → K)} (hik : i ≠ k) : RowT N i k 1 0 c 1 a (rowOpK a k i c) := by
  refine ⟨fun x _ => ?_, fun x _ => ?_, fun r h1 h2 x _ => ?_⟩
  · simp [rowOpK, hik]
  · simp [rowOpK]; ring
  · simp [rowOpK, h2]

theorem rowOp_rowT' {N i k : Nat} {c : K} {a : (Nat → Nat → K)} (hik : i ≠ k) : RowT N i k 1 c 0 1 a (rowOpK a i k c) := by
  refine ⟨fun x _ => ?_, fun x _ => ?_, fun r h1 h2 x _ => ?_⟩
  · simp [rowOpK]; ring
  · simp [rowOpK, hik.symm]
  · simp [rowOpK, h1]

theorem colOp_colT {N i k : Nat} {c : K} {a : (Nat → Nat → K)} (hik : i ≠ k) : ColT N i k 1 0 c 1 a (colOpK a k i c) := by
  refine ⟨fun x _ => ?_, fun x _ => ?_, fun r h1 h2 x _ => ?_⟩
  · simp [colOpK, hik]
  · simp [colOpK]; ring
  · simp [colOpK, h2]

theorem colOp_colT' {N i k : Nat} {c : K} {a : (Nat → Nat → K)} (hik : i ≠ k) : ColT N i k 1 c 0 1 a (colOpK a i k c) := by
  refine ⟨fun x _ => ?_, fun x _ => ?_, fun r h1 h2 x _ => ?_⟩
  · simp [colOpK]; ring
  · simp [colOpK, hik.symm]
  · simp [colOpK, h1]

theorem swapRows_rowT {N i k : Nat} {a : (Nat → Nat → K)} (hik : i ≠ k) : RowT N i k 0 1 1 0 a (swapRows a i k) := by
  refine ⟨fun x _ => ?_, fun x _ => ?_, fun r h1 h2 x _ => ?_⟩
  · simp [swapRows]
  · simp [swapRows, hik.symm]
  · simp [swapRows, h1, h2]

theorem swapCols_colT {N i k : Nat} {a : (Nat → Nat → K)} (hik : i ≠ k) : ColT N i k 0 1 1 0 a (swapCols a i k) := by
  refine ⟨fun x _ => ?_, fun x _ => ?_, fun r h1 h2 x _ => ?_⟩
  · simp [swapCols]
  · simp [swapCols, hik.symm]
  · simp [swapCols, h1, h2]

theorem swapRows_self (a : (Nat → Nat → K)) (i : Nat) : swapRows a i i = a := by
  funext r c; simp only [swapRows]; split
  · rename_i h; rw [h]
  · rfl

theorem swapCols_self (a : (Nat → Nat → K)) (i : Nat) : swapCols a i i = a := by
  funext r c; simp only [swapCols]; split
  · rename_i h; rw [h]
  · rfl

theorem swapRows_comm (a : (Nat → Nat → K)) (i k : Nat) : swapRows a i k = swapRows a k i := by
  funext r c; simp only [swapRows]
  by_cases h1 : r = i <;> by_cases h2 : r = k <;> simp_all

/-! ### loops over ranges -/

theorem mem_rng {lo hi k : Nat} : k ∈ rng lo hi ↔ lo ≤ k ∧ k < hi := by
  simp [rng]; omega

theorem rng_cons {lo hi : Nat} (h : lo < hi) : rng lo hi = lo :: rng (lo + 1) hi := by
  simp only [rng]
  obtain ⟨d, hd⟩ : ∃ d, hi - lo = d + 1 := ⟨hi - lo - 1, by omega⟩
  rw [hd, List.range'_succ]; congr 2; omega

theorem rng_nil {lo hi : Nat} (h : hi ≤ lo) : rng lo hi = [] := by
  simp only [rng]; rw [show hi - lo = 0 by omega]; rfl

/-- `for k in lo..hi` with an invariant indexed by the loop counter -/
theorem foldlM_rng {σ : Type} (P : Nat → σ → Prop) (step : σ → Nat → Option σ) (hi : Nat)
    (hs : ∀ k s, k < hi → P k s → ∃ s', step s k = some s' ∧ P (k + 1) s') :
    ∀ lo s, lo ≤ hi → P lo s → ∃ s', (rng lo hi).foldlM step s = some s' ∧ P hi s' := by
  intro lo s hle
  induction hd : hi - lo generalizing lo s with
  | zero =>
    intro h
    have : lo = hi := by omega
    subst this
    exact ⟨s, by rw [rng_nil (le_refl _)]; rfl, h⟩
  | succ d ih =>
    intro h
    obtain ⟨s1, h1, h2⟩ := hs lo s (by omega) h
    obtain ⟨s2, h3, h4⟩ := ih (lo + 1) s1 (by omega) (by omega) h2
    exact ⟨s2, by rw [rng_cons (by omega), List.foldlM_cons, h1]; exact h3, h4⟩

variable {n m i j : Nat} {A0 : Nat → Nat → K}

/-- the situation while the pivot `(i, j)` is being worked on -/
structure Ph (n m i j : Nat) (A0 : (Nat → Nat → K)) (st : St K) : Prop where
  hi : i < n
  hj : j < m
  z1 : ∀ r c, i ≤ r → r < n → c < j → st.a r c = 0
  z2 : ∀ r c, r < i → j ≤ c → c < m → st.a r c = 0
  sync : Sync n m A0 st

/-- nothing changes above row `i` or left of column `j` -/
def Frame (n m i j : Nat) (a a' : (Nat → Nat → K)) : Prop := ∀ r c, r < n → c < m → (r < i ∨ c < j) → a' r c = a r c

theorem Frame.refl (a : (Nat → Nat → K)) : Frame n m i j a a := fun _ _ _ _ _ => rfl

theorem Frame.trans {a b c : (Nat → Nat → K)} (h1 : Frame n m i j a b) (h2 : Frame n m i j b c) : Frame n m i j a c :=
  fun r k hr hk h => by rw [h2 r k hr hk h, h1 r k hr hk h]

theorem ph_of_frame {st st' : St K} (h : Ph n m i j A0 st) (hf : Frame n m i j st.a st'.a) (hs : Sync n m A0 st') : Ph n m i j A0 st' :=
  ⟨h.hi, h.hj,
   fun r c h1 h2 h3 => by rw [hf r c h2 (by have := h.hj; omega) (Or.inr h3)]; exact h.z1 r c h1 h2 h3,
   fun r c h1 h2 h3 => by rw [hf r c (by have := h.hi; omega) h3 (Or.inl h1)]; exact h.z2 r c h1 h2 h3, hs⟩

theorem ph_row {st st' : St K} {r1 r2 : Nat} (h : Ph n m i j A0 st) (h12 : r1 ≠ r2) (h1 : i ≤ r1) (h1' : r1 < n) (h2 : i ≤ r2) (h2' : r2 < n)
    (hs : RowStep n m r1 r2 st st') : Ph n m i j A0 st' ∧ Frame n m i j st.a st'.a := by
  have hsy := h.sync.row h12 h1' h2' hs
  have hf : Frame n m i j st.a st'.a := by
    obtain ⟨α, β, γ, δ, α', β', γ', δ', hb, ha, _⟩ := hs
    intro r c hr hc hor
    by_cases e1 : r = r1
    · subst e1
      have hcj : c < j := by omega
      rw [ha.fst c hc, h.z1 r c h1 hr hcj, h.z1 r2 c h2 h2' hcj]; ring
    · by_cases e2 : r = r2
      · subst e2
        have hcj : c < j := by omega
        rw [ha.snd c hc, h.z1 r c h2 hr hcj, h.z1 r1 c h1 h1' hcj]; ring
      · exact ha.oth r e1 e2 c hc
  exact ⟨ph_of_frame h hf hsy, hf⟩

theorem ph_col {st st' : St K} {c1 c2 : Nat} (h : Ph n m i j A0 st) (h12 : c1 ≠ c2) (h1 : j ≤ c1) (h1' : c1 < m) (h2 : j ≤ c2) (h2' : c2 < m)
    (hs : ColStep n m c1 c2 st st') : Ph n m i j A0 st' ∧ Frame n m i j st.a st'.a := by
  have hsy := h.sync.col h12 h1' h2' hs
  have hf : Frame n m i j st.a st'.a := by
    obtain ⟨α, β, γ, δ, α', β', γ', δ', hb, ha, _⟩ := hs
    intro r c hr hc hor
    by_cases e1 : c = c1
    · subst e1
      have hri : r < i := by omega
      rw [ha.fst r hr, h.z2 r c hri h1 hc, h.z2 r c2 hri h2 h2']; ring
    · by_cases e2 : c = c2
      · subst e2
        have hri : r < i := by omega
        rw [ha.snd r hr, h.z2 r c hri h2 hc, h.z2 r c1 hri h1 h1']; ring
      · exact ha.oth c e1 e2 r hr
  exact ⟨ph_of_frame h hf hsy, hf⟩

/-! ### elimination -/

theorem elimRow_spec {st : St K} {k : Nat} (h : Ph n m i j A0 st) (h0 : st.a i j ≠ 0) (hik : i < k) (hk : k < n) :
    ∃ st', elimRow (exact K) n m i j st k = some st' ∧ Ph n m i j A0 st' ∧ Frame n m i j st.a st'.a ∧ st'.a k j = 0 ∧
      (∀ r, r ≠ k → ∀ c, c < m → st'.a r c = st.a r c) := by
  by_cases hz : st.a k j = 0
  · exact ⟨st, by simp [elimRow, hz], h, Frame.refl _, hz, fun _ _ _ _ => rfl⟩
  · have hs := euclidDiv_exact (x := st.a k j) h0
    have hs' : st.a k j = st.a k j / st.a i j * st.a i j := (div_mul_cancel₀ _ h0).symm
    set s := st.a k j / st.a i j
    have hne : i ≠ k := by omega
    set st' : St K := { st with
      a := rowOpK st.a k i (-s)
      p := rowOpK st.p k i (-s)
      pinv := colOpK st.pinv i k s } with hst
    have hT : RowT m i k 1 0 (-s) 1 st.a st'.a := rowOp_rowT hne
    have hstep : RowStep n m i k st st' :=
      ⟨1, 0, -s, 1, 1, s, 0, 1, ⟨by ring, by ring, by ring, by ring⟩, hT, rowOp_rowT hne, colOp_colT' hne, rfl, rfl⟩
    obtain ⟨hP, hF⟩ := ph_row h hne (le_refl _) h.hi (by omega) hk hstep
    refine ⟨st', ?_, hP, hF, ?_, ?_⟩
    · simp only [elimRow, zero_exact, if_neg hz, hs, rowOp_exact, colOp_exact, neg_exact, Option.bind_eq_bind, Option.bind_some]; rfl
    · rw [hT.snd j h.hj, hs']; ring
    · intro r hr c hc
      by_cases e : r = i
      · subst e; rw [hT.fst c hc]; ring
      · exact hT.oth r e hr c hc

theorem elimCol_spec {st : St K} {l : Nat} (h : Ph n m i j A0 st) (h0 : st.a i j ≠ 0) (hjl : j < l) (hl : l < m) :
    ∃ st', elimCol (exact K) n m i j st l = some st' ∧ Ph n m i j A0 st' ∧ Frame n m i j st.a st'.a ∧ st'.a i l = 0 ∧
      (∀ c, c ≠ l → ∀ r, r < n → st'.a r c = st.a r c) := by
  by_cases hz : st.a i l = 0
  · exact ⟨st, by simp [elimCol, hz], h, Frame.refl _, hz, fun _ _ _ _ => rfl⟩
  · have hs := euclidDiv_exact (x := st.a i l) h0
    have hs' : st.a i l = st.a i l / st.a i j * st.a i j := (div_mul_cancel₀ _ h0).symm
    set s := st.a i l / st.a i j
    have hne : j ≠ l := by omega
    set st' : St K := { st with
      a := colOpK st.a l j (-s)
      q := colOpK st.q l j (-s)
      qinv := rowOpK st.qinv j l s } with hst
    have hT : ColT n j l 1 0 (-s) 1 st.a st'.a := colOp_colT hne
    have hstep : ColStep n m j l st st' :=
      ⟨1, 0, -s, 1, 1, s, 0, 1, ⟨by ring, by ring, by ring, by ring⟩, hT, colOp_colT hne, rowOp_rowT' hne, rfl, rfl⟩
    obtain ⟨hP, hF⟩ := ph_col h hne (le_refl _) h.hj (by omega) hl hstep
    refine ⟨st', ?_, hP, hF, ?_, ?_⟩
    · simp only [elimCol, zero_exact, if_neg hz, hs, rowOp_exact, colOp_exact, neg_exact, Option.bind_eq_bind, Option.bind_some]; rfl
    · rw [hT.snd i h.hi, hs']; ring
    · intro c hc r hr
      by_cases e : c = j
      · subst e; rw [hT.fst r hr]; ring
      · exact hT.oth c e hc r hr

theorem elimRows_spec {st : St K} (h : Ph n m i j A0 st) (h0 : st.a i j ≠ 0) :
    ∃ st', (rng (i + 1) n).foldlM (elimRow (exact K) n m i j) st = some st' ∧ Ph n m i j A0 st' ∧ Frame n m i j st.a st'.a ∧
      (∀ c, c < m → st'.a i c = st.a i c) ∧ (∀ r, i < r → r < n → st'.a r j = 0) := by
  obtain ⟨s, h1, h2, h3, h4, h5, h6, h7⟩ := foldlM_rng
    (fun k (s : St K) => i < k ∧ Ph n m i j A0 s ∧ Frame n m i j st.a s.a ∧ (∀ c, c < m → s.a i c = st.a i c) ∧
      (∀ r, i < r → r < k → s.a r j = 0) ∧ (∀ r, k ≤ r → r < n → s.a r j = st.a r j)) (elimRow (exact K) n m i j) n
    (by
      rintro k s hk ⟨hik, a1, a2, a3, a4, a5⟩
      have e0 : s.a i j = st.a i j := a3 j h.hj
      obtain ⟨s', b1, b2, b3, b4, b5⟩ := elimRow_spec a1 (by rw [e0]; exact h0) hik hk
      refine ⟨s', b1, by omega, b2, a2.trans b3, fun c hc => by rw [b5 i (by omega) c hc, a3 c hc], ?_, ?_⟩
      · intro r hr1 hr2
        by_cases e : r = k
        · subst e; exact b4
        · rw [b5 r e j h.hj]; exact a4 r hr1 (by omega)
      · intro r hr1 hr2
        rw [b5 r (by omega) j h.hj]; exact a5 r (by omega) hr2)
    (i + 1) st (by have := h.hi; omega)
    ⟨by omega, h, Frame.refl _, fun _ _ => rfl, fun r h1 h2 => by omega, fun _ _ _ => rfl⟩
  exact ⟨s, h1, h3, h4, h5, h6⟩

theorem elimCols_spec {st : St K} (h : Ph n m i j A0 st) (h0 : st.a i j ≠ 0) :
    ∃ st', (rng (j + 1) m).foldlM (elimCol (exact K) n m i j) st = some st' ∧ Ph n m i j A0 st' ∧ Frame n m i j st.a st'.a ∧
      (∀ r, r < n → st'.a r j = st.a r j) ∧ (∀ c, j < c → c < m → st'.a i c = 0) := by
  obtain ⟨s, h1, h2, h3, h4, h5, h6, h7⟩ := foldlM_rng
    (fun k (s : St K) => j < k ∧ Ph n m i j A0 s ∧ Frame n m i j st.a s.a ∧ (∀ r, r < n → s.a r j = st.a r j) ∧
      (∀ c, j < c → c < k → s.a i c = 0) ∧ (∀ c, k ≤ c → c < m → s.a i c = st.a i c)) (elimCol (exact K) n m i j) m
    (by
      rintro k s hk ⟨hik, a1, a2, a3, a4, a5⟩
      have e0 : s.a i j = st.a i j := a3 i h.hi
      obtain ⟨s', b1, b2, b3, b4, b5⟩ := elimCol_spec a1 (by rw [e0]; exact h0) hik hk
      refine ⟨s', b1, by omega, b2, a2.trans b3, fun c hc => by rw [b5 j (by omega) c hc, a3 c hc], ?_, ?_⟩
      · intro r hr1 hr2
        by_cases e : r = k
        · subst e; exact b4
        · rw [b5 r e i h.hi]; exact a4 r hr1 (by omega)
      · intro r hr1 hr2
        rw [b5 r (by omega) i h.hi]; exact a5 r (by omega) hr2)
    (j + 1) st (by have := h.hj; omega)
    ⟨by omega, h, Frame.refl _, fun _ _ => rfl, fun r h1 h2 => by omega, fun _ _ _ => rfl⟩
  exact ⟨s, h1, h3, h4, h5, h6⟩

/-! ### choosing the pivot -/

theorem findCol_some {a : (Nat → Nat → K)} {l : Nat} (h : findCol (exact K) n m i j a = some l) :
    j ≤ l ∧ l < m ∧ (∃ k, i ≤ k ∧ k < n ∧ a k l ≠ 0) ∧ ∀ c, j ≤ c → c < l → ∀ k, i ≤ k → k < n → a k c = 0 := by
  rw [findCol, List.find?_eq_some_iff_append] at h
  obtain ⟨hp, as, bs, heq, hno⟩ := h
  have hmem : l ∈ rng j m := by rw [heq]; simp
  rw [mem_rng] at hmem
  rw [List.any_eq_true] at hp
  obtain ⟨k, hk, hk'⟩ := hp
  rw [mem_rng] at hk
  refine ⟨hmem.1, hmem.2, ⟨k, hk.1, hk.2, of_decide_eq_true hk'⟩, ?_⟩
  intro c hc1 hc2 k hk1 hk2
  have hmem' : c ∈ as := by
    have hc : c ∈ rng j m := mem_rng.mpr ⟨hc1, by omega⟩
    rw [heq] at hc
    rcases List.mem_append.mp hc with h | h
    · exact h
    · exfalso
      have hs : (as ++ l :: bs).Pairwise (· < ·) := by rw [← heq]; exact List.pairwise_lt_range'
      rcases List.mem_cons.mp h with h | h
      · omega
      · have := (List.pairwise_cons.mp (List.pairwise_append.mp hs).2.1).1 c h
        omega
  have := hno c hmem'
  simp only [Bool.not_eq_true', List.any_eq_false] at this
  have := this k (mem_rng.mpr ⟨hk1, hk2⟩)
  by_contra hh
  exact this (decide_eq_true hh)

theorem findCol_none {a : (Nat → Nat → K)} (h : findCol (exact K) n m i j a = none) : ∀ c, j ≤ c → c < m → ∀ k, i ≤ k → k < n → a k c = 0 := by
  intro c hc1 hc2 k hk1 hk2
  rw [findCol, List.find?_eq_none] at h
  have := h c (mem_rng.mpr ⟨hc1, hc2⟩)
  simp only [Bool.not_eq_true, List.any_eq_false] at this
  by_contra hh
  exact of_decide_eq_false (this k (mem_rng.mpr ⟨hk1, hk2⟩)) hh

theorem choosePivot_spec {st : St K} (h : Ph n m i j A0 st) (hex : ∃ k, i ≤ k ∧ k < n ∧ st.a k j ≠ 0) :
    ∃ st', choosePivot (exact K) n m i j st = some st' ∧ Ph n m i j A0 st' ∧ Frame n m i j st.a st'.a ∧ st'.a i j ≠ 0 := by
  have hfc : findCol (exact K) n m i j st.a = some j := by
    rw [findCol, rng_cons h.hj, List.find?_cons_of_pos]
    rw [List.any_eq_true]
    obtain ⟨k, h1, h2, h3⟩ := hex
    exact ⟨k, mem_rng.mpr ⟨h1, h2⟩, decide_eq_true h3⟩
  have e1 : swapCols st.a j j = st.a := swapCols_self _ _
  have e2 : swapCols st.q j j = st.q := swapCols_self _ _
  have e3 : swapRows st.qinv j j = st.qinv := swapRows_self _ _
  by_cases hz : st.a i j = 0
  · cases hk : (rng i n).find? (fun k => decide (st.a k j ≠ 0)) with
    | none =>
      rw [List.find?_eq_none] at hk
      obtain ⟨k, h1, h2, h3⟩ := hex
      exact absurd (by simpa using hk k (mem_rng.mpr ⟨h1, h2⟩)) h3
    | some k =>
      have hp := List.find?_some hk
      have hm := mem_rng.mp (List.mem_of_find?_eq_some hk)
      have hp' : st.a k j ≠ 0 := by simpa using hp
      have hne : i ≠ k := by rintro rfl; exact hp' hz
      set st' : St K := { st with a := swapRows st.a i k, p := swapRows st.p i k, pinv := swapCols st.pinv i k } with hst
      have hT : RowT m i k 0 1 1 0 st.a st'.a := swapRows_rowT hne
      have hstep : RowStep n m i k st st' :=
        ⟨0, 1, 1, 0, 0, 1, 1, 0, ⟨by ring, by ring, by ring, by ring⟩, hT, swapRows_rowT hne, swapCols_colT hne, rfl, rfl⟩
      obtain ⟨hP, hF⟩ := ph_row h hne (le_refl _) h.hi hm.1 hm.2 hstep
      have hnz : st'.a i j ≠ 0 := by rw [hT.fst j h.hj]; simpa using hp'
      refine ⟨st', ?_, hP, hF, hnz⟩
      simp only [choosePivot, hfc, zero_exact, Option.bind_eq_bind, Option.bind_some, e1, e2, e3, hz, if_true, hk, pure]
      rw [if_pos hnz]
  · refine ⟨st, ?_, h, Frame.refl _, hz⟩
    simp only [choosePivot, hfc, zero_exact, Option.bind_eq_bind, Option.bind_some, e1, e2, e3, hz, if_false, pure]
    rw [if_pos hz]

/-! ### the main loop -/

structure MI (n m i j : Nat) (A0 : (Nat → Nat → K)) (piv : Nat → Nat) (st : St K) : Prop where
  hi : i ≤ n
  z1 : ∀ r c, i ≤ r → r < n → c < j → c < m → st.a r c = 0
  lt : ∀ r < i, piv r < j ∧ piv r < m
  nz : ∀ r < i, st.a r (piv r) ≠ 0
  zz : ∀ r < i, ∀ c < m, c ≠ piv r → st.a r c = 0
  mono : ∀ r r', r < r' → r' < i → piv r < piv r'
  sync : Sync n m A0 st

/-- the echelon-like shape after the main loop -/
structure Ech (n m R : Nat) (A0 : (Nat → Nat → K)) (piv : Nat → Nat) (st : St K) : Prop where
  hR : R ≤ n
  lt : ∀ r < R, piv r < m
  nz : ∀ r < R, st.a r (piv r) ≠ 0
  zz : ∀ r < R, ∀ c < m, c ≠ piv r → st.a r c = 0
  zr : ∀ r, R ≤ r → r < n → ∀ c < m, st.a r c = 0
  mono : ∀ r r', r < r' → r' < R → piv r < piv r'
  sync : Sync n m A0 st

theorem mainLoop_spec (n m : Nat) (A0 : (Nat → Nat → K)) : ∀ (d i j : Nat) (piv : Nat → Nat) (st : St K), n - i = d → MI n m i j A0 piv st →
    ∃ st' R piv', mainLoop (exact K) n m d i j st = some st' ∧ Ech n m R A0 piv' st' := by
  intro d
  induction d with
  | zero =>
    intro i j piv st hd h
    have : i = n := by have := h.hi; omega
    subst this
    exact ⟨st, i, piv, by rw [mainLoop], ⟨le_refl _, fun r hr => (h.lt r hr).2, h.nz, h.zz, fun r h1 h2 => by omega, h.mono, h.sync⟩⟩
  | succ d ih =>
    intro i j piv st hd h
    by_cases hj : j < m
    · have hin : i < n := by omega
      cases hc : findCol (exact K) n m i j st.a with
      | none =>
        refine ⟨st, i, piv, by rw [mainLoop, if_pos ⟨hin, hj⟩, hc], h.hi, fun r hr => (h.lt r hr).2, h.nz, h.zz, ?_, h.mono, h.sync⟩
        intro r hr1 hr2 c hc'
        by_cases hcj : c < j
        · exact h.z1 r c hr1 hr2 hcj hc'
        · exact findCol_none hc c (by omega) hc' r hr1 hr2
      | some l =>
        obtain ⟨hl1, hl2, hex, hz⟩ := findCol_some hc
        have hP : Ph n m i l A0 st := by
          refine ⟨hin, hl2, ?_, ?_, h.sync⟩
          · intro r c h1 h2 h3
            by_cases hcj : c < j
            · exact h.z1 r c h1 h2 hcj (by omega)
            · exact hz c (by omega) h3 r h1 h2
          · intro r c h1 h2 h3
            exact h.zz r h1 c h3 (by have := (h.lt r h1).1; omega)
        obtain ⟨s1, a1, P1, F1, n1⟩ := choosePivot_spec hP hex
        obtain ⟨s3, a3, P3, F3, r3, z3⟩ := elimRows_spec P1 n1
        have n3 : s3.a i l ≠ 0 := by rw [r3 l hl2]; exact n1
        obtain ⟨s4, a4, P4, F4, r4, z4⟩ := elimCols_spec P3 n3
        have F : Frame n m i l st.a s4.a := (F1.trans F3).trans F4
        have hMI : MI n m (i + 1) (l + 1) A0 (fun r => if r = i then l else piv r) s4 := by
          refine ⟨hin, ?_, ?_, ?_, ?_, ?_, P4.sync⟩
          · intro r c h1 h2 h3 h4
            by_cases e : c = l
            · subst e; rw [r4 r h2]; exact z3 r (by omega) h2
            · exact P4.z1 r c (by omega) h2 (by omega)
          · intro r hr
            by_cases e : r = i
            · simp only [e, if_true]; omega
            · simp only [e, if_false]
              have := h.lt r (by omega)
              omega
          · intro r hr
            by_cases e : r = i
            · subst e; simp only [if_true]; rw [r4 r hin]; exact n3
            · simp only [e, if_false]
              rw [F r _ (by omega) (h.lt r (by omega)).2 (Or.inl (by omega))]
              exact h.nz r (by omega)
          · intro r hr c hc' hne
            by_cases e : r = i
            · subst e
              simp only [if_true] at hne
              by_cases hcl : c < l
              · exact P4.z1 r c (le_refl _) hin hcl
              · exact z4 c (by omega) hc'
            · simp only [e, if_false] at hne
              rw [F r c (by omega) hc' (Or.inl (by omega))]
              exact h.zz r (by omega) c hc' hne
          · intro r r' h1 h2
            by_cases e : r' = i
            · have e' : r ≠ i := by omega
              simp only [e, e', if_true, if_false]
              have := (h.lt r (by omega)).1; omega
            · have e' : r ≠ i := by omega
              simp only [e, e', if_false]
              exact h.mono r r' h1 (by omega)
        obtain ⟨st', R, piv', b1, b2⟩ := ih (i + 1) (l + 1) _ s4 (by omega) hMI
        refine ⟨st', R, piv', ?_, b2⟩
        rw [mainLoop, if_pos ⟨hin, hj⟩, hc]
        have hg : guardPivot (exact K) n m i l s1.a = some true := by
          rw [guardPivot, allM_divides _ _ _ n1, Option.bind_eq_bind, Option.bind_some, if_pos rfl, allM_divides _ _ _ n1]
        simp only [a1, Option.bind_eq_bind, Option.bind_some, hg, if_true, a3, a4]
        exact b1
    · refine ⟨st, i, piv, by rw [mainLoop, if_neg (by omega)], h.hi, fun r hr => (h.lt r hr).2, h.nz, h.zz, ?_, h.mono, h.sync⟩
      intro r hr1 hr2 c hc'
      exact h.z1 r c hr1 hr2 (by omega) hc'

variable {R : Nat}

/-- diagonal shape with `R` non-zero entries in front -/
structure DiagS (n m R : Nat) (a : (Nat → Nat → K)) : Prop where
  hn : R ≤ n
  hm : R ≤ m
  nz : ∀ r < R, a r r ≠ 0
  off : ∀ r c, r < n → c < m → r ≠ c → a r c = 0
  zr : ∀ r, R ≤ r → r < n → r < m → a r r = 0

theorem piv_ge {piv : Nat → Nat} (h : ∀ r r', r < r' → r' < R → piv r < piv r') : ∀ r < R, r ≤ piv r := by
  intro r
  induction r with
  | zero => intro _; omega
  | succ r ih => intro hr; have := ih (by omega); have := h r (r + 1) (by omega) hr; omega

theorem ech_diag {st : St K} {piv : Nat → Nat} (h : Ech n m R A0 piv st) (hp : ∀ r < R, piv r = r) : DiagS n m R st.a := by
  refine ⟨h.hR, ?_, ?_, ?_, ?_⟩
  · by_contra hh
    have := h.lt m (by omega)
    rw [hp m (by omega)] at this; omega
  · intro r hr
    have := h.nz r hr; rwa [hp r hr] at this
  · intro r c hr hc hne
    by_cases hrR : r < R
    · exact h.zz r hrR c hc (by rw [hp r hrR]; exact Ne.symm hne)
    · exact h.zr r (by omega) hr c hc
  · intro r h1 h2 h3
    exact h.zr r h1 h2 r h3

theorem diagLoop_spec : ∀ (d r : Nat) (piv : Nat → Nat) (st : St K), min n m - r = d → r ≤ min n m → Ech n m R A0 piv st → (∀ q < r, q < R → piv q = q) →
    DiagS n m R (diagLoop (exact K) m (rng r (min n m)) st).a ∧ Sync n m A0 (diagLoop (exact K) m (rng r (min n m)) st) := by
  intro d
  induction d with
  | zero =>
    intro r piv st hd hr h hp
    have hr' : r = min n m := by omega
    rw [rng_nil (by omega)]
    refine ⟨ech_diag h ?_, h.sync⟩
    intro q hq
    by_cases hqr : q < r
    · exact hp q hqr hq
    · have h1 := piv_ge h.mono q hq
      have h2 := h.lt q hq
      have := h.hR
      omega
  | succ d ih =>
    intro r piv st hd hr h hp
    have hrlt : r < min n m := by omega
    have hrn : r < n := by omega
    have hrm : r < m := by omega
    rw [rng_cons hrlt]
    by_cases hz : st.a r r = 0
    · cases hf : (rng (r + 1) m).find? (fun s => decide (st.a r s ≠ 0)) with
      | none =>
        have hRr : R ≤ r := by
          by_contra hh
          have hrR : r < R := by omega
          have h1 := piv_ge h.mono r hrR
          have h2 := h.nz r hrR
          have hne : piv r ≠ r := by intro e; rw [e] at h2; exact h2 hz
          rw [List.find?_eq_none] at hf
          have := hf (piv r) (mem_rng.mpr ⟨by omega, h.lt r hrR⟩)
          simp at this
          exact h2 this
        have e : diagLoop (exact K) m (r :: rng (r + 1) (min n m)) st = st := by
          rw [diagLoop, if_neg (by simp [hz])]; erw [hf]
        rw [e]
        exact ⟨ech_diag h (fun q hq => hp q (by omega) hq), h.sync⟩
      | some s =>
        have hs := mem_rng.mp (List.mem_of_find?_eq_some hf)
        have hs' : st.a r s ≠ 0 := by simpa using List.find?_some hf
        have hrR : r < R := by
          by_contra hh
          exact hs' (h.zr r (by omega) hrn s hs.2)
        have hps : piv r = s := by
          by_contra hne
          exact hs' (h.zz r hrR s hs.2 (Ne.symm hne))
        have hcr : ∀ x, x < n → x ≠ r → st.a x r = 0 := by
          intro x hx hxr
          by_cases hxR : x < R
          · refine h.zz x hxR r hrm ?_
            rcases Nat.lt_or_gt_of_ne hxr with hlt | hgt
            · rw [hp x hlt hxR]; exact Ne.symm hxr
            · have := h.mono r x hgt hxR; omega
          · exact h.zr x (by omega) hx r hrm
        have hcs : ∀ x, x < n → x ≠ r → st.a x s = 0 := by
          intro x hx hxr
          by_cases hxR : x < R
          · refine h.zz x hxR s hs.2 ?_
            rcases Nat.lt_or_gt_of_ne hxr with hlt | hgt
            · have := h.mono x r hlt hrR; omega
            · have := h.mono r x hgt hxR; omega
          · exact h.zr x (by omega) hx s hs.2
        set st' : St K := { st with
          a := fun i j => if i = r ∧ j = s then 0 else if i = r ∧ j = r then st.a r s else st.a i j
          q := swapCols st.q r s
          qinv := swapRows st.qinv s r } with hst
        have e : diagLoop (exact K) m (r :: rng (r + 1) (min n m)) st = diagLoop (exact K) m (rng (r + 1) (min n m)) st' := by
          rw [diagLoop, if_neg (by simp [hz])]; erw [hf]; rfl
        rw [e]
        have hrs : r ≠ s := by omega
        have harr : st'.a r r = st.a r s := by simp [hst, hrs]
        have hars : st'.a r s = 0 := by simp [hst]
        have hoth : ∀ x c, (x ≠ r ∨ (c ≠ r ∧ c ≠ s)) → st'.a x c = st.a x c := by
          intro x c hh
          simp only [hst]
          rw [if_neg (by omega), if_neg (by omega)]
        have hT : ColT n r s 0 1 1 0 st.a st'.a := by
          refine ⟨fun x hx => ?_, fun x hx => ?_, fun c h1 h2 x hx => hoth x c (Or.inr ⟨h1, h2⟩)⟩
          · by_cases hxr : x = r
            · subst hxr; rw [harr]; ring
            · rw [hoth x r (Or.inl hxr), hcr x hx hxr, hcs x hx hxr]; ring
          · by_cases hxr : x = r
            · subst hxr; rw [hars, hz]; ring
            · rw [hoth x s (Or.inl hxr), hcr x hx hxr, hcs x hx hxr]; ring
        have hstep : ColStep n m r s st st' :=
          ⟨0, 1, 1, 0, 0, 1, 1, 0, ⟨by ring, by ring, by ring, by ring⟩, hT, swapCols_colT hrs,
            by simp only [hst]; rw [swapRows_comm]; exact swapRows_rowT hrs, rfl, rfl⟩
        have hsync := h.sync.col hrs hrm hs.2 hstep
        refine ih (r + 1) (fun q => if q = r then r else piv q) st' (by omega) (by omega) ?_ ?_
        · refine ⟨h.hR, ?_, ?_, ?_, ?_, ?_, hsync⟩
          · intro q hq
            by_cases e : q = r
            · simp only [e, if_true]; exact hrm
            · simp only [e, if_false]; exact h.lt q hq
          · intro q hq
            by_cases e : q = r
            · subst e; simp only [if_true]; rw [harr]; exact hs'
            · simp only [e, if_false]; rw [hoth q _ (Or.inl e)]; exact h.nz q hq
          · intro q hq c hc hne
            by_cases e : q = r
            · subst e; simp only [if_true] at hne
              by_cases ec : c = s
              · rw [ec]; exact hars
              · rw [hoth q c (Or.inr ⟨hne, ec⟩)]; exact h.zz q hq c hc (by rw [hps]; exact ec)
            · simp only [e, if_false] at hne
              rw [hoth q c (Or.inl e)]; exact h.zz q hq c hc hne
          · intro q hq1 hq2 c hc
            rw [hoth q c (Or.inl (by omega))]; exact h.zr q hq1 hq2 c hc
          · intro x y hxy hy
            by_cases ex : x = r
            · have ey : y ≠ r := by omega
              simp only [ex, ey, if_true, if_false]
              have := h.mono r y (by omega) hy; omega
            · by_cases ey : y = r
              · simp only [ex, ey, if_true, if_false]
                rw [hp x (by omega) (by omega)]; omega
              · simp only [ex, ey, if_false]; exact h.mono x y hxy hy
        · intro q hq hqR
          by_cases e : q = r
          · simp [e]
          · simp only [e, if_false]; exact hp q (by omega) hqR
    · have hrR : r < R := by
        by_contra hh; exact hz (h.zr r (by omega) hrn r hrm)
      have hpr : piv r = r := by
        by_contra hne; exact hz (h.zz r hrR r hrm (Ne.symm hne))
      have e : diagLoop (exact K) m (r :: rng (r + 1) (min n m)) st = diagLoop (exact K) m (rng (r + 1) (min n m)) st := by simp [diagLoop, hz]
      rw [e]
      refine ih (r + 1) piv st (by omega) (by omega) h ?_
      intro q hq hqR
      by_cases e : q = r
      · rw [e]; exact hpr
      · exact hp q (by omega) hqR

theorem rankOf_eq {a : (Nat → Nat → K)} (h : DiagS n m R a) : rankOf (exact K) n m a = R := by
  have hR : R ≤ min n m := by have := h.hn; have := h.hm; omega
  change (match (rng 0 (min n m)).find? (fun r => decide (a r r = 0)) with | some r => r | none => min n m) = R
  cases hf : (rng 0 (min n m)).find? (fun r => decide (a r r = 0)) with
  | none =>
    rw [List.find?_eq_none] at hf
    by_contra hne
    simp only at hne
    have hlt : R < min n m := by omega
    have := hf R (mem_rng.mpr ⟨by omega, hlt⟩)
    simp at this
    exact this (h.zr R (le_refl _) (by omega) (by omega))
  | some r =>
    have hz : a r r = 0 := by simpa using List.find?_some hf
    have hm := mem_rng.mp (List.mem_of_find?_eq_some hf)
    simp only
    have h1 : R ≤ r := by
      by_contra hh; exact h.nz r (by omega) hz
    by_contra hne
    have hlt : R < r := by omega
    rw [List.find?_eq_some_iff_append] at hf
    obtain ⟨_, as, bs, heq, hno⟩ := hf
    have hmem : R ∈ rng 0 (min n m) := mem_rng.mpr ⟨by omega, by omega⟩
    rw [heq] at hmem
    have hs : (as ++ r :: bs).Pairwise (· < ·) := by rw [← heq]; exact List.pairwise_lt_range'
    rcases List.mem_append.mp hmem with h' | h'
    · have := hno R h'
      simp at this
      exact this (h.zr R (le_refl _) (by omega) (by omega))
    · rcases List.mem_cons.mp h' with h' | h'
      · omega
      · have := (List.pairwise_cons.mp (List.pairwise_append.mp hs).2.1).1 R h'
        omega

end Toppo.SmithF
