import Verif.Proof.QR
import Mathlib.Algebra.Polynomial.Roots
import Mathlib.Algebra.Polynomial.Splits
set_option linter.unusedVariables false

/-
C81: the QR iteration and the eigenvalues of a square matrix; exact real arithmetic.
-/
namespace Toppo.RealAlg
open Finset Matrix Polynomial

/-! ### Specification -/

/-- the result of `qr`: zero below the first sub-diagonal, of two neighbours on the sub-diagonal one is at most the tolerance -/
def QuasiTriangular (n : Nat) (B : RM) : Prop :=
  IsHess n B ∧ ∀ i, i + 2 < n → |B (i + 1) i| ≤ 0.000000000000001 ∨ |B (i + 2) (i + 1)| ≤ 0.000000000000001

/-- no entry of the sub-diagonal is rounded to zero: it is zero, or at least `1e-11`, the largest cut-off used, and not below the relative tolerance either -/
def NothingRounded (n : Nat) (A : RM) : Prop :=
  ∀ i, i + 1 < n → A (i + 1) i = 0 ∨ (0.00000000001 ≤ |A (i + 1) i| ∧ 0.000000000000001 * (|A i i| + |A (i + 1) (i + 1)|) ≤ |A (i + 1) i|)

/-- an exact run of the loop of `qr` from `A`: no round rounds an entry to zero and every Francis step ends with a right reflection (C80): the last but one entry of the
sub-diagonal of the block it works on is not negative afterwards -/
def ExactRun (n : Nat) : Nat → RM → Prop
  | 0, _ => True
  | k + 1, A => NothingRounded n A ∧
    ∀ t, qrStep n false (A, fun i j => if i = 0 ∧ j = 0 then 1 else 0) = some (Sum.inr t) → 0 ≤ t.1 (n - findQ n A - 2) (n - findQ n A - 3) ∧ ExactRun n k t.1

/-! ### No panic, shape of the result -/

theorem qrLoop_spec {n : Nat} (hn : 2 ≤ n) (op : RM) (fuel : Nat) : ∀ {A : RM}, IsHess n A →
    qrLoop n false fuel (A, op) ≠ .panic ∧ ∀ B o, qrLoop n false fuel (A, op) = .done (B, o) → QuasiTriangular n B := by
  induction fuel with
  | zero => intro A hA; exact ⟨by simp [qrLoop], by intro B o h; simp [qrLoop] at h⟩
  | succ fuel ih =>
    intro A hA
    have hD := deflate_hess hA
    rcases qrStep_spec hn hA op with ⟨h1, h2⟩ | ⟨h1, B, Q, h2, h3, h4⟩
    · unfold qrLoop
      rw [h2]
      refine ⟨by simp, ?_⟩
      intro B o h
      simp only [Outcome.done.injEq, Prod.mk.injEq] at h
      rw [← h.1]
      refine ⟨hD, ?_⟩
      intro i hi
      have := (findQ_spec hn (deflate n A)).2 (n - i - 3) (by rw [h1]; omega) (by omega)
      rw [show n - (n - i - 3) - 1 = i + 2 by omega, show n - (n - i - 3) - 2 = i + 1 by omega, show n - (n - i - 3) - 3 = i by omega] at this
      unfold qrTol at this
      by_contra hc
      rw [not_or, not_le, not_le] at hc
      exact this ⟨hc.2, hc.1⟩
    · unfold qrLoop
      rw [h4]
      simp only
      have hp := (block_unreduced hn hD h1).1
      exact ih (putBlock_hess (by omega) hD h3)

/-- **C81**: on a square matrix `qr` never panics, however many rounds it makes; a non-square matrix is rejected. -/
theorem c81_no_panic (fuel n m : Nat) (A : RM) : rawQr fuel n m A false = .panic ↔ n ≠ m := by
  constructor
  · intro h hnm
    subst hnm
    unfold rawQr at h
    rw [if_neg (by simp)] at h
    split at h
    · cases h
    · obtain ⟨H, h1, h2⟩ := c79_shape n A
      rw [h1] at h
      simp only at h
      exact (qrLoop_spec (by omega) _ fuel h2).1 h
  · intro h
    unfold rawQr
    rw [if_pos h]

/-- **C81**: when `qr` returns, the matrix is quasi-triangular. -/
theorem c81_shape (fuel n : Nat) (A B op : RM) (h : rawQr fuel n n A false = .done (B, op)) : QuasiTriangular n B := by
  unfold rawQr at h
  rw [if_neg (by simp)] at h
  split at h
  · exact ⟨fun i j _ _ => by omega, fun i hi => by omega⟩
  · obtain ⟨H, h1, h2⟩ := c79_shape n A
    rw [h1] at h
    simp only at h
    exact (qrLoop_spec (by omega) _ fuel h2).2 B op h

/-! ### Eigenvalues -/

theorem deflate_exact {n : Nat} {A : RM} (h : NothingRounded n A) : deflate n A = A := by
  funext i j
  unfold deflate
  split
  · rename_i hc
    obtain ⟨rfl, h1, h2⟩ := hc
    rcases h j h1 with h3 | ⟨-, h3⟩
    · exact h3.symm
    · unfold qrTol at h2
      linarith
  · rfl

theorem exact_small {n : Nat} {A : RM} (h : NothingRounded n A) {i : Nat} (hi : i + 1 < n) (hs : |A (i + 1) i| < 0.00000000001) : A (i + 1) i = 0 := by
  rcases h i hi with h1 | ⟨h1, -⟩
  · exact h1
  · linarith

/-- the characteristic polynomial is the same in every round of an exact run -/
theorem qrLoop_charpoly {n : Nat} (hn : 2 ≤ n) (fuel : Nat) : ∀ {A : RM}, IsHess n A → ExactRun n fuel A → ∀ B o,
    qrLoop n false fuel (A, fun i j => if i = 0 ∧ j = 0 then 1 else 0) = .done (B, o) → (toM n B).charpoly = (toM n A).charpoly ∧ NothingRounded n B := by
  induction fuel with
  | zero => intro A hA _ B o h; simp [qrLoop] at h
  | succ fuel ih =>
    intro A hA hE C o h
    obtain ⟨e1, e2⟩ := hE
    have hdef := deflate_exact e1
    have hspec := qrStep_spec hn hA (fun i j => if i = 0 ∧ j = 0 then 1 else 0)
    rw [hdef] at hspec
    unfold qrLoop at h
    rcases hspec with ⟨h1, h2⟩ | ⟨h1, B, Q, h2, h3, h4⟩
    · rw [h2] at h
      simp only [Outcome.done.injEq, Prod.mk.injEq] at h
      rw [← h.1]
      exact ⟨rfl, e1⟩
    · obtain ⟨e3, e4⟩ := e2 _ h4
      rw [h4] at h
      simp only at h e3 e4
      obtain ⟨hp, hu⟩ := block_unreduced hn hA h1
      obtain ⟨i1, i2⟩ := ih (putBlock_hess (by omega) hA h3) e4 C o h
      refine ⟨?_, i2⟩
      rw [i1]
      obtain ⟨f1, f2⟩ := findQ_spec hn A
      obtain ⟨q1, q2, q3⟩ := f1 h1
      obtain ⟨p1, p2⟩ := findP_spec n (findQ n A) A
      set q := findQ n A with hq
      set p := findP n q A with hpd
      have htol : qrTol < 0.00000000001 := by unfold qrTol; norm_num
      apply putBlock_charpoly (by omega) hA h3
      · by_cases hp0 : p = 0
        · exact Or.inl hp0
        · right
          obtain ⟨a1, a2⟩ := p1 hp0
          have := exact_small e1 (i := p - 1) (by omega)
          rw [show p - 1 + 1 = p by omega] at this
          exact this (by linarith)
      · by_cases hq0 : q = 0
        · left; omega
        · right
          have := f2 (q - 1) (by omega) (by omega)
          rw [show n - (q - 1) - 1 = n - q by omega, show n - (q - 1) - 2 = n - q - 1 by omega, show n - (q - 1) - 3 = n - q - 2 by omega] at this
          have hle : |A (n - q) (n - q - 1)| ≤ qrTol := by
            by_contra hc
            exact this ⟨not_le.mp hc, q2⟩
          rw [show p + (n - q - p) = n - q by omega]
          have := exact_small e1 (i := n - q - 1) (by omega)
          rw [show n - q - 1 + 1 = n - q by omega] at this
          exact this (by linarith)
      · omega
      · obtain ⟨B', Q', b1, b2, b3⟩ := c80_francis_partial _ (by omega) _ hu false
        rw [h2] at b1
        simp only [Option.some.injEq, Prod.mk.injEq] at b1
        obtain ⟨rfl, rfl⟩ := b1
        apply OrthSimilar.charpoly
        apply b3
        unfold putBlock at e3
        rw [if_pos ⟨by omega, by omega, by omega, by omega⟩] at e3
        rw [show n - q - p - 2 = n - q - 2 - p by omega, show n - q - p - 3 = n - q - 3 - p by omega]
        exact e3

theorem charpoly_empty (A : RM) : (toM 0 A).charpoly = 1 := by
  rw [Matrix.charpoly, Matrix.det_isEmpty]

theorem charpoly_one (A : RM) : (toM 1 A).charpoly = X - C (A 0 0) := by
  rw [Matrix.charpoly, Matrix.det_fin_one, Matrix.charmatrix_apply_eq]
  rfl

theorem charpoly_two (A : RM) : (toM 2 A).charpoly = X ^ 2 - C (A 0 0 + A 1 1) * X + C (A 0 0 * A 1 1 - A 0 1 * A 1 0) := by
  rw [Matrix.charpoly, Matrix.det_fin_two, Matrix.charmatrix_apply_eq, Matrix.charmatrix_apply_eq, Matrix.charmatrix_apply_ne _ _ _ (by simp), Matrix.charmatrix_apply_ne _ _ _ (by simp)]
  simp only [toM_apply, Fin.val_zero, Fin.val_one, C_add, C_sub, C_mul]
  ring

/-- reading off the eigenvalues of the window that starts at `i` -/
theorem readOff_spec {n : Nat} {B : RM} (hB : QuasiTriangular n B) (hE : NothingRounded n B) (fuel : Nat) : ∀ i, i ≤ n → n ≤ i + fuel →
    (∀ l, readOff n B fuel i = some l → (toM (n - i) (shift i B)).charpoly = (l.map (fun a => X - C a)).prod) ∧
    (readOff n B fuel i = none → ∃ (g : ℝ[X]) (t d : ℝ), (toM (n - i) (shift i B)).charpoly = (X ^ 2 - C t * X + C d) * g ∧ t / 2 * (t / 2) - d ≤ 0) := by
  have split1 : ∀ i m, i + m + 1 ≤ n → m ≠ 0 → (m + i = n ∨ B (i + m) (i + m - 1) = 0) →
      (toM (n - i) (shift i B)).charpoly = (toM m (shift i B)).charpoly * (toM (n - (i + m)) (shift (i + m) B)).charpoly := by
    intro i m h1 h2 h3
    rw [show n - i = m + (n - (i + m)) by omega, charpoly_split m (n - (i + m)) (shift i B)]
    · congr 2
      exact toM_congr (fun a b _ _ => by unfold shift; rw [Nat.add_assoc, Nat.add_assoc])
    · intro a b a1 a2 a3
      unfold shift
      by_cases h : b + 1 < a
      · exact hB.1 _ _ (by omega) (by omega)
      · rcases h3 with h3 | h3
        · omega
        · rw [show a = m by omega, show i + b = i + m - 1 by omega]
          exact h3
  induction fuel with
  | zero =>
    intro i h1 h2
    constructor
    · intro l hl
      simp only [readOff, Option.some.injEq] at hl
      subst hl
      rw [show n - i = 0 by omega, List.map_nil, List.prod_nil]
      exact charpoly_empty _
    · intro h
      simp [readOff] at h
  | succ fuel ih =>
    intro i h1 h2
    unfold readOff
    by_cases hin : i < n
    · rw [if_pos hin]
      by_cases hc : i = n - 1 ∨ |B (i + 1) i| < 0.00000000001
      · rw [if_pos hc]
        have hcp : (toM (n - i) (shift i B)).charpoly = (X - C (B i i)) * (toM (n - (i + 1)) (shift (i + 1) B)).charpoly := by
          by_cases hlast : i + 1 = n
          · rw [show n - i = 1 by omega, show n - (i + 1) = 0 by omega, charpoly_one, charpoly_empty, mul_one]
            rfl
          · rw [split1 i 1 (by omega) (by omega) (Or.inr ?_), charpoly_one]
            · rfl
            · exact exact_small hE (by omega) (by rcases hc with h | h <;> [omega; exact h])
        obtain ⟨i1, i2⟩ := ih (i + 1) (by omega) (by omega)
        constructor
        · intro l hl
          rw [Option.map_eq_some_iff] at hl
          obtain ⟨l', hl', rfl⟩ := hl
          rw [hcp, i1 l' hl', List.map_cons, List.prod_cons]
        · intro h
          rw [Option.map_eq_none_iff] at h
          obtain ⟨g, t, d, g1, g2⟩ := i2 h
          exact ⟨(X - C (B i i)) * g, t, d, by rw [hcp, g1]; ring, g2⟩
      · rw [if_neg hc]
        rw [not_or, not_lt] at hc
        have hcp : (toM (n - i) (shift i B)).charpoly = (X ^ 2 - C (B i i + B (i + 1) (i + 1)) * X + C (B i i * B (i + 1) (i + 1) - B i (i + 1) * B (i + 1) i)) *
            (toM (n - (i + 2)) (shift (i + 2) B)).charpoly := by
          by_cases hlast : i + 2 = n
          · rw [show n - i = 2 by omega, show n - (i + 2) = 0 by omega, charpoly_two, charpoly_empty, mul_one]
            rfl
          · rw [split1 i 2 (by omega) (by omega) (Or.inr ?_), charpoly_two]
            · rfl
            · rw [show i + 2 - 1 = i + 1 by omega]
              apply exact_small hE (by omega)
              rcases hB.2 i (by omega) with h | h
              · norm_num at h hc
                linarith [hc.2]
              · norm_num at h ⊢
                linarith
        obtain ⟨i1, i2⟩ := ih (i + 2) (by omega) (by omega)
        unfold realSpectrum2
        simp only
        by_cases hdisc : 0 < (B i i + B (i + 1) (i + 1)) / 2 * ((B i i + B (i + 1) (i + 1)) / 2) - (B i i * B (i + 1) (i + 1) - B i (i + 1) * B (i + 1) i)
        · rw [if_pos hdisc]
          simp only
          constructor
          · intro l hl
            rw [Option.map_eq_some_iff] at hl
            obtain ⟨l', hl', rfl⟩ := hl
            rw [hcp, i1 l' hl', List.map_cons, List.prod_cons, List.map_cons, List.prod_cons, ← mul_assoc]
            congr 1
            set m := (B i i + B (i + 1) (i + 1)) / 2 with hm
            set D := B i i * B (i + 1) (i + 1) - B i (i + 1) * B (i + 1) i with hD
            set r := Real.sqrt (m * m - D) with hr
            have hr2 : r * r = m * m - D := Real.mul_self_sqrt hdisc.le
            rw [show B i i + B (i + 1) (i + 1) = 2 * m by rw [hm]; ring, show D = m * m - r * r by rw [hr2]; ring]
            simp only [C_add, C_sub, C_mul, show (C (2 : ℝ) : ℝ[X]) = 2 from rfl]
            ring
          · intro h
            rw [Option.map_eq_none_iff] at h
            obtain ⟨g, t, d, g1, g2⟩ := i2 h
            exact ⟨_, t, d, by rw [hcp, g1, mul_left_comm], g2⟩
        · rw [if_neg hdisc]
          simp only
          constructor
          · intro l hl
            cases hl
          · intro _
            exact ⟨_, _, _, hcp, not_lt.mp hdisc⟩
    · rw [if_neg hin]
      constructor
      · intro l hl
        injection hl with hl
        subst hl
        rw [show n - i = 0 by omega, List.map_nil, List.prod_nil]
        exact charpoly_empty _
      · intro h
        cases h

/-- a quadratic factor of a product of different linear factors has a positive discriminant -/
theorem quad_distinct {l : List ℝ} (hl : l.Nodup) {t d : ℝ} {g : ℝ[X]} (h : (l.map (fun a => X - C a)).prod = (X ^ 2 - C t * X + C d) * g) : 0 < t / 2 * (t / 2) - d := by
  have hprod : (l.map (fun a => X - C a)).prod = ((l : Multiset ℝ).map (fun a => X - C a)).prod := by
    rw [Multiset.map_coe, Multiset.prod_coe]
  have hq : (X ^ 2 - C t * X + C d : ℝ[X]) = C 1 * X ^ 2 + C (-t) * X + C d := by
    simp only [C_1, C_neg]
    ring
  have hdeg : (X ^ 2 - C t * X + C d : ℝ[X]).degree = 2 := by
    rw [hq]
    exact degree_quadratic one_ne_zero
  have hne : (X ^ 2 - C t * X + C d : ℝ[X]) ≠ 0 := by
    intro h0
    rw [h0, degree_zero] at hdeg
    cases hdeg
  have hP0 : (l.map (fun a => X - C a)).prod ≠ 0 := by
    rw [hprod]
    exact (monic_multiset_prod_of_monic _ _ (fun a _ => monic_X_sub_C a)).ne_zero
  have hdvd : (X ^ 2 - C t * X + C d : ℝ[X]) ∣ (l.map (fun a => X - C a)).prod := ⟨g, h⟩
  have hsp : (X ^ 2 - C t * X + C d : ℝ[X]).Splits := by
    refine Splits.of_dvd ?_ hP0 hdvd
    rw [hprod]
    exact Splits.multisetProd (fun f hf => by
      rw [Multiset.mem_map] at hf
      obtain ⟨a, -, rfl⟩ := hf
      exact Splits.X_sub_C a)
  obtain ⟨x, hx⟩ := hsp.exists_eval_eq_zero (by rw [hdeg]; decide)
  simp only [eval_add, eval_sub, eval_pow, eval_X, eval_mul, eval_C] at hx
  by_contra hc
  have hsq : (x - t / 2) * (x - t / 2) = t / 2 * (t / 2) - d := by linear_combination hx
  have hx0 : x - t / 2 = 0 := by
    have h1 := mul_self_nonneg (x - t / 2)
    exact mul_self_eq_zero.mp (by linarith)
  have ht : t = 2 * x := by linarith
  have hd : d = x * x := by rw [ht] at hx; linear_combination hx
  have hfac : (X ^ 2 - C t * X + C d : ℝ[X]) = (X - C x) * (X - C x) := by
    rw [ht, hd]
    simp only [C_mul, show (C (2 : ℝ) : ℝ[X]) = 2 from rfl]
    ring
  have hle := roots.le_of_dvd hP0 hdvd
  rw [hprod, roots_multiset_prod_X_sub_C, hfac, roots_mul (mul_ne_zero (X_sub_C_ne_zero x) (X_sub_C_ne_zero x)), roots_X_sub_C] at hle
  have hnd : (({x} : Multiset ℝ) + {x}).Nodup := Multiset.nodup_of_le hle (by rwa [Multiset.coe_nodup])
  rw [Multiset.nodup_add] at hnd
  exact (Multiset.disjoint_left.mp hnd.2.2) (Multiset.mem_singleton_self x) (Multiset.mem_singleton_self x)

/-- **C81**, what holds of the eigenvalues: if the reflections of `hessenberg_form` are right (C79), the run of `qr` is exact, and `spectrum` returns, the list is sorted and consists of the
eigenvalues with their multiplicities.  If the matrix has `n` different real eigenvalues, it does not panic.
Missing: `qr` need not end (`c81_stall_false`), wrong reflections change the eigenvalues (C79, C80), rounding is not analysed. -/
theorem c81_spectrum_partial (fuel n : Nat) (A H : RM) (hH : hessenberg n n A = some H) (hpos : ∀ k, k + 2 < n → 0 ≤ H (k + 1) k) (hE : ExactRun n fuel H) :
    (∀ l, spectrum fuel n n A = .done l → l.Pairwise (· ≤ ·) ∧ (toM n A).charpoly = (l.map (fun a => X - C a)).prod) ∧
    (∀ l : List ℝ, l.Nodup → (toM n A).charpoly = (l.map (fun a => X - C a)).prod → spectrum fuel n n A ≠ .panic) := by
  have hqr : ∀ B o, rawQr fuel n n A false = .done (B, o) → (toM n B).charpoly = (toM n A).charpoly ∧ NothingRounded n B ∧ QuasiTriangular n B := by
    intro B o h
    have h3 := c81_shape fuel n A B o h
    unfold rawQr at h
    rw [if_neg (by simp)] at h
    by_cases hn : n < 2
    · rw [if_pos hn] at h
      simp only [Outcome.done.injEq, Prod.mk.injEq] at h
      rw [← h.1] at h3 ⊢
      exact ⟨rfl, fun i hi => by omega, h3⟩
    · rw [if_neg hn, hH] at h
      simp only at h
      obtain ⟨B', h1, h2⟩ := c79_shape n A
      rw [hH] at h1
      injection h1 with h1
      subst h1
      obtain ⟨h4, h5⟩ := qrLoop_charpoly (by omega) fuel h2 hE B o (by simpa using h)
      exact ⟨h4.trans (c79_similar_partial n A H hH hpos).charpoly, h5, h3⟩
  have hs : ∀ B, toM (n - 0) (shift 0 B) = toM n B := fun B => toM_congr (fun i j _ _ => by simp [shift])
  constructor
  · intro l hl
    unfold spectrum at hl
    split at hl
    · cases hl
    · cases hl
    · rename_i B o hB
      obtain ⟨h1, h2, h3⟩ := hqr B o hB
      split at hl
      · cases hl
      · rename_i l' hl'
        simp only [Outcome.done.injEq] at hl
        subst hl
        refine ⟨List.pairwise_insertionSort (· ≤ ·) l', ?_⟩
        have := (readOff_spec h3 h2 n 0 (by omega) (by omega)).1 l' hl'
        rw [hs, h1] at this
        rw [this]
        exact (((List.perm_insertionSort (· ≤ ·) l').map _).prod_eq).symm
  · intro l hl hcp hp
    unfold spectrum at hp
    split at hp
    · cases hp
    · rename_i hB
      rw [c81_no_panic] at hB
      exact hB rfl
    · rename_i B o hB
      obtain ⟨h1, h2, h3⟩ := hqr B o hB
      split at hp
      · rename_i hr
        obtain ⟨g, t, d, g1, g2⟩ := (readOff_spec h3 h2 n 0 (by omega) (by omega)).2 hr
        rw [hs, h1, hcp] at g1
        have := quad_distinct hl g1
        linarith
      · cases hp

/-- a non-square matrix is rejected -/
theorem c81_nonsquare (fuel n m : Nat) (h : n ≠ m) (A : RM) : spectrum fuel n m A = .panic := by
  unfold spectrum
  rw [(c81_no_panic fuel n m A).mpr h]

/-- the 2 × 2 case is the one of C68 -/
theorem c81_two (fuel : Nat) (A : RM) : spectrum (fuel + 1) 2 2 A =
    match spectrum2 (A 0 0) (A 0 1) (A 1 0) (A 1 1) with | none => .panic | some p => .done [p.1, p.2] := by
  have hq : ∀ D : RM, findQ 2 D = 2 := fun D => by simp [findQ]
  have hr : rawQr (fuel + 1) 2 2 A false = .done (deflate 2 A, fun i j => if i = 0 ∧ j = 0 then 1 else 0) := by
    unfold rawQr hessenberg
    simp only [ne_eq, not_true_eq_false, if_false, lt_irrefl, List.range_zero, Nat.sub_self, List.foldl_nil, Bool.false_eq_true]
    unfold qrLoop qrStep
    simp only [hq, lt_irrefl, if_false]
  unfold spectrum
  rw [hr]
  simp only
  have d00 : deflate 2 A 0 0 = A 0 0 := by simp [deflate]
  have d01 : deflate 2 A 0 1 = A 0 1 := by simp [deflate]
  have d11 : deflate 2 A 1 1 = A 1 1 := by simp [deflate]
  have d10 : deflate 2 A 1 0 = if |A 1 0| < 0.000000000000001 * (|A 0 0| + |A 1 1|) then 0 else A 1 0 := by simp [deflate, qrTol]
  have h1 : readOff 2 (deflate 2 A) 2 0 = (if |deflate 2 A 1 0| < 0.00000000001 then some (A 0 0, A 1 1) else realSpectrum2 (A 0 0) (A 0 1) (deflate 2 A 1 0) (A 1 1)).map (fun p => [p.1, p.2]) := by
    unfold readOff
    rw [if_pos (by omega)]
    by_cases hs : |deflate 2 A 1 0| < 0.00000000001
    · rw [if_pos (Or.inr hs), if_pos hs]
      unfold readOff
      rw [if_pos (by omega), if_pos (Or.inl rfl)]
      unfold readOff
      simp [d00, d11]
    · rw [if_neg (by rw [not_or]; exact ⟨by omega, hs⟩), if_neg hs, d00, d01, d11]
      cases realSpectrum2 (A 0 0) (A 0 1) (deflate 2 A (0 + 1) 0) (A 1 1) with
      | none => rfl
      | some p => simp [readOff]
  rw [h1]
  unfold spectrum2
  simp only [← d10]
  cases (if |deflate 2 A 1 0| < 0.00000000001 then some (A 0 0, A 1 1) else realSpectrum2 (A 0 0) (A 0 1) (deflate 2 A 1 0) (A 1 1)) with
  | none => rfl
  | some p =>
    simp only [Option.map_some, List.insertionSort, List.foldr, List.orderedInsert]
    split <;> rfl

/-! ### What fails -/

theorem qrLoop_op {n : Nat} (fuel : Nat) : ∀ {A O : RM}, toM n O = 1 → ∀ B Q, qrLoop n true fuel (A, O) = .done (B, Q) → toM n Q = 1 := by
  induction fuel with
  | zero => intro A O _ B Q h; simp [qrLoop] at h
  | succ fuel ih =>
    intro A O hO B Q h
    unfold qrLoop at h
    cases hs : qrStep n true (A, O) with
    | none => rw [hs] at h; cases h
    | some t =>
      rw [hs] at h
      unfold qrStep at hs
      simp only [if_true] at hs
      split at hs
      · split at hs
        · cases hs
        · rename_i C P hf
          split at hs
          · cases hs
          · rename_i hm
            rw [not_not] at hm
            rw [hm] at hf
            injection hs with hs
            subst hs
            simp only at h
            refine ih ?_ B Q h
            have hP := c80_op_false n _ C P hf
            ext i j
            have : toM n (mulRM n O P) = toM n O * toM n P := by
              ext i j
              rw [Matrix.mul_apply, toM_apply, mulRM, Finset.sum_range]
              rfl
            rw [this, hO, hP, one_mul]
      · injection hs with hs
        subst hs
        simp only [Outcome.done.injEq, Prod.mk.injEq] at h
        rw [← h.2]
        exact hO

/-- **C81 fails** for `qr_with_op`: when it returns, the matrix returned is the identity, whatever was done to the input. -/
theorem c81_op_false (fuel n : Nat) (hn : 2 ≤ n) (A B Q : RM) (h : rawQr fuel n n A true = .done (B, Q)) : toM n Q = 1 := by
  unfold rawQr at h
  rw [if_neg (by simp), if_neg (by omega)] at h
  split at h
  · cases h
  · refine qrLoop_op fuel ?_ B Q h
    ext i j
    simp only [if_true, toM_apply, Matrix.one_apply, Fin.ext_iff]

/-- agreeing with the cyclic permutation matrix -/
def LikeCyc (A : RM) : Prop := ∀ i j, i < 3 → j < 3 → A i j = cyc3 i j

theorem qrStep_cyc {A : RM} (hA : LikeCyc A) (op : RM) : ∃ B, LikeCyc B ∧ qrStep 3 false (A, op) = some (Sum.inr (B, op)) := by
  have hH : IsHess 3 A := by
    intro i j h1 h2
    obtain rfl : i = 2 := by omega
    obtain rfl : j = 0 := by omega
    rw [hA _ _ (by omega) (by omega)]
    simp [cyc3, m3]
  have hD : LikeCyc (deflate 3 A) := by
    intro i j h1 h2
    unfold deflate
    split
    · rename_i hc
      obtain ⟨rfl, h3, h4⟩ := hc
      exfalso
      rw [hA _ _ (by omega) (by omega), hA _ _ (by omega) (by omega), hA _ _ (by omega) (by omega)] at h4
      rcases (by omega : j = 0 ∨ j = 1) with rfl | rfl <;> norm_num [cyc3, m3] at h4
    · exact hA i j h1 h2
  have hq : findQ 3 (deflate 3 A) = 0 := by
    have := (findQ_spec (n := 3) (by omega) (deflate 3 A)).2 0
    by_contra hc
    apply this (by omega) (by omega)
    rw [hD _ _ (by omega) (by omega), hD _ _ (by omega) (by omega)]
    norm_num [cyc3, m3, qrTol]
  rcases qrStep_spec (n := 3) (by omega) hH op with ⟨h1, -⟩ | ⟨h1, B, Q, h2, h3, h4⟩
  · omega
  · have hp := (block_unreduced (n := 3) (by omega) (deflate_hess hH) h1).1
    rw [hq] at hp h2 h4
    have hp0 : findP 3 0 (deflate 3 A) = 0 := by omega
    rw [hp0] at h2 h4
    refine ⟨_, ?_, h4⟩
    obtain ⟨B', Q', b1, b2⟩ := francis_like_cyc3 (A := shift 0 (deflate 3 A)) (fun i j h1 h2 => by
      unfold shift
      rw [Nat.zero_add, Nat.zero_add]
      exact hD i j h1 h2) false
    rw [show 3 - 0 - 0 = 3 from rfl, b1] at h2
    simp only [Option.some.injEq, Prod.mk.injEq] at h2
    rw [← h2.1]
    intro i j h5 h6
    unfold putBlock
    rw [if_pos ⟨by omega, by omega, by omega, by omega⟩]
    exact b2 i j h5 h6

/-- **C81 fails**: on the cyclic permutation matrix of three elements `qr`, and so `spectrum`, never ends: the double-shift step leaves it as it is. -/
theorem c81_stall_false (fuel : Nat) : rawQr fuel 3 3 cyc3 false = .running ∧ spectrum fuel 3 3 cyc3 = .running := by
  have hloop : ∀ fuel A op, LikeCyc A → qrLoop 3 false fuel (A, op) = .running := by
    intro fuel
    induction fuel with
    | zero => intro A op _; rfl
    | succ fuel ih =>
      intro A op hA
      obtain ⟨B, h1, h2⟩ := qrStep_cyc hA op
      unfold qrLoop
      rw [h2]
      exact ih B op h1
  have hr : rawQr fuel 3 3 cyc3 false = .running := by
    unfold rawQr
    rw [if_neg (by simp), if_neg (by omega)]
    have h0 : hessenberg 3 3 cyc3 = some (hessStep 3 cyc3 0) := by
      unfold hessenberg
      rw [if_neg (by simp), if_neg (by omega)]
      rfl
    rw [h0]
    simp only
    apply hloop
    intro i j h1 h2
    have hb : (hvec 1 (fun t => cyc3 (0 + 1 + t) 0)).2 = 0 := by
      simp [hvec, householderVec, cyc3, m3]
    unfold hessStep
    simp only [show 3 - 0 - 2 = 1 from rfl, hb]
    unfold colsRefl rowsRefl
    simp
  refine ⟨hr, ?_⟩
  unfold spectrum
  rw [hr]

/-! ### A concrete case -/

/-- a matrix with the eigenvalues `-1`, `-1 - √3`, `-1 + √3` -/
def exQr : RM := m3 (-2) 1 1 2 (-1) 0 0 1 0

/-- the matrix after one Francis step -/
noncomputable def exQr1 : RM := m3 (-8 / 3) (2 / 3) (5 / 3) (1 / 3) (2 / 3) (-1 / 3) 0 0 (-1)

theorem exQr_hess : hessenberg 3 3 exQr = some exQr := by
  unfold hessenberg
  rw [if_neg (by simp), if_neg (by omega)]
  have hb : (hvec 1 (fun t => exQr (0 + 1 + t) 0)).2 = 0 := by
    simp [hvec, householderVec, exQr, m3]
  have : hessStep 3 exQr 0 = exQr := by
    funext i j
    unfold hessStep
    simp only [show 3 - 0 - 2 = 1 from rfl, hb]
    unfold colsRefl rowsRefl
    simp
  rw [show List.range (3 - 2) = [0] from rfl, List.foldl_cons, List.foldl_nil, this]

theorem exQr_francis (op : Bool) : ∃ B Q, francis 3 exQr op = some (B, Q) ∧ ∀ i j, i < 3 → j < 3 → B i j = exQr1 i j := by
  obtain ⟨Q, hQ⟩ := francis3 exQr op
  refine ⟨_, Q, hQ, ?_⟩
  have hinit : (francisInit 3 exQr).x = 4 ∧ (francisInit 3 exQr).y = -4 ∧ (francisInit 3 exQr).z = 2 ∧ (francisInit 3 exQr).a = exQr := by
    norm_num [francisInit, exQr, m3]
  obtain ⟨e1, e2, e3, e4⟩ := hinit
  have hent : ∀ i j, i < 3 → j < 3 → (francisRound 3 (francisInit 3 exQr) 0).a i j = m3 (-8 / 3) (5 / 3) (2 / 3) 0 (-1) 0 (1 / 3) (-1 / 3) (2 / 3) i j := by
    obtain ⟨g1, g2⟩ := hvec_eval (m := 2) (x := fun t : Nat => if t = 0 then (francisInit 3 exQr).x else if t = 1 then (francisInit 3 exQr).y else (francisInit 3 exQr).z) 6 (by norm_num)
      (by rw [Finset.sum_range_succ, Finset.sum_range_succ, Finset.sum_range_one]; norm_num [e1, e2, e3])
      (by rw [Finset.sum_range_succ, Finset.sum_range_one]; norm_num [e1, e2, e3])
    have v0 := g1 0 (by omega)
    have v1 := g1 1 (by omega)
    have v2 := g1 2 (by omega)
    simp only [Finset.sum_range_succ, Finset.sum_range_zero] at g2
    norm_num [e1, e2, e3] at v0 v1 v2 g2
    intro i j hi hj
    simp only [francisRound, e1, e2, e3, e4]
    unfold colsRefl rowsRefl
    simp only [Finset.sum_range_succ, Finset.sum_range_zero]
    rcases (by omega : i = 0 ∨ i = 1 ∨ i = 2) with rfl | rfl | rfl <;> rcases (by omega : j = 0 ∨ j = 1 ∨ j = 2) with rfl | rfl | rfl <;>
      norm_num [v0, v1, v2, g2, exQr, m3]
  set f := francisRound 3 (francisInit 3 exQr) 0 with hf
  have hx : f.x = 0 := by
    have : f.x = f.a 1 0 := rfl
    rw [this, hent 1 0 (by omega) (by omega)]
    norm_num [m3]
  have hy : f.y = 1 / 3 := by
    have : f.y = f.a 2 0 := rfl
    rw [this, hent 2 0 (by omega) (by omega)]
    norm_num [m3]
  obtain ⟨g1, g2⟩ := hvec_eval (m := 1) (x := fun t : Nat => if t = 0 then f.x else f.y) (1 / 3) (by norm_num)
    (by rw [Finset.sum_range_succ, Finset.sum_range_one]; norm_num [hx, hy])
    (by rw [Finset.sum_range_one]; norm_num [hx, hy])
  have v0 := g1 0 (by omega)
  have v1 := g1 1 (by omega)
  simp only [Finset.sum_range_succ, Finset.sum_range_zero] at g2
  norm_num [hx, hy] at v0 v1 g2
  intro i j hi hj
  simp only [francisLast, hx, hy]
  unfold colsRefl rowsRefl
  simp only [Finset.sum_range_succ, Finset.sum_range_zero]
  rcases (by omega : i = 0 ∨ i = 1 ∨ i = 2) with rfl | rfl | rfl <;> rcases (by omega : j = 0 ∨ j = 1 ∨ j = 2) with rfl | rfl | rfl <;>
    norm_num [v0, v1, g2, exQr1, m3, hent]

theorem exQr_exact : NothingRounded 3 exQr := by
  intro i hi
  rcases (by omega : i = 0 ∨ i = 1) with rfl | rfl <;> right <;> norm_num [exQr, m3]

theorem exQr1_exact {B : RM} (hB : ∀ i j, i < 3 → j < 3 → B i j = exQr1 i j) : NothingRounded 3 B := by
  intro i hi
  rw [hB _ _ (by omega) (by omega), hB _ _ (by omega) (by omega), hB _ _ (by omega) (by omega)]
  rcases (by omega : i = 0 ∨ i = 1) with rfl | rfl
  · right; norm_num [exQr1, m3, abs_of_pos]
  · left; norm_num [exQr1, m3]

/-- the two rounds of the loop -/
theorem exQr_rounds (op : RM) : ∃ B, (∀ i j, i < 3 → j < 3 → B i j = exQr1 i j) ∧ qrStep 3 false (exQr, op) = some (Sum.inr (B, op)) ∧ findQ 3 exQr = 0 ∧
    qrStep 3 false (B, op) = some (Sum.inl (B, op)) := by
  have hH : IsHess 3 exQr := (m3_unreduced (by norm_num) (by norm_num)).1
  have hD : deflate 3 exQr = exQr := deflate_exact exQr_exact
  have hq : findQ 3 exQr = 0 := by
    have := (findQ_spec (n := 3) (by omega) exQr).2 0
    by_contra hc
    apply this (by omega) (by omega)
    norm_num [exQr, m3, qrTol]
  have hs := qrStep_spec (n := 3) (by omega) hH op
  rw [hD] at hs
  rcases hs with ⟨h1, -⟩ | ⟨h1, B, Q, h2, h3, h4⟩
  · omega
  · have hp := (block_unreduced (n := 3) (by omega) hH h1).1
    rw [hq] at hp h2 h4
    have hp0 : findP 3 0 exQr = 0 := by omega
    rw [hp0] at h2 h4
    have hsh : shift 0 exQr = exQr := by
      funext i j
      simp [shift]
    obtain ⟨B', Q', b1, b2⟩ := exQr_francis false
    rw [show 3 - 0 - 0 = 3 from rfl, hsh, b1] at h2
    simp only [Option.some.injEq, Prod.mk.injEq] at h2
    have hent : ∀ i j, i < 3 → j < 3 → putBlock exQr 0 (3 - 0 - 0) B i j = exQr1 i j := by
      intro i j h5 h6
      rw [← h2.1]
      unfold putBlock
      rw [if_pos ⟨by omega, by omega, by omega, by omega⟩]
      exact b2 i j h5 h6
    refine ⟨_, hent, h4, hq, ?_⟩
    set C := putBlock exQr 0 (3 - 0 - 0) B with hC
    have hHC : IsHess 3 C := by
      intro i j h1 h2
      obtain rfl : i = 2 := by omega
      obtain rfl : j = 0 := by omega
      rw [hent _ _ (by omega) (by omega)]
      simp [exQr1, m3]
    have hs := qrStep_spec (n := 3) (by omega) hHC op
    rw [deflate_exact (exQr1_exact hent)] at hs
    rcases hs with ⟨-, h6⟩ | ⟨h6, -⟩
    · exact h6
    · exfalso
      obtain ⟨c1, c2, c3⟩ := (findQ_spec (n := 3) (by omega) C).1 h6
      have h0 : findQ 3 C = 0 := by omega
      rw [h0, hent _ _ (by omega) (by omega)] at c2
      norm_num [exQr1, m3, qrTol] at c2

/-- all hypotheses of `c81_spectrum_partial` are met, with a Francis step and a 2 × 2 block -/
example : hessenberg 3 3 exQr = some exQr ∧ (∀ k, k + 2 < 3 → 0 ≤ exQr (k + 1) k) ∧ ExactRun 3 2 exQr ∧
    spectrum 2 3 3 exQr = .done [-1 - Real.sqrt 3, -1, -1 + Real.sqrt 3] := by
  refine ⟨exQr_hess, ?_, ?_, ?_⟩
  · intro k hk
    obtain rfl : k = 0 := by omega
    norm_num [exQr, m3]
  · refine ⟨exQr_exact, ?_⟩
    intro t ht
    obtain ⟨B, h1, h2, h3, h4⟩ := exQr_rounds (fun i j => if i = 0 ∧ j = 0 then 1 else 0)
    rw [h2] at ht
    injection ht with ht
    injection ht with ht
    rw [← ht, h3]
    refine ⟨?_, exQr1_exact h1, ?_⟩
    · simp only
      rw [h1 _ _ (by omega) (by omega)]
      norm_num [exQr1, m3]
    · intro t ht
      rw [h4] at ht
      cases ht
  · obtain ⟨B, h1, h2, h3, h4⟩ := exQr_rounds (fun i j => if i = 0 ∧ j = 0 then 1 else 0)
    have hqr : rawQr 2 3 3 exQr false = .done (B, fun i j => if i = 0 ∧ j = 0 then 1 else 0) := by
      unfold rawQr
      rw [if_neg (by simp), if_neg (by omega), exQr_hess]
      simp only [qrLoop, Bool.false_eq_true, if_false, h2, h4]
    unfold spectrum
    rw [hqr]
    have hr : readOff 3 B 3 0 = some [-1 - Real.sqrt 3, -1 + Real.sqrt 3, -1] := by
      have hrs : realSpectrum2 (B 0 0) (B 0 (0 + 1)) (B (0 + 1) 0) (B (0 + 1) (0 + 1)) = some (-1 - Real.sqrt 3, -1 + Real.sqrt 3) := by
        rw [h1 _ _ (by omega) (by omega), h1 _ _ (by omega) (by omega), h1 _ _ (by omega) (by omega), h1 _ _ (by omega) (by omega)]
        norm_num [realSpectrum2, exQr1, m3]
      have hb : ¬ |B (0 + 1) 0| < (0.00000000001 : ℝ) := by
        rw [h1 _ _ (by omega) (by omega)]
        norm_num [exQr1, m3]
      unfold readOff
      rw [if_pos (by omega), if_neg (by rw [not_or]; exact ⟨by omega, hb⟩), hrs]
      simp only
      unfold readOff
      rw [if_pos (by omega), if_pos (Or.inl rfl)]
      unfold readOff
      rw [if_neg (by omega), Option.map_some, Option.map_some, h1 _ _ (by omega) (by omega)]
      norm_num [exQr1, m3]
    simp only [hr]
    have h5 : (0 : ℝ) < Real.sqrt 3 := Real.sqrt_pos.mpr (by norm_num)
    simp only [List.insertionSort, List.foldr, List.orderedInsert]
    rw [if_neg (by linarith), List.orderedInsert, if_pos (by linarith)]

end Toppo.RealAlg
