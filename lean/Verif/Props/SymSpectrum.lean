import Verif.Proof.SymBack
set_option linter.unusedVariables false

/-
C85: the eigenvalues of a symmetric matrix (`symmetric_qr`, `spectrum_symmetric`); exact real arithmetic.
-/
namespace Toppo.RealAlg
open Finset Matrix Polynomial

/-! ### Specification

`SymmRM n A`: the leading `n × n` part is symmetric.  `symTol = 1e-10`. -/

/-- `l` lists the eigenvalues of `A` in increasing order, with multiplicities -/
def IsSpectrum (n : Nat) (A : RM) (l : List ℝ) : Prop := l.Pairwise (· ≤ ·) ∧ (toM n A).charpoly = (l.map (fun a => X - C a)).prod

/-- the matrix on which the loop of `symmetric_qr` starts -/
def Start (n : Nat) (A B : RM) : Prop := ∃ T, tridiagonalize n false A = some T ∧ B = zeroFar n T

/-- the matrices at the beginning of the rounds of the loop of `symmetric_qr` -/
inductive Reached (n : Nat) (A : RM) : RM → Prop
  | start {B} : Start n A B → Reached n A B
  | round {B C op op'} : Reached n A B → symStep n false (B, op) = some (Sum.inr (C, op')) → Reached n A C

/-- none of the rotations made in the round that starts at `B` is the identity -/
def RoundProper (n : Nat) (B : RM) : Prop :=
  ∀ f, symQ n (symDeflate n B) < n → wilkinson (blockEnd n B - blockStart n B) (shift (blockStart n B) (symDeflate n B)) = some f →
    ∀ k, k + 1 < blockEnd n B - blockStart n B → (f.op k).2 ≠ 0

/-! ### Proofs -/

theorem roundProper_iff {n : Nat} (hn : 2 ≤ n) {B : RM} : RoundProper n B ↔ ProperRound n B := by
  constructor
  · intro h hq
    obtain ⟨h1, h2, -⟩ := block_size hn hq
    refine noCut_iff.mpr (fun i hi => ?_)
    have := h _ hq (wilkinson_eq (by omega) _) i (by omega)
    rwa [wst_op _ _ _ i hi] at this
  · intro h f hq hf k hk
    obtain ⟨h1, h2, -⟩ := block_size hn hq
    rw [wilkinson_eq (by omega)] at hf
    injection hf with hf
    rw [← hf, wst_op _ _ _ k (by omega)]
    exact noCut_iff.mp (h hq) k (by omega)

theorem zeroFar_tridiag {n : Nat} (T : RM) {i j : Nat} (hi : i < n) (hj : j < n) : zeroFar n T i j = tridiag T i j := by
  unfold zeroFar tridiag
  by_cases h : i ≤ j + 1 ∧ j ≤ i + 1
  · rw [if_neg (by omega), if_pos h]
  · rw [if_pos (by omega), if_neg h]

theorem zeroFar_tri {n : Nat} {T : RM} (h : SymmRM n (tridiag T)) : SymTri n (zeroFar n T) := by
  constructor
  · intro i j hi hj
    rw [zeroFar_tridiag T hi hj, zeroFar_tridiag T hj hi]
    exact h i j hi hj
  · intro r c hr hc hrc
    rw [zeroFar_tridiag T hr hc]
    unfold tridiag
    rw [if_neg (by omega)]

theorem start_tri {n : Nat} (hn : 2 ≤ n) {A B : RM} (hA : SymmRM n A) (h : Start n A B) : SymTri n B := by
  obtain ⟨T, h1, rfl⟩ := h
  obtain ⟨T', h2, h3, -⟩ := c83_shape n hn false A hA
  rw [h1] at h2
  injection h2 with h2
  subst h2
  exact zeroFar_tri h3

theorem symNext_stop {n : Nat} (hn : 2 ≤ n) {A : RM} (h : ¬ symQ n (symDeflate n A) < n) : symNext n A = symDeflate n A := by
  unfold symNext
  rw [if_neg h]

/-- `symDeflate` is idempotent on the part that matters -/
theorem symDeflate_twice (n : Nat) (A : RM) : symDeflate n (symDeflate n A) = symDeflate n A := by
  funext i j
  show (if (i = j + 1 ∧ i < n ∧ |symDeflate n A i j| < symTol) ∨ (j = i + 1 ∧ j < n ∧ |symDeflate n A j i| < symTol) then 0 else symDeflate n A i j) = symDeflate n A i j
  split
  · rename_i h
    by_contra h0
    have h1 : ¬ ((i = j + 1 ∧ i < n ∧ |A i j| < symTol) ∨ (j = i + 1 ∧ j < n ∧ |A j i| < symTol)) := by
      intro h2
      exact h0 (by unfold symDeflate; rw [if_pos h2])
    have e1 : symDeflate n A i j = A i j := by unfold symDeflate; rw [if_neg h1]
    have e2 : symDeflate n A j i = A j i := by unfold symDeflate; rw [if_neg (fun h3 => h1 h3.symm)]
    rw [e1, e2] at h
    exact h1 h
  · rfl

/-- the iterates of `symNext` are reached, or the loop has ended -/
theorem reached_iter {n : Nat} (hn : 2 ≤ n) {A B : RM} (h : Start n A B) (k : Nat) :
    Reached n A ((symNext n)^[k] B) ∨ ∃ C, Reached n A C ∧ ¬ symQ n (symDeflate n C) < n ∧ (symNext n)^[k] B = symDeflate n C := by
  induction k with
  | zero => exact Or.inl (.start h)
  | succ k ih =>
    rw [Function.iterate_succ_apply']
    rcases ih with ih | ⟨C, c1, c2, c3⟩
    · rcases symStep_spec hn ((symNext n)^[k] B) B with ⟨h1, h2⟩ | ⟨h1, h2⟩
      · exact Or.inr ⟨_, ih, by omega, symNext_stop hn (by omega)⟩
      · exact Or.inl (.round ih h2)
    · right
      refine ⟨C, c1, c2, ?_⟩
      rw [c3, symNext_stop hn (by rw [symDeflate_twice]; exact c2), symDeflate_twice]

theorem proper_iter {n : Nat} (hn : 2 ≤ n) {A B : RM} (h : Start n A B) (hp : ∀ C, Reached n A C → RoundProper n C) (k : Nat) : ProperRound n ((symNext n)^[k] B) := by
  rcases reached_iter hn h k with h1 | ⟨C, c1, c2, c3⟩
  · exact (roundProper_iff hn).mp (hp _ h1)
  · intro hq
    rw [c3, symDeflate_twice] at hq
    exact absurd hq c2

theorem noTie_iter {n : Nat} (hn : 2 ≤ n) {A B : RM} (h : Start n A B) (hp : ∀ C, Reached n A C → NoTie n C) (k : Nat) : NoTie n ((symNext n)^[k] B) := by
  rcases reached_iter hn h k with h1 | ⟨C, c1, c2, c3⟩
  · exact hp _ h1
  · rw [c3]
    intro i hi
    rcases deflate_noTie (hp C c1) hi with h5 | h5
    · rw [h5, abs_zero]
      exact symTol_pos.ne
    · exact h5.ne'

theorem symReadOff_length {n : Nat} {B : RM} (fuel : Nat) : ∀ i, i ≤ n → n ≤ i + fuel → ∀ l, symReadOff n B fuel i = some l → l.length = n - i := by
  induction fuel with
  | zero =>
    intro i h1 h2 l hl
    simp only [symReadOff, Option.some.injEq] at hl
    subst hl
    simp
    omega
  | succ fuel ih =>
    intro i h1 h2 l hl
    unfold symReadOff at hl
    by_cases hin : i < n
    · rw [if_pos hin] at hl
      by_cases hc : i = n - 1 ∨ |B (i + 1) i| < 0.00000000000001
      · rw [if_pos hc, Option.map_eq_some_iff] at hl
        obtain ⟨l', hl', rfl⟩ := hl
        rw [List.length_cons, ih (i + 1) (by omega) (by omega) l' hl']
        omega
      · rw [if_neg hc] at hl
        cases hr : realSpectrum2 (B i i) (B i (i + 1)) (B (i + 1) i) (B (i + 1) (i + 1)) with
        | none => rw [hr] at hl; cases hl
        | some ab =>
          rw [hr] at hl
          simp only at hl
          rw [Option.map_eq_some_iff] at hl
          obtain ⟨l', hl', rfl⟩ := hl
          rw [not_or] at hc
          rw [List.length_cons, List.length_cons, ih (i + 2) (by omega) (by omega) l' hl']
          omega
    · rw [if_neg hin] at hl
      injection hl with hl
      subst hl
      simp
      omega

theorem symmetricQr_eq {fuel n : Nat} (hn : 2 ≤ n) (A : RM) : ∃ B op, Start n A B ∧ symmetricQr fuel n A false = symLoop n false fuel (B, op) := by
  have hT : ∃ T, tridiagonalize n false A = some T := by
    unfold tridiagonalize
    rw [if_neg (by omega)]
    exact ⟨_, rfl⟩
  obtain ⟨T, hT⟩ := hT
  refine ⟨zeroFar n T, fun i j => if i = j then 1 else 0, ⟨T, hT, rfl⟩, ?_⟩
  unfold symmetricQr
  rw [hT]
  simp only [Bool.false_eq_true, if_false]

theorem start_unique {n : Nat} {A B B' : RM} (h : Start n A B) (h' : Start n A B') : B = B' := by
  obtain ⟨T, h1, rfl⟩ := h
  obtain ⟨T', h2, rfl⟩ := h'
  rw [h1] at h2
  injection h2 with h2
  rw [h2]

/-- **C85**: on a symmetric matrix with at least two rows `spectrum_symmetric` never panics, however long it runs; a list it returns is increasing and has one value for each row. -/
theorem c85_shape (fuel n : Nat) (hn : 2 ≤ n) (A : RM) (hA : SymmRM n A) :
    spectrumSymmetric fuel n n A ≠ .panic ∧ ∀ l, spectrumSymmetric fuel n n A = .done l → l.Pairwise (· ≤ ·) ∧ l.length = n := by
  obtain ⟨B, op, h1, h2⟩ := symmetricQr_eq (fuel := fuel) hn A
  obtain ⟨g1, g2⟩ := symLoop_symm hn op fuel (start_tri hn hA h1).1
  unfold spectrumSymmetric
  rw [if_neg (by simp), h2]
  cases hs : symLoop n false fuel (B, op) with
  | running => simp
  | panic => exact absurd hs g1
  | done r =>
    obtain ⟨D, o⟩ := r
    obtain ⟨d1, -⟩ := g2 D o hs
    obtain ⟨l, hl⟩ := symReadOff_some d1 n 0
    simp only [hl]
    refine ⟨by simp, ?_⟩
    intro l' h
    simp only [Outcome.done.injEq] at h
    subst h
    refine ⟨List.pairwise_insertionSort _ _, ?_⟩
    rw [List.length_insertionSort, symReadOff_length n 0 (by omega) (by omega) l hl]
    omega

/-- **C85**, termination: if none of the rotations made is the identity, `spectrum_symmetric` ends. -/
theorem c85_ends_partial (n : Nat) (hn : 2 ≤ n) (A : RM) (hA : SymmRM n A) (hp : ∀ B, Reached n A B → RoundProper n B) : ∃ fuel l, spectrumSymmetric fuel n n A = .done l := by
  have hT : ∃ T, tridiagonalize n false A = some T := by
    unfold tridiagonalize
    rw [if_neg (by omega)]
    exact ⟨_, rfl⟩
  obtain ⟨T, hT⟩ := hT
  have hst : Start n A (zeroFar n T) := ⟨T, hT, rfl⟩
  have htri := start_tri hn hA hst
  obtain ⟨N, hN⟩ : ∃ N : Nat, symPot n (zeroFar n T) ≤ symTol ^ 6 * 2 ^ N := by
    have hpos : 0 < symTol ^ 6 := pow_pos symTol_pos 6
    obtain ⟨M, hM⟩ := pow_unbounded_of_one_lt (symPot n (zeroFar n T) / symTol ^ 6) (show (1 : ℝ) < 2 by norm_num)
    rw [div_lt_iff₀ hpos] at hM
    exact ⟨M, by linarith⟩
  obtain ⟨fuel, D, hD⟩ := symLoop_ends hn (fun i j => if i = j then 1 else 0) n n N (zeroFar n T) htri (proper_iter hn hst hp) (by omega) (by omega) (fun _ => hN)
  have hr : symmetricQr fuel n A false = .done (D, fun i j => if i = j then 1 else 0) := by
    unfold symmetricQr
    rw [hT]
    simp only [Bool.false_eq_true, if_false]
    exact hD
  obtain ⟨l, hl⟩ := symReadOff_some ((symLoop_symm hn _ fuel htri.1).2 D _ hD).1 n 0
  refine ⟨fuel, l.insertionSort (· ≤ ·), ?_⟩
  unfold spectrumSymmetric
  rw [if_neg (by simp), hr]
  simp only [hl]

/-- **C85**, accuracy: if no column reflected is a negative multiple of the first unit vector, none of the rotations made is the identity and no entry of a sub-diagonal is
exactly as large as the tolerance, every value returned is within `(n - 1) · 1e-10` of the eigenvalue in the same place. -/
theorem c85_spectrum_partial (fuel n : Nat) (hn : 2 ≤ n) (A : RM) (hA : SymmRM n A) (hg : GoodRun n false A) (hp : ∀ B, Reached n A B → RoundProper n B) (ht : ∀ B, Reached n A B → NoTie n B)
    (l e : List ℝ) (h : spectrumSymmetric fuel n n A = .done l) (he : IsSpectrum n A e) :
    l.length = n ∧ e.length = n ∧ ∀ i (h1 : i < l.length) (h2 : i < e.length), |l[i] - e[i]| ≤ (n - 1 : ℕ) * 0.0000000001 := by
  obtain ⟨B, op, h1, h2⟩ := symmetricQr_eq (fuel := fuel) hn A
  have htri := start_tri hn hA h1
  unfold spectrumSymmetric at h
  rw [if_neg (by simp), h2] at h
  cases hs : symLoop n false fuel (B, op) with
  | running => rw [hs] at h; cases h
  | panic => rw [hs] at h; cases h
  | done r =>
    obtain ⟨D, o⟩ := r
    rw [hs] at h
    simp only at h
    cases hr : symReadOff n D n 0 with
    | none => rw [hr] at h; cases h
    | some l0 =>
      rw [hr] at h
      simp only [Outcome.done.injEq] at h
      obtain ⟨d1, d2, d3⟩ := symLoop_close hn op fuel htri (proper_iter hn h1 hp) (noTie_iter hn h1 ht) D o hs
      obtain ⟨-, d4, -⟩ := (symLoop_symm hn op fuel htri.1).2 D o hs
      have hc := symReadOff_spec hn d1 d2 d4 n 0 (by omega) (by omega) l0 hr
      rw [Nat.sub_zero, show shift 0 D = D by funext i j; unfold shift; rw [Nat.zero_add, Nat.zero_add]] at hc
      have hl : (toM n D).charpoly = (l.map (fun a => X - C a)).prod := by
        rw [hc, ← h]
        exact ((List.perm_insertionSort (· ≤ ·) l0).map _).prod_eq.symm
      have hA' : (toM n B).charpoly = (e.map (fun a => X - C a)).prod := by
        obtain ⟨T, t1, rfl⟩ := h1
        rw [toM_congr (fun i j hi hj => zeroFar_tridiag T hi hj), (c83_similar_partial n hn false A T hA hg t1).charpoly]
        exact he.2
      obtain ⟨b1, b2, b3⟩ := d3 e l he.1 (by rw [← h]; exact List.pairwise_insertionSort _ _) hA' hl
      refine ⟨b2, b1, ?_⟩
      intro i h5 h6
      refine (b3 i h6 h5).trans ?_
      have hcard : ((nzSub n B).card : ℝ) ≤ (n - 1 : ℕ) := by
        have : (nzSub n B).card ≤ n - 1 := by
          unfold nzSub
          exact (Finset.card_filter_le _ _).trans (by rw [card_range])
        exact_mod_cast this
      have h0 : (0 : ℝ) ≤ (nzSub n D).card := Nat.cast_nonneg _
      have htol : symTol = 0.0000000001 := rfl
      rw [← htol]
      have := symTol_pos
      nlinarith

/-- with fewer than two rows it panics, also on a 1 × 1 matrix -/
theorem c85_small_false (fuel n : Nat) (hn : n < 2) (A : RM) : spectrumSymmetric fuel n n A = .panic := by
  unfold spectrumSymmetric
  rw [if_neg (by simp)]
  unfold symmetricQr
  rw [c83_small_panics n hn]

theorem c85_nonsquare (fuel n m : Nat) (h : n ≠ m) (A : RM) : spectrumSymmetric fuel n m A = .panic := by
  unfold spectrumSymmetric
  rw [if_pos h]

/-- a tridiagonal matrix with non-negative entries on the sub-diagonal is left as it is by the tridiagonalisation -/
theorem tri_keep {n : Nat} {A : RM} (hA : SymTri n A) (h0 : ∀ k, k + 2 < n → 0 ≤ A (k + 1) k) (k : Nat) (hk : k + 2 ≤ n) : ∀ i j, i < n → j < n → triState n false A k i j = A i j := by
  induction k with
  | zero => intro i j _ _; rfl
  | succ k ih =>
    have ih' := ih (by omega)
    intro r c hr hc
    rw [triState_succ]
    set S := triState n false A k with hS
    obtain ⟨e1, e2⟩ := hvec_easy (m := n - k - 2) (x := fun t => S (k + 1 + t) k) (by
      intro t ht
      show S (k + 1 + (t + 1)) k = 0
      rw [ih' _ _ (by omega) (by omega)]
      exact hA.2 _ _ (by omega) (by omega) (by omega)) (by
      show 0 ≤ S (k + 1 + 0) k
      rw [ih' _ _ (by omega) (by omega)]
      exact h0 k (by omega))
    have hnorm : Real.sqrt (∑ t ∈ range (n - k - 1), S (k + 1 + t) k * S (k + 1 + t) k) = A (k + 1) k := by
      rw [Finset.sum_eq_single 0]
      · rw [Nat.add_zero, ih' _ _ (by omega) (by omega), Real.sqrt_mul_self (h0 k (by omega))]
      · intro t ht h1
        rw [Finset.mem_range] at ht
        rw [ih' _ _ (by omega) (by omega), hA.2 _ _ (by omega) (by omega) (by omega), mul_zero]
      · intro h1
        rw [Finset.mem_range] at h1
        omega
    unfold triStep
    simp only [e1, hnorm, mul_zero, zero_div, Finset.sum_const_zero, Bool.false_eq_true, false_and, if_false, sub_zero, add_zero]
    by_cases h1 : k + 1 ≤ r ∧ k + 1 ≤ c ∧ r < n ∧ c < n
    · rw [if_pos h1]
      rcases le_total r c with h | h
      · rw [min_eq_left h, max_eq_right h]
        exact ih' _ _ hr hc
      · rw [min_eq_right h, max_eq_left h, ih' _ _ hc hr]
        exact hA.1 _ _ hc hr
    · rw [if_neg h1]
      by_cases h2 : (r = k + 1 ∧ c = k) ∨ (r = k ∧ c = k + 1)
      · rw [if_pos h2]
        rcases h2 with ⟨rfl, rfl⟩ | ⟨rfl, rfl⟩
        · rfl
        · exact hA.1 _ _ hc hr
      · rw [if_neg h2]
        exact ih' _ _ hr hc

theorem start_keep {n : Nat} (hn : 2 ≤ n) {A : RM} (hA : SymTri n A) (h0 : ∀ k, k + 2 < n → 0 ≤ A (k + 1) k) : ∃ B, Start n A B ∧ (∀ i j, i < n → j < n → B i j = A i j) ∧ GoodRun n false A := by
  refine ⟨zeroFar n (triState n false A (n - 2)), ⟨_, ?_, rfl⟩, ?_, ?_⟩
  · unfold tridiagonalize
    rw [if_neg (by omega)]
    rfl
  · intro i j hi hj
    unfold zeroFar
    rw [tri_keep hA h0 (n - 2) (by omega) i j hi hj]
    split
    · rename_i h
      rcases h.2.2 with h | h
      · rw [hA.1 i j hi hj]
        exact (hA.2 j i hj hi h).symm
      · exact (hA.2 i j hi hj h).symm
    · rfl
  · intro k hk
    rintro ⟨h1, h2⟩
    change triState n false A k (k + 1 + 0) k < 0 at h2
    rw [tri_keep hA h0 k (by omega) _ _ (by omega) (by omega)] at h2
    exact absurd h2 (not_lt.mpr (h0 k hk))

end Toppo.RealAlg
