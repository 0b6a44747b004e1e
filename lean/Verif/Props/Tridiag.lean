import Verif.Props.Orthogonal
set_option linter.unusedVariables false

/-
C83: Householder tridiagonalisation of a symmetric matrix; exact real arithmetic.
-/
namespace Toppo.RealAlg
open Finset Matrix

/-! ### Specification -/

/-- the tridiagonal part of a matrix -/
def tridiag (A : RM) : RM := fun i j => if i ≤ j + 1 ∧ j ≤ i + 1 then A i j else 0

/-- a symmetric `n × n` matrix -/
def SymmRM (n : Nat) (A : RM) : Prop := ∀ i j, i < n → j < n → A i j = A j i

/-- the matrix after `k` rounds -/
noncomputable def triState (n : Nat) (withOp : Bool) (A : RM) (k : Nat) : RM := (List.range k).foldl (triStep n withOp) A

/-- the columns reflected are never negative multiples of the first unit vector (where `householder_vec` is wrong, C65) -/
def GoodRun (n : Nat) (withOp : Bool) (A : RM) : Prop := ∀ k, k + 2 < n → GoodVec (n - k - 2) (fun t => triState n withOp A k (k + 1 + t) k)

/-- the columns reflected are never multiples of the first unit vector -/
def FullRun (n : Nat) (withOp : Bool) (A : RM) : Prop := ∀ k, k + 2 < n → ∃ t, t < n - k - 2 ∧ triState n withOp A k (k + 2 + t) k ≠ 0

/-! ### Proofs -/

/-- the matrix after `k` rounds, without the entries that are leftovers or stored vectors -/
def clean (k : Nat) (A : RM) : RM := fun r c => if k ≤ r ∧ k ≤ c then A r c else tridiag A r c

/-- the state before round `k`: the tridiagonal part and the trailing block are symmetric -/
def TriSymm (n k : Nat) (A : RM) : Prop := SymmRM n (clean k A)

theorem triSymm_block {n k : Nat} {A : RM} (h : TriSymm n k A) {r c : Nat} (h1 : k ≤ r) (h2 : k ≤ c) (h3 : r < n) (h4 : c < n) : A r c = A c r := by
  have := h r c h3 h4
  unfold clean at this
  rwa [if_pos ⟨h1, h2⟩, if_pos ⟨h2, h1⟩] at this

/-- the pieces of a round -/
noncomputable def triV (n : Nat) (A : RM) (i : Nat) : Nat → ℝ := (hvec (n - i - 2) (fun t => A (i + 1 + t) i)).1
noncomputable def triB (n : Nat) (A : RM) (i : Nat) : ℝ := (hvec (n - i - 2) (fun t => A (i + 1 + t) i)).2
noncomputable def triP (n : Nat) (A : RM) (i : Nat) : Nat → ℝ := fun j => (∑ t ∈ range (n - i - 1), A (i + 1 + j) (i + 1 + t) * triV n A i t) * triB n A i
noncomputable def triW (n : Nat) (A : RM) (i : Nat) : Nat → ℝ := fun j =>
  triP n A i j - triV n A i j * triB n A i / 2 * (∑ t ∈ range (n - i - 1), triV n A i t * triP n A i t)

theorem triStep_block {n i : Nat} {op : Bool} {A : RM} (hA : TriSymm n i A) {r c : Nat} (h1 : i + 1 ≤ r) (h2 : i + 1 ≤ c) (h3 : r < n) (h4 : c < n) :
    triStep n op A i r c = A r c - (triV n A i (r - (i + 1)) * triW n A i (c - (i + 1)) + triV n A i (c - (i + 1)) * triW n A i (r - (i + 1))) := by
  unfold triStep
  simp only
  rw [if_pos ⟨h1, h2, h3, h4⟩]
  rcases le_total r c with h | h
  · rw [min_eq_left h, max_eq_right h]
    rfl
  · rw [min_eq_right h, max_eq_left h, triSymm_block hA (show i ≤ c by omega) (show i ≤ r by omega) h4 h3]
    unfold triW triV triP triB
    rw [add_comm]
    rfl

theorem triStep_sub {n i : Nat} {op : Bool} (A : RM) (hi : i + 2 < n) :
    triStep n op A i (i + 1) i = Real.sqrt (∑ t ∈ range (n - i - 1), A (i + 1 + t) i * A (i + 1 + t) i) ∧
    triStep n op A i i (i + 1) = Real.sqrt (∑ t ∈ range (n - i - 1), A (i + 1 + t) i * A (i + 1 + t) i) := by
  unfold triStep
  simp only
  constructor
  · rw [if_neg (by omega), if_pos (by simp)]
  · rw [if_neg (by omega), if_pos (by simp)]

theorem triStep_old {n i : Nat} {op : Bool} (A : RM) {r c : Nat} (h : (r ≤ i ∧ c ≠ i + 1) ∨ (r ≤ i ∧ r ≠ i) ∨ c < i) : triStep n op A i r c = A r c := by
  unfold triStep
  simp only
  rw [if_neg (by omega), if_neg (by omega), if_neg (by omega)]

/-- a round is a conjugation by the reflection, when the reflection is right -/
theorem triStep_conj {n i : Nat} {op : Bool} (hi : i + 2 < n) {A : RM} (hA : TriSymm n i A) (hg : GoodVec (n - i - 2) (fun t => A (i + 1 + t) i)) :
    toM n (clean (i + 1) (triStep n op A i)) = refl n (ext (i + 1) (n - i - 1) (triV n A i)) (triB n A i) * toM n (clean i A) * refl n (ext (i + 1) (n - i - 1) (triV n A i)) (triB n A i) := by
  obtain ⟨g1, g2⟩ := hvec_good hg
  rw [show n - i - 2 + 1 = n - i - 1 by omega] at g1 g2
  have hV : (hvec (n - i - 2) (fun t => A (i + 1 + t) i)).1 = triV n A i := rfl
  have hBd : (hvec (n - i - 2) (fun t => A (i + 1 + t) i)).2 = triB n A i := rfl
  rw [hV, hBd] at g1 g2
  rw [← rows_eq (c0 := 0) (c1 := n) (by omega) (by intro a b _ _ h1 h2; omega), ← cols_eq (r0 := 0) (r1 := n) (by omega) (by intro a b _ _ h1 h2; omega)]
  have hW : triW n A i = fun j => triP n A i j - triV n A i j * triB n A i / 2 * (∑ t ∈ range (n - i - 1), triV n A i t * triP n A i t) := rfl
  have hP : triP n A i = fun j => (∑ t ∈ range (n - i - 1), A (i + 1 + j) (i + 1 + t) * triV n A i t) * triB n A i := rfl
  set v := triV n A i with hv
  set b := triB n A i with hb
  set C := clean i A with hC
  have hsC : ∀ r c, r < n → c < n → C r c = C c r := hA
  have hCb : ∀ r c, i ≤ r → i ≤ c → C r c = A r c := fun r c h1 h2 => by rw [hC, clean, if_pos ⟨h1, h2⟩]
  have hC0 : ∀ r c, r < i → i + 1 ≤ c → C r c = 0 ∧ C c r = 0 := fun r c h1 h2 => by
    rw [hC]
    unfold clean tridiag
    rw [if_neg (by omega), if_neg (by omega), if_neg (by omega), if_neg (by omega)]
    exact ⟨rfl, rfl⟩
  have hold : ∀ r c, (r ≤ i ∧ c ≤ i) → clean (i + 1) (triStep n op A i) r c = C r c := by
    intro r c ⟨h1, h2⟩
    have ho : triStep n op A i r c = A r c := triStep_old A (Or.inl ⟨h1, by omega⟩)
    rw [hC]
    unfold clean tridiag
    rw [if_neg (by omega), ho]
    by_cases h3 : i ≤ r ∧ i ≤ c
    · rw [if_pos h3, if_pos (by omega)]
    · rw [if_neg h3]
  have hfar : ∀ r c, (r < i ∧ i + 1 ≤ c) ∨ (c < i ∧ i + 1 ≤ r) → clean (i + 1) (triStep n op A i) r c = 0 := by
    intro r c h
    unfold clean tridiag
    rw [if_neg (by omega), if_neg (by omega)]
  have hnorm : ∀ c, i + 1 ≤ c → c < n → clean (i + 1) (triStep n op A i) c i = (if c = i + 1 then Real.sqrt (∑ t ∈ range (n - i - 1), A (i + 1 + t) i * A (i + 1 + t) i) else 0) ∧
      clean (i + 1) (triStep n op A i) i c = (if c = i + 1 then Real.sqrt (∑ t ∈ range (n - i - 1), A (i + 1 + t) i * A (i + 1 + t) i) else 0) := by
    intro c h1 h2
    obtain ⟨s1, s2⟩ := triStep_sub (op := op) A hi
    by_cases hc : c = i + 1
    · rw [if_pos hc, hc]
      unfold clean tridiag
      constructor
      · rw [if_neg (by omega), if_pos (by omega), s1]
      · rw [if_neg (by omega), if_pos (by omega), s2]
    · rw [if_neg hc]
      unfold clean tridiag
      constructor
      · rw [if_neg (by omega), if_neg (by omega)]
      · rw [if_neg (by omega), if_neg (by omega)]
  -- the column `i` after the row operation
  have hcoli : ∀ t, t < n - i - 1 → C (i + 1 + t) i - v t * (∑ s ∈ range (n - i - 1), v s * C (i + 1 + s) i) * b =
      if t = 0 then Real.sqrt (∑ t ∈ range (n - i - 1), A (i + 1 + t) i * A (i + 1 + t) i) else 0 := by
    intro t ht
    rw [hCb _ _ (by omega) le_rfl, ← g2 t ht]
    congr 3
    exact Finset.sum_congr rfl (fun s _ => by rw [hCb _ _ (by omega) le_rfl])
  have hrowi : ∀ t, t < n - i - 1 → C i (i + 1 + t) - (∑ s ∈ range (n - i - 1), C i (i + 1 + s) * v s) * v t * b =
      if t = 0 then Real.sqrt (∑ t ∈ range (n - i - 1), A (i + 1 + t) i * A (i + 1 + t) i) else 0 := by
    intro t ht
    have hsym : ∀ s, s < n - i - 1 → C i (i + 1 + s) = C (i + 1 + s) i := fun s hs => hA _ _ (by omega) (by omega)
    rw [← hcoli t ht, hsym t ht]
    have : ∑ s ∈ range (n - i - 1), C i (i + 1 + s) * v s = ∑ s ∈ range (n - i - 1), v s * C (i + 1 + s) i :=
      Finset.sum_congr rfl (fun s hs => by rw [hsym s (Finset.mem_range.mp hs), mul_comm])
    rw [this]
    ring
  apply toM_congr'
  intro r c hr hc
  by_cases h1 : i + 1 ≤ r
  · obtain ⟨r', rfl⟩ : ∃ r', r = i + 1 + r' := ⟨r - (i + 1), by omega⟩
    by_cases h2 : i + 1 ≤ c
    · obtain ⟨c', rfl⟩ : ∃ c', c = i + 1 + c' := ⟨c - (i + 1), by omega⟩
      have hl : clean (i + 1) (triStep n op A i) (i + 1 + r') (i + 1 + c') = triStep n op A i (i + 1 + r') (i + 1 + c') := by
        unfold clean
        rw [if_pos (by omega)]
      rw [hl, triStep_block hA h1 h2 hr hc]
      unfold colsRefl rowsRefl
      rw [if_pos (show 0 ≤ i + 1 + r' ∧ i + 1 + r' < n ∧ i + 1 ≤ i + 1 + c' ∧ i + 1 + c' < i + 1 + (n - i - 1) by omega)]
      rw [if_pos (show i + 1 ≤ i + 1 + r' ∧ i + 1 + r' < i + 1 + (n - i - 1) ∧ 0 ≤ i + 1 + c' ∧ i + 1 + c' < n by omega)]
      have hin : ∑ t ∈ range (n - i - 1), (if i + 1 ≤ i + 1 + r' ∧ i + 1 + r' < i + 1 + (n - i - 1) ∧ 0 ≤ i + 1 + t ∧ i + 1 + t < n then
            C (i + 1 + r') (i + 1 + t) - v (i + 1 + r' - (i + 1)) * (∑ t_1 ∈ range (n - i - 1), v t_1 * C (i + 1 + t_1) (i + 1 + t)) * b else C (i + 1 + r') (i + 1 + t)) * v t =
          (∑ t ∈ range (n - i - 1), C (i + 1 + r') (i + 1 + t) * v t) - v r' * b * ∑ t ∈ range (n - i - 1), v t * (∑ s ∈ range (n - i - 1), C (i + 1 + t) (i + 1 + s) * v s) := by
        rw [Finset.mul_sum, ← Finset.sum_sub_distrib]
        apply Finset.sum_congr rfl
        intro t ht
        rw [Finset.mem_range] at ht
        rw [if_pos (by omega), Nat.add_sub_cancel_left]
        have : ∑ t_1 ∈ range (n - i - 1), v t_1 * C (i + 1 + t_1) (i + 1 + t) = ∑ s ∈ range (n - i - 1), C (i + 1 + t) (i + 1 + s) * v s :=
          Finset.sum_congr rfl (fun s hs => by
            rw [Finset.mem_range] at hs
            rw [hsC (i + 1 + s) (i + 1 + t) (by omega) (by omega), mul_comm])
        rw [this]
        ring
      rw [hin]
      have hcs : ∑ t ∈ range (n - i - 1), v t * C (i + 1 + t) (i + 1 + c') = ∑ s ∈ range (n - i - 1), C (i + 1 + c') (i + 1 + s) * v s :=
        Finset.sum_congr rfl (fun s hs => by
          rw [Finset.mem_range] at hs
          rw [hsC (i + 1 + s) (i + 1 + c') (by omega) (by omega), mul_comm])
      rw [hcs]
      have hPC : ∀ j, triP n A i j = (∑ t ∈ range (n - i - 1), C (i + 1 + j) (i + 1 + t) * v t) * b := by
        intro j
        rw [hP]
        simp only
        congr 1
        exact Finset.sum_congr rfl (fun t _ => by rw [hCb _ _ (by omega) (by omega)])
      have hVP : ∑ t ∈ range (n - i - 1), v t * triP n A i t = b * ∑ t ∈ range (n - i - 1), v t * (∑ s ∈ range (n - i - 1), C (i + 1 + t) (i + 1 + s) * v s) := by
        rw [Finset.mul_sum]
        apply Finset.sum_congr rfl
        intro t _
        rw [hPC]
        ring
      rw [hW]
      simp only [Nat.add_sub_cancel_left]
      rw [hVP, hPC, hPC, hCb _ _ (by omega) (by omega)]
      ring
    · -- column `c ≤ i`
      have hrhs : colsRefl (rowsRefl C (i + 1) (n - i - 1) 0 n v b) 0 n (i + 1) (n - i - 1) v b (i + 1 + r') c =
          C (i + 1 + r') c - v r' * (∑ t ∈ range (n - i - 1), v t * C (i + 1 + t) c) * b := by
        unfold colsRefl
        rw [if_neg (by omega)]
        unfold rowsRefl
        rw [if_pos (by omega), Nat.add_sub_cancel_left]
      rw [hrhs]
      by_cases h3 : c = i
      · subst h3
        rw [(hnorm (c + 1 + r') h1 hr).1, hcoli r' (by omega)]
        by_cases h4 : r' = 0
        · rw [if_pos h4, if_pos (by omega)]
        · rw [if_neg h4, if_neg (by omega)]
      · rw [hfar _ _ (Or.inr ⟨by omega, h1⟩), (hC0 c (i + 1 + r') (by omega) h1).2]
        have : ∑ t ∈ range (n - i - 1), v t * C (i + 1 + t) c = 0 := by
          apply Finset.sum_eq_zero
          intro t _
          rw [(hC0 c (i + 1 + t) (by omega) (by omega)).2, mul_zero]
        rw [this]
        ring
  · by_cases h2 : i + 1 ≤ c
    · obtain ⟨c', rfl⟩ : ∃ c', c = i + 1 + c' := ⟨c - (i + 1), by omega⟩
      have hrow : ∀ j, rowsRefl C (i + 1) (n - i - 1) 0 n v b r j = C r j := by
        intro j
        unfold rowsRefl
        rw [if_neg (by omega)]
      have hrhs : colsRefl (rowsRefl C (i + 1) (n - i - 1) 0 n v b) 0 n (i + 1) (n - i - 1) v b r (i + 1 + c') =
          C r (i + 1 + c') - (∑ t ∈ range (n - i - 1), C r (i + 1 + t) * v t) * v c' * b := by
        unfold colsRefl
        rw [if_pos (by omega), Nat.add_sub_cancel_left]
        simp only [hrow]
      rw [hrhs]
      by_cases h3 : r = i
      · subst h3
        rw [(hnorm (r + 1 + c') h2 hc).2, hrowi c' (by omega)]
        by_cases h4 : c' = 0
        · rw [if_pos h4, if_pos (by omega)]
        · rw [if_neg h4, if_neg (by omega)]
      · rw [hfar _ _ (Or.inl ⟨by omega, h2⟩), (hC0 r (i + 1 + c') (by omega) h2).1]
        have : ∑ t ∈ range (n - i - 1), C r (i + 1 + t) * v t = 0 := by
          apply Finset.sum_eq_zero
          intro t _
          rw [(hC0 r (i + 1 + t) (by omega) (by omega)).1, zero_mul]
        rw [this]
        ring
    · rw [hold r c ⟨by omega, by omega⟩]
      unfold colsRefl
      rw [if_neg (by omega)]
      unfold rowsRefl
      rw [if_neg (by omega)]

theorem triStep_symm {n i : Nat} {op : Bool} (hi : i + 2 < n) {A : RM} (hA : TriSymm n i A) : TriSymm n (i + 1) (triStep n op A i) := by
  intro r c hr hc
  obtain ⟨s1, s2⟩ := triStep_sub (op := op) A hi
  unfold clean
  by_cases h : i + 1 ≤ r ∧ i + 1 ≤ c
  · rw [if_pos h, if_pos ⟨h.2, h.1⟩, triStep_block hA h.1 h.2 hr hc, triStep_block hA h.2 h.1 hc hr, triSymm_block hA (by omega) (by omega) hr hc]
    ring
  · rw [if_neg h, if_neg (by omega)]
    unfold tridiag
    by_cases h2 : r ≤ c + 1 ∧ c ≤ r + 1
    · rw [if_pos h2, if_pos ⟨h2.2, h2.1⟩]
      by_cases h3 : r = i + 1
      · obtain rfl : c = i := by omega
        rw [h3, s1, s2]
      · by_cases h4 : c = i + 1
        · obtain rfl : r = i := by omega
          rw [h4, s1, s2]
        · rw [triStep_old A (by omega), triStep_old A (by omega)]
          have := hA r c hr hc
          have hcl : ∀ a b, a ≤ b + 1 → b ≤ a + 1 → clean i A a b = A a b := by
            intro a b h7 h8
            unfold clean tridiag
            by_cases h9 : i ≤ a ∧ i ≤ b
            · rw [if_pos h9]
            · rw [if_neg h9, if_pos ⟨h7, h8⟩]
          rwa [hcl r c h2.1 h2.2, hcl c r h2.2 h2.1] at this
    · rw [if_neg h2, if_neg (by omega)]

theorem triState_succ (n : Nat) (op : Bool) (A : RM) (k : Nat) : triState n op A (k + 1) = triStep n op (triState n op A k) k := by
  unfold triState
  rw [List.range_succ, List.foldl_append]
  rfl

theorem clean_zero (A : RM) : clean 0 A = A := by
  funext r c
  simp [clean]

/-- the reflection of round `k` -/
noncomputable def triRefl (n : Nat) (op : Bool) (A : RM) (k : Nat) : Matrix (Fin n) (Fin n) ℝ :=
  refl n (ext (k + 1) (n - k - 1) (triV n (triState n op A k) k)) (triB n (triState n op A k) k)

theorem tri_run {n : Nat} (op : Bool) {A : RM} (hA : SymmRM n A) (k : Nat) (hk : k + 2 ≤ n) :
    TriSymm n k (triState n op A k) ∧
    (∀ j, j < k → triState n op A k (j + 1) j = Real.sqrt (∑ t ∈ range (n - j - 1), triState n op A j (j + 1 + t) j * triState n op A j (j + 1 + t) j)) ∧
    (∀ j r, j < k → j + 2 ≤ r → r < n → op = true → triState n op A k r j = triV n (triState n op A j) j (r - (j + 1))) ∧
    ((∀ j, j < k → GoodVec (n - j - 2) (fun t => triState n op A j (j + 1 + t) j)) →
      toM n (clean k (triState n op A k)) = ((List.range k).reverse.map (triRefl n op A)).prod * toM n A * (((List.range k).reverse.map (triRefl n op A)).prod)ᵀ) := by
  induction k with
  | zero =>
    refine ⟨?_, fun j h => absurd h (by omega), fun j r h => absurd h (by omega), fun _ => ?_⟩
    · intro r c hr hc
      rw [clean_zero]
      exact hA r c hr hc
    · rw [clean_zero]
      simp [triState]
  | succ k ih =>
    obtain ⟨i1, i2, i3, i4⟩ := ih (by omega)
    have hsub := triStep_sub (op := op) (triState n op A k) (show k + 2 < n by omega)
    rw [triState_succ]
    refine ⟨triStep_symm (by omega) i1, ?_, ?_, ?_⟩
    · intro j hj
      by_cases hjk : j = k
      · subst hjk
        exact hsub.1
      · rw [triStep_old _ (Or.inr (Or.inr (by omega)))]
        exact i2 j (by omega)
    · intro j r hj hr hn ho
      by_cases hjk : j = k
      · subst hjk
        unfold triStep
        simp only
        rw [if_neg (by omega), if_neg (by omega), if_pos ⟨ho, by trivial, hr, hn⟩]
        rfl
      · rw [triStep_old _ (Or.inr (Or.inr (by omega)))]
        exact i3 j r (by omega) hr hn ho
    · intro hg
      rw [triStep_conj (by omega) i1 (hg k (by omega)), i4 (fun j hj => hg j (by omega)), List.range_succ, List.reverse_append, List.reverse_singleton, List.map_append, List.map_cons, List.map_nil,
        List.prod_append, List.prod_cons, List.prod_nil, mul_one, Matrix.transpose_mul]
      have : (triRefl n op A k)ᵀ = triRefl n op A k := refl_symm _ _ _
      rw [this]
      unfold triRefl
      simp only [Matrix.mul_assoc]

theorem clean_last {n : Nat} (hn : 2 ≤ n) (A : RM) : toM n (clean (n - 2) A) = toM n (tridiag A) := by
  apply toM_congr'
  intro r c hr hc
  unfold clean tridiag
  by_cases h : n - 2 ≤ r ∧ n - 2 ≤ c
  · rw [if_pos h, if_pos (by omega)]
  · rw [if_neg h]

/-- **C83**: on a symmetric matrix with at least two rows, `householder_tridiagonalization` returns a matrix whose tridiagonal part is symmetric, with non-negative entries on the
sub-diagonal (except possibly the last one). -/
theorem c83_shape (n : Nat) (hn : 2 ≤ n) (op : Bool) (A : RM) (hA : SymmRM n A) :
    ∃ T, tridiagonalize n op A = some T ∧ SymmRM n (tridiag T) ∧ ∀ k, k + 2 < n → 0 ≤ T (k + 1) k := by
  obtain ⟨h1, h2, -, -⟩ := tri_run op hA (n - 2) (by omega)
  refine ⟨triState n op A (n - 2), ?_, ?_, ?_⟩
  · unfold tridiagonalize
    rw [if_neg (by omega)]
    rfl
  · intro r c hr hc
    have e := clean_last hn (triState n op A (n - 2))
    have e1 := congrFun (congrFun e ⟨r, hr⟩) ⟨c, hc⟩
    have e2 := congrFun (congrFun e ⟨c, hc⟩) ⟨r, hr⟩
    simp only [toM_apply] at e1 e2
    rw [← e1, ← e2]
    exact h1 r c hr hc
  · intro k hk
    rw [h2 k (by omega)]
    exact Real.sqrt_nonneg _

theorem triRefl_orth {n : Nat} {op : Bool} {A : RM} {k : Nat} (hk : k + 2 < n) (hg : GoodVec (n - k - 2) (fun t => triState n op A k (k + 1 + t) k)) :
    (triRefl n op A k)ᵀ * triRefl n op A k = 1 := by
  have := (hvec_good hg).1
  rw [show n - k - 2 + 1 = n - k - 1 by omega] at this
  exact refl_orth (n := n) (lo := k + 1) (len := n - k - 1) (by omega) this

/-- **C83**, what holds of similarity: if no column reflected is a negative multiple of the first unit vector, the tridiagonal part of the result is orthogonally similar to the input.
Otherwise it need not be: `c83_false`. -/
theorem c83_similar_partial (n : Nat) (hn : 2 ≤ n) (op : Bool) (A T : RM) (hA : SymmRM n A) (hg : GoodRun n op A) (h : tridiagonalize n op A = some T) :
    OrthSimilar (toM n A) (toM n (tridiag T)) := by
  unfold tridiagonalize at h
  rw [if_neg (by omega)] at h
  injection h with h
  have hT : T = triState n op A (n - 2) := h.symm
  subst hT
  obtain ⟨-, -, -, h4⟩ := tri_run op hA (n - 2) (by omega)
  have h5 := h4 (fun j hj => hg j (by omega))
  rw [clean_last hn] at h5
  refine ⟨(((List.range (n - 2)).reverse.map (triRefl n op A)).prod)ᵀ, ?_, ?_⟩
  · rw [Matrix.transpose_transpose]
    apply mul_eq_one_comm.mp
    apply list_orth
    intro M hM
    rw [List.mem_map] at hM
    obtain ⟨k, hk, rfl⟩ := hM
    rw [List.mem_reverse, List.mem_range] at hk
    exact triRefl_orth (by omega) (hg k (by omega))
  · rw [Matrix.transpose_transpose]
    exact h5

theorem full_good {n : Nat} {op : Bool} {A : RM} (h : FullRun n op A) : GoodRun n op A := by
  intro k hk
  rintro ⟨h1, -⟩
  obtain ⟨t, h2, h3⟩ := h k hk
  apply h3
  have := h1 t h2
  simp only at this
  rwa [show k + 1 + (t + 1) = k + 2 + t by omega] at this

theorem full_ne {n : Nat} {op : Bool} {A : RM} (h : FullRun n op A) {k : Nat} (hk : k + 2 < n) : triB n (triState n op A k) k ≠ 0 := by
  obtain ⟨t, h2, h3⟩ := h k hk
  intro h0
  have := (hvec_good (full_good h k hk)).2 (t + 1) (by omega)
  rw [if_neg (by omega)] at this
  have hb : (hvec (n - k - 2) (fun t => triState n op A k (k + 1 + t) k)).2 = 0 := h0
  rw [hb, mul_zero, sub_zero, show k + 1 + (t + 1) = k + 2 + t by omega] at this
  exact h3 this

/-- the matrix `op` that `symmetric_qr` makes of the stored vectors -/
def opOf (E : RM) : RM := fun i j => if 1 ≤ i ∧ 1 ≤ j then E (i - 1) (j - 1) else if i = j then 1 else 0

theorem opOf_bord (N : Nat) (E : RM) : toM (N + 1) (opOf E) = bord (toM N E) := by
  ext i j
  refine Fin.cases ?_ (fun i => ?_) i <;> refine Fin.cases ?_ (fun j => ?_) j
  · simp [toM, opOf]
  · simp [toM, opOf]
  · simp [toM, opOf]
  · simp [toM, opOf]

/-- **C83**, the transformation: if no column reflected is a multiple of the first unit vector, the vectors stored by `householder_tridiagonalization(true)` give the orthogonal matrix `Q`
with `Q A Qᵀ` the tridiagonal part of the result.  Otherwise they need not: `c83_op_false`. -/
theorem c83_op_partial (n : Nat) (hn : 3 ≤ n) (A T : RM) (hA : SymmRM n A) (hg : FullRun n true A) (h : tridiagonalize n true A = some T) :
    ∃ E, extractHouseholder (n - 2) (below2 T) = some E ∧ (toM n (opOf E))ᵀ * toM n (opOf E) = 1 ∧ toM n (tridiag T) = toM n (opOf E) * toM n A * (toM n (opOf E))ᵀ := by
  unfold tridiagonalize at h
  rw [if_neg (by omega)] at h
  injection h with h
  have hT : T = triState n true A (n - 2) := h.symm
  subst hT
  obtain ⟨-, -, h3, h4⟩ := tri_run true hA (n - 2) (by omega)
  have h5 := h4 (fun j hj => full_good hg j (by omega))
  rw [clean_last (by omega)] at h5
  obtain ⟨E, e1, e2⟩ := c82_extract (n - 2) (by omega) (below2 (triState n true A (n - 2)))
  have e3 := c82_extract_orthogonal (n - 2) _ E e1
  refine ⟨E, e1, ?_⟩
  obtain ⟨N, rfl⟩ : ∃ N, n = N + 3 := ⟨n - 3, by omega⟩
  rw [show N + 3 - 2 = N + 1 by omega] at e2 e3 h3 h5
  have hop : toM (N + 3) (opOf E) = ((List.range (N + 1)).reverse.map (triRefl (N + 3) true A)).prod := by
    rw [opOf_bord, e2, bord_prod, List.map_map]
    congr 1
    apply List.map_congr_left
    intro k hk
    rw [List.mem_reverse, List.mem_range] at hk
    have hgk := full_good hg k (by omega)
    have hne := full_ne hg (show k + 2 < N + 3 by omega)
    have g1 := (hvec_good hgk).1
    rw [show N + 3 - k - 2 + 1 = N + 3 - k - 1 by omega] at g1
    have hV : (hvec (N + 3 - k - 2) (fun t => triState (N + 3) true A k (k + 1 + t) k)).1 = triV (N + 3) (triState (N + 3) true A k) k := rfl
    have hBd : (hvec (N + 3 - k - 2) (fun t => triState (N + 3) true A k (k + 1 + t) k)).2 = triB (N + 3) (triState (N + 3) true A k) k := rfl
    have hv0 := hvec_zero (N + 3 - k - 2) (fun t => triState (N + 3) true A k (k + 1 + t) k)
    rw [hV] at g1 hv0
    rw [hBd] at g1
    set v := triV (N + 3) (triState (N + 3) true A k) k with hv
    set b := triB (N + 3) (triState (N + 3) true A k) k with hb
    simp only [Function.comp]
    have hw : ∀ i, i < N + 2 → ext (k + 1) (N + 3 - k - 1) v (i + 1) = storedVec (below2 (triState (N + 3) true A (N + 1))) k i := by
      intro i hi
      unfold ext storedVec
      by_cases hik : i = k
      · rw [if_pos (by omega), if_pos hik, hik, Nat.sub_self, hv0]
      · rw [if_neg hik]
        by_cases hik2 : k < i
        · rw [if_pos (by omega), if_pos hik2]
          unfold below2
          rw [show i - 1 + 2 = i + 1 by omega, h3 k (i + 1) hk (by omega) (by omega) rfl]
        · rw [if_neg (by omega), if_neg hik2]
    rw [bord_reflAlong (n := N + 2) (w' := ext (k + 1) (N + 3 - k - 1) v) (by unfold ext; rw [if_neg (by omega)]) hw]
    unfold reflAlong triRefl
    refine refl_congr (fun _ _ => rfl) ?_
    have hsum : ∑ t ∈ range (N + 3), ext (k + 1) (N + 3 - k - 1) v t * ext (k + 1) (N + 3 - k - 1) v t = ∑ t ∈ range (N + 3 - k - 1), v t * v t := by
      rw [← Fin.sum_univ_eq_sum_range (fun t => ext (k + 1) (N + 3 - k - 1) v t * ext (k + 1) (N + 3 - k - 1) v t) (N + 3), sum_ext (by omega)]
      apply Finset.sum_congr rfl
      intro t ht
      rw [Finset.mem_range] at ht
      rw [ext, if_pos (by omega), Nat.add_sub_cancel_left]
    rw [show N + 2 + 1 = N + 3 from rfl, hsum]
    have hbV : b * ∑ t ∈ range (N + 3 - k - 1), v t * v t = 2 := by
      apply mul_left_cancel₀ hne
      rw [g1, mul_comm]
    have hVne : ∑ t ∈ range (N + 3 - k - 1), v t * v t ≠ 0 := by
      intro h0
      rw [h0, mul_zero] at hbV
      norm_num at hbV
    rw [div_eq_iff hVne]
    exact hbV.symm
  rw [hop]
  refine ⟨?_, h5⟩
  apply list_orth
  intro M hM
  rw [List.mem_map] at hM
  obtain ⟨k, hk, rfl⟩ := hM
  rw [List.mem_reverse, List.mem_range] at hk
  exact triRefl_orth (by omega) (full_good hg k (by omega))

/-- with fewer than two rows it panics -/
theorem c83_small_panics (n : Nat) (hn : n < 2) (op : Bool) (A : RM) : tridiagonalize n op A = none := by
  unfold tridiagonalize
  rw [if_pos hn]

/-- the Laplacian of a path with three vertices -/
def exLap : RM := fun i j => if i = j then (if i = 1 then 2 else 1) else if i ≤ j + 1 ∧ j ≤ i + 1 then -1 else 0

/-- **C83 fails**: the Laplacian of a path with three vertices is already tridiagonal, but its image has trace 20 instead of 4: the reflection of the column `(-1, 0)` is wrong (C65). -/
theorem c83_false : SymmRM 3 exLap ∧ ∃ T, tridiagonalize 3 false exLap = some T ∧ (toM 3 exLap).trace = 4 ∧ (toM 3 (tridiag T)).trace = 20 ∧
    (toM 3 exLap).charpoly ≠ (toM 3 (tridiag T)).charpoly := by
  have hb : ¬ GoodVec (3 - 0 - 2) (fun t => exLap (0 + 1 + t) 0) := by
    unfold GoodVec
    rw [not_not]
    constructor
    · intro t ht
      obtain rfl : t = 0 := by omega
      norm_num [exLap]
    · norm_num [exLap]
  obtain ⟨h1, h2, -, -⟩ := hvec_bad hb
  have h0 := hvec_zero (3 - 0 - 2) (fun t => exLap (0 + 1 + t) 0)
  have h21 := h2 1 (by norm_num)
  have hs : SymmRM 3 exLap := by
    intro i j _ _
    unfold exLap
    by_cases h : i = j
    · rw [h]
    · rw [if_neg h, if_neg (Ne.symm h)]
      simp only [and_comm]
  have hT : tridiagonalize 3 false exLap = some (triStep 3 false exLap 0) := by
    unfold tridiagonalize
    rw [if_neg (by norm_num)]
    rfl
  have ht1 : (toM 3 exLap).trace = 4 := by
    simp [Matrix.trace, Fin.sum_univ_three, toM, exLap]
    norm_num
  have ht2 : (toM 3 (tridiag (triStep 3 false exLap 0))).trace = 20 := by
    have e0 : triStep 3 false exLap 0 0 0 = 1 := by
      rw [triStep_old _ (Or.inl ⟨le_rfl, by norm_num⟩)]
      norm_num [exLap]
    have hA : TriSymm 3 0 exLap := by
      intro i j hi hj
      rw [clean_zero]
      exact hs i j hi hj
    have hv0 : triV 3 exLap 0 0 = 1 := h0
    have hv1 : triV 3 exLap 0 1 = 0 := h21
    have hbb : triB 3 exLap 0 = -2 := h1
    have e1 : triStep 3 false exLap 0 1 1 = 18 := by
      rw [triStep_block hA (by norm_num) (by norm_num) (by norm_num) (by norm_num)]
      simp only [triW, triP, show 3 - 0 - 1 = 2 from rfl, Finset.sum_range_succ, Finset.sum_range_zero, hv0, hv1, hbb, show (1 - (0 + 1) : Nat) = 0 from rfl]
      norm_num [exLap]
    have e2 : triStep 3 false exLap 0 2 2 = 1 := by
      rw [triStep_block hA (by norm_num) (by norm_num) (by norm_num) (by norm_num)]
      simp only [show (2 - (0 + 1) : Nat) = 1 from rfl, hv1]
      norm_num [exLap]
    simp [Matrix.trace, Fin.sum_univ_three, toM, tridiag, e0, e1, e2]
    norm_num
  refine ⟨hs, _, hT, ht1, ht2, ?_⟩
  intro hc
  have k1 := Matrix.trace_eq_neg_charpoly_coeff (toM 3 exLap)
  have k2 := Matrix.trace_eq_neg_charpoly_coeff (toM 3 (tridiag (triStep 3 false exLap 0)))
  rw [hc, ← k2, ht1, ht2] at k1
  norm_num at k1

/-- a column that needs no reflection gets `β = 0` -/
theorem hvec_easy {m : Nat} {x : Nat → ℝ} (h1 : ∀ t, t < m → x (t + 1) = 0) (h2 : 0 ≤ x 0) : (hvec m x).2 = 0 ∧ ∀ i, i ≠ 0 → (hvec m x).1 i = 0 := by
  have ha : ∑ k : Fin m, x ((k.succ : Fin (m + 1)) : Nat) * x ((k.succ : Fin (m + 1)) : Nat) = 0 := by
    apply Finset.sum_eq_zero
    intro k _
    rw [show ((k.succ : Fin (m + 1)) : Nat) = k.1 + 1 from rfl, h1 k k.2, mul_zero]
  constructor
  · simp only [hvec, householderVec, ha]
    simp [h2]
  · intro i hi
    simp only [hvec, householderVec, ha]
    simp only [Fin.val_zero, h2, and_self, if_true]
    split
    · rename_i hlt
      rw [Function.update_of_ne (by intro h8; exact hi (congrArg Fin.val h8))]
      obtain ⟨t, rfl⟩ : ∃ t, i = t + 1 := ⟨i - 1, by omega⟩
      exact h1 t (by omega)
    · rfl

/-- the adjacency matrix of a path with three vertices -/
def exPath : RM := fun i j => if i = j then 0 else if i ≤ j + 1 ∧ j ≤ i + 1 then 1 else 0

theorem exPath_good : GoodRun 3 true exPath := by
  intro k hk
  obtain rfl : k = 0 := by omega
  rintro ⟨-, h⟩
  norm_num [triState, exPath] at h

/-- **C83 fails** for the transformation: the adjacency matrix of a path with three vertices is already tridiagonal and stays the same, but the matrix `Q` made of the stored vectors is
`diag(1, -1, 1)`, and `Q A Qᵀ` is not `A`: a column that needs no reflection gets `β = 0`, while `Q` is rebuilt as if `β = 2/|v|²`. -/
theorem c83_op_false : SymmRM 3 exPath ∧ GoodRun 3 true exPath ∧ ∃ T E, tridiagonalize 3 true exPath = some T ∧ extractHouseholder (3 - 2) (below2 T) = some E ∧
    toM 3 (tridiag T) = toM 3 exPath ∧ toM 3 (tridiag T) ≠ toM 3 (opOf E) * toM 3 exPath * (toM 3 (opOf E))ᵀ := by
  have hs : SymmRM 3 exPath := by
    intro i j _ _
    unfold exPath
    by_cases h : i = j
    · rw [h]
    · rw [if_neg h, if_neg (Ne.symm h)]
      simp only [and_comm]
  have hA : TriSymm 3 0 exPath := by
    intro i j hi hj
    rw [clean_zero]
    exact hs i j hi hj
  obtain ⟨h1, h2⟩ := hvec_easy (m := 3 - 0 - 2) (x := fun t => exPath (0 + 1 + t) 0) (by
    intro t ht
    obtain rfl : t = 0 := by omega
    norm_num [exPath]) (by norm_num [exPath])
  have h0 := hvec_zero (3 - 0 - 2) (fun t => exPath (0 + 1 + t) 0)
  have hv1 : triV 3 exPath 0 1 = 0 := h2 1 (by norm_num)
  have hbb : triB 3 exPath 0 = 0 := h1
  have hT : tridiagonalize 3 true exPath = some (triStep 3 true exPath 0) := by
    unfold tridiagonalize
    rw [if_neg (by norm_num)]
    rfl
  have hw : ∀ j, triW 3 exPath 0 j = 0 := by
    intro j
    unfold triW triP
    rw [hbb]
    ring
  have h20 : triStep 3 true exPath 0 2 0 = 0 := by
    unfold triStep
    simp only
    rw [if_neg (by omega), if_neg (by omega), if_pos (by simp)]
    exact hv1
  have hkeep : toM 3 (tridiag (triStep 3 true exPath 0)) = toM 3 exPath := by
    apply toM_congr'
    intro r c hr hc
    by_cases hbk : 1 ≤ r ∧ 1 ≤ c
    · unfold tridiag
      rw [if_pos (by omega), triStep_block hA (by omega) (by omega) hr hc, hw, hw]
      ring
    · by_cases h3 : (r = 0 ∧ c = 0)
      · obtain ⟨rfl, rfl⟩ := h3
        unfold tridiag
        rw [if_pos (by omega), triStep_old _ (Or.inl ⟨le_rfl, by norm_num⟩)]
      · obtain ⟨s1, s2⟩ := triStep_sub (op := true) exPath (show 0 + 2 < 3 by omega)
        have hn : Real.sqrt (∑ t ∈ range (3 - 0 - 1), exPath (0 + 1 + t) 0 * exPath (0 + 1 + t) 0) = 1 := by
          rw [show 3 - 0 - 1 = 2 from rfl, Finset.sum_range_succ, Finset.sum_range_succ, Finset.sum_range_zero]
          norm_num [exPath]
        rw [hn] at s1 s2
        have hcase : (r = 0 ∧ c = 1) ∨ (r = 1 ∧ c = 0) ∨ (r = 0 ∧ c = 2) ∨ (r = 2 ∧ c = 0) := by omega
        rcases hcase with ⟨rfl, rfl⟩ | ⟨rfl, rfl⟩ | ⟨rfl, rfl⟩ | ⟨rfl, rfl⟩
        · unfold tridiag
          rw [if_pos (by omega)]
          refine s2.trans ?_
          norm_num [exPath]
        · unfold tridiag
          rw [if_pos (by omega)]
          refine s1.trans ?_
          norm_num [exPath]
        · unfold tridiag
          rw [if_neg (by omega)]
          norm_num [exPath]
        · unfold tridiag
          rw [if_neg (by omega)]
          norm_num [exPath]
  refine ⟨hs, exPath_good, _, _, hT, rfl, hkeep, ?_⟩
  rw [hkeep]
  intro hc
  have hc2 := congrFun (congrFun hc 0) 1
  simp [Matrix.mul_apply, Fin.sum_univ_three, toM, opOf, exPath, below2, h20] at hc2
  norm_num at hc2

/-- A concrete case of `c83_similar_partial` and `c83_op_partial`: column `(3, 4)` below the diagonal. -/
def exTri : RM := fun i j => if i = j then 2 else if i + j = 1 then 3 else if i + j = 2 then 4 else 1

example : SymmRM 3 exTri ∧ FullRun 3 true exTri ∧ ∃ T, tridiagonalize 3 true exTri = some T ∧ T 1 0 = 5 := by
  refine ⟨?_, ?_, triStep 3 true exTri 0, ?_, ?_⟩
  · intro i j _ _
    unfold exTri
    rw [add_comm j i]
    by_cases h : i = j
    · rw [if_pos h, if_pos h.symm]
    · rw [if_neg h, if_neg (Ne.symm h)]
  · intro k hk
    obtain rfl : k = 0 := by omega
    exact ⟨0, by norm_num, by norm_num [triState, exTri]⟩
  · unfold tridiagonalize
    rw [if_neg (by norm_num)]
    rfl
  · rw [(triStep_sub (op := true) exTri (show 0 + 2 < 3 by omega)).1, show 3 - 0 - 1 = 2 from rfl, Finset.sum_range_succ, Finset.sum_range_succ, Finset.sum_range_zero]
    norm_num [exTri]
    rw [show (25 : ℝ) = 5 * 5 by norm_num, Real.sqrt_mul_self (by norm_num)]

end Toppo.RealAlg
