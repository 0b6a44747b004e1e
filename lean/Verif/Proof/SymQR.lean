import Verif.Props.Wilkinson
import Verif.Props.QR
set_option linter.unusedVariables false

/-
The loop of `symmetric_qr`: the searches, symmetry, termination, backward error.
-/
namespace Toppo.RealAlg
open Finset Matrix Polynomial

/-! ### the searches (as in `Proof/QR.lean`) -/

theorem symTol_pos : 0 < symTol := by unfold symTol; norm_num

theorem symQ_spec {n : Nat} (hn : 2 ≤ n) (A : RM) :
    (symQ n A < n → symQ n A + 2 < n ∧ symTol < |A (n - symQ n A - 1) (n - symQ n A - 2)| ∧ symTol < |A (n - symQ n A - 2) (n - symQ n A - 3)|) ∧
    ∀ i, i < symQ n A → i + 2 < n → ¬ (symTol < |A (n - i - 1) (n - i - 2)| ∧ symTol < |A (n - i - 2) (n - i - 3)|) := by
  classical
  unfold symQ
  cases hf : (List.range (n - 2)).find? (fun i => decide (symTol < |A (n - i - 1) (n - i - 2)| ∧ symTol < |A (n - i - 2) (n - i - 3)|)) with
  | none =>
    simp only [Option.getD_none, lt_irrefl, IsEmpty.forall_iff, true_and]
    intro i h1 h2
    rw [List.find?_eq_none] at hf
    simpa using hf i (List.mem_range.mpr (by omega))
  | some q =>
    simp only [Option.getD_some]
    have h1 := List.find?_some hf
    have h2 := List.mem_of_find?_eq_some hf
    rw [List.mem_range] at h2
    refine ⟨fun _ => ⟨by omega, by simpa using h1⟩, ?_⟩
    intro i h3 h4
    rw [List.find?_range_eq_some] at hf
    rintro ⟨a, b⟩
    have := hf.2.2 i h3
    simp only [Bool.not_eq_true', decide_eq_false_iff_not] at this
    exact this ⟨a, b⟩

theorem symQ_le {n : Nat} (hn : 2 ≤ n) (A : RM) : symQ n A ≤ n := by
  classical
  unfold symQ
  cases hf : (List.range (n - 2)).find? (fun i => decide (symTol < |A (n - i - 1) (n - i - 2)| ∧ symTol < |A (n - i - 2) (n - i - 3)|)) with
  | none => simp
  | some q =>
    have h2 := List.mem_of_find?_eq_some hf
    rw [List.mem_range] at h2
    simp only [Option.getD_some]
    omega

theorem symP_spec (n q : Nat) (A : RM) :
    (symP n q A ≠ 0 → symP n q A < n - q ∧ |A (symP n q A) (symP n q A - 1)| < symTol) ∧ ∀ i, symP n q A < i → i < n - q → symTol ≤ |A i (i - 1)| := by
  classical
  unfold symP
  cases hf : (List.range' 1 (n - q - 1)).reverse.find? (fun i => decide (|A i (i - 1)| < symTol)) with
  | none =>
    simp only [Option.getD_none, ne_eq, not_true_eq_false, IsEmpty.forall_iff, true_and]
    intro i h1 h2
    rw [List.find?_eq_none] at hf
    have := hf i (by rw [List.mem_reverse, List.mem_range']; exact ⟨i - 1, by omega, by omega⟩)
    simpa using this
  | some p =>
    simp only [Option.getD_some]
    have h1 := List.find?_some hf
    have h2 := List.mem_of_find?_eq_some hf
    rw [List.mem_reverse, List.mem_range'] at h2
    obtain ⟨k, h2, h3⟩ := h2
    refine ⟨fun _ => ⟨by omega, by simpa using h1⟩, ?_⟩
    intro i h4 h5
    rw [List.find?_eq_some_iff_append] at hf
    obtain ⟨-, as, bs, h6, h7⟩ := hf
    have h8 : i ∈ as ++ p :: bs := by
      rw [← h6, List.mem_reverse, List.mem_range']
      exact ⟨i - 1, by omega, by omega⟩
    have h9 : (as ++ p :: bs).Pairwise (· > ·) := by
      rw [← h6, List.pairwise_reverse]
      exact List.pairwise_lt_range'
    rw [List.mem_append, List.mem_cons] at h8
    rcases h8 with h8 | h8 | h8
    · simpa using h7 i h8
    · omega
    · rw [List.pairwise_append] at h9
      have := (List.pairwise_cons.mp h9.2.1).1 i h8
      omega

/-! ### symmetry of a step on any symmetric matrix -/

theorem wilkRound_symm {n i : Nat} (hi : i + 1 < n) {f : WState} (hs : SymmRM n f.a) : SymmRM n (wilkRound n f i).a := by
  set c := (givens f.x f.z).1 with hc
  set s := (givens f.x f.z).2 with hs'
  set lo := if i = 0 then 0 else i - 1 with hlo
  set hb := min n (lo + 4) with hhb
  have hlo' : lo + 1 = i ∨ (lo = 0 ∧ i = 0) := by
    rw [hlo]
    split <;> omega
  have h2 : (wilkRound n f i).a = givCols (givRows f.a i lo hb c s) i lo hb c s := rfl
  rw [h2]
  have key : ∀ r j, r < n → j < n → r ≤ j → givCols (givRows f.a i lo hb c s) i lo hb c s r j = givCols (givRows f.a i lo hb c s) i lo hb c s j r := by
    intro r j hr hj hrj
    by_cases hrw : lo ≤ r ∧ r < hb
    · by_cases hjw : lo ≤ j ∧ j < hb
      · have hiw : lo ≤ i ∧ i < hb := by omega
        have hiw' : lo ≤ i + 1 ∧ i + 1 < hb := by omega
        unfold givCols givRows
        rw [if_pos hrw, if_pos hjw]
        simp only [if_pos hrw, if_pos hjw, if_pos hiw, if_pos hiw']
        have e := hs r j hr hj
        have e1 := hs r i hr (by omega)
        have e2 := hs r (i + 1) hr hi
        have e3 := hs j i hj (by omega)
        have e4 := hs j (i + 1) hj hi
        have e5 := hs i (i + 1) (by omega) hi
        by_cases r1 : r = i
        · by_cases j1 : j = i
          · simp [r1, j1]
          · by_cases j2 : j = i + 1
            · simp [r1, j2]; rw [e5]; ring
            · simp [r1, j1, j2]; rw [e3, e4]; ring
        · by_cases r2 : r = i + 1
          · by_cases j1 : j = i
            · simp [r2, j1]; rw [e5]; ring
            · by_cases j2 : j = i + 1
              · simp [r2, j2]
              · simp [r2, j1, j2]; rw [e3, e4]; ring
          · by_cases j1 : j = i
            · simp [r1, r2, j1]; rw [e1, e2]; ring
            · by_cases j2 : j = i + 1
              · simp [r1, r2, j2]; rw [e1, e2]; ring
              · simp [r1, r2, j1, j2]; exact e
      · have j1 : j ≠ i := by omega
        have j2 : j ≠ i + 1 := by omega
        rw [givCols_other j1 j2]
        unfold givCols givRows
        rw [if_neg hjw, if_neg hjw, if_pos hrw, if_neg j1, if_neg j2]
        exact hs r j hr hj
    · have r1 : r ≠ i := by omega
      have r2 : r ≠ i + 1 := by omega
      rw [givCols_other (r := j) r1 r2]
      unfold givCols givRows
      rw [if_neg hrw, if_neg hrw]
      by_cases hjw : lo ≤ j ∧ j < hb
      · rw [if_pos hjw, if_neg r1, if_neg r2]
        exact hs r j hr hj
      · rw [if_neg hjw]
        exact hs r j hr hj
  intro r j hr hj
  rcases le_total r j with h | h
  · exact key r j hr hj h
  · exact (key j r hj hr h).symm

theorem wst_symm {n : Nat} {A : RM} (hA : SymmRM n A) (i : Nat) (hi : i < n) : SymmRM n (wst n A i).a := by
  induction i with
  | zero => exact hA
  | succ i ih =>
    rw [wst_succ]
    exact wilkRound_symm hi (ih (by omega))

theorem symDeflate_symm {n : Nat} {A : RM} (hA : SymmRM n A) : SymmRM n (symDeflate n A) := by
  intro r c hr hc
  unfold symDeflate
  rw [hA r c hr hc]
  exact if_congr or_comm rfl rfl

theorem putBlock_symm {n p m : Nat} (hpm : p + m ≤ n) {D B : RM} (hD : SymmRM n D) (hB : SymmRM m B) : SymmRM n (putBlock D p m B) := by
  intro r c hr hc
  unfold putBlock
  by_cases h : p ≤ r ∧ r < p + m ∧ p ≤ c ∧ c < p + m
  · rw [if_pos h, if_pos (by omega)]
    exact hB _ _ (by omega) (by omega)
  · rw [if_neg h, if_neg (by omega)]
    exact hD r c hr hc

theorem shift_symm {n p m : Nat} (hpm : p + m ≤ n) {D : RM} (hD : SymmRM n D) : SymmRM m (shift p D) := by
  intro r c hr hc
  exact hD _ _ (by omega) (by omega)

/-! ### a round of the loop -/

/-- the matrix `D` after deflation, the end `n - q` and the start `p` of the block -/
noncomputable def blockEnd (n : Nat) (A : RM) : Nat := n - symQ n (symDeflate n A)
noncomputable def blockStart (n : Nat) (A : RM) : Nat := symP n (symQ n (symDeflate n A)) (symDeflate n A)

open Classical in
/-- the matrix after a round -/
noncomputable def symNext (n : Nat) (A : RM) : RM :=
  if symQ n (symDeflate n A) < n then
    putBlock (symDeflate n A) (blockStart n A) (blockEnd n A - blockStart n A)
      (wst (blockEnd n A - blockStart n A) (shift (blockStart n A) (symDeflate n A)) (blockEnd n A - blockStart n A - 1)).a
  else symDeflate n A

theorem block_size {n : Nat} (hn : 2 ≤ n) {A : RM} (hq : symQ n (symDeflate n A) < n) :
    blockStart n A + 3 ≤ blockEnd n A ∧ blockEnd n A ≤ n ∧
    (∀ j, blockStart n A < j → j < blockEnd n A → symTol ≤ |symDeflate n A j (j - 1)|) ∧
    symTol < |symDeflate n A (blockEnd n A - 1) (blockEnd n A - 2)| ∧ symTol < |symDeflate n A (blockEnd n A - 2) (blockEnd n A - 3)| := by
  unfold blockStart blockEnd
  obtain ⟨q1, q2, q3⟩ := (symQ_spec hn (symDeflate n A)).1 hq
  obtain ⟨p1, p2⟩ := symP_spec n (symQ n (symDeflate n A)) (symDeflate n A)
  set q := symQ n (symDeflate n A) with hqd
  set p := symP n q (symDeflate n A) with hpd
  have hp : p + 3 ≤ n - q := by
    by_contra hc
    have hp0 : p ≠ 0 := by omega
    obtain ⟨a1, a2⟩ := p1 hp0
    rcases (by omega : p = n - q - 1 ∨ p = n - q - 2) with h | h
    · rw [h, show n - q - 1 - 1 = n - q - 2 by omega] at a2
      linarith
    · rw [h, show n - q - 2 - 1 = n - q - 3 by omega] at a2
      linarith
  exact ⟨hp, by omega, p2, q2, q3⟩

theorem symStep_spec {n : Nat} (hn : 2 ≤ n) (A op : RM) :
    (symQ n (symDeflate n A) = n ∧ symStep n false (A, op) = some (Sum.inl (symDeflate n A, op))) ∨
    (symQ n (symDeflate n A) < n ∧ symStep n false (A, op) = some (Sum.inr (symNext n A, op))) := by
  by_cases hq : symQ n (symDeflate n A) < n
  · right
    refine ⟨hq, ?_⟩
    obtain ⟨h1, -⟩ := block_size hn hq
    unfold symStep symNext
    simp only [if_pos hq]
    have e : n - symQ n (symDeflate n A) - symP n (symQ n (symDeflate n A)) (symDeflate n A) = blockEnd n A - blockStart n A := rfl
    rw [e, wilkinson_eq (show 2 ≤ blockEnd n A - blockStart n A by omega)]
    rfl
  · left
    refine ⟨le_antisymm (symQ_le hn _) (not_lt.mp hq), ?_⟩
    unfold symStep
    simp only [if_neg hq]

theorem symNext_symm {n : Nat} (hn : 2 ≤ n) {A : RM} (hA : SymmRM n A) : SymmRM n (symNext n A) := by
  unfold symNext
  by_cases hq : symQ n (symDeflate n A) < n
  · rw [if_pos hq]
    obtain ⟨h1, h2, -⟩ := block_size hn hq
    exact putBlock_symm (by omega) (symDeflate_symm hA) (wst_symm (shift_symm (n := n) (by omega) (symDeflate_symm hA)) _ (by omega))
  · rw [if_neg hq]
    exact symDeflate_symm hA

/-- the loop never panics, the matrix stays symmetric -/
theorem symLoop_symm {n : Nat} (hn : 2 ≤ n) (op : RM) (fuel : Nat) : ∀ {A : RM}, SymmRM n A →
    symLoop n false fuel (A, op) ≠ .panic ∧ ∀ B o, symLoop n false fuel (A, op) = .done (B, o) → SymmRM n B ∧ symQ n B = n ∧ (∀ i, i + 1 < n → B (i + 1) i = 0 ∨ symTol ≤ |B (i + 1) i|) := by
  induction fuel with
  | zero => intro A hA; exact ⟨by simp [symLoop], by intro B o h; simp [symLoop] at h⟩
  | succ fuel ih =>
    intro A hA
    unfold symLoop
    rcases symStep_spec hn A op with ⟨h1, h2⟩ | ⟨h1, h2⟩
    · rw [h2]
      refine ⟨by simp, ?_⟩
      intro B o h
      simp only [Outcome.done.injEq, Prod.mk.injEq] at h
      rw [← h.1]
      refine ⟨symDeflate_symm hA, h1, ?_⟩
      intro i hi
      unfold symDeflate
      by_cases h3 : (i + 1 = i + 1 ∧ i + 1 < n ∧ |A (i + 1) i| < symTol) ∨ (i = i + 1 + 1 ∧ i < n ∧ |A i (i + 1)| < symTol)
      · left; rw [if_pos h3]
      · right
        rw [if_neg h3]
        by_contra h4
        exact h3 (Or.inl ⟨rfl, hi, not_le.mp h4⟩)
    · rw [h2]
      exact ih (symNext_symm hn hA)

/-! ### termination -/

/-- the rotations of the round at `A` are proper, i.e. none is the identity -/
def ProperRound (n : Nat) (A : RM) : Prop :=
  symQ n (symDeflate n A) < n → NoCut (blockEnd n A - blockStart n A) (shift (blockStart n A) (symDeflate n A)) (blockEnd n A - blockStart n A - 1)

theorem symDeflate_tri {n : Nat} {A : RM} (hA : SymTri n A) : SymTri n (symDeflate n A) := by
  refine ⟨symDeflate_symm hA.1, ?_⟩
  intro r c hr hc hrc
  unfold symDeflate
  rw [if_neg (by omega)]
  exact hA.2 r c hr hc hrc

theorem symDeflate_sub {n : Nat} (A : RM) {i : Nat} (hi : i < n) (h0 : 1 ≤ i) :
    (|A i (i - 1)| < symTol → symDeflate n A i (i - 1) = 0) ∧ (symTol ≤ |A i (i - 1)| → symDeflate n A i (i - 1) = A i (i - 1)) := by
  unfold symDeflate
  constructor
  · intro h
    rw [if_pos (Or.inl ⟨by omega, hi, h⟩)]
  · intro h
    rw [if_neg]
    rintro (h2 | h2)
    · linarith [h2.2.2]
    · omega

theorem shift_tri {n p m : Nat} (hpm : p + m ≤ n) {D : RM} (hD : SymTri n D) : SymTri m (shift p D) := by
  refine ⟨shift_symm hpm hD.1, ?_⟩
  intro r c hr hc hrc
  exact hD.2 _ _ (by omega) (by omega) (by omega)

theorem putBlock_tri {n p m : Nat} (hpm : p + m ≤ n) {D B : RM} (hD : SymTri n D) (hB : SymTri m B) : SymTri n (putBlock D p m B) := by
  refine ⟨putBlock_symm hpm hD.1 hB.1, ?_⟩
  intro r c hr hc hrc
  unfold putBlock
  by_cases h : p ≤ r ∧ r < p + m ∧ p ≤ c ∧ c < p + m
  · rw [if_pos h]
    exact hB.2 _ _ (by omega) (by omega) (by omega)
  · rw [if_neg h]
    exact hD.2 r c hr hc hrc

/-- a proper step keeps a block symmetric tridiagonal -/
theorem wst_tri {m : Nat} (hm : 2 ≤ m) {A : RM} (hA : SymTri m A) (hc : NoCut m A (m - 1)) : SymTri m (wst m A (m - 1)).a := by
  refine (c84_qr m hm A hA _ (wilkinson_eq hm A) ?_).1
  intro k hk
  rw [wst_op m A (m - 1) k (by omega)]
  exact noCut_iff.mp hc k (by omega)

theorem symNext_tri {n : Nat} (hn : 2 ≤ n) {A : RM} (hA : SymTri n A) (hp : ProperRound n A) : SymTri n (symNext n A) := by
  unfold symNext
  by_cases hq : symQ n (symDeflate n A) < n
  · rw [if_pos hq]
    obtain ⟨h1, h2, -⟩ := block_size hn hq
    exact putBlock_tri (by omega) (symDeflate_tri hA) (wst_tri (by omega) (shift_tri (n := n) (by omega) (symDeflate_tri hA)) (hp hq))
  · rw [if_neg hq]
    exact symDeflate_tri hA

/-- outside the block nothing changes -/
theorem symNext_out {n : Nat} {A : RM} (hq : symQ n (symDeflate n A) < n) {i j : Nat} (h : i < blockStart n A ∨ blockEnd n A ≤ i ∨ j < blockStart n A ∨ blockEnd n A ≤ j) :
    symNext n A i j = symDeflate n A i j := by
  unfold symNext
  rw [if_pos hq]
  unfold putBlock
  rw [if_neg (by omega)]

theorem symDeflate_idem {n : Nat} {A : RM} {i : Nat} (hi : i < n) (h0 : 1 ≤ i) {B : RM} (h : B i (i - 1) = symDeflate n A i (i - 1)) : symDeflate n B i (i - 1) = symDeflate n A i (i - 1) := by
  obtain ⟨a1, a2⟩ := symDeflate_sub (n := n) A hi h0
  obtain ⟨b1, b2⟩ := symDeflate_sub (n := n) B hi h0
  by_cases h1 : |A i (i - 1)| < symTol
  · rw [a1 h1] at h ⊢
    exact b1 (by rw [h, abs_zero]; exact symTol_pos)
  · rw [not_lt] at h1
    rw [a2 h1] at h ⊢
    rw [b2 (by rw [h]; exact h1), h]

theorem symQ_mono {n : Nat} (hn : 2 ≤ n) {A : RM} (hq : symQ n (symDeflate n A) < n) : symQ n (symDeflate n A) ≤ symQ n (symDeflate n (symNext n A)) := by
  by_contra hlt
  rw [not_le] at hlt
  set q := symQ n (symDeflate n A) with hqd
  set q' := symQ n (symDeflate n (symNext n A)) with hqd'
  obtain ⟨c1, c2, c3⟩ := (symQ_spec hn (symDeflate n (symNext n A))).1 (by omega)
  rw [← hqd'] at c1 c2 c3
  obtain ⟨d1, d2, d3⟩ := (symQ_spec hn (symDeflate n A)).1 hq
  rw [← hqd] at d1 d2 d3
  have hspec := (symQ_spec hn (symDeflate n A)).2 q' (by omega) (by omega)
  have hend : blockEnd n A = n - q := rfl
  have e1 : symDeflate n (symNext n A) (n - q' - 1) (n - q' - 1 - 1) = symDeflate n A (n - q' - 1) (n - q' - 1 - 1) :=
    symDeflate_idem (by omega) (by omega) (symNext_out hq (Or.inr (Or.inl (by omega))))
  rw [show n - q' - 1 - 1 = n - q' - 2 by omega] at e1
  by_cases h : q' + 1 = q
  · apply hspec
    constructor
    · rw [← e1]; exact c2
    · rw [show n - q' - 2 = n - q - 1 by omega, show n - q' - 3 = n - q - 2 by omega]
      exact d2
  · have e2 : symDeflate n (symNext n A) (n - q' - 2) (n - q' - 2 - 1) = symDeflate n A (n - q' - 2) (n - q' - 2 - 1) :=
      symDeflate_idem (by omega) (by omega) (symNext_out hq (Or.inr (Or.inl (by omega))))
    rw [show n - q' - 2 - 1 = n - q' - 3 by omega] at e2
    apply hspec
    constructor
    · rw [← e1]; exact c2
    · rw [← e2]; exact c3

theorem symP_mono {n : Nat} (hn : 2 ≤ n) {A : RM} (hq : symQ n (symDeflate n A) < n) (he : symQ n (symDeflate n (symNext n A)) = symQ n (symDeflate n A)) :
    blockStart n A ≤ blockStart n (symNext n A) := by
  by_contra hlt
  rw [not_le] at hlt
  obtain ⟨h1, h2, -⟩ := block_size hn hq
  obtain ⟨p1, -⟩ := symP_spec n (symQ n (symDeflate n A)) (symDeflate n A)
  have hp0 : blockStart n A ≠ 0 := by omega
  have hz := (p1 hp0).2
  have hs := (symP_spec n (symQ n (symDeflate n (symNext n A))) (symDeflate n (symNext n A))).2 (blockStart n A) hlt (by rw [he]; exact (p1 hp0).1)
  rw [symDeflate_idem (A := A) (by omega) (by omega) (symNext_out hq (Or.inr (Or.inr (Or.inl (by omega)))))] at hs
  have : |symDeflate n A (blockStart n A) (blockStart n A - 1)| < symTol := hz
  linarith

/-- the potential of a round -/
noncomputable def symPot (n : Nat) (A : RM) : ℝ :=
  symDeflate n A (blockEnd n A - 1) (blockEnd n A - 2) ^ 4 * symDeflate n A (blockEnd n A - 2) (blockEnd n A - 3) ^ 2

theorem symPot_lower {n : Nat} (hn : 2 ≤ n) {A : RM} (hq : symQ n (symDeflate n A) < n) : symTol ^ 6 < symPot n A := by
  obtain ⟨-, -, -, h1, h2⟩ := block_size hn hq
  unfold symPot
  have t := symTol_pos
  have e1 : symTol ^ 4 < symDeflate n A (blockEnd n A - 1) (blockEnd n A - 2) ^ 4 := by
    rw [← Even.pow_abs (show Even 4 by decide) (symDeflate n A _ _)]
    exact pow_lt_pow_left₀ h1 t.le (by norm_num)
  have e2 : symTol ^ 2 < symDeflate n A (blockEnd n A - 2) (blockEnd n A - 3) ^ 2 := by
    rw [← Even.pow_abs (show Even 2 by decide) (symDeflate n A _ _)]
    exact pow_lt_pow_left₀ h2 t.le (by norm_num)
  calc symTol ^ 6 = symTol ^ 4 * symTol ^ 2 := by ring
    _ < _ := mul_lt_mul'' e1 e2 (by positivity) (by positivity)

theorem symPot_half {n : Nat} (hn : 2 ≤ n) {A : RM} (hA : SymTri n A) (hp : ProperRound n A) (hq : symQ n (symDeflate n A) < n)
    (he : symQ n (symDeflate n (symNext n A)) = symQ n (symDeflate n A)) : symPot n (symNext n A) ≤ symPot n A / 2 := by
  obtain ⟨h1, h2, -, h4, h5⟩ := block_size hn hq
  have hq' : symQ n (symDeflate n (symNext n A)) < n := by rw [he]; exact hq
  obtain ⟨-, -, -, g4, g5⟩ := block_size hn hq'
  have hend : blockEnd n (symNext n A) = blockEnd n A := by unfold blockEnd; rw [he]
  have hkeep : ∀ i, 1 ≤ i → i < n → symTol < |symDeflate n (symNext n A) i (i - 1)| → symDeflate n (symNext n A) i (i - 1) = symNext n A i (i - 1) := by
    intro i h0 hi h
    obtain ⟨a1, a2⟩ := symDeflate_sub (n := n) (symNext n A) hi h0
    by_cases h7 : |symNext n A i (i - 1)| < symTol
    · rw [a1 h7, abs_zero] at h
      linarith [symTol_pos]
    · exact a2 (not_lt.mp h7)
  unfold symPot
  rw [hend] at g4 g5 ⊢
  have k1 := hkeep (blockEnd n A - 1) (by omega) (by omega) (by rw [show blockEnd n A - 1 - 1 = blockEnd n A - 2 by omega]; exact g4)
  have k2 := hkeep (blockEnd n A - 2) (by omega) (by omega) (by rw [show blockEnd n A - 2 - 1 = blockEnd n A - 3 by omega]; exact g5)
  rw [show blockEnd n A - 1 - 1 = blockEnd n A - 2 by omega] at k1
  rw [show blockEnd n A - 2 - 1 = blockEnd n A - 3 by omega] at k2
  rw [k1, k2]
  set p := blockStart n A with hpd
  set D := symDeflate n A with hDd
  obtain ⟨k, hk⟩ : ∃ k, blockEnd n A = p + (k + 3) := ⟨blockEnd n A - p - 3, by omega⟩
  have hnext : ∀ i j, p ≤ i → i < blockEnd n A → p ≤ j → j < blockEnd n A → symNext n A i j = (wst (k + 3) (shift p D) (k + 2)).a (i - p) (j - p) := by
    intro i j a1 a2 a3 a4
    unfold symNext
    rw [if_pos hq]
    unfold putBlock
    rw [if_pos (by omega)]
    rw [show blockEnd n A - blockStart n A = k + 3 by omega]
    rfl
  rw [hnext _ _ (by omega) (by omega) (by omega) (by omega), hnext _ _ (by omega) (by omega) (by omega) (by omega)]
  rw [show blockEnd n A - 1 - p = k + 2 by omega, show blockEnd n A - 2 - p = k + 1 by omega, show blockEnd n A - 3 - p = k by omega]
  have hc := hp hq
  rw [show blockEnd n A - blockStart n A = k + 3 by omega] at hc
  have hb : shift p D (k + 2) (k + 1) ≠ 0 := by
    unfold shift
    intro h0
    rw [show blockEnd n A - 1 = p + (k + 2) by omega, show blockEnd n A - 2 = p + (k + 1) by omega, h0, abs_zero] at h4
    linarith [symTol_pos]
  have := wilk_halves (shift_tri (n := n) (by omega) (symDeflate_tri hA)) hc hb
  unfold shift at this
  rw [show blockEnd n A - 1 = p + (k + 2) by omega, show blockEnd n A - 2 = p + (k + 1) by omega, show blockEnd n A - 3 = p + k by omega]
  exact this

/-- the loop ends when all rounds are proper -/
theorem symLoop_ends {n : Nat} (hn : 2 ≤ n) (op : RM) : ∀ (a b N : Nat) (A : RM), SymTri n A → (∀ k, ProperRound n ((symNext n)^[k] A)) →
    n - symQ n (symDeflate n A) ≤ a → n - blockStart n A ≤ b → (symQ n (symDeflate n A) < n → symPot n A ≤ symTol ^ 6 * 2 ^ N) →
    ∃ fuel B, symLoop n false fuel (A, op) = .done (B, op) := by
  intro a
  induction a with
  | zero =>
    intro b N A hA hP ha hb hN
    rcases symStep_spec hn A op with ⟨h1, h2⟩ | ⟨h1, h2⟩
    · exact ⟨1, _, by unfold symLoop; rw [h2]⟩
    · omega
  | succ a iha =>
    intro b
    induction b with
    | zero =>
      intro N A hA hP ha hb hN
      rcases symStep_spec hn A op with ⟨h1, h2⟩ | ⟨h1, h2⟩
      · exact ⟨1, _, by unfold symLoop; rw [h2]⟩
      · obtain ⟨g1, g2, -⟩ := block_size hn h1
        omega
    | succ b ihb =>
      intro N
      induction N with
      | zero =>
        intro A hA hP ha hb hN
        rcases symStep_spec hn A op with ⟨h1, h2⟩ | ⟨h1, h2⟩
        · exact ⟨1, _, by unfold symLoop; rw [h2]⟩
        · exfalso
          have := hN h1
          have := symPot_lower hn h1
          norm_num at *
          linarith
      | succ N ihN =>
        intro A hA hP ha hb hN
        rcases symStep_spec hn A op with ⟨h1, h2⟩ | ⟨h1, h2⟩
        · exact ⟨1, _, by unfold symLoop; rw [h2]⟩
        · have hA' : SymTri n (symNext n A) := symNext_tri hn hA (hP 0)
          have hP' : ∀ k, ProperRound n ((symNext n)^[k] (symNext n A)) := fun k => hP (k + 1)
          have hunb : ∀ t : ℝ, ∃ M : Nat, t ≤ symTol ^ 6 * 2 ^ M := by
            intro t
            have hpos : 0 < symTol ^ 6 := pow_pos symTol_pos 6
            obtain ⟨M, hM⟩ := pow_unbounded_of_one_lt (t / symTol ^ 6) (show (1 : ℝ) < 2 by norm_num)
            rw [div_lt_iff₀ hpos] at hM
            exact ⟨M, by linarith⟩
          have fin : (∃ fuel B, symLoop n false fuel (symNext n A, op) = .done (B, op)) → ∃ fuel B, symLoop n false fuel (A, op) = .done (B, op) := by
            rintro ⟨fuel, B, h⟩
            refine ⟨fuel + 1, B, ?_⟩
            unfold symLoop
            rw [h2]
            exact h
          apply fin
          have hqm := symQ_mono hn h1
          by_cases hqe : symQ n (symDeflate n (symNext n A)) = symQ n (symDeflate n A)
          · have hpm := symP_mono hn h1 hqe
            by_cases hpe : blockStart n (symNext n A) = blockStart n A
            · apply ihN (symNext n A) hA' hP' (by omega) (by omega)
              intro _
              have e1 := symPot_half hn hA (hP 0) h1 hqe
              have e2 := hN h1
              rw [pow_succ (2 : ℝ) N] at e2
              linarith
            · obtain ⟨M, hM⟩ := hunb (symPot n (symNext n A))
              obtain ⟨g1, g2, -⟩ := block_size hn h1
              obtain ⟨g1', g2', -⟩ := block_size hn (A := symNext n A) (by rw [hqe]; exact h1)
              exact ihb M (symNext n A) hA' hP' (by omega) (by omega) (fun _ => hM)
          · obtain ⟨M, hM⟩ := hunb (symPot n (symNext n A))
            exact iha n M (symNext n A) hA' hP' (by have := symQ_le hn (symDeflate n A); omega) (by omega) (fun _ => hM)

end Toppo.RealAlg
