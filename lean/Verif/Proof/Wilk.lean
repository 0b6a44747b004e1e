import Verif.Props.Tridiag
set_option linter.unusedVariables false

/-
The implicit symmetric QR step: rotations, the chase of the bulge, the triangular factor, the decrease of the last two entries.
-/
namespace Toppo.RealAlg
open Finset Matrix

/-- the rotation `[[c, s], [-s, c]]` in the coordinates `i`, `i + 1` -/
def rot (n i : Nat) (c s : ℝ) : Matrix (Fin n) (Fin n) ℝ := Matrix.of fun r j =>
  if r.1 = i then (if j.1 = i then c else if j.1 = i + 1 then s else 0)
  else if r.1 = i + 1 then (if j.1 = i then -s else if j.1 = i + 1 then c else 0)
  else if r = j then 1 else 0

theorem rot_eq {n i : Nat} (hi : i + 1 < n) (c s : ℝ) (r j : Fin n) : rot n i c s r j =
    (if r = j then 1 else 0) + (if r = ⟨i, by omega⟩ then (if j.1 = i then c - 1 else if j.1 = i + 1 then s else 0) else 0) +
      (if r = ⟨i + 1, hi⟩ then (if j.1 = i then -s else if j.1 = i + 1 then c - 1 else 0) else 0) := by
  unfold rot
  simp only [Matrix.of_apply, Fin.ext_iff]
  by_cases h1 : r.1 = i
  · by_cases h2 : j.1 = i
    · simp [h1, h2]
    · by_cases h3 : j.1 = i + 1
      · simp [h1, h3]
      · simp [h1, h2, h3, Ne.symm h2]
  · by_cases h1' : r.1 = i + 1
    · by_cases h2 : j.1 = i
      · simp [h1', h2]
      · by_cases h3 : j.1 = i + 1
        · simp [h1', h3]
        · simp [h1', h2, h3, Ne.symm h3]
    · simp [h1, h1']

theorem rotT_mul {n i : Nat} (hi : i + 1 < n) (A : RM) (c s : ℝ) : toM n (givRows A i 0 n c s) = (rot n i c s)ᵀ * toM n A := by
  ext r j
  rw [Matrix.mul_apply]
  simp only [Matrix.transpose_apply, rot_eq hi, add_mul, ite_mul, zero_mul, one_mul, Finset.sum_add_distrib, Finset.sum_ite_eq', Finset.mem_univ, if_true, toM_apply]
  unfold givRows
  rw [if_pos ⟨by omega, j.2⟩]
  by_cases h1 : r.1 = i
  · simp [h1]; ring
  · by_cases h2 : r.1 = i + 1
    · simp [h2]; ring
    · simp [h1, h2]

theorem mul_rot {n i : Nat} (hi : i + 1 < n) (A : RM) (c s : ℝ) : toM n (givCols A i 0 n c s) = toM n A * rot n i c s := by
  ext r j
  rw [Matrix.mul_apply]
  simp only [rot_eq hi, mul_add, mul_ite, mul_zero, mul_one, Finset.sum_add_distrib, Finset.sum_ite_eq', Finset.mem_univ, if_true, toM_apply]
  unfold givCols
  rw [if_pos ⟨by omega, r.2⟩]
  by_cases h1 : j.1 = i
  · simp [h1]; ring
  · by_cases h2 : j.1 = i + 1
    · simp [h2]; ring
    · simp [h1, h2]

theorem rot_orth {n i : Nat} (hi : i + 1 < n) {c s : ℝ} (h : c ^ 2 + s ^ 2 = 1) : (rot n i c s)ᵀ * rot n i c s = 1 := by
  ext r j
  rw [Matrix.mul_apply]
  simp only [Matrix.transpose_apply, rot_eq hi _ _ _ r, add_mul, ite_mul, zero_mul, one_mul, Finset.sum_add_distrib, Finset.sum_ite_eq', Finset.mem_univ, if_true]
  simp only [rot, Matrix.of_apply, Matrix.one_apply, Fin.ext_iff]
  by_cases h1 : r.1 = i
  · by_cases h2 : j.1 = i
    · simp [h1, h2]; linarith
    · by_cases h3 : j.1 = i + 1
      · simp [h1, h3]; ring
      · simp [h1, h2, h3, Ne.symm h2]
  · by_cases h1' : r.1 = i + 1
    · by_cases h2 : j.1 = i
      · simp [h1', h2]; ring
      · by_cases h3 : j.1 = i + 1
        · simp [h1', h3]; linarith
        · simp [h1', h2, h3, Ne.symm h3]
    · simp [h1, h1']

theorem rot_one {n i : Nat} (hi : i + 1 < n) : rot n i 1 0 = 1 := by
  ext r j
  rw [rot_eq hi, Matrix.one_apply]
  by_cases h : j.1 = i <;> simp [h]

/-! ### the rounds -/

/-- the state before round `i` -/
noncomputable def wst (n : Nat) (A : RM) (i : Nat) : WState := (List.range i).foldl (wilkRound n) (wilkInit n A)

theorem wst_succ (n : Nat) (A : RM) (i : Nat) : wst n A (i + 1) = wilkRound n (wst n A i) i := by
  unfold wst
  rw [List.range_succ, List.foldl_append]
  rfl

/-- the rotation of round `i` -/
noncomputable def wg (n : Nat) (A : RM) (i : Nat) : ℝ × ℝ := givens (wst n A i).x (wst n A i).z

theorem wg_norm (n : Nat) (A : RM) (i : Nat) : (wg n A i).1 ^ 2 + (wg n A i).2 ^ 2 = 1 := (c67_givens _ _).1

/-- the product of the rotations before round `i` -/
noncomputable def wQ (n : Nat) (A : RM) (i : Nat) : Matrix (Fin n) (Fin n) ℝ := ((List.range i).map (fun k => rot n k (wg n A k).1 (wg n A k).2)).prod

theorem wQ_succ (n : Nat) (A : RM) (i : Nat) : wQ n A (i + 1) = wQ n A i * rot n i (wg n A i).1 (wg n A i).2 := by
  unfold wQ
  rw [List.range_succ, List.map_append, List.prod_append]
  simp

theorem wQ_orth {n : Nat} (A : RM) {i : Nat} (hi : i < n) : (wQ n A i)ᵀ * wQ n A i = 1 := by
  apply list_orth
  intro M hM
  rw [List.mem_map] at hM
  obtain ⟨k, hk, rfl⟩ := hM
  rw [List.mem_range] at hk
  exact rot_orth (by omega) (wg_norm n A k)

/-- a symmetric tridiagonal matrix -/
def SymTri (n : Nat) (A : RM) : Prop := SymmRM n A ∧ ∀ r c, r < n → c < n → c + 2 ≤ r → A r c = 0

/-- below the diagonals: zero, with an exception at `(k + 1, k - 1)` -/
def FarBut (n k : Nat) (A : RM) : Prop := ∀ r c, r < n → c < n → c + 2 ≤ r → ¬ (r = k + 1 ∧ c + 1 = k) → A r c = 0

theorem givRows_window {n i lo hi : Nat} {A : RM} (c s : ℝ) (h : ∀ j, j < n → ¬ (lo ≤ j ∧ j < hi) → A i j = 0 ∧ A (i + 1) j = 0) {r j : Nat} (hj : j < n) :
    givRows A i lo hi c s r j = givRows A i 0 n c s r j := by
  unfold givRows
  rw [if_pos (show 0 ≤ j ∧ j < n by omega)]
  by_cases hw : lo ≤ j ∧ j < hi
  · rw [if_pos hw]
  · rw [if_neg hw]
    obtain ⟨h1, h2⟩ := h j hj hw
    by_cases h3 : r = i
    · subst h3
      rw [if_pos rfl, h1, h2]; ring
    · by_cases h4 : r = i + 1
      · subst h4
        rw [if_neg h3, if_pos rfl, h1, h2]; ring
      · rw [if_neg h3, if_neg h4]

theorem givCols_window {n i lo hi : Nat} {A : RM} (c s : ℝ) (h : ∀ r, r < n → ¬ (lo ≤ r ∧ r < hi) → A r i = 0 ∧ A r (i + 1) = 0) {r j : Nat} (hr : r < n) :
    givCols A i lo hi c s r j = givCols A i 0 n c s r j := by
  unfold givCols
  rw [if_pos (show 0 ≤ r ∧ r < n by omega)]
  by_cases hw : lo ≤ r ∧ r < hi
  · rw [if_pos hw]
  · rw [if_neg hw]
    obtain ⟨h1, h2⟩ := h r hr hw
    by_cases h3 : j = i
    · subst h3
      rw [if_pos rfl, h1, h2]; ring
    · by_cases h4 : j = i + 1
      · subst h4
        rw [if_neg h3, if_pos rfl, h1, h2]; ring
      · rw [if_neg h3, if_neg h4]

theorem givRows_id (A : RM) (i lo hi : Nat) : givRows A i lo hi 1 0 = A := by
  funext r j
  unfold givRows
  by_cases hw : lo ≤ j ∧ j < hi
  · rw [if_pos hw]
    by_cases h3 : r = i
    · subst h3
      rw [if_pos rfl]; ring
    · by_cases h4 : r = i + 1
      · subst h4
        rw [if_neg h3, if_pos rfl]; ring
      · rw [if_neg h3, if_neg h4]
  · rw [if_neg hw]

theorem givCols_id (A : RM) (i lo hi : Nat) : givCols A i lo hi 1 0 = A := by
  funext r j
  unfold givCols
  by_cases hw : lo ≤ r ∧ r < hi
  · rw [if_pos hw]
    by_cases h3 : j = i
    · subst h3
      rw [if_pos rfl]; ring
    · by_cases h4 : j = i + 1
      · subst h4
        rw [if_neg h3, if_pos rfl]; ring
      · rw [if_neg h3, if_neg h4]
  · rw [if_neg hw]

theorem givRows_other {A : RM} {i lo hi : Nat} {c s : ℝ} {r j : Nat} (h1 : r ≠ i) (h2 : r ≠ i + 1) : givRows A i lo hi c s r j = A r j := by
  unfold givRows
  rw [if_neg h1, if_neg h2, ite_self]

theorem givCols_other {A : RM} {i lo hi : Nat} {c s : ℝ} {r j : Nat} (h1 : j ≠ i) (h2 : j ≠ i + 1) : givCols A i lo hi c s r j = A r j := by
  unfold givCols
  rw [if_neg h1, if_neg h2, ite_self]

/-- the matrix after a round, on a matrix with a bulge at `(i + 1, i - 1)` only: the rotation is applied to whole rows and columns -/
theorem wilk_conj {n i : Nat} (hi : i + 1 < n) {f : WState} (hs : SymmRM n f.a) (hf : FarBut n i f.a) {r j : Nat} (hr : r < n) (hj : j < n) :
    (wilkRound n f i).a r j = givCols (givRows f.a i 0 n (givens f.x f.z).1 (givens f.x f.z).2) i 0 n (givens f.x f.z).1 (givens f.x f.z).2 r j := by
  set c := (givens f.x f.z).1 with hc
  set s := (givens f.x f.z).2 with hs'
  set lo := if i = 0 then 0 else i - 1 with hlo
  have hlo' : lo + 1 = i ∨ (lo = 0 ∧ i = 0) := by
    rw [hlo]
    split <;> omega
  have hz : ∀ t, t < n → ¬ (lo ≤ t ∧ t < min n (lo + 4)) → f.a i t = 0 ∧ f.a (i + 1) t = 0 := by
    intro t ht hw
    rcases lt_or_ge t lo with h | h
    · exact ⟨hf _ _ (by omega) ht (by omega) (by omega), hf _ _ (by omega) ht (by omega) (by omega)⟩
    · have h4 : lo + 4 ≤ t := by
        by_contra h5
        exact hw ⟨h, by omega⟩
      rw [hs i t (by omega) ht, hs (i + 1) t (by omega) ht]
      exact ⟨hf _ _ ht (by omega) (by omega) (by omega), hf _ _ ht (by omega) (by omega) (by omega)⟩
  have h1 : ∀ r j, j < n → givRows f.a i lo (min n (lo + 4)) c s r j = givRows f.a i 0 n c s r j := fun r j hj => givRows_window c s hz hj
  have h2 : (wilkRound n f i).a r j = givCols (givRows f.a i lo (min n (lo + 4)) c s) i lo (min n (lo + 4)) c s r j := rfl
  rw [h2, givCols_window c s _ hr]
  · unfold givCols
    rw [if_pos (show 0 ≤ r ∧ r < n by omega), h1 _ _ (by omega), h1 _ _ (by omega), h1 _ _ hj, if_pos (show 0 ≤ r ∧ r < n by omega)]
  · intro t ht hw
    have hti : t ≠ i ∧ t ≠ i + 1 := by
      rcases hlo' with h | ⟨h, h'⟩ <;> constructor <;> intro h5 <;> exact hw (by constructor <;> omega)
    rw [givRows_other hti.1 hti.2, givRows_other hti.1 hti.2, hs t i ht (by omega), hs t (i + 1) ht (by omega)]
    exact hz t ht hw

theorem toM_symm {n : Nat} {A : RM} : SymmRM n A ↔ (toM n A)ᵀ = toM n A := by
  constructor
  · intro h
    ext i j
    exact h j i j.2 i.2
  · intro h i j hi hj
    exact congrFun (congrFun h ⟨j, hj⟩) ⟨i, hi⟩

/-- a round with the identity rotation -/
theorem wilk_id {n i : Nat} {f : WState} (h : |f.z| < 0.000000000001) : (wilkRound n f i).a = f.a := by
  have hg := (c67_givens f.x f.z).2.2 h
  show givCols (givRows f.a i _ _ (givens f.x f.z).1 (givens f.x f.z).2) i _ _ (givens f.x f.z).1 (givens f.x f.z).2 = f.a
  rw [hg, givRows_id, givCols_id]

/-- a round: conjugation, the bulge moves on -/
theorem wilk_chase {n i : Nat} (hi : i + 1 < n) {f : WState} (hs : SymmRM n f.a) (hf : FarBut n i f.a)
    (hx : 1 ≤ i → f.x = f.a i (i - 1) ∧ f.z = f.a (i + 1) (i - 1)) :
    toM n (wilkRound n f i).a = (rot n i (givens f.x f.z).1 (givens f.x f.z).2)ᵀ * toM n f.a * rot n i (givens f.x f.z).1 (givens f.x f.z).2 ∧
    SymmRM n (wilkRound n f i).a ∧
    (0.000000000001 ≤ |f.z| → FarBut n (i + 1) (wilkRound n f i).a) := by
  have h1 : toM n (wilkRound n f i).a = (rot n i (givens f.x f.z).1 (givens f.x f.z).2)ᵀ * toM n f.a * rot n i (givens f.x f.z).1 (givens f.x f.z).2 := by
    rw [← rotT_mul hi, ← mul_rot hi]
    exact toM_congr' (fun r j hr hj => wilk_conj hi hs hf hr hj)
  refine ⟨h1, ?_, ?_⟩
  · rw [toM_symm, h1, Matrix.transpose_mul, Matrix.transpose_mul, Matrix.transpose_transpose, toM_symm.mp hs, Matrix.mul_assoc]
  · intro hz r j hr hj hrj hne
    have hcut := (c67_givens f.x f.z).2.1 hz
    rw [wilk_conj hi hs hf hr hj]
    set c := (givens f.x f.z).1 with hc
    set s := (givens f.x f.z).2 with hs'
    by_cases j1 : j = i
    · subst j1
      unfold givCols
      rw [if_pos (by omega), if_pos rfl, givRows_other (by omega) (by omega), givRows_other (by omega) (by omega), hf r j hr hj (by omega) (by omega),
        hf r (j + 1) hr (by omega) (by omega) (by omega)]
      ring
    · by_cases j2 : j = i + 1
      · subst j2
        unfold givCols
        rw [if_pos (by omega), if_neg (by omega), if_pos rfl, givRows_other (by omega) (by omega), givRows_other (by omega) (by omega), hf r i hr (by omega) (by omega) (by omega),
          hf r (i + 1) hr (by omega) (by omega) (by omega)]
        ring
      · rw [givCols_other j1 j2]
        by_cases r1 : r = i
        · subst r1
          unfold givRows
          rw [if_pos (by omega), if_pos rfl, hf r j hr hj (by omega) (by omega), hf (r + 1) j (by omega) hj (by omega) (by omega)]
          ring
        · by_cases r2 : r = i + 1
          · subst r2
            unfold givRows
            rw [if_pos (by omega), if_neg (by omega), if_pos rfl]
            by_cases j3 : j + 1 = i
            · obtain ⟨x1, x2⟩ := hx (by omega)
              have hj3 : j = i - 1 := by omega
              rw [hj3, ← x1, ← x2]
              linarith
            · rw [hf i j (by omega) hj (by omega) (by omega), hf (i + 1) j (by omega) hj (by omega) (by omega)]
              ring
          · rw [givRows_other r1 r2]
            exact hf r j hr hj hrj (by omega)

/-- no round rounds: the entry to be rotated away is never below the cut-off of `givens_rotation` -/
def NoCut (n : Nat) (A : RM) (k : Nat) : Prop := ∀ i, i < k → 0.000000000001 ≤ |(wst n A i).z|

theorem wst_zero (n : Nat) (A : RM) : (wst n A 0).a = A := rfl

/-- the rounds so far -/
theorem wilk_inv {n : Nat} {A : RM} (hA : SymTri n A) (i : Nat) (hi : i < n) :
    toM n (wst n A i).a = (wQ n A i)ᵀ * toM n A * wQ n A i ∧ SymmRM n (wst n A i).a ∧
    ((NoCut n A i ∧ FarBut n i (wst n A i).a ∧ (1 ≤ i → i + 1 < n → (wst n A i).x = (wst n A i).a i (i - 1) ∧ (wst n A i).z = (wst n A i).a (i + 1) (i - 1))) ∨
      ((∃ k, k < i ∧ FarBut n k (wst n A i).a ∧ (1 ≤ k → |(wst n A i).a (k + 1) (k - 1)| < 0.000000000001)) ∧ (i + 1 < n → (wst n A i).z = 0))) := by
  induction i with
  | zero =>
    rw [wst_zero]
    refine ⟨by simp [wQ], hA.1, Or.inl ⟨fun i h => absurd h (by omega), ?_, fun h => absurd h (by omega)⟩⟩
    intro r c hr hc hrc _
    exact hA.2 r c hr hc hrc
  | succ i ih =>
    obtain ⟨h1, h2, h3⟩ := ih (by omega)
    have hxz : i + 2 < n → (wst n A (i + 1)).x = (wst n A (i + 1)).a (i + 1) i ∧ (wst n A (i + 1)).z = (wst n A (i + 1)).a (i + 2) i := by
      intro h
      rw [wst_succ]
      have hlt : i < n - 2 := by omega
      simp only [wilkRound, hlt, if_true, and_self]
    have hid : ∀ h : |(wst n A i).z| < 0.000000000001, (wst n A (i + 1)).a = (wst n A i).a ∧ wQ n A (i + 1) = wQ n A i := by
      intro h
      refine ⟨by rw [wst_succ, wilk_id h], ?_⟩
      rw [wQ_succ]
      have : wg n A i = (1, 0) := (c67_givens _ _).2.2 h
      rw [this, rot_one hi, mul_one]
    rcases h3 with ⟨n1, f1, x1⟩ | ⟨⟨k, k1, k2, k3⟩, z1⟩
    · by_cases hz : 0.000000000001 ≤ |(wst n A i).z|
      · obtain ⟨c1, c2, c3⟩ := wilk_chase hi h2 f1 (fun h => x1 h (by omega))
        rw [← wst_succ] at c1 c2 c3
        refine ⟨?_, c2, Or.inl ⟨?_, c3 hz, fun _ h => ?_⟩⟩
        · rw [c1, h1, wQ_succ, Matrix.transpose_mul]
          simp only [Matrix.mul_assoc]
          rfl
        · intro j hj
          by_cases h : j = i
          · rwa [h]
          · exact n1 j (by omega)
        · exact hxz h
      · rw [not_le] at hz
        obtain ⟨d1, d2⟩ := hid hz
        refine ⟨by rw [d1, d2, h1], by rw [d1]; exact h2, Or.inr ⟨⟨i, by omega, by rw [d1]; exact f1, fun h => ?_⟩, fun h => ?_⟩⟩
        · rw [d1, ← (x1 h (by omega)).2]
          exact hz
        · rw [(hxz h).2, d1]
          exact f1 _ _ (by omega) (by omega) (by omega) (by omega)
    · have hz : |(wst n A i).z| < 0.000000000001 := by
        rw [z1 hi]
        norm_num
      obtain ⟨d1, d2⟩ := hid hz
      refine ⟨by rw [d1, d2, h1], by rw [d1]; exact h2, Or.inr ⟨⟨k, by omega, by rw [d1]; exact k2, by rw [d1]; exact k3⟩, fun h => ?_⟩⟩
      rw [(hxz h).2, d1]
      exact k2 _ _ (by omega) (by omega) (by omega) (by omega)

/-! ### the triangular factor -/

/-- the shift -/
noncomputable def wshift (n : Nat) (A : RM) : ℝ := A 0 0 - (wilkInit n A).x

noncomputable def wq (n : Nat) (A : RM) : Nat → RM
  | 0 => fun i j => if i = j then 1 else 0
  | i + 1 => givCols (wq n A i) i 0 n (wg n A i).1 (wg n A i).2

noncomputable def wr (n : Nat) (A : RM) : Nat → RM
  | 0 => fun i j => A i j - if i = j then wshift n A else 0
  | i + 1 => givRows (wr n A i) i 0 n (wg n A i).1 (wg n A i).2

theorem toM_wq {n : Nat} (A : RM) (i : Nat) (hi : i < n) : toM n (wq n A i) = wQ n A i := by
  induction i with
  | zero =>
    ext r j
    simp [toM, wq, wQ, Matrix.one_apply, Fin.ext_iff]
  | succ i ih => rw [wq, mul_rot hi, ih (by omega), wQ_succ]

theorem toM_wr {n : Nat} (A : RM) (i : Nat) (hi : i < n) : toM n (wr n A i) = (wQ n A i)ᵀ * toM n (wr n A 0) := by
  induction i with
  | zero => simp [wQ]
  | succ i ih =>
    show toM n (givRows (wr n A i) i 0 n (wg n A i).1 (wg n A i).2) = _
    rw [rotT_mul hi, ih (by omega), wQ_succ, Matrix.transpose_mul, Matrix.mul_assoc]

theorem wr_zero {n : Nat} (A : RM) : toM n (wr n A 0) = toM n A - wshift n A • (1 : Matrix (Fin n) (Fin n) ℝ) := by
  ext r j
  simp [toM, wr, Matrix.one_apply, Fin.ext_iff]

/-- the shifted matrix is the product of the two factors -/
theorem wst_factor {n : Nat} {A : RM} (hA : SymTri n A) (i : Nat) (hi : i < n) :
    toM n (wst n A i).a - wshift n A • (1 : Matrix (Fin n) (Fin n) ℝ) = toM n (wr n A i) * toM n (wq n A i) := by
  rw [toM_wr A i hi, toM_wq A i hi, (wilk_inv hA i hi).1, wr_zero, Matrix.mul_sub, Matrix.sub_mul]
  congr 1
  rw [Matrix.mul_smul, Matrix.mul_one, Matrix.smul_mul, wQ_orth A hi]

theorem wst_entry {n : Nat} {A : RM} (hA : SymTri n A) {i : Nat} (hi : i < n) {r j : Nat} (hr : r < n) (hj : j < n) (hne : r ≠ j) :
    (wst n A i).a r j = ∑ t ∈ range n, wr n A i r t * wq n A i t j := by
  have h := congrFun (congrFun (wst_factor hA i hi) ⟨r, hr⟩) ⟨j, hj⟩
  rw [Matrix.mul_apply, Matrix.sub_apply, Matrix.smul_apply, Matrix.one_apply_ne (by simpa [Fin.ext_iff] using hne), smul_zero, sub_zero] at h
  simp only [toM_apply] at h
  rw [h, Fin.sum_univ_eq_sum_range (fun t => wr n A i r t * wq n A i t j) n]

theorem wg_ne {n : Nat} {A : RM} {i : Nat} (h : 0.000000000001 ≤ |(wst n A i).z|) : (wg n A i).2 ≠ 0 := by
  intro h0
  have h1 := (c67_givens (wst n A i).x (wst n A i).z).2.1 h
  have h2 := wg_norm n A i
  unfold wg at h0 h2
  rw [h0] at h1 h2
  have h3 : (givens (wst n A i).x (wst n A i).z).1 ≠ 0 := by
    intro h4
    rw [h4] at h2
    norm_num at h2
  rw [mul_zero, zero_add] at h1
  rcases mul_eq_zero.mp h1 with h4 | h4
  · rw [h4] at h
    norm_num at h
  · exact h3 h4

theorem wq_inv {n : Nat} (A : RM) (i : Nat) (hi : i < n) :
    (∀ r j, r < n → j < n → (i < r ∨ i < j) → wq n A i r j = if r = j then 1 else 0) ∧
    (∀ r j, r < n → j < n → j + 1 < r → wq n A i r j = 0) ∧
    (1 ≤ i → wq n A i i (i - 1) = -(wg n A (i - 1)).2) := by
  induction i with
  | zero =>
    refine ⟨fun r j _ _ _ => rfl, fun r j _ _ h => ?_, fun h => absurd h (by omega)⟩
    show (if r = j then (1 : ℝ) else 0) = 0
    rw [if_neg (by omega)]
  | succ i ih =>
    obtain ⟨q1, q2, q3⟩ := ih (by omega)
    have e1 : ∀ r, r < n → wq n A (i + 1) r i = wq n A i r i * (wg n A i).1 + wq n A i r (i + 1) * -(wg n A i).2 := by
      intro r hr
      rw [wq]
      unfold givCols
      rw [if_pos (by omega), if_pos rfl]
    have e2 : ∀ r, r < n → wq n A (i + 1) r (i + 1) = wq n A i r i * (wg n A i).2 + wq n A i r (i + 1) * (wg n A i).1 := by
      intro r hr
      rw [wq]
      unfold givCols
      rw [if_pos (by omega), if_neg (by omega), if_pos rfl]
    have e3 : ∀ r j, j ≠ i → j ≠ i + 1 → wq n A (i + 1) r j = wq n A i r j := by
      intro r j h1 h2
      rw [wq, givCols_other h1 h2]
    refine ⟨?_, ?_, ?_⟩
    · intro r j hr hj h
      by_cases h1 : j = i
      · subst h1
        rw [e1 r hr, q1 r j hr hj (Or.inl (by omega)), q1 r (j + 1) hr (by omega) (Or.inl (by omega)), if_neg (by omega), if_neg (by omega)]
        ring
      · by_cases h2 : j = i + 1
        · subst h2
          rw [e2 r hr, q1 r i hr (by omega) (Or.inl (by omega)), q1 r (i + 1) hr (by omega) (Or.inl (by omega)), if_neg (by omega), if_neg (by omega)]
          ring
        · rw [e3 r j h1 h2]
          exact q1 r j hr hj (by omega)
    · intro r j hr hj h
      by_cases h1 : j = i
      · subst h1
        rw [e1 r hr, q1 r j hr hj (Or.inl (by omega)), q1 r (j + 1) hr (by omega) (Or.inl (by omega)), if_neg (by omega), if_neg (by omega)]
        ring
      · by_cases h2 : j = i + 1
        · subst h2
          rw [e2 r hr, q1 r i hr (by omega) (Or.inl (by omega)), q1 r (i + 1) hr (by omega) (Or.inl (by omega)), if_neg (by omega), if_neg (by omega)]
          ring
        · rw [e3 r j h1 h2]
          exact q2 r j hr hj h
    · intro _
      rw [Nat.add_sub_cancel, e1 (i + 1) hi, q1 (i + 1) i hi (by omega) (Or.inl (by omega)), q1 (i + 1) (i + 1) hi hi (Or.inl (by omega)), if_neg (by omega), if_pos rfl]
      ring

theorem wr_inv {n : Nat} {A : RM} (hA : SymTri n A) (i : Nat) (hi : i < n) (hc : NoCut n A i) :
    (∀ r j, r < n → j < i → j < r → wr n A i r j = 0) ∧ (∀ r j, i < r → wr n A i r j = A r j - if r = j then wshift n A else 0) := by
  induction i with
  | zero => exact ⟨fun r j _ h => absurd h (by omega), fun r j _ => rfl⟩
  | succ i ih =>
    have hci : NoCut n A i := fun k hk => hc k (by omega)
    obtain ⟨r1, r2⟩ := ih (by omega) hci
    obtain ⟨q1, q2, q3⟩ := wq_inv (n := n) A i (by omega)
    have hz := hc i (by omega)
    have hcut : (wst n A i).x * (wg n A i).2 + (wst n A i).z * (wg n A i).1 = 0 := (c67_givens _ _).2.1 hz
    have hkill : (wg n A i).2 * wr n A i i i + (wg n A i).1 * wr n A i (i + 1) i = 0 := by
      rcases Nat.eq_zero_or_pos i with h0 | h0
      · subst h0
        have e1 : wr n A 0 0 0 = (wst n A 0).x := by
          show A 0 0 - (if (0 : Nat) = 0 then wshift n A else 0) = (wilkInit n A).x
          rw [if_pos rfl]
          unfold wshift
          ring
        have e2 : wr n A 0 (0 + 1) 0 = (wst n A 0).z := by
          show A 1 0 - (if (0 + 1 : Nat) = 0 then wshift n A else 0) = (wilkInit n A).z
          rw [if_neg (by omega)]
          unfold wilkInit
          simp
        rw [e1, e2]
        linarith
      · have hs0 := wg_ne (hc (i - 1) (by omega))
        obtain ⟨-, -, hinv⟩ := wilk_inv hA i (by omega)
        have hxz : (wst n A i).x = (wst n A i).a i (i - 1) ∧ (wst n A i).z = (wst n A i).a (i + 1) (i - 1) := by
          rcases hinv with ⟨-, -, h⟩ | ⟨-, h⟩
          · exact h h0 hi
          · exfalso
            rw [h hi] at hz
            norm_num at hz
        have hent : ∀ r, r < n → i ≤ r → (wst n A i).a r (i - 1) = wr n A i r i * -(wg n A (i - 1)).2 := by
          intro r hr hir
          rw [wst_entry hA (by omega) hr (by omega) (by omega), Finset.sum_eq_single i, q3 h0]
          · intro t ht hti
            rw [Finset.mem_range] at ht
            rcases lt_or_gt_of_ne hti with h | h
            · rw [r1 r t hr h (by omega), zero_mul]
            · rw [q2 t (i - 1) ht (by omega) (by omega), mul_zero]
          · intro h
            exact absurd (Finset.mem_range.mpr (by omega)) h
        rw [hxz.1, hxz.2, hent i (by omega) le_rfl, hent (i + 1) hi (by omega)] at hcut
        have : -(wg n A (i - 1)).2 * ((wg n A i).2 * wr n A i i i + (wg n A i).1 * wr n A i (i + 1) i) = 0 := by linarith
        rcases mul_eq_zero.mp this with h | h
        · exact absurd (neg_eq_zero.mp h) hs0
        · exact h
    have e1 : ∀ j, j < n → wr n A (i + 1) i j = (wg n A i).1 * wr n A i i j + -(wg n A i).2 * wr n A i (i + 1) j := by
      intro j hj
      rw [wr]
      unfold givRows
      rw [if_pos (by omega), if_pos rfl]
    have e2 : ∀ j, j < n → wr n A (i + 1) (i + 1) j = (wg n A i).2 * wr n A i i j + (wg n A i).1 * wr n A i (i + 1) j := by
      intro j hj
      rw [wr]
      unfold givRows
      rw [if_pos (by omega), if_neg (by omega), if_pos rfl]
    have e3 : ∀ r j, r ≠ i → r ≠ i + 1 → wr n A (i + 1) r j = wr n A i r j := by
      intro r j h1 h2
      rw [wr, givRows_other h1 h2]
    refine ⟨?_, ?_⟩
    · intro r j hr hj hjr
      by_cases h1 : r = i
      · subst h1
        rw [e1 j (by omega), r1 r j hr (by omega) hjr, r1 (r + 1) j hi (by omega) (by omega)]
        ring
      · by_cases h2 : r = i + 1
        · subst h2
          rw [e2 j (by omega)]
          by_cases h3 : j = i
          · rw [h3, hkill]
          · rw [r1 i j (by omega) (by omega) (by omega), r1 (i + 1) j hi (by omega) (by omega)]
            ring
        · rw [e3 r j h1 h2]
          by_cases h3 : j = i
          · subst h3
            rw [r2 r j (by omega), if_neg (by omega), hA.2 r j hr (by omega) (by omega), sub_zero]
          · exact r1 r j hr (by omega) hjr
    · intro r j h
      rw [e3 r j (by omega) (by omega)]
      exact r2 r j (by omega)

/-! ### the shift -/

/-- with a non-zero last entry, the shift is an eigenvalue of the last 2 × 2 block, and it is close to the last diagonal entry -/
theorem wshift_spec {n : Nat} {A : RM} (hb : A (n - 1) (n - 2) ≠ 0) :
    (A (n - 2) (n - 2) - wshift n A) * (wshift n A - A (n - 1) (n - 1)) + A (n - 1) (n - 2) ^ 2 = 0 ∧
    (wshift n A - A (n - 1) (n - 1)) ^ 2 ≤ A (n - 1) (n - 2) ^ 2 ∧
    (wshift n A - A (n - 1) (n - 1)) ^ 2 ≤ (A (n - 2) (n - 2) - wshift n A) ^ 2 := by
  set b := A (n - 1) (n - 2) with hbd
  set a := A (n - 1) (n - 1) with ha
  set e := A (n - 2) (n - 2) with he
  set d := (e - a) / 2 with hd
  set h := Real.sqrt (d * d + b * b) with hh
  set sg : ℝ := if 0 ≤ d then 1 else -1 with hsg
  have hm : wshift n A = a - b ^ 2 / (d + sg * h) := by
    unfold wshift wilkInit
    simp only
    rw [← hbd, ← ha, ← he, ← hd, ← hsg, ← hh]
    ring
  have hpos : 0 < d * d + b * b := by
    have := mul_self_pos.mpr hb
    nlinarith [mul_self_nonneg d]
  have hh2 : h * h = d * d + b * b := Real.mul_self_sqrt hpos.le
  have hh0 : 0 < h := Real.sqrt_pos.mpr hpos
  have hsd : 0 ≤ sg * d := by
    rw [hsg]
    split
    · linarith
    · rename_i h1
      linarith [not_le.mp h1]
  have hsg2 : sg * sg = 1 := by
    rw [hsg]
    split <;> norm_num
  have hD2 : (d + sg * h) ^ 2 = d * d + h * h + 2 * (sg * d) * h := by
    have : (d + sg * h) ^ 2 = d * d + (sg * sg) * (h * h) + 2 * (sg * d) * h := by ring
    rw [this, hsg2, one_mul]
  have hDpos : b ^ 2 ≤ (d + sg * h) ^ 2 := by
    rw [hD2, hh2]
    nlinarith [mul_self_nonneg d, mul_nonneg hsd hh0.le]
  have hb2 : 0 < b ^ 2 := by positivity
  have hD : d + sg * h ≠ 0 := by
    intro h0
    rw [h0] at hDpos
    nlinarith
  have hae : e = a + 2 * d := by rw [hd]; ring
  have hma : wshift n A - a = -(b ^ 2 / (d + sg * h)) := by rw [hm]; ring
  have hq : (b ^ 2 / (d + sg * h)) * (d + sg * h) = b ^ 2 := div_mul_cancel₀ _ hD
  set w := b ^ 2 / (d + sg * h) with hw
  have hmw : wshift n A = a - w := hm
  -- `w = sg * h - d`
  have hwv : w = sg * h - d := by
    have h1 : (sg * h - d) * (d + sg * h) = b ^ 2 := by
      have : (sg * h - d) * (d + sg * h) = (sg * sg) * (h * h) - d * d := by ring
      rw [this, hsg2, hh2]
      ring
    exact mul_right_cancel₀ hD (hq.trans h1.symm)
  refine ⟨?_, ?_, ?_⟩
  · rw [hmw, hae]
    have : (a + 2 * d - (a - w)) * (a - w - a) + b ^ 2 = -w * (w + 2 * d) + b ^ 2 := by ring
    rw [this]
    have h2 : w + 2 * d = d + sg * h := by rw [hwv]; ring
    rw [h2]
    linarith
  · rw [hma, neg_sq]
    have h1 : w ^ 2 * (d + sg * h) ^ 2 = b ^ 2 * b ^ 2 := by
      rw [← mul_pow, hq]
      ring
    by_contra h2
    rw [not_le] at h2
    nlinarith
  · rw [hmw, hae]
    have h2 : (a + 2 * d - (a - w)) = d + sg * h := by rw [hwv]; ring
    rw [h2, hwv]
    nlinarith [mul_nonneg hsd hh0.le]

/-! ### the decrease -/

theorem sum_last2 {k : Nat} {f : Nat → ℝ} (h : ∀ t, t < k → f t = 0) : ∑ t ∈ range (k + 2), f t = f k + f (k + 1) := by
  rw [Finset.sum_range_succ, Finset.sum_range_succ, Finset.sum_eq_zero (fun t ht => h t (Finset.mem_range.mp ht)), zero_add]

theorem sum_last3 {k : Nat} {f : Nat → ℝ} (h : ∀ t, t < k → f t = 0) : ∑ t ∈ range (k + 3), f t = f k + f (k + 1) + f (k + 2) := by
  rw [Finset.sum_range_succ, sum_last2 h]

/-- the arithmetic of the decrease -/
theorem halves_arith {ρ β γ m a e x y z u v r : ℝ} (s1 : (e - m) * (m - a) + β ^ 2 = 0) (s2 : (m - a) ^ 2 ≤ β ^ 2) (row1 : y * β + z * (a - m) = ρ)
    (row2 : x * γ + y * (e - m) + z * β = 0) (hold : β = u * r) (hb : β ≠ 0) (hlast : x ^ 2 + y ^ 2 + z ^ 2 ≤ 1) (g1 : u ^ 2 ≤ 1) (g2 : v ^ 2 ≤ 1) :
    (ρ * u) ^ 4 * (r * v) ^ 2 ≤ β ^ 4 * γ ^ 2 / 2 := by
  have hcomb : β * ρ = (m - a) * (γ * x) := by
    rw [← row1]
    linear_combination y * s1 - (m - a) * row2
  have hb2 : 0 < β ^ 2 := by positivity
  have b1 : ρ ^ 2 ≤ γ ^ 2 * x ^ 2 := by
    have h1 : β ^ 2 * ρ ^ 2 ≤ β ^ 2 * (γ ^ 2 * x ^ 2) := by
      calc β ^ 2 * ρ ^ 2 = (β * ρ) ^ 2 := by ring
        _ = (m - a) ^ 2 * (γ ^ 2 * x ^ 2) := by rw [hcomb]; ring
        _ ≤ β ^ 2 * (γ ^ 2 * x ^ 2) := mul_le_mul_of_nonneg_right s2 (by positivity)
    exact le_of_mul_le_mul_left h1 hb2
  have b2 : ρ ^ 2 ≤ 2 * β ^ 2 * (1 - x ^ 2) := by
    have e1 : ρ = y * β - z * (m - a) := by rw [← row1]; ring
    have h1 : ρ ^ 2 ≤ 2 * ((y * β) ^ 2 + (z * (m - a)) ^ 2) := by
      rw [e1]
      nlinarith [sq_nonneg (y * β + z * (m - a))]
    have h2 : (z * (m - a)) ^ 2 ≤ z ^ 2 * β ^ 2 := by
      rw [mul_pow]
      exact mul_le_mul_of_nonneg_left s2 (sq_nonneg z)
    have h3 : β ^ 2 * (y ^ 2 + z ^ 2) ≤ β ^ 2 * (1 - x ^ 2) := mul_le_mul_of_nonneg_left (by linarith) (sq_nonneg β)
    have h4 : (y * β) ^ 2 = y ^ 2 * β ^ 2 := mul_pow _ _ _
    linarith
  have e0 : (ρ * u) ^ 4 * (r * v) ^ 2 = (ρ ^ 2 * u ^ 2) * (ρ ^ 2 * β ^ 2 * v ^ 2) := by rw [hold]; ring
  rw [e0]
  have hρ2 : 0 ≤ ρ ^ 2 := sq_nonneg ρ
  have c1 : ρ ^ 2 * u ^ 2 ≤ ρ ^ 2 := mul_le_of_le_one_right hρ2 g1
  have c2 : ρ ^ 2 * β ^ 2 * v ^ 2 ≤ ρ ^ 2 * β ^ 2 := mul_le_of_le_one_right (by positivity) g2
  have c3 : (ρ ^ 2 * u ^ 2) * (ρ ^ 2 * β ^ 2 * v ^ 2) ≤ ρ ^ 2 * (ρ ^ 2 * β ^ 2) := mul_le_mul c1 c2 (by positivity) hρ2
  have c4 : ρ ^ 2 * ρ ^ 2 ≤ (γ ^ 2 * x ^ 2) * (2 * β ^ 2 * (1 - x ^ 2)) := mul_le_mul b1 b2 hρ2 (by positivity)
  have c5 : x ^ 2 * (1 - x ^ 2) ≤ 1 / 4 := by nlinarith [sq_nonneg (x ^ 2 - 1 / 2)]
  have c6 : γ ^ 2 * β ^ 4 * (2 * (x ^ 2 * (1 - x ^ 2))) ≤ γ ^ 2 * β ^ 4 * (1 / 2) := mul_le_mul_of_nonneg_left (by linarith) (by positivity)
  have c7 : ρ ^ 2 * (ρ ^ 2 * β ^ 2) ≤ (γ ^ 2 * x ^ 2) * (2 * β ^ 2 * (1 - x ^ 2)) * β ^ 2 := by
    rw [← mul_assoc]
    exact mul_le_mul_of_nonneg_right c4 (sq_nonneg β)
  have c8 : (γ ^ 2 * x ^ 2) * (2 * β ^ 2 * (1 - x ^ 2)) * β ^ 2 = γ ^ 2 * β ^ 4 * (2 * (x ^ 2 * (1 - x ^ 2))) := by ring
  have c9 : γ ^ 2 * β ^ 4 * (1 / 2) = β ^ 4 * γ ^ 2 / 2 := by ring
  linarith

/-- without a cut-off, the product of the fourth power of the last entry of the sub-diagonal and the square of the last but one is at least halved -/
theorem wilk_halves {k : Nat} {A : RM} (hA : SymTri (k + 3) A) (hc : NoCut (k + 3) A (k + 2)) (hb : A (k + 2) (k + 1) ≠ 0) :
    (wst (k + 3) A (k + 2)).a (k + 2) (k + 1) ^ 4 * (wst (k + 3) A (k + 2)).a (k + 1) k ^ 2 ≤ A (k + 2) (k + 1) ^ 4 * A (k + 1) k ^ 2 / 2 := by
  obtain ⟨q1, q2, q3⟩ := wq_inv (n := k + 3) A (k + 2) (by omega)
  obtain ⟨r1, r2⟩ := wr_inv hA (k + 2) (by omega) hc
  obtain ⟨s1, s2, -⟩ := wshift_spec (n := k + 3) (A := A) hb
  rw [show k + 3 - 1 = k + 2 by omega, show k + 3 - 2 = k + 1 by omega] at s1 s2
  have horth : (toM (k + 3) (wq (k + 3) A (k + 2)))ᵀ * toM (k + 3) (wq (k + 3) A (k + 2)) = 1 := by
    rw [toM_wq A _ (by omega)]
    exact wQ_orth A (by omega)
  have horth2 : toM (k + 3) (wq (k + 3) A (k + 2)) * (toM (k + 3) (wq (k + 3) A (k + 2)))ᵀ = 1 := mul_eq_one_comm.mp horth
  have hR : toM (k + 3) (wr (k + 3) A (k + 2)) = (toM (k + 3) (wq (k + 3) A (k + 2)))ᵀ * toM (k + 3) (wr (k + 3) A 0) := by
    rw [toM_wq A _ (by omega)]
    exact toM_wr A _ (by omega)
  have hS : toM (k + 3) (wr (k + 3) A 0) = toM (k + 3) (wq (k + 3) A (k + 2)) * toM (k + 3) (wr (k + 3) A (k + 2)) := by
    rw [hR, ← Matrix.mul_assoc, horth2, Matrix.one_mul]
  have ent : ∀ (P Q : RM) (r j : Nat) (hr : r < k + 3) (hj : j < k + 3), (toM (k + 3) P * toM (k + 3) Q) ⟨r, hr⟩ ⟨j, hj⟩ = ∑ t ∈ range (k + 3), P r t * Q t j := by
    intro P Q r j hr hj
    rw [Matrix.mul_apply]
    simp only [toM_apply]
    rw [Fin.sum_univ_eq_sum_range (fun t => P r t * Q t j) (k + 3)]
  have entT : ∀ (P Q : RM) (r j : Nat) (hr : r < k + 3) (hj : j < k + 3), ((toM (k + 3) P)ᵀ * toM (k + 3) Q) ⟨r, hr⟩ ⟨j, hj⟩ = ∑ t ∈ range (k + 3), P t r * Q t j := by
    intro P Q r j hr hj
    rw [Matrix.mul_apply]
    simp only [Matrix.transpose_apply, toM_apply]
    rw [Fin.sum_univ_eq_sum_range (fun t => P t r * Q t j) (k + 3)]
  set Q := wq (k + 3) A (k + 2) with hQ
  set R := wr (k + 3) A (k + 2) with hRd
  set m := wshift (k + 3) A with hm
  -- columns of `Q` are unit vectors
  have hunit : ∀ j, j < k + 3 → ∑ t ∈ range (k + 3), Q t j * Q t j = 1 := by
    intro j hj
    have := congrFun (congrFun horth ⟨j, hj⟩) ⟨j, hj⟩
    rw [entT, Matrix.one_apply_eq] at this
    exact this
  have hle : ∀ r j, r < k + 3 → j < k + 3 → Q r j ^ 2 ≤ 1 := by
    intro r j hr hj
    rw [← hunit j hj, pow_two]
    exact Finset.single_le_sum (f := fun t => Q t j * Q t j) (fun t _ => mul_self_nonneg _) (Finset.mem_range.mpr hr)
  have hlast : Q k (k + 2) ^ 2 + Q (k + 1) (k + 2) ^ 2 + Q (k + 2) (k + 2) ^ 2 ≤ 1 := by
    rw [← hunit (k + 2) (by omega), Finset.sum_range_succ, Finset.sum_range_succ, Finset.sum_range_succ]
    have : 0 ≤ ∑ t ∈ range k, Q t (k + 2) * Q t (k + 2) := Finset.sum_nonneg (fun t _ => mul_self_nonneg _)
    nlinarith
  -- rows of `(A - m) q = ρ e`
  have hz0 : ∀ r j, wr (k + 3) A 0 r j = A r j - if r = j then m else 0 := fun _ _ => rfl
  have row1 : Q (k + 1) (k + 2) * A (k + 2) (k + 1) + Q (k + 2) (k + 2) * (A (k + 2) (k + 2) - m) = R (k + 2) (k + 2) := by
    have h := congrFun (congrFun hR ⟨k + 2, by omega⟩) ⟨k + 2, by omega⟩
    rw [entT, toM_apply, Finset.sum_range_succ] at h
    rw [sum_last2 (fun t ht => by rw [hz0, if_neg (by omega), hA.1 t (k + 2) (by omega) (by omega), hA.2 (k + 2) t (by omega) (by omega) (by omega)]; ring)] at h
    rw [hz0, hz0, hz0, if_neg (by omega), if_neg (by omega), if_pos rfl, hA.1 k (k + 2) (by omega) (by omega), hA.2 (k + 2) k (by omega) (by omega) (by omega),
      hA.1 (k + 1) (k + 2) (by omega) (by omega)] at h
    rw [show R (k + 2) (k + 2) = _ from h]
    ring
  have row2 : Q k (k + 2) * A (k + 1) k + Q (k + 1) (k + 2) * (A (k + 1) (k + 1) - m) + Q (k + 2) (k + 2) * A (k + 2) (k + 1) = 0 := by
    have h := congrFun (congrFun hR ⟨k + 2, by omega⟩) ⟨k + 1, by omega⟩
    rw [entT, toM_apply] at h
    rw [sum_last3 (fun t ht => by rw [hz0, if_neg (by omega), hA.1 t (k + 1) (by omega) (by omega), hA.2 (k + 1) t (by omega) (by omega) (by omega)]; ring)] at h
    rw [hz0, hz0, hz0, if_neg (by omega), if_pos rfl, if_neg (by omega), hA.1 k (k + 1) (by omega) (by omega)] at h
    have h0 : R (k + 2) (k + 1) = 0 := r1 _ _ (by omega) (by omega) (by omega)
    simp only [sub_zero] at h
    rw [← h0]
    exact h.symm
  -- the new entries
  have hbeta : (wst (k + 3) A (k + 2)).a (k + 2) (k + 1) = R (k + 2) (k + 2) * Q (k + 2) (k + 1) := by
    rw [wst_entry hA (by omega) (by omega) (by omega) (by omega), ← hQ, ← hRd, sum_last3 (fun t ht => by rw [r1 (k + 2) t (by omega) (by omega) (by omega), zero_mul]),
      r1 (k + 2) k (by omega) (by omega) (by omega), r1 (k + 2) (k + 1) (by omega) (by omega) (by omega)]
    ring
  have hgam : (wst (k + 3) A (k + 2)).a (k + 1) k = R (k + 1) (k + 1) * Q (k + 1) k := by
    rw [wst_entry hA (by omega) (by omega) (by omega) (by omega), ← hQ, ← hRd, sum_last3 (fun t ht => by rw [r1 (k + 1) t (by omega) (by omega) (by omega), zero_mul]),
      r1 (k + 1) k (by omega) (by omega) (by omega), q2 (k + 2) k (by omega) (by omega) (by omega)]
    ring
  have hold : A (k + 2) (k + 1) = Q (k + 2) (k + 1) * R (k + 1) (k + 1) := by
    have h := congrFun (congrFun hS ⟨k + 2, by omega⟩) ⟨k + 1, by omega⟩
    rw [ent, toM_apply] at h
    rw [sum_last3 (fun t ht => by rw [q2 (k + 2) t (by omega) (by omega) (by omega), zero_mul]), q2 (k + 2) k (by omega) (by omega) (by omega),
      r1 (k + 2) (k + 1) (by omega) (by omega) (by omega)] at h
    have h2 := hz0 (k + 2) (k + 1)
    rw [if_neg (by omega), sub_zero] at h2
    rw [← h2]
    refine h.trans ?_
    ring
  have g1 := hle (k + 2) (k + 1) (by omega) (by omega)
  have g2 := hle (k + 1) k (by omega) (by omega)
  rw [hbeta, hgam]
  exact halves_arith s1 s2 row1 row2 hold hb hlast g1 g2

end Toppo.RealAlg
