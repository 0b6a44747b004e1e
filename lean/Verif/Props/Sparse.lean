import Verif.Proof.Sparse
import Mathlib.Data.Matrix.Mul
import Mathlib.Algebra.BigOperators.Fin
set_option linter.unusedVariables false
set_option linter.unusedSectionVars false

/-
C40, C41: sparse matrices and their products, for all sizes and all entry functions.
-/
namespace Toppo.Sparse
variable {K : Type}

/-- The entries of row `i` that exist, in increasing column order. -/
def rowLine (m : Nat) (f : Nat → Nat → Option K) (i : Nat) : List (Nat × K) :=
  (List.range m).filterMap (fun j => (f i j).map (fun v => (j, v)))

/-- The specification: `a` is an `n × m` sparse matrix whose entries are exactly those of `f`. -/
structure Represents (a : SMat K) (n m : Nat) (f : Nat → Nat → Option K) : Prop where
  size : a.size = (n, m)
  row : ∀ i, a.rowIter i = some (if i < n then rowLine m f i else [])
  col : ∀ j, a.colIter j = some (if j < m then rowLine n (fun j i => f i j) j else [])
  nonempty : a.rows.isEmpty = false ∧ a.cols.isEmpty = false

theorem rowLine_eq (m : Nat) (f : Nat → Nat → Option K) (i : Nat) : rowLine m f i = sel 0 m (f i) := by
  rw [rowLine, sel, List.range_eq_range', Nat.sub_zero]

theorem good_nonempty {dir : Bool} {g : Nat → List (Nat × K)} {L : List (Node K)} (h : Good dir g L) {k : Nat} (hk : g k ≠ []) : L.isEmpty = false := by
  obtain ⟨p, hp⟩ := h.all k hk
  cases L with
  | nil => cases hp
  | cons => rfl

theorem rowLine_ne_nil {m : Nat} {f : Nat → Nat → Option K} {i j : Nat} (hj : j < m) {v : K} (h : f i j = some v) : rowLine m f i ≠ [] := by
  apply List.ne_nil_of_mem (a := (j, v))
  exact List.mem_filterMap.mpr ⟨j, List.mem_range.mpr hj, by rw [h]; rfl⟩

/-- **C40**, construction: building from an entry function never panics; if there is at least one entry the result represents exactly
the entries of `f` (rows and columns iterate over exactly the entries of the line, increasing). -/
theorem c40_from_partial (n m : Nat) (f : Nat → Nat → Option K) (hne : ∃ i j v, i < n ∧ j < m ∧ f i j = some v) :
    ∃ a, fromFn (n, m) f = some a ∧ Represents a n m f := by
  obtain ⟨rows, cols, h1, h2, h3⟩ := from_loops n m f
  obtain ⟨i, j, v, hi, hj, hv⟩ := hne
  have g2 := h2.perm (List.mergeSort_perm rows leStart)
  have g3 := h3.perm (List.mergeSort_perm cols leStart)
  have n2 : (rows.mergeSort leStart).isEmpty = false := good_nonempty g2 (k := i) (by
    simp only [rowG]; rw [if_pos ⟨Nat.zero_le _, hi⟩, ← rowLine_eq]; exact rowLine_ne_nil hj hv)
  have n3 : (cols.mergeSort leStart).isEmpty = false := good_nonempty g3 (k := j) (by
    simp only [colG]; rw [if_pos hj, ← rowLine_eq n (fun j i => f i j) j]; exact rowLine_ne_nil hi hv)
  refine ⟨{ rows := rows.mergeSort leStart, cols := cols.mergeSort leStart, size := (n, m), transposed := false }, ?_, rfl, ?_, ?_, n2, n3⟩
  · simp only [fromFn, h1, Option.bind_eq_bind, Option.bind_some, n2]; rfl
  · intro i
    have hg : rowG n m f 0 i = if i < n then rowLine m f i else [] := by
      simp only [rowG, Nat.zero_le, true_and, rowLine_eq]
    rw [← hg]
    rcases search_good g2 (leStart_sorted rows) i with ⟨p, e1, e2⟩ | ⟨e1, e2⟩
    · simp [SMat.rowIter, e1, Node.startPtr, e2]
    · simp only [SMat.rowIter, e1, Option.bind_eq_bind, Option.bind_some, n2, e2]; rfl
  · intro j
    have hg : colG n m f (fun _ => 0) j = if j < m then rowLine n (fun j i => f i j) j else [] := by
      simp only [colG, rowLine_eq]
    rw [← hg]
    rcases search_good g3 (leStart_sorted cols) j with ⟨p, e1, e2⟩ | ⟨e1, e2⟩
    · simp [SMat.colIter, e1, Node.startPtr, e2]
    · simp only [SMat.colIter, e1, Option.bind_eq_bind, Option.bind_some, n2, e2]; rfl

/-- **C40 fails** without entries: the matrix is built, but every row and column iterator panics (the placeholder `End` node is
compared with `start_node_idx`, lines 119/135 with 98-102). -/
theorem c40_empty_false (n m : Nat) (f : Nat → Nat → Option K) (he : ∀ i j, i < n → j < m → f i j = none) :
    ∃ a, fromFn (n, m) f = some a ∧ a.size = (n, m) ∧ ∀ k, a.rowIter k = none ∧ a.colIter k = none := by
  obtain ⟨rows, cols, h1, h2, h3⟩ := from_loops n m f
  have hsel : ∀ i, i < n → sel 0 m (f i) = [] := by
    intro i hi
    rw [← rowLine_eq, rowLine, List.filterMap_eq_nil_iff]
    intro j hj; rw [he i j hi (List.mem_range.mp hj)]; rfl
  have hsel' : ∀ j, j < m → sel 0 n (fun i => f i j) = [] := by
    intro j hj
    rw [← rowLine_eq n (fun j i => f i j) j, rowLine, List.filterMap_eq_nil_iff]
    intro i hi; rw [he i j (List.mem_range.mp hi) hj]; rfl
  have e2 : rows = [] := by
    cases rows with
    | nil => rfl
    | cons nd rest =>
      obtain ⟨k, p, _, _, hk⟩ := h2.st nd (List.mem_cons_self ..)
      exfalso; apply hk
      simp only [rowG]; split
      · rename_i h; exact hsel k h.2
      · rfl
  have e3 : cols = [] := by
    cases cols with
    | nil => rfl
    | cons nd rest =>
      obtain ⟨k, p, _, _, hk⟩ := h3.st nd (List.mem_cons_self ..)
      exfalso; apply hk
      simp only [colG]; split
      · rename_i h; exact hsel' k h
      · rfl
  subst e2; subst e3
  refine ⟨{ rows := [.endN], cols := [.endN], size := (n, m), transposed := false }, ?_, rfl, fun k => ⟨by simp [SMat.rowIter, search, bisect, Node.startIdx], by simp [SMat.colIter, search, bisect, Node.startIdx]⟩⟩
  simp [fromFn, h1]

/-- **C40**, `transpose` exchanges rows and columns. -/
theorem c40_transpose {a : SMat K} {n m : Nat} {f : Nat → Nat → Option K} (h : Represents a n m f) :
    Represents a.transpose m n (fun i j => f j i) := by
  obtain ⟨n1, n2⟩ := h.nonempty
  have hr : ∀ i, a.transpose.rowIter i = a.colIter i := by
    intro i
    simp only [SMat.rowIter, SMat.colIter, SMat.transpose, n1, n2, Bool.not_not]
  have hc : ∀ i, a.transpose.colIter i = a.rowIter i := by
    intro i
    simp only [SMat.rowIter, SMat.colIter, SMat.transpose, n1, n2]
  exact ⟨by simp [SMat.transpose, h.size], fun i => by rw [hr, h.col], fun j => by rw [hc, h.row], n2, n1⟩

/-- transposing twice gives the matrix back -/
theorem c40_transpose_twice (a : SMat K) : a.transpose.transpose = a := by simp [SMat.transpose]

section ring
variable [CommRing K]

/-- the dense value at a position: the entry, or zero -/
def value (f : Nat → Nat → Option K) (i j : Nat) : K := (f i j).getD 0

theorem eqRow_skip [DecidableEq K] (m : Nat) (g : Nat → K) (j : Nat) (l : List (Nat × K)) (hj : j < m) (h : ∀ p ∈ l, j < p.1) :
    eqRow m g j l = (decide (g j = 0) && eqRow m g (j + 1) l) := by
  cases l with
  | nil =>
    rw [eqRow, eqRow, show m - j = (m - (j + 1)) + 1 by omega, List.range'_succ, List.any_cons]
    by_cases e : g j = 0 <;> simp [e]
  | cons p rest =>
    obtain ⟨k, v⟩ := p
    have hk : j < k := h (k, v) (List.mem_cons_self ..)
    rw [eqRow, eqRow, show k - j = (k - (j + 1)) + 1 by omega, List.range'_succ, List.any_cons]
    by_cases e : g j = 0 <;> simp [e]

theorem eqRow_spec [DecidableEq K] (m : Nat) (g : Nat → K) (g0 : Nat → Option K) : ∀ d j, m - j = d →
    (eqRow m g j (sel j m g0) = true ↔ ∀ k, j ≤ k → k < m → g k = (g0 k).getD 0) := by
  intro d
  induction d with
  | zero =>
    intro j hd
    rw [sel_nil (by omega), eqRow, show m - j = 0 by omega]
    simp; intro k h1 h2; omega
  | succ d ih =>
    intro j hd
    have split_at : (∀ k, j ≤ k → k < m → g k = (g0 k).getD 0) ↔ g j = (g0 j).getD 0 ∧ ∀ k, j + 1 ≤ k → k < m → g k = (g0 k).getD 0 := by
      constructor
      · intro h; exact ⟨h j le_rfl (by omega), fun k h1 h2 => h k (by omega) h2⟩
      · rintro ⟨h1, h2⟩ k h3 h4
        by_cases e : k = j
        · subst e; exact h1
        · exact h2 k (by omega) h4
    rw [split_at, ← ih (j + 1) (by omega)]
    cases hv : g0 j with
    | none =>
      rw [sel_none (by omega) hv, eqRow_skip m g j _ (by omega) (fun p hp => by have := sel_mem hp; omega)]
      simp
    | some v =>
      rw [sel_some (by omega) hv, eqRow]
      by_cases e : g j = v <;> simp [e]

/-- **C40**, comparison with a dense matrix: true exactly when the sizes agree and every entry of the dense matrix is the sparse entry, or
zero where there is none. -/
theorem c40_eq_dense [DecidableEq K] {a : SMat K} {n m : Nat} {f : Nat → Nat → Option K} (h : Represents a n m f) (size' : Nat × Nat) (g : Nat → Nat → K) :
    ∃ b, a.eqDense size' g = some b ∧ (b = true ↔ size' = (n, m) ∧ ∀ i j, i < n → j < m → g i j = value f i j) := by
  by_cases hs : a.size ≠ size'
  · refine ⟨false, by simp [SMat.eqDense, hs], ?_⟩
    rw [h.size] at hs
    constructor
    · intro h; cases h
    · rintro ⟨h, _⟩; exact absurd h.symm hs
  · rw [SMat.eqDense, if_neg hs]
    rw [ne_eq, not_not, h.size] at hs
    subst hs
    rw [h.size]
    have key : ∀ k, k ≤ n → ∃ b, (List.range k).foldlM (fun b i => if b then do
          let l ← a.rowIter i
          return eqRow m (g i) 0 l
        else some false) true = some b ∧ (b = true ↔ ∀ i j, i < k → j < m → g i j = value f i j) := by
      intro k
      induction k with
      | zero => intro _; exact ⟨true, rfl, by simp⟩
      | succ k ih =>
        intro hk
        obtain ⟨b, h1, h2⟩ := ih (by omega)
        rw [List.range_succ, List.foldlM_append, h1]
        have split_at : (∀ i j, i < k + 1 → j < m → g i j = value f i j) ↔ (∀ i j, i < k → j < m → g i j = value f i j) ∧ ∀ j, 0 ≤ j → j < m → g k j = (f k j).getD 0 := by
          constructor
          · intro h; exact ⟨fun i j a b => h i j (by omega) b, fun j _ b => h k j (by omega) b⟩
          · rintro ⟨h1, h2⟩ i j h3 h4
            by_cases e : i = k
            · subst e; exact h2 j (by omega) h4
            · exact h1 i j (by omega) h4
        rw [split_at, ← h2, ← eqRow_spec m (g k) (f k) m 0 (by omega)]
        cases b with
        | false => exact ⟨false, by simp, by simp⟩
        | true =>
          refine ⟨eqRow m (g k) 0 (sel 0 m (f k)), ?_, by simp⟩
          simp [h.row k, show k < n by omega, rowLine_eq]
    obtain ⟨b, h1, h2⟩ := key n le_rfl
    exact ⟨b, h1, by rw [h2]; simp⟩

/-! ## C41 -/

/-- the `n × m` matrix with entries `f` -/
def mat (n m : Nat) (f : Nat → Nat → K) : Matrix (Fin n) (Fin m) K := Matrix.of fun i j => f i j

/-- a computed result, as a dense matrix (`none` entries do not occur inside the size, see the theorems) -/
def outMat (n m : Nat) (r : Nat → Nat → Option K) : Matrix (Fin n) (Fin m) K := Matrix.of fun i j => (r i j).getD 0

omit [CommRing K] in
theorem forEntries_some {n m : Nat} {body : Nat → Nat → Option K} {g : Nat → Nat → K} (h : ∀ i j, i < n → j < m → body i j = some (g i j)) :
    forEntries n m body = some body := by
  rw [forEntries, if_pos]
  rw [List.all_eq_true]; intro i hi
  rw [List.all_eq_true]; intro j hj
  rw [h i j (List.mem_range.mp hi) (List.mem_range.mp hj)]; rfl

theorem sparse_entry {l m : Nat} (f g : Nat → Nat → Option K) (i j : Nat) :
    (match rowLine l (fun j i => g i j) j with
      | [] => (some 0 : Option K)
      | (k2, v2) :: l2 => some (merge 0 (rowLine l f i) k2 v2 l2)) = some (∑ k ∈ Finset.range l, value f i k * value g k j) := by
  simp only [rowLine_eq]
  have hs1 := sel_sorted (f i) l l 0 (by omega)
  have hs2 := sel_sorted (fun i => g i j) l l 0 (by omega)
  have hsum : ∑ k ∈ Finset.range l, value f i k * value g k j = ∑ k ∈ Finset.range l, valL (sel 0 l (f i)) k * valL (sel 0 l (fun i => g i j)) k := by
    apply Finset.sum_congr rfl
    intro k hk
    rw [Finset.mem_range] at hk
    rw [valL_sel (f i) l k hk l 0 (by omega) (by omega), valL_sel (fun i => g i j) l k hk l 0 (by omega) (by omega)]
    rfl
  rw [hsum]
  cases h : sel 0 l (fun i => g i j) with
  | nil => simp [valL]
  | cons p l2 =>
    obtain ⟨k2, v2⟩ := p
    simp only
    rw [merge_spec l _ _ _ k2 v2 0 rfl hs1 (by rw [← h]; exact hs2) (fun p hp => (sel_mem hp).2.1) (fun p hp => by
      have : p ∈ sel 0 l (fun i => g i j) := by rw [h]; exact hp
      exact (sel_mem this).2.1), zero_add]

/-- **C41**, sparse * sparse: the result is the matrix product. -/
theorem c41_sparse_sparse {a b : SMat K} {n l m : Nat} {f g : Nat → Nat → Option K} (ha : Represents a n l f) (hb : Represents b l m g) :
    ∃ r, a.mul b = some r ∧ (∀ i j, i < n → j < m → (r i j).isSome) ∧ outMat n m r = mat n l (value f) * mat l m (value g) := by
  rw [SMat.mul, ha.size, hb.size]
  simp only [ne_eq, not_true, if_false]
  have hbody : ∀ i j, i < n → j < m → a.mulEntry b i j = some (∑ k ∈ Finset.range l, value f i k * value g k j) := by
    intro i j hi hj
    rw [SMat.mulEntry, ha.row i, hb.col j, if_pos hi, if_pos hj]
    simp only [Option.bind_eq_bind, Option.bind_some]
    exact sparse_entry (m := m) f g i j
  refine ⟨_, forEntries_some hbody, ?_, ?_⟩
  · intro i j hi hj; rw [hbody i j hi hj]; rfl
  · ext i j
    simp only [outMat, Matrix.of_apply, Matrix.mul_apply, mat]
    rw [hbody i j i.2 j.2, Finset.sum_range]; rfl

/-- **C41**, sparse * dense. -/
theorem c41_sparse_dense {a : SMat K} {n l m : Nat} {f : Nat → Nat → Option K} (ha : Represents a n l f) (g : Nat → Nat → K) :
    ∃ r, a.mulDense (l, m) g = some r ∧ (∀ i j, i < n → j < m → (r i j).isSome) ∧ outMat n m r = mat n l (value f) * mat l m g := by
  rw [SMat.mulDense, ha.size]
  simp only [ne_eq, not_true, if_false]
  have hbody : ∀ i j, i < n → j < m → (do
      let l ← a.rowIter i
      return l.foldl (fun s p => s + p.2 * g p.1 j) 0 : Option K) = some (∑ k ∈ Finset.range l, value f i k * g k j) := by
    intro i j hi hj
    rw [ha.row i, if_pos hi, rowLine_eq]
    simp only [Option.bind_eq_bind, Option.bind_some]
    rw [foldl_sel (fun k => g k j) (f i) l l 0 0 (by omega), zero_add, Finset.range_eq_Ico]; rfl
  refine ⟨_, forEntries_some hbody, ?_, ?_⟩
  · intro i j hi hj; rw [hbody i j hi hj]; rfl
  · ext i j
    simp only [outMat, Matrix.of_apply, Matrix.mul_apply, mat]
    rw [hbody i j i.2 j.2, Finset.sum_range]; rfl

/-- **C41**, dense * sparse. -/
theorem c41_dense_sparse {b : SMat K} {n l m : Nat} {f : Nat → Nat → Option K} (hb : Represents b l m f) (g : Nat → Nat → K) :
    ∃ r, denseMul (n, l) g b = some r ∧ (∀ i j, i < n → j < m → (r i j).isSome) ∧ outMat n m r = mat n l g * mat l m (value f) := by
  rw [denseMul, hb.size]
  simp only [ne_eq, not_true, if_false]
  obtain ⟨r, h1, h2, h3⟩ := c41_sparse_dense (m := n) (c40_transpose hb) (fun i j => g j i)
  rw [h1]
  refine ⟨_, rfl, fun i j hi hj => h2 j i hj hi, ?_⟩
  ext i j
  have := congrFun (congrFun h3 j) i
  simp only [outMat, Matrix.of_apply, Matrix.mul_apply, mat] at this ⊢
  rw [this]
  apply Finset.sum_congr rfl
  intro k _
  rw [mul_comm]; rfl

/-- **C41**, incompatible sizes are rejected by all three products. -/
theorem c41_size_mismatch {a b : SMat K} {n l l' m : Nat} {f g : Nat → Nat → Option K} (ha : Represents a n l f) (hb : Represents b l' m g) (h : l ≠ l')
    (d : Nat → Nat → K) : a.mul b = none ∧ a.mulDense (l', m) d = none ∧ denseMul (n, l) d b = none := by
  simp [SMat.mul, SMat.mulDense, denseMul, ha.size, hb.size, h]

/-- **C41 fails** for sparse matrices without entries: the product with any non-empty dense matrix panics. -/
theorem c41_empty_false (n l m : Nat) (hn : 0 < n) (hm : 0 < m) (f : Nat → Nat → Option K) (he : ∀ i j, i < n → j < l → f i j = none)
    (g : Nat → Nat → K) : ∃ a, fromFn (n, l) f = some a ∧ a.mulDense (l, m) g = none := by
  obtain ⟨a, h1, h2, h3⟩ := c40_empty_false n l f he
  refine ⟨a, h1, ?_⟩
  rw [SMat.mulDense, h2]
  simp only [ne_eq, not_true, if_false, (h3 _).1, Option.bind_eq_bind, Option.bind_none, forEntries]
  rw [if_neg]
  simp
  exact ⟨⟨0, hn⟩, ⟨0, hm⟩⟩

end ring

/-- a concrete case: two entries in a 2 × 3 matrix -/
example : ∃ i j v, i < 2 ∧ j < 3 ∧ (fun i j => if (i, j) = (0, 1) then some 5 else if (i, j) = (1, 0) then some 7 else none : Nat → Nat → Option Int) i j = some v :=
  ⟨0, 1, 5, by omega, by omega, rfl⟩

end Toppo.Sparse
