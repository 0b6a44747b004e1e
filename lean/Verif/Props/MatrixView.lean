import Verif.Proof.MatrixView
import Mathlib.Algebra.BigOperators.Group.Finset.Basic
import Mathlib.Algebra.BigOperators.Ring.Finset
import Mathlib.Algebra.BigOperators.Intervals
import Mathlib.Algebra.Order.BigOperators.Group.Finset
import Mathlib.Algebra.Field.Basic
set_option linter.unusedVariables false

/-!
# Dense matrices and their views (C28 – C32, C39)
-/
namespace Toppo.MatrixProps
open Toppo Toppo.View

variable {K : Type}

/-! ## C28: shape packing -/

/-- Sizes below 65536 are reported as created, strides as well. -/
theorem c28_shape_partial (n m : Nat) (hn : n < 65536) (hm : m < 65536) (hm1 : 0 < m) (f : Nat → Nat → Option K) (a : Mat K)
    (h : Mat.build n m f = some a) : a.view.size = (n, m) ∧ a.view.off = (m, 1) ∧ a.size = (n, m) := by
  simp only [Mat.build] at h
  cases hl : (positions n m).mapM (fun p => f p.1 p.2) with
  | none => rw [hl] at h; cases h
  | some l =>
    rw [hl] at h
    cases h
    simp only [Mat.view, fromRaw_eq (b := 0) (s := (n, m)) (o := (m, 1)) ⟨hn, hm, hm, by norm_num⟩, and_self]

/-- **C28 is false**: every matrix with 65536 or more rows or columns is reported with a wrong size. -/
theorem c28_shape_false (a : Mat K) (h : 65536 ≤ a.size.1 ∨ 65536 ≤ a.size.2) : a.view.size ≠ a.size := by
  intro he
  have := fromRaw_fits 0 a.size a.off
  have h1 : a.view.size.1 < 65536 := this.1
  have h2 : a.view.size.2 < 65536 := this.2.1
  rw [he] at h1 h2
  omega

/-- such matrices exist: the zero matrix of size 65536 × 1 -/
theorem c28_shape_false_reachable : ∃ a, Mat.zero (K := Int) 65536 1 = some a ∧ 65536 ≤ a.size.1 := by
  obtain ⟨a, ha, hs, _⟩ := Mat.build_some (n := 65536) (m := 1) (f := fun _ _ => some (0 : Int)) (g := fun _ _ => 0) (fun _ _ _ _ => rfl)
  exact ⟨a, by simpa [Mat.zero] using ha, by rw [hs]⟩

/-! ## Specification of views: which parent entry does a chain of selections pick -/

/-- A user-level selection of entries of a parent matrix: its size and, for each position, the row and column in the parent. -/
structure Sel where
  size : Nat × Nat
  pos : Nat → Nat → Nat × Nat

/-- First index of a range of rows or columns. -/
def first : Rng → Nat
  | .idx i => i
  | .full => 0
  | .range a _ => a
  | .fromR a => a
  | .incl a _ => a
  | .to _ => 0
  | .toIncl _ => 0

/-- One past the last index of a range, in a matrix with `n` lines. -/
def stop (n : Nat) : Rng → Nat
  | .idx i => i + 1
  | .full => n
  | .range _ b => b
  | .fromR _ => n
  | .incl _ b => b + 1
  | .to b => b
  | .toIncl b => b + 1

/-- What the user can do with a view. -/
inductive Step where
  | sub (rows cols : Rng)
  | transpose

/-- A selection step on the specification side: ranges must be in bounds (and the current selection non-empty). -/
def Sel.step (s : Sel) : Step → Option Sel
  | .sub rows cols =>
    if 0 < s.size.1 ∧ 0 < s.size.2 ∧ first rows ≤ stop s.size.1 rows ∧ stop s.size.1 rows ≤ s.size.1 ∧
        first cols ≤ stop s.size.2 cols ∧ stop s.size.2 cols ≤ s.size.2 then
      some ⟨(stop s.size.1 rows - first rows, stop s.size.2 cols - first cols), fun i j => s.pos (first rows + i) (first cols + j)⟩
    else none
  | .transpose => some ⟨(s.size.2, s.size.1), fun i j => s.pos j i⟩

/-- The selection made by a chain of steps on an `n × m` matrix. -/
def select (n m : Nat) (steps : List Step) : Option Sel :=
  steps.foldlM Sel.step ⟨(n, m), fun i j => (i, j)⟩

/-- The chain of steps executed by the code. -/
def runSteps (v : View) (steps : List Step) : Option View :=
  steps.foldlM (fun v s => match s with
    | .sub rows cols => v.sub rows cols
    | .transpose => some v.transpose) v

/-! ## C29 -/

/-- the relation between a derived view and the selection it stands for -/
def Rep (n m : Nat) (v : View) (s : Sel) : Prop :=
  ∃ r0 c0 k l, r0 + k ≤ n ∧ c0 + l ≤ m ∧ v.base = r0 * m + c0 ∧
    ((v.size = (k, l) ∧ v.off = (m, 1) ∧ s.size = (k, l) ∧ ∀ i j, s.pos i j = (r0 + i, c0 + j)) ∨
     (v.size = (l, k) ∧ v.off = (1, m) ∧ s.size = (l, k) ∧ ∀ i j, s.pos i j = (r0 + j, c0 + i)))

theorem unpack_eq (r : Rng) (n : Nat) : unpack r n = (first r, stop n r) := by cases r <;> rfl

theorem rep_fits {n m : Nat} (hn : n < 65536) (hm : m < 65536) {v : View} {s : Sel} (h : Rep n m v s) : v.Fits := by
  obtain ⟨r0, c0, k, l, h1, h2, h3, h⟩ := h
  rcases h with ⟨e1, e2, _⟩ | ⟨e1, e2, _⟩ <;> simp only [Fits, e1, e2] <;> omega

theorem rep_size {n m : Nat} {v : View} {s : Sel} (h : Rep n m v s) : v.size = s.size := by
  obtain ⟨r0, c0, k, l, h1, h2, h3, h⟩ := h
  rcases h with ⟨e1, e2, e3, _⟩ | ⟨e1, e2, e3, _⟩ <;> rw [e1, e3]

theorem rep_off {n m : Nat} (hm : 0 < m) {v : View} {s : Sel} (h : Rep n m v s) : 0 < v.off.1 ∧ 0 < v.off.2 := by
  obtain ⟨r0, c0, k, l, h1, h2, h3, h⟩ := h
  rcases h with ⟨e1, e2, e3, _⟩ | ⟨e1, e2, e3, _⟩ <;> rw [e2] <;> simp [hm]

theorem rep_step {n m : Nat} (hn : n < 65536) (hm : m < 65536) (hm0 : 0 < m) {v : View} {s : Sel} (h : Rep n m v s) (st : Step) :
    (∃ v' s', (match st with | .sub rows cols => v.sub rows cols | .transpose => some v.transpose) = some v' ∧ s.step st = some s' ∧ Rep n m v' s') ∨
    ((match st with | .sub rows cols => v.sub rows cols | .transpose => some v.transpose) = none ∧ s.step st = none) := by
  have hf := rep_fits hn hm h
  have hs := rep_size h
  have ho := rep_off hm0 h
  cases st with
  | transpose =>
    left
    refine ⟨_, _, rfl, rfl, ?_⟩
    obtain ⟨r0, c0, k, l, h1, h2, h3, h⟩ := h
    have e : v.transpose = ⟨v.base, (v.size.2, v.size.1), (v.off.2, v.off.1)⟩ := by
      rw [transpose, fromRaw_eq ⟨hf.2.1, hf.1, hf.2.2.2, hf.2.2.1⟩]
    refine ⟨r0, c0, k, l, h1, h2, by rw [e]; exact h3, ?_⟩
    rcases h with ⟨e1, e2, e3, e4⟩ | ⟨e1, e2, e3, e4⟩
    · right
      rw [e]; simp only [e1, e2, e3]
      exact ⟨trivial, trivial, trivial, fun i j => e4 j i⟩
    · left
      rw [e]; simp only [e1, e2, e3]
      exact ⟨trivial, trivial, trivial, fun i j => e4 j i⟩
  | sub rows cols =>
    by_cases hc : 0 < s.size.1 ∧ 0 < s.size.2 ∧ first rows ≤ stop s.size.1 rows ∧ stop s.size.1 rows ≤ s.size.1 ∧
        first cols ≤ stop s.size.2 cols ∧ stop s.size.2 cols ≤ s.size.2
    · left
      have hsub := sub_eq (v := v) hf ho.1 ho.2 (rows := rows) (cols := cols) (by rw [hs]; exact hc.1) (by rw [hs]; exact hc.2.1)
        (by rw [unpack_eq, hs]; exact hc.2.2.1) (by rw [unpack_eq, hs]; exact hc.2.2.2.1)
        (by rw [unpack_eq, hs]; exact hc.2.2.2.2.1) (by rw [unpack_eq, hs]; exact hc.2.2.2.2.2)
      refine ⟨_, _, hsub, by simp only [Sel.step]; rw [if_pos hc], ?_⟩
      simp only [unpack_eq, hs]
      obtain ⟨h0, h0', c1, c2, c3, c4⟩ := hc
      obtain ⟨r0, c0, k, l, h1, h2, h3, h⟩ := h
      rcases h with ⟨e1, e2, e3, e4⟩ | ⟨e1, e2, e3, e4⟩
      · simp only [e3] at c1 c2 c3 c4
        refine ⟨r0 + first rows, c0 + first cols, stop k rows - first rows, stop l cols - first cols, by omega, by omega, ?_, ?_⟩
        · simp only [addr, e2, h3]; ring
        · left
          simp only [e3, e2, e4]
          refine ⟨trivial, trivial, trivial, fun i j => ?_⟩
          rw [Nat.add_assoc, Nat.add_assoc]
      · simp only [e3] at c1 c2 c3 c4
        refine ⟨r0 + first cols, c0 + first rows, stop k cols - first cols, stop l rows - first rows, by omega, by omega, ?_, ?_⟩
        · simp only [addr, e2, h3]; ring
        · right
          simp only [e3, e2, e4]
          refine ⟨trivial, trivial, trivial, fun i j => ?_⟩
          rw [Nat.add_assoc, Nat.add_assoc]
    · right
      refine ⟨?_, by simp only [Sel.step]; rw [if_neg hc]⟩
      cases hx : v.sub rows cols with
      | none => simp [hx]
      | some w =>
        exfalso; apply hc
        obtain ⟨a1, a2, a3, a4, a5, a6, _⟩ := sub_some hx
        rw [unpack_eq, hs] at a1 a2 a3 a4
        rw [hs] at a5 a6
        exact ⟨a5, a6, a1, a2, a3, a4⟩

theorem rep_run {n m : Nat} (hn : n < 65536) (hm : m < 65536) (hm0 : 0 < m) (steps : List Step) (v : View) (s : Sel) (h : Rep n m v s) :
    (∃ v' s', runSteps v steps = some v' ∧ steps.foldlM Sel.step s = some s' ∧ Rep n m v' s') ∨
    (runSteps v steps = none ∧ steps.foldlM Sel.step s = none) := by
  induction steps generalizing v s with
  | nil => exact Or.inl ⟨v, s, rfl, rfl, h⟩
  | cons st rest ih =>
    rcases rep_step hn hm hm0 h st with ⟨v', s', e1, e2, h'⟩ | ⟨e1, e2⟩
    · rcases ih v' s' h' with ⟨v'', s'', f1, f2, h''⟩ | ⟨f1, f2⟩
      · left
        refine ⟨v'', s'', ?_, ?_, h''⟩
        · simp only [runSteps, List.foldlM_cons] at f1 ⊢; rw [e1]; exact f1
        · rw [List.foldlM_cons, e2]; exact f2
      · right
        refine ⟨?_, ?_⟩
        · simp only [runSteps, List.foldlM_cons] at f1 ⊢; rw [e1]; exact f1
        · rw [List.foldlM_cons, e2]; exact f2
    · right
      refine ⟨?_, ?_⟩
      · simp only [runSteps, List.foldlM_cons]; rw [e1]; rfl
      · rw [List.foldlM_cons, e2]; rfl

/-- A matrix with the row-major layout that all constructors produce. -/
structure IsMat (n m : Nat) (a : Mat K) : Prop where
  hn : 0 < n ∧ n < 65536
  hm : 0 < m ∧ m < 65536
  size : a.size = (n, m)
  off : a.off = (m, 1)
  len : a.data.length = n * m

theorem rep_view {n m : Nat} {a : Mat K} (h : IsMat n m a) : Rep n m a.view ⟨(n, m), fun i j => (i, j)⟩ := by
  have e : a.view = ⟨0, (n, m), (m, 1)⟩ := by
    rw [Mat.view, h.size, h.off, fromRaw_eq ⟨h.hn.2, h.hm.2, h.hm.2, by norm_num⟩]
  rw [e]
  exact ⟨0, 0, n, m, by omega, by omega, by simp, Or.inl ⟨rfl, rfl, rfl, fun i j => by simp⟩⟩

theorem rep_addr {n m : Nat} {v : View} {s : Sel} (h : Rep n m v s) {i j : Nat} (hi : i < v.size.1) (hj : j < v.size.2) :
    v.addr i j = (s.pos i j).1 * m + (s.pos i j).2 ∧ (s.pos i j).1 < n ∧ (s.pos i j).2 < m := by
  obtain ⟨r0, c0, k, l, h1, h2, h3, h⟩ := h
  rcases h with ⟨e1, e2, e3, e4⟩ | ⟨e1, e2, e3, e4⟩
  · rw [e1] at hi hj
    simp only at hi hj
    simp only [addr, e2, e4, h3]
    exact ⟨by ring, by omega, by omega⟩
  · rw [e1] at hi hj
    simp only at hi hj
    simp only [addr, e2, e4, h3]
    exact ⟨by ring, by omega, by omega⟩

theorem lin_inj {m r c r' c' : Nat} (hc : c < m) (hc' : c' < m) (h : r * m + c = r' * m + c') : r = r' ∧ c = c' := by
  have h1 : (r * m + c) / m = r := by rw [Nat.mul_comm, Nat.mul_add_div (by omega), Nat.div_eq_of_lt hc]; omega
  have h2 : (r' * m + c') / m = r' := by rw [Nat.mul_comm, Nat.mul_add_div (by omega), Nat.div_eq_of_lt hc']; omega
  have : r = r' := by rw [← h1, ← h2, h]
  subst this
  exact ⟨rfl, by omega⟩

theorem rep_pos_inj {n m : Nat} {v : View} {s : Sel} (h : Rep n m v s) {i j i' j' : Nat} (e : s.pos i j = s.pos i' j') : i = i' ∧ j = j' := by
  obtain ⟨r0, c0, k, l, h1, h2, h3, h⟩ := h
  rcases h with ⟨e1, e2, e3, e4⟩ | ⟨e1, e2, e3, e4⟩ <;> · rw [e4, e4, Prod.mk.injEq] at e; omega

theorem lin_lt {n m r c : Nat} (hr : r < n) (hc : c < m) : r * m + c < n * m := by nlinarith

theorem rep_good {n m : Nat} (hn : n < 65536) (hm : m < 65536) (hm0 : 0 < m) {v : View} {s : Sel} (h : Rep n m v s)
    {mem : List K} (hl : mem.length = n * m) : Good mem v := by
  refine ⟨rep_fits hn hm h, (rep_off hm0 h).1, (rep_off hm0 h).2, ?_, ?_⟩
  · intro i j hi hj
    obtain ⟨a, b, c⟩ := rep_addr h hi hj
    rw [hl, a]; exact lin_lt b c
  · intro i j i' j' hi hj hi' hj' he
    obtain ⟨a, b, c⟩ := rep_addr h hi hj
    obtain ⟨a', b', c'⟩ := rep_addr h hi' hj'
    rw [a, a'] at he
    obtain ⟨x, y⟩ := lin_inj c c' he
    exact rep_pos_inj h (Prod.ext x y)

/-- **C29.** On an `n × m` matrix, a chain of sub-matrix selections and transpositions panics exactly when the user-level
selection is out of bounds; otherwise the view has the selected size, every position of it reads the selected parent entry,
writing through it changes exactly the selected parent entry, and distinct positions select distinct entries. -/
theorem c29_views (n m : Nat) (a : Mat K) (ha : IsMat n m a) (steps : List Step) :
    (select n m steps = none → runSteps a.view steps = none) ∧
    ∀ s, select n m steps = some s → ∃ v, runSteps a.view steps = some v ∧ v.size = s.size ∧
      (∀ i j, i < s.size.1 → j < s.size.2 →
        (s.pos i j).1 < n ∧ (s.pos i j).2 < m ∧
        (∀ i' j', s.pos i j = s.pos i' j' → i = i' ∧ j = j') ∧
        View.get a.data v i j = View.get a.data a.view (s.pos i j).1 (s.pos i j).2 ∧
        (View.get a.data v i j).isSome ∧
        ∀ x, ∃ data', View.set a.data v i j x = some data' ∧ data'.length = a.data.length ∧
          ∀ r c, r < n → c < m → View.get data' a.view r c = if (r, c) = s.pos i j then some x else View.get a.data a.view r c) ∧
      (∀ i j x, ¬ (i < s.size.1 ∧ j < s.size.2) → View.get a.data v i j = none ∧ View.set a.data v i j x = none) := by
  have h0 := rep_view ha
  have hfull : ∀ (d : List K), d.length = n * m → ∀ r c, r < n → c < m → View.get d a.view r c = d[r * m + c]? := by
    intro d hd r c hr hc
    have hsz := rep_size h0
    have ho := rep_off ha.hm.1 h0
    rw [get_eq ho.1 ho.2 (by rw [hsz]; exact hr) (by rw [hsz]; exact hc), (rep_addr h0 (by rw [hsz]; exact hr) (by rw [hsz]; exact hc)).1]
  rcases rep_run ha.hn.2 ha.hm.2 ha.hm.1 steps _ _ h0 with ⟨v, s, e1, e2, h⟩ | ⟨e1, e2⟩
  · refine ⟨fun hn => ?_, fun s' hs' => ?_⟩
    · rw [select, e2] at hn; cases hn
    · rw [select, e2] at hs'
      cases hs'
      have hsz := rep_size h
      have hg : Good a.data v := rep_good ha.hn.2 ha.hm.2 ha.hm.1 h ha.len
      refine ⟨v, e1, hsz, ?_, ?_⟩
      · intro i j hi hj
        rw [← hsz] at hi hj
        obtain ⟨b1, b2, b3⟩ := rep_addr h hi hj
        refine ⟨b2, b3, fun i' j' e => rep_pos_inj h e, ?_, ?_, ?_⟩
        · rw [get_eq hg.o1 hg.o2 hi hj, b1, hfull _ ha.len _ _ b2 b3]
        · rw [get_eq hg.o1 hg.o2 hi hj, List.getElem?_eq_getElem (hg.inside i j hi hj)]; rfl
        · intro x
          refine ⟨_, set_eq hg hi hj x, by simp, ?_⟩
          intro r c hr hc
          rw [hfull _ (by simp [ha.len]) r c hr hc, hfull _ ha.len r c hr hc, List.getElem?_set, b1]
          by_cases he : (r, c) = s.pos i j
          · rw [if_pos he, ← he]
            simp only [if_true]
            rw [if_pos (by rw [ha.len]; exact lin_lt hr hc)]
          · rw [if_neg he, if_neg]
            intro hh
            exact he (Prod.ext (lin_inj hc b3 hh.symm).1 (lin_inj hc b3 hh.symm).2)
      · intro i j x hne
        rw [← hsz] at hne
        exact ⟨get_none hne, set_none hne⟩
  · refine ⟨fun _ => e1, fun s' hs' => ?_⟩
    rw [select, e2] at hs'; cases hs'

/-- the hypotheses are met: a 3 × 4 matrix, its lower right 2 × 2 block, transposed -/
example : IsMat 3 4 (⟨List.range 12, (3, 4), (4, 1)⟩ : Mat Nat) ∧
    (select 3 4 [.sub (.range 1 3) (.fromR 2), .transpose]).isSome := by
  refine ⟨⟨by omega, by omega, rfl, rfl, rfl⟩, by simp [select, Sel.step, first, stop]⟩

/-! ## C30 -/

/-- **C30 is false**: for every matrix with at least two columns, the slice that every access to the whole matrix forms is
longer than the allocation (by `m - 1` elements). -/
theorem c30_slice_false (n m : Nat) (a : Mat K) (ha : IsMat n m a) (hm : 2 ≤ m) :
    ∃ len, a.view.sliceLen = some len ∧ a.data.length < a.view.base + len := by
  have e : a.view = ⟨0, (n, m), (m, 1)⟩ := by
    rw [Mat.view, ha.size, ha.off, fromRaw_eq ⟨ha.hn.2, ha.hm.2, ha.hm.2, by norm_num⟩]
  have hpos : 0 < n * m := Nat.mul_pos ha.hn.1 ha.hm.1
  refine ⟨_, by rw [e, sliceLen]; simp only; rw [if_neg (by rw [not_or]; constructor <;> omega)], ?_⟩
  rw [ha.len, e]; simp only; omega

/-- exactly when the slice of a derived view is inside the allocation: when its last entry is not in the last parent row, or
is in the first parent column -/
theorem c30_slice_partial (n m : Nat) (a : Mat K) (ha : IsMat n m a) (steps : List Step) (s : Sel) (v : View)
    (hs : select n m steps = some s) (hv : runSteps a.view steps = some v) (hne : 0 < s.size.1 ∧ 0 < s.size.2) :
    ∃ len, v.sliceLen = some len ∧
      (v.base + len ≤ a.data.length ↔
        (s.pos (s.size.1 - 1) (s.size.2 - 1)).1 + 1 < n ∨ (s.pos (s.size.1 - 1) (s.size.2 - 1)).2 = 0) := by
  rcases rep_run ha.hn.2 ha.hm.2 ha.hm.1 steps _ _ (rep_view ha) with ⟨v', s', e1, e2, h⟩ | ⟨e1, e2⟩
  · rw [select, e2] at hs; cases hs
    rw [e1] at hv; cases hv
    have hm0 := ha.hm.1
    obtain ⟨r0, c0, k, l, h1, h2, h3, h⟩ := h
    have key : 0 < k → 0 < l → (r0 * m + c0 + ((k * m - 1) + (l - 1) + 1) ≤ n * m ↔ r0 + (k - 1) + 1 < n ∨ c0 + (l - 1) = 0) := by
      intro hk hl
      have hkm : 0 < k * m := Nat.mul_pos hk hm0
      have e3 : r0 * m + c0 + ((k * m - 1) + (l - 1) + 1) = (r0 + k) * m + (c0 + (l - 1)) := by
        rw [Nat.add_mul]; omega
      rw [e3]
      constructor
      · intro hle
        by_contra hcon
        push Not at hcon
        have : r0 + k = n := by omega
        rw [this] at hle
        omega
      · intro hor
        rcases hor with h' | h'
        · have : r0 + k + 1 ≤ n := by omega
          have : (r0 + k + 1) * m ≤ n * m := Nat.mul_le_mul_right _ this
          rw [Nat.add_mul] at this
          omega
        · rw [h']
          have : (r0 + k) * m ≤ n * m := Nat.mul_le_mul_right _ h1
          omega
    rcases h with ⟨e1, e2, e3, e4⟩ | ⟨e1, e2, e3, e4⟩
    · rw [e3] at hne
      have hk := hne.1; have hl := hne.2
      have hkm : 0 < k * m := Nat.mul_pos hk hm0
      simp only at hk hl
      refine ⟨(k * m - 1) + (l - 1) + 1, by rw [sliceLen, e1, e2]; simp only [Nat.mul_one]; rw [if_neg (by omega)], ?_⟩
      rw [ha.len, h3, e3, e4]; exact key hk hl
    · rw [e3] at hne
      have hk := hne.2; have hl := hne.1
      have hkm : 0 < k * m := Nat.mul_pos hk hm0
      simp only at hk hl
      refine ⟨(k * m - 1) + (l - 1) + 1, by rw [sliceLen, e1, e2]; simp only [Nat.mul_one]; rw [if_neg (by omega)]; congr 1; omega, ?_⟩
      rw [ha.len, h3, e3, e4]; exact key hk hl
  · rw [e1] at hv; cases hv

example : ∃ s, select 3 4 [.sub (.range 0 2) .full] = some s ∧ 0 < s.size.1 ∧ 0 < s.size.2 :=
  ⟨⟨(2, 4), fun i j => (0 + i, 0 + j)⟩, by simp [select, Sel.step, first, stop], by simp, by simp⟩

end Toppo.MatrixProps
