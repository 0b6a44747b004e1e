import Verif.Model.Checked
import Verif.Props.MatrixOps
import Verif.Props.ConstMatrix
import Verif.Props.FloatSparse
set_option linter.unusedVariables false
/-!
# Matrices of machine integers (C123)

`w` is the number of bits (`64` for `i64`).  An operation on the stored integers either returns the exact result or panics; the theorems say exactly when.
`none` as the outcome of a whole operation is a panic.
-/
namespace Toppo.CheckedProps
open Toppo Toppo.View Toppo.MatrixProps Toppo.Sparse Chk

variable {w : Nat}

/-! ### specification -/

/-- the integers of `w` bits -/
def InRange (w : Nat) (x : ℤ) : Prop := -2 ^ (w - 1) ≤ x ∧ x < 2 ^ (w - 1)

/-- adding up `ts` from the left starting with zero never leaves the range, and neither does a term -/
def SumSafe (w : Nat) (ts : List ℤ) : Prop := (∀ t ∈ ts, InRange w t) ∧ ∀ k ≤ ts.length, InRange w (ts.take k).sum

/-- the terms `x 0 * y 0, …, x (l-1) * y (l-1)` -/
def products (l : Nat) (x y : Nat → ℤ) : List ℤ := (List.range l).map (fun k => x k * y k)

/-- the terms at the positions stored on both sides -/
def commonProducts (l : Nat) (x y : Nat → Option ℤ) : List ℤ := (pairs l x y).map (fun p => p.1 * p.2)

/-! ### proofs -/

theorem inRange_iff (x : ℤ) : fits w x = true ↔ InRange w x := by simp [fits, InRange]

/-- a checked result -/
def chk (x : ℤ) : Chk w := ⟨ck (fits w) x⟩
/-- an overflow -/
def bad : Chk w := ⟨none⟩

theorem ck_in {x : ℤ} (h : InRange w x) : (chk x : Chk w) = lit x := by rw [chk, ck, if_pos ((inRange_iff x).mpr h)]; rfl

theorem ck_out {x : ℤ} (h : ¬ InRange w x) : (chk x : Chk w) = bad := by rw [chk, ck, if_neg (by rw [inRange_iff]; exact h)]; rfl

theorem lit_mul (x y : ℤ) : (lit x : Chk w) * lit y = chk (x * y) := rfl
theorem lit_add (x y : ℤ) : (lit x : Chk w) + lit y = chk (x + y) := rfl
theorem lit_sub (x y : ℤ) : (lit x : Chk w) - lit y = chk (x - y) := rfl

theorem add_none (a : Chk w) : a + bad = bad := by
  obtain ⟨_ | a⟩ := a <;> rfl
theorem none_add (a : Chk w) : bad + a = bad := rfl

theorem chk_mul_comm (x y : Chk w) : x * y = y * x := by
  obtain ⟨_ | x⟩ := x
  · obtain ⟨_ | y⟩ := y <;> rfl
  · obtain ⟨_ | y⟩ := y
    · rfl
    · exact congrArg chk (Int.mul_comm x y)

theorem fold_none (ts : List (Chk w)) : ts.foldl (· + ·) bad = bad := by
  induction ts with
  | nil => rfl
  | cons t ts ih => rw [List.foldl_cons]; exact ih

theorem fold_safe (ts : List ℤ) : ∀ s : ℤ, (∀ t ∈ ts, InRange w t) → (∀ k ≤ ts.length, InRange w (s + (ts.take k).sum)) →
    (ts.map (chk (w := w))).foldl (· + ·) (lit s) = lit (s + ts.sum) := by
  induction ts with
  | nil => intro s _ _; simp
  | cons t ts ih =>
    intro s h1 h2
    have e1 : (chk t : Chk w) = lit t := ck_in (h1 t (List.mem_cons_self ..))
    have e2 : (lit s : Chk w) + lit t = lit (s + t) := by
      rw [lit_add]
      exact ck_in (by simpa using h2 1 (by simp))
    rw [List.map_cons, List.foldl_cons, e1, e2, ih (s + t) (fun u hu => h1 u (List.mem_cons_of_mem _ hu)) (fun k hk => ?_)]
    · rw [List.sum_cons, add_assoc]
    · have := h2 (k + 1) (by simpa using hk)
      rwa [List.take_succ_cons, List.sum_cons, ← add_assoc] at this

theorem fold_unsafe (ts : List ℤ) : ∀ s : ℤ, InRange w s → ¬ ((∀ t ∈ ts, InRange w t) ∧ ∀ k ≤ ts.length, InRange w (s + (ts.take k).sum)) →
    (ts.map (chk (w := w))).foldl (· + ·) (lit s) = bad := by
  induction ts with
  | nil =>
    intro s hs h
    exact absurd ⟨fun t ht => by simp at ht, fun k hk => by simpa using hs⟩ h
  | cons t ts ih =>
    intro s hs h
    rw [List.map_cons, List.foldl_cons]
    by_cases h1 : InRange w t
    · by_cases h2 : InRange w (s + t)
      · have e1 : (chk t : Chk w) = lit t := ck_in h1
        have e2 : (lit s : Chk w) + lit t = lit (s + t) := ck_in h2
        rw [e1, e2]
        refine ih (s + t) h2 (fun hh => h ⟨fun u hu => ?_, fun k hk => ?_⟩)
        · rcases List.mem_cons.mp hu with rfl | hu
          · exact h1
          · exact hh.1 u hu
        · cases k with
          | zero => simpa using hs
          | succ k =>
            rw [List.take_succ_cons, List.sum_cons, ← add_assoc]
            exact hh.2 k (by simpa using hk)
      · have e1 : (chk t : Chk w) = lit t := ck_in h1
        have e2 : (lit s : Chk w) + lit t = bad := ck_out h2
        rw [e1, e2]
        exact fold_none _
    · have e1 : (chk t : Chk w) = bad := ck_out h1
      rw [e1, add_none]
      exact fold_none _

theorem zero_inRange : InRange w 0 := ⟨by simp, by positivity⟩

theorem sum_safe {ts : List ℤ} (h : SumSafe w ts) : (ts.map (chk (w := w))).foldl (· + ·) 0 = lit ts.sum := by
  have := fold_safe ts 0 h.1 (fun k hk => by simpa using h.2 k hk)
  rw [zero_add] at this
  exact this

theorem sum_unsafe {ts : List ℤ} (h : ¬ SumSafe w ts) : (ts.map (chk (w := w))).foldl (· + ·) 0 = bad :=
  fold_unsafe ts 0 zero_inRange (fun hh => h ⟨hh.1, fun k hk => by simpa using hh.2 k hk⟩)

theorem get_map {α β : Type} (φ : α → β) (mem : List α) (v : View) (i j : Nat) : View.get (mem.map φ) v i j = (View.get mem v i j).map φ := by
  unfold View.get
  split
  · cases v.asPtr <;> simp
  · rfl

theorem entries_map {α β : Type} (φ : α → β) {mem : List α} {v : View} {n m : Nat} {f : Nat → Nat → α} (h : Entries mem v n m f) :
    Entries (mem.map φ) v n m (fun i j => φ (f i j)) := ⟨h.1, fun i j hi hj => by rw [get_map, h.2 i j hi hj]; rfl⟩

/-- from the entries computed by the generic code to the outcome -/
theorem collect_some {K L : Type} (out : K → Option L) {c : Mat K} {n m : Nat} {h : Nat → Nat → K} (hs : c.size = (n, m)) (he : Entries c.data c.view n m h) (hn : n < 65536)
    (hm : m < 65536) :
    (∀ g : Nat → Nat → L, (∀ i < n, ∀ j < m, out (h i j) = some (g i j)) → ∃ d, Mat.collect out (some c) = some d ∧ d.size = (n, m) ∧ Entries d.data d.view n m g) ∧
    ((∃ i < n, ∃ j < m, out (h i j) = none) → Mat.collect out (some c) = none) := by
  constructor
  · intro g hg
    obtain ⟨d, h0, h1, h2, h3, h4⟩ := Mat.build_some (K := L) (n := n) (m := m) (f := fun i j => do
      let x ← View.get c.data c.view i j
      out x) (g := g) (fun i j hi hj => by
        rw [he.2 i j hi hj, Option.bind_eq_bind, Option.bind_some, hg i hi j hj])
    refine ⟨d, ?_, h1, entries_of_build hn hm h1 h2 h4⟩
    rw [Mat.collect, Option.bind_eq_bind, Option.bind_some, hs]
    exact h0
  · rintro ⟨i, hi, j, hj, e⟩
    rw [Mat.collect, Option.bind_eq_bind, Option.bind_some, hs]
    exact Mat.build_none ⟨i, j, hi, hj, by rw [he.2 i j hi hj, Option.bind_eq_bind, Option.bind_some, e]⟩

theorem run_some {c : Mat (Chk w)} {n m : Nat} {h : Nat → Nat → Chk w} (hs : c.size = (n, m)) (he : Entries c.data c.view n m h) (hn : n < 65536) (hm : m < 65536) :
    (∀ g : Nat → Nat → ℤ, (∀ i < n, ∀ j < m, h i j = lit (g i j)) → ∃ d, Mat.run (some c) = some d ∧ d.size = (n, m) ∧ Entries d.data d.view n m g) ∧
    ((∃ i < n, ∃ j < m, h i j = bad) → Mat.run (some c) = none) := by
  obtain ⟨a, b⟩ := collect_some Chk.out hs he hn hm
  refine ⟨fun g hg => a g (fun i hi j hj => by rw [hg i hi j hj]; rfl), ?_⟩
  rintro ⟨i, hi, j, hj, e⟩
  exact b ⟨i, hi, j, hj, by rw [e]; rfl⟩

/-- **C123**, sums: the sum of two matrices of the same size is returned, exactly, if all its entries are representable; otherwise the operation panics. -/
theorem c123_add (mem mem' : List ℤ) (v v' : View) (n m : Nat) (f g : Nat → Nat → ℤ) (hf : Entries mem v n m f) (hg : Entries mem' v' n m g) (hn : n < 65536)
    (hm : m < 65536) :
    ((∀ i < n, ∀ j < m, InRange w (f i j + g i j)) → ∃ c, Mat.run (Mat.zipWith (· + ·) (mem.map (lit (w := w))) v (mem'.map lit) v') = some c ∧ c.size = (n, m) ∧
      Entries c.data c.view n m (fun i j => f i j + g i j)) ∧
    (¬ (∀ i < n, ∀ j < m, InRange w (f i j + g i j)) → Mat.run (Mat.zipWith (· + ·) (mem.map (lit (w := w))) v (mem'.map lit) v') = none) := by
  obtain ⟨c, h1, h2, h3⟩ := (c31_add_sub (K := Chk w) (· + ·) _ _ v v' n m n m _ _ (entries_map lit hf) (entries_map lit hg) hn hm).2 rfl
  rw [h1]
  refine ⟨fun h => (run_some h2 h3 hn hm).1 _ (fun i hi j hj => ck_in (h i hi j hj)), fun h => (run_some h2 h3 hn hm).2 ?_⟩
  push Not at h
  obtain ⟨i, hi, j, hj, h⟩ := h
  exact ⟨i, hi, j, hj, ck_out h⟩

/-- **C123**, differences. -/
theorem c123_sub (mem mem' : List ℤ) (v v' : View) (n m : Nat) (f g : Nat → Nat → ℤ) (hf : Entries mem v n m f) (hg : Entries mem' v' n m g) (hn : n < 65536)
    (hm : m < 65536) :
    ((∀ i < n, ∀ j < m, InRange w (f i j - g i j)) → ∃ c, Mat.run (Mat.zipWith (· - ·) (mem.map (lit (w := w))) v (mem'.map lit) v') = some c ∧ c.size = (n, m) ∧
      Entries c.data c.view n m (fun i j => f i j - g i j)) ∧
    (¬ (∀ i < n, ∀ j < m, InRange w (f i j - g i j)) → Mat.run (Mat.zipWith (· - ·) (mem.map (lit (w := w))) v (mem'.map lit) v') = none) := by
  obtain ⟨c, h1, h2, h3⟩ := (c31_add_sub (K := Chk w) (· - ·) _ _ v v' n m n m _ _ (entries_map lit hf) (entries_map lit hg) hn hm).2 rfl
  rw [h1]
  refine ⟨fun h => (run_some h2 h3 hn hm).1 _ (fun i hi j hj => ck_in (h i hi j hj)), fun h => (run_some h2 h3 hn hm).2 ?_⟩
  push Not at h
  obtain ⟨i, hi, j, hj, h⟩ := h
  exact ⟨i, hi, j, hj, ck_out h⟩

/-- **C123**, multiples. -/
theorem c123_smul (mem : List ℤ) (v : View) (n m : Nat) (f : Nat → Nat → ℤ) (c : ℤ) (hf : Entries mem v n m f) (hn : n < 65536) (hm : m < 65536) :
    ((∀ i < n, ∀ j < m, InRange w (f i j * c)) → ∃ d, Mat.run (Mat.smul (mem.map (lit (w := w))) v (lit c)) = some d ∧ d.size = (n, m) ∧
      Entries d.data d.view n m (fun i j => f i j * c)) ∧
    (¬ (∀ i < n, ∀ j < m, InRange w (f i j * c)) → Mat.run (Mat.smul (mem.map (lit (w := w))) v (lit c)) = none) := by
  obtain ⟨d, h1, h2, h3⟩ := c31_smul (K := Chk w) _ v n m _ (lit c) (entries_map lit hf) hn hm
  rw [h1]
  refine ⟨fun h => (run_some h2 h3 hn hm).1 _ (fun i hi j hj => ck_in (h i hi j hj)), fun h => (run_some h2 h3 hn hm).2 ?_⟩
  push Not at h
  obtain ⟨i, hi, j, hj, h⟩ := h
  exact ⟨i, hi, j, hj, ck_out h⟩

theorem products_sum (l : Nat) (x y : Nat → ℤ) : (products l x y).sum = ∑ k ∈ Finset.range l, x k * y k := by
  rw [products, ← foldl_sum l (fun k => x k * y k), List.sum_eq_foldl]

/-- **C123**, products: the product is returned, exactly, if in every entry all terms and all partial sums are representable; otherwise the operation panics. -/
theorem c123_mul (mem mem' : List ℤ) (v v' : View) (n l m : Nat) (f g : Nat → Nat → ℤ) (hf : Entries mem v n l f) (hg : Entries mem' v' l m g) (hv : v.Fits)
    (hv' : v'.Fits) (hn : 0 < n) (hl : 0 < l) (hm : 0 < m) :
    ((∀ i < n, ∀ j < m, SumSafe w (products l (f i) (fun k => g k j))) → ∃ c, Mat.run (Mat.mul (mem.map (lit (w := w))) v (mem'.map lit) v') = some c ∧
      c.size = (n, m) ∧ Entries c.data c.view n m (fun i j => ∑ k ∈ Finset.range l, f i k * g k j)) ∧
    (¬ (∀ i < n, ∀ j < m, SumSafe w (products l (f i) (fun k => g k j))) → Mat.run (Mat.mul (mem.map (lit (w := w))) v (mem'.map lit) v') = none) := by
  have hn' : n < 65536 := by have := hv.1; rw [hf.1] at this; exact this
  have hm' : m < 65536 := by have := hv'.2.1; rw [hg.1] at this; exact this
  obtain ⟨c, h1, h2, h3⟩ := (mul_fold (K := Chk w) _ _ v v' n l l m _ _ (entries_map lit hf) (entries_map lit hg) hv hv' hn hl hl hm).2 rfl
  have e : ∀ i j, ((List.range l).map (fun k => (lit (f i k) : Chk w) * lit (g k j))) = (products l (f i) (fun k => g k j)).map (chk (w := w)) := by
    intro i j; rw [products, List.map_map]; rfl
  rw [h1]
  refine ⟨fun h => (run_some h2 h3 hn' hm').1 _ (fun i hi j hj => ?_), fun h => (run_some h2 h3 hn' hm').2 ?_⟩
  · beta_reduce
    rw [e, sum_safe (h i hi j hj), products_sum]
  · push Not at h
    obtain ⟨i, hi, j, hj, h⟩ := h
    exact ⟨i, hi, j, hj, by beta_reduce; rw [e, sum_unsafe h]⟩

theorem list_sum_abs (ts : List ℤ) : |ts.sum| ≤ (ts.map (fun t => |t|)).sum := by
  induction ts with
  | nil => simp
  | cons t ts ih => rw [List.sum_cons, List.map_cons, List.sum_cons]; exact (abs_add_le _ _).trans (by omega)

theorem abs_sum_nonneg (ts : List ℤ) : 0 ≤ (ts.map (fun t => |t|)).sum :=
  List.sum_nonneg (fun x hx => by obtain ⟨t, -, rfl⟩ := List.mem_map.mp hx; exact abs_nonneg t)

/-- a bound that is easy to check -/
theorem safe_of_bound {ts : List ℤ} (h : (ts.map (fun t => |t|)).sum < 2 ^ (w - 1)) : SumSafe w ts := by
  have key : ∀ x : ℤ, |x| ≤ (ts.map (fun t => |t|)).sum → InRange w x := by
    intro x hx
    have := abs_le.mp hx
    exact ⟨by omega, by omega⟩
  refine ⟨fun t ht => key t ?_, fun k hk => key _ ?_⟩
  · exact List.single_le_sum (fun x hx => by obtain ⟨t, -, rfl⟩ := List.mem_map.mp hx; exact abs_nonneg t) _ (List.mem_map.mpr ⟨t, ht, rfl⟩)
  · refine (list_sum_abs _).trans ?_
    conv_rhs => rw [← List.take_append_drop k ts, List.map_append, List.sum_append]
    have := abs_sum_nonneg (ts.drop k)
    omega

/-- **C123**, a sufficient condition for products: no panic if the absolute values of the terms add up to less than `2^(w-1)`, in particular if `l * A * B` is. -/
theorem c123_mul_bound (l : Nat) (x y : Nat → ℤ) :
    ((∑ k ∈ Finset.range l, |x k * y k|) < 2 ^ (w - 1) → SumSafe w (products l x y)) ∧
    (∀ A B : ℤ, (∀ k < l, |x k| ≤ A) → (∀ k < l, |y k| ≤ B) → l * (A * B) < 2 ^ (w - 1) → SumSafe w (products l x y)) := by
  have h1 : (∑ k ∈ Finset.range l, |x k * y k|) < 2 ^ (w - 1) → SumSafe w (products l x y) := by
    intro h
    refine safe_of_bound ?_
    rw [products, List.map_map, List.sum_eq_foldl]
    have := foldl_sum l (fun k => |x k * y k|)
    rw [show ((fun t : ℤ => |t|) ∘ fun k => x k * y k) = fun k => |x k * y k| from rfl, this]
    exact h
  refine ⟨h1, fun A B hA hB h => h1 (lt_of_le_of_lt ?_ h)⟩
  have : ∀ k ∈ Finset.range l, |x k * y k| ≤ A * B := by
    intro k hk
    rw [abs_mul]
    have hk := Finset.mem_range.mp hk
    exact mul_le_mul (hA k hk) (hB k hk) (abs_nonneg _) ((abs_nonneg _).trans (hA k hk))
  refine (Finset.sum_le_sum this).trans ?_
  simp

theorem pairs_map (l : Nat) (x y : Nat → Option ℤ) : (pairs l (fun k => (x k).map (lit (w := w))) (fun k => (y k).map lit)).map (fun p => p.1 * p.2) =
    (commonProducts l x y).map (chk (w := w)) := by
  unfold pairs commonProducts pairs
  rw [List.map_filterMap, List.map_filterMap, List.map_filterMap]
  apply List.filterMap_congr
  intro k _
  beta_reduce
  cases x k <;> cases y k <;> rfl

theorem sparse_outcome {n m : Nat} {h : Nat → Nat → Option (Chk w)} {T : Nat → Nat → List ℤ}
    (he : ∀ i < n, ∀ j < m, h i j = some (((T i j).map (chk (w := w))).foldl (· + ·) 0)) :
    ((∀ i < n, ∀ j < m, SumSafe w (T i j)) → ∃ r, Sparse.run n m (some h) = some r ∧ ∀ i < n, ∀ j < m, r i j = some (T i j).sum) ∧
    (¬ (∀ i < n, ∀ j < m, SumSafe w (T i j)) → Sparse.run n m (some h) = none) := by
  constructor
  · intro hs
    have key : ∀ i j, i < n → j < m → (do let x ← h i j; x.out) = some (T i j).sum := by
      intro i j hi hj
      rw [he i hi j hj, Option.bind_eq_bind, Option.bind_some, sum_safe (hs i hi j hj)]; rfl
    exact ⟨_, forEntries_some key, fun i hi j hj => key i j hi hj⟩
  · intro hs
    push Not at hs
    obtain ⟨i, hi, j, hj, hs⟩ := hs
    rw [Sparse.run, Sparse.collect, Option.bind_eq_bind, Option.bind_some, forEntries, if_neg]
    intro hall
    have := List.all_eq_true.mp hall i (List.mem_range.mpr hi)
    have := List.all_eq_true.mp this j (List.mem_range.mpr hj)
    rw [he i hi j hj, Option.bind_eq_bind, Option.bind_some, sum_unsafe hs] at this
    cases this

theorem common_sum (l : Nat) (x y : Nat → Option ℤ) : (commonProducts l x y).sum = ∑ k ∈ Finset.range l, (x k).getD 0 * (y k).getD 0 := by
  unfold commonProducts pairs
  induction l with
  | zero => rfl
  | succ l ih =>
    rw [List.range_succ, List.filterMap_append, List.map_append, List.sum_append, Finset.sum_range_succ, ih]
    congr 1
    cases h : x l <;> cases h' : y l <;> simp [h, h']

/-- **C123**, sparse * sparse: only the positions stored on both sides are multiplied. -/
theorem c123_sparse_sparse {a b : SMat (Chk w)} {n l m : Nat} {f g : Nat → Nat → Option ℤ} (ha : Represents a n l (fun i j => (f i j).map lit))
    (hb : Represents b l m (fun i j => (g i j).map lit)) :
    ((∀ i < n, ∀ j < m, SumSafe w (commonProducts l (f i) (fun k => g k j))) →
      ∃ r, Sparse.run n m (a.mul b) = some r ∧ ∀ i < n, ∀ j < m, r i j = some (∑ k ∈ Finset.range l, (f i k).getD 0 * (g k j).getD 0)) ∧
    (¬ (∀ i < n, ∀ j < m, SumSafe w (commonProducts l (f i) (fun k => g k j))) → Sparse.run n m (a.mul b) = none) := by
  have he : ∀ i j, i < n → j < m → a.mulEntry b i j = some (((commonProducts l (f i) (fun k => g k j)).map (chk (w := w))).foldl (· + ·) 0) := by
    intro i j hi hj
    rw [sparse_fold chk_mul_comm ha hb hi hj, ← pairs_map]
  have e : a.mul b = some (fun i j => a.mulEntry b i j) := by
    rw [SMat.mul, ha.size, hb.size]
    simp only [ne_eq, not_true, if_false]
    exact forEntries_some he
  rw [e]
  simp only [← common_sum]
  exact sparse_outcome (fun i hi j hj => he i j hi hj)

theorem mulDense_chk {a : SMat (Chk w)} {n l : Nat} {f : Nat → Nat → Option ℤ} (ha : Represents a n l (fun i j => (f i j).map lit)) (g : Nat → Nat → ℤ) {i : Nat}
    (hi : i < n) (j : Nat) : (do let l ← a.rowIter i
                                 return l.foldl (fun s p => s + p.2 * lit (g p.1 j)) 0 : Option (Chk w)) =
      some (((commonProducts l (f i) (fun k => some (g k j))).map (chk (w := w))).foldl (· + ·) 0) := by
  rw [ha.row i, if_pos hi]
  simp only [Option.bind_eq_bind, Option.bind_some]
  refine congrArg some ?_
  rw [← pairs_map]
  exact dense_fold (K := Chk w) l (fun k => (f i k).map lit) (fun k => lit (g k j)) i 0

/-- **C123**, sparse * dense. -/
theorem c123_sparse_dense {a : SMat (Chk w)} {n l : Nat} {f : Nat → Nat → Option ℤ} (ha : Represents a n l (fun i j => (f i j).map lit)) (m : Nat) (g : Nat → Nat → ℤ) :
    ((∀ i < n, ∀ j < m, SumSafe w (commonProducts l (f i) (fun k => some (g k j)))) →
      ∃ r, Sparse.run n m (a.mulDense (l, m) (fun i j => lit (g i j))) = some r ∧ ∀ i < n, ∀ j < m, r i j = some (∑ k ∈ Finset.range l, (f i k).getD 0 * g k j)) ∧
    (¬ (∀ i < n, ∀ j < m, SumSafe w (commonProducts l (f i) (fun k => some (g k j)))) →
      Sparse.run n m (a.mulDense (l, m) (fun i j => lit (g i j))) = none) := by
  have he : ∀ i j, i < n → j < m → _ := fun i j hi _ => mulDense_chk ha g hi j
  have e := forEntries_some he
  rw [SMat.mulDense, ha.size]
  simp only [ne_eq, not_true, if_false]
  rw [e]
  have := sparse_outcome (n := n) (m := m) (T := fun i j => commonProducts l (f i) (fun k => some (g k j))) (fun i hi j hj => he i j hi hj)
  simp only [common_sum, Option.getD_some] at this
  exact this

/-- **C123**, dense * sparse. -/
theorem c123_dense_sparse {b : SMat (Chk w)} {l m : Nat} {f : Nat → Nat → Option ℤ} (hb : Represents b l m (fun i j => (f i j).map lit)) (n : Nat) (g : Nat → Nat → ℤ) :
    ((∀ i < n, ∀ j < m, SumSafe w (commonProducts l (fun k => f k j) (fun k => some (g i k)))) →
      ∃ r, Sparse.run n m (denseMul (n, l) (fun i j => lit (g i j)) b) = some r ∧ ∀ i < n, ∀ j < m, r i j = some (∑ k ∈ Finset.range l, g i k * (f k j).getD 0)) ∧
    (¬ (∀ i < n, ∀ j < m, SumSafe w (commonProducts l (fun k => f k j) (fun k => some (g i k)))) →
      Sparse.run n m (denseMul (n, l) (fun i j => lit (g i j)) b) = none) := by
  have ht : Represents b.transpose m l (fun i j => (f j i).map lit) := c40_transpose hb
  have he : ∀ i j, i < m → j < n → _ := fun i j hi _ => mulDense_chk (f := fun i j => f j i) ht (fun i j => g j i) hi j
  have e := forEntries_some he
  rw [denseMul, hb.size]
  simp only [ne_eq, not_true, if_false]
  rw [SMat.mulDense, ht.size]
  simp only [ne_eq, not_true, if_false]
  rw [e]
  have := sparse_outcome (n := n) (m := m) (T := fun i j => commonProducts l (fun k => f k j) (fun k => some (g i k))) (fun i hi j hj => he j i hj hi)
  simp only [common_sum, Option.getD_some, mul_comm] at this ⊢
  exact this

/-! ### arrays -/

/-- the operation returns `x` if `safe` holds and panics otherwise -/
def Outcome {α : Type} (r : Option α) (safe : Prop) (x : α) : Prop := (safe → r = some x) ∧ (¬ safe → r = none)

theorem mapM_outcome {α β : Type} {n : Nat} (F : α → Option β) (z : Fin n → α) (r : Fin n → β) (P : Fin n → Prop) (h : ∀ i, Outcome (F (z i)) (P i) (r i)) :
    Outcome ((List.ofFn z).mapM F) (∀ i, P i) (List.ofFn r) := by
  constructor
  · intro hs
    have : ∀ i, F (z i) = some (r i) := fun i => (h i).1 (hs i)
    rw [List.ofFn_eq_map, List.mapM_map, View.mapM_some _ (F ∘ z) r (fun i _ => this i), List.ofFn_eq_map]
  · intro hs
    push Not at hs
    obtain ⟨i, hi⟩ := hs
    rw [List.ofFn_eq_map, List.mapM_map]
    exact View.mapM_none _ _ ⟨i, List.mem_finRange i, (h i).2 hi⟩

theorem chk_outcome (x : ℤ) : Outcome (chk x : Chk w).out (InRange w x) x :=
  ⟨fun h => by rw [ck_in h]; rfl, fun h => by rw [ck_out h]; rfl⟩

theorem lit_neg (x : ℤ) : -(lit x : Chk w) = chk (-x) := rfl

theorem run_outcome {n : Nat} (z : Fin n → ℤ) : Outcome (CMat.run (List.ofFn fun i => (chk (z i) : Chk w))) (∀ i, InRange w (z i)) (List.ofFn z) :=
  mapM_outcome _ (fun i => (chk (z i) : Chk w)) z _ (fun i => chk_outcome (z i))

theorem runRows_outcome {n m : Nat} (Z : Fin n → Fin m → ℤ) :
    Outcome (CMat.runRows (List.ofFn fun i => List.ofFn fun j => (chk (Z i j) : Chk w))) (∀ i j, InRange w (Z i j)) (List.ofFn fun i => List.ofFn (Z i)) :=
  mapM_outcome _ (fun i => List.ofFn fun j => (chk (Z i j) : Chk w)) (fun i => List.ofFn (Z i)) _ (fun i => run_outcome (Z i))

/-- **C123**, fixed-size vectors: `+`, `-`, multiples and the negative are exact, and panic exactly if an entry of the exact result is not representable. -/
theorem c123_const_vector (n : Nat) (x y : Fin n → ℤ) (c : ℤ) :
    let X : List (Chk w) := CMat.arr (fun i => lit (x i)); let Y : List (Chk w) := CMat.arr (fun i => lit (y i))
    Outcome (CMat.run (CMat.vAdd X Y)) (∀ i, InRange w (x i + y i)) (CMat.arr (fun i => x i + y i)) ∧
    Outcome (CMat.run (CMat.vSub X Y)) (∀ i, InRange w (x i - y i)) (CMat.arr (fun i => x i - y i)) ∧
    Outcome (CMat.run (CMat.vMul X (lit c))) (∀ i, InRange w (x i * c)) (CMat.arr (fun i => x i * c)) ∧
    Outcome (CMat.run (CMat.vNeg X)) (∀ i, InRange w (-x i)) (CMat.arr (fun i => -x i)) := by
  intro X Y
  refine ⟨?_, ?_, ?_, ?_⟩
  · rw [CMat.vAdd, CMat.zipAssign_arr]; exact run_outcome _
  · rw [CMat.vSub, CMat.zipAssign_arr]; exact run_outcome _
  · simp only [CMat.vMul, X, CMat.arr, List.map_ofFn]; exact run_outcome _
  · simp only [CMat.vNeg, X, CMat.arr, List.map_ofFn]; exact run_outcome _

/-- **C123**, fixed-size matrices. -/
theorem c123_const_matrix (n m : Nat) (A B : Matrix (Fin n) (Fin m) ℤ) (c : ℤ) :
    let X : List (List (Chk w)) := CMat.rows (A.map lit); let Y : List (List (Chk w)) := CMat.rows (B.map lit)
    Outcome (CMat.runRows (CMat.mAdd X Y)) (∀ i j, InRange w (A i j + B i j)) (CMat.rows (A + B)) ∧
    Outcome (CMat.runRows (CMat.mSub X Y)) (∀ i j, InRange w (A i j - B i j)) (CMat.rows (A - B)) ∧
    Outcome (CMat.runRows (CMat.mMul X (lit c))) (∀ i j, InRange w (A i j * c)) (CMat.rows (A.map (· * c))) ∧
    Outcome (CMat.runRows (CMat.mNeg X)) (∀ i j, InRange w (-A i j)) (CMat.rows (-A)) := by
  intro X Y
  refine ⟨?_, ?_, ?_, ?_⟩
  · rw [CMat.mAdd, show CMat.flatZipAssign (· + ·) X Y.flatten = _ from CMat.flatZipAssign_rows (· + ·) (fun i j => (lit (A i j) : Chk w)) (fun i j => lit (B i j))]; exact runRows_outcome (fun i j => A i j + B i j)
  · rw [CMat.mSub, show CMat.flatZipAssign (· - ·) X Y.flatten = _ from CMat.flatZipAssign_rows (· - ·) (fun i j => (lit (A i j) : Chk w)) (fun i j => lit (B i j))]; exact runRows_outcome (fun i j => A i j - B i j)
  · simp only [CMat.mMul, X, CMat.rows, List.map_ofFn, Function.comp_def]; exact runRows_outcome _
  · simp only [CMat.mNeg, X, CMat.rows, List.map_ofFn, Function.comp_def]; exact runRows_outcome _

/-- **C123**, `dot` of fixed-size vectors: exact, and panics exactly if a term or a partial sum is not representable. -/
theorem c123_const_dot (n : Nat) (x y : Fin n → ℤ) :
    Outcome (CMat.dot (CMat.arr (fun i => (lit (x i) : Chk w))) (CMat.arr (fun i => lit (y i)))).out (SumSafe w (List.ofFn fun i => x i * y i)) (∑ i, x i * y i) := by
  have h : List.zipWith (fun a b => a * b) (CMat.arr (fun i => (lit (x i) : Chk w))) (CMat.arr (fun i => lit (y i))) = (List.ofFn fun i => x i * y i).map (chk (w := w)) := by
    rw [List.map_ofFn]
    apply List.ext_getElem
    · simp [CMat.arr]
    · intro i h1 h2
      simp only [CMat.arr, List.getElem_zipWith, List.getElem_ofFn, Function.comp]; rfl
  rw [CMat.dot, h]
  refine ⟨fun hs => ?_, fun hs => ?_⟩
  · rw [sum_safe hs, List.sum_ofFn]; rfl
  · rw [sum_unsafe hs]; rfl

/-! ### cases -/

theorem halves : ¬ SumSafe 64 [2 ^ 62, 2 ^ 62, -2 ^ 62] ∧ SumSafe 64 [2 ^ 62, -2 ^ 62, 2 ^ 62] := by
  refine ⟨fun h => ?_, ?_, ?_⟩
  · have := (h.2 2 (by simp)).2
    norm_num at this
  · intro t ht
    simp only [List.mem_cons, List.not_mem_nil, or_false] at ht
    rcases ht with rfl | rfl | rfl <;> constructor <;> norm_num
  · intro k hk
    simp only [List.length_cons, List.length_nil] at hk
    interval_cases k <;> constructor <;> norm_num

/-- **C123**, the order of the terms matters: `(2^31, 2^31, -2^31) · (2^31, 2^31, 2^31)` panics although the result fits into 64 bits; with the entries rearranged it is
returned. -/
theorem c123_order : CMat.dot (CMat.arr ![(lit (2 ^ 31) : Chk 64), lit (2 ^ 31), lit (-2 ^ 31)]) (CMat.arr ![lit (2 ^ 31), lit (2 ^ 31), lit (2 ^ 31)]) = ⟨none⟩ ∧
    CMat.dot (CMat.arr ![(lit (2 ^ 31) : Chk 64), lit (-2 ^ 31), lit (2 ^ 31)]) (CMat.arr ![lit (2 ^ 31), lit (2 ^ 31), lit (2 ^ 31)]) = ⟨some (2 ^ 62)⟩ := by
  constructor <;> rfl

/-- a case for dense products: a 1×2 by 2×1 product of `i8`s, returned and panicking -/
example : (∃ c, Mat.run (Mat.mul ([5, 7].map (lit (w := 8))) ⟨0, (1, 2), (2, 1)⟩ ([11, -3].map lit) ⟨0, (2, 1), (1, 1)⟩) = some c ∧ c.data = [34]) ∧
    Mat.run (Mat.mul ([50, 7].map (lit (w := 8))) ⟨0, (1, 2), (2, 1)⟩ ([11, -3].map lit) ⟨0, (2, 1), (1, 1)⟩) = none := by
  constructor
  · exact ⟨⟨[34], (1, 1), (1, 1)⟩, by rfl, rfl⟩
  · rfl

/-- a case for the bound: 1000 terms with factors up to `2^20` never overflow in 64 bits -/
example (x y : Nat → ℤ) (hx : ∀ k < 1000, |x k| ≤ 2 ^ 20) (hy : ∀ k < 1000, |y k| ≤ 2 ^ 20) : SumSafe 64 (products 1000 x y) :=
  (c123_mul_bound 1000 x y).2 _ _ hx hy (by norm_num)

end Toppo.CheckedProps
