import Verif.Props.Checked
import Verif.Props.SmithRational
set_option linter.unusedVariables false
/-!
# Matrices of `Rational` (C124)

`ok` says which unsigned parts are representable: `u64` is the machine, `fun _ => true` has no overflow.  Entries are in canonical form, as `Rational::new` and the
operators produce them (C12).
-/
namespace Toppo.CheckedProps
open Toppo Toppo.View Toppo.MatrixProps Toppo.Sparse Toppo.RationalProps RChk

variable {ok : Nat → Bool}

/-! ### specification -/

/-- the result `r` of an operation with an `n × m` result: if it is returned, its entries are the canonical representations of the numbers `q i j`; and without
overflow it is returned -/
def ExactOr (ok : Nat → Bool) (n m : Nat) (r : Option (Mat Rational)) (q : Nat → Nat → ℚ) : Prop :=
  (∀ d, r = some d → d.size = (n, m) ∧ ∃ h : Nat → Nat → Rational, Entries d.data d.view n m h ∧ ∀ i < n, ∀ j < m, Canonical (h i j) ∧ val (h i j) = q i j) ∧
  ((∀ x, ok x = true) → ∃ d, r = some d)

/-- the same for a sparse product, whose result is given by its entries -/
def ExactOrS (ok : Nat → Bool) (n m : Nat) (r : Option (Nat → Nat → Option Rational)) (q : Nat → Nat → ℚ) : Prop :=
  (∀ h, r = some h → ∀ i < n, ∀ j < m, ∃ x, h i j = some x ∧ Canonical x ∧ val x = q i j) ∧ ((∀ x, ok x = true) → ∃ h, r = some h)

/-! ### proofs -/

/-- `x` is the number `q`, unless something has overflowed -/
def Is (x : RChk ok) (q : ℚ) : Prop := (∀ r, x.out = some r → Canonical r ∧ val r = q) ∧ ((∀ x, ok x = true) → ∃ r, x.out = some r)

theorem is_lit {r : Rational} (h : Canonical r) : Is (lit r : RChk ok) (val r) :=
  ⟨fun s hs => by cases hs; exact ⟨h, rfl⟩, fun _ => ⟨r, rfl⟩⟩

theorem is_zero : Is (0 : RChk ok) 0 := by
  have := is_lit (ok := ok) SmithF.canonical_zero
  rwa [SmithF.val_zero] at this

theorem is_bin {op : Rational → Rational → Option Rational} {f : ℚ → ℚ → ℚ} {x y : RChk ok} {p q : ℚ} (hx : Is x p) (hy : Is y q)
    (h1 : ∀ a b r, Canonical a → Canonical b → val b = q → op a b = some r → Canonical r ∧ val r = f (val a) (val b))
    (h2 : (∀ x, ok x = true) → ∀ a b, Canonical a → Canonical b → val b = q → ∃ r, op a b = some r) : Is (bin op x y) (f p q) := by
  constructor
  · intro r hr
    simp only [bin, Option.bind_eq_bind, Option.bind_eq_some_iff] at hr
    obtain ⟨a, ha, b, hb, hr⟩ := hr
    obtain ⟨c1, rfl⟩ := hx.1 a ha
    obtain ⟨c2, e⟩ := hy.1 b hb
    have := h1 a b r c1 c2 e hr
    rw [e] at this
    exact this
  · intro ht
    obtain ⟨a, ha⟩ := hx.2 ht
    obtain ⟨b, hb⟩ := hy.2 ht
    obtain ⟨r, hr⟩ := h2 ht a b (hx.1 a ha).1 (hy.1 b hb).1 (hy.1 b hb).2
    exact ⟨r, by simp [bin, ha, hb, hr]⟩

theorem is_add {x y : RChk ok} {p q : ℚ} (hx : Is x p) (hy : Is y q) : Is (x + y) (p + q) :=
  is_bin (f := (· + ·)) hx hy (fun a b r ha hb _ h => add_some ha.1.1 hb.1.1 h) (fun ht a b ha hb _ => by
    rw [show ok = fun _ => true from funext ht]; exact (c12_total a b ha hb).2.1)

theorem is_sub {x y : RChk ok} {p q : ℚ} (hx : Is x p) (hy : Is y q) : Is (x - y) (p - q) :=
  is_bin (f := (· - ·)) hx hy (fun a b r ha hb _ h => sub_some ha.1.1 hb.1.1 h) (fun ht a b ha hb _ => by
    rw [show ok = fun _ => true from funext ht]; exact (c12_total a b ha hb).2.2.1)

theorem is_mul {x y : RChk ok} {p q : ℚ} (hx : Is x p) (hy : Is y q) : Is (x * y) (p * q) :=
  is_bin (f := (· * ·)) hx hy (fun a b r ha hb _ h => mul_some ha.1.1 hb.1.1 h) (fun ht a b ha hb _ => by
    rw [show ok = fun _ => true from funext ht]; exact (c12_total a b ha hb).1)

theorem is_div {x y : RChk ok} {p q : ℚ} (hx : Is x p) (hy : Is y q) (h0 : q ≠ 0) : Is (x / y) (p / q) :=
  is_bin (f := (· / ·)) hx hy
    (fun a b r ha hb e h => div_some ha.1.1 hb.1.1 (fun e' => h0 (by rw [← e]; exact (val_eq_zero hb.1.1).mpr e')) h)
    (fun ht a b ha hb e => by
      rw [show ok = fun _ => true from funext ht]
      have := (c12_total a b ha hb).2.2.2
      rw [← Option.isSome_iff_exists, Option.isSome_iff_ne_none]
      exact fun hh => h0 (by rw [← e]; exact this.mp hh))

theorem is_fold (ts : List (RChk ok)) (qs : List ℚ) (h : List.Forall₂ Is ts qs) : ∀ (s : RChk ok) (q : ℚ), Is s q → Is (ts.foldl (· + ·) s) (q + qs.sum) := by
  induction h with
  | nil => intro s q hs; simpa using hs
  | cons ht _ ih =>
    intro s q hs
    rw [List.foldl_cons, List.sum_cons, ← add_assoc]
    exact ih _ _ (is_add hs ht)

theorem is_sum {ts : List (RChk ok)} {qs : List ℚ} (h : List.Forall₂ Is ts qs) : Is (ts.foldl (· + ·) 0) qs.sum := by
  have := is_fold ts qs h 0 0 is_zero
  rwa [zero_add] at this

theorem exactOr_of {c : Mat (RChk ok)} {n m : Nat} {h : Nat → Nat → RChk ok} {q : Nat → Nat → ℚ} (hs : c.size = (n, m)) (he : Entries c.data c.view n m h)
    (hn : n < 65536) (hm : m < 65536) (hi : ∀ i < n, ∀ j < m, Is (h i j) (q i j)) : ExactOr ok n m (Mat.runR (some c)) q := by
  obtain ⟨a, b⟩ := collect_some RChk.out hs he hn hm
  constructor
  · intro d hd
    have hall : ∀ i < n, ∀ j < m, ∃ r, (h i j).out = some r := by
      intro i hi' j hj'
      by_contra hc
      have : (h i j).out = none := by
        cases e : (h i j).out with
        | none => rfl
        | some r => exact absurd ⟨r, e⟩ hc
      have := b ⟨i, hi', j, hj', this⟩
      rw [show Mat.runR (some c) = none from this] at hd
      cases hd
    let g : Nat → Nat → Rational := fun i j => ((h i j).out).getD Rational.zero
    have hg : ∀ i < n, ∀ j < m, (h i j).out = some (g i j) := by
      intro i hi' j hj'
      obtain ⟨r, hr⟩ := hall i hi' j hj'
      simp [g, hr]
    obtain ⟨d', h1, h2, h3⟩ := a g hg
    rw [show Mat.runR (some c) = some d' from h1] at hd
    cases hd
    exact ⟨h2, g, h3, fun i hi' j hj' => (hi i hi' j hj').1 _ (hg i hi' j hj')⟩
  · intro ht
    obtain ⟨d, h1, -⟩ := a (fun i j => ((h i j).out).getD Rational.zero) (fun i hi' j hj' => by
      obtain ⟨r, hr⟩ := (hi i hi' j hj').2 ht
      simp [hr])
    exact ⟨d, h1⟩

variable {mem mem' : List Rational} {v v' : View} {n l m : Nat} {f g : Nat → Nat → Rational}

/-- **C124**, sums and differences of matrices of the same size. -/
theorem c124_add_sub (hf : Entries mem v n m f) (hg : Entries mem' v' n m g) (hn : n < 65536) (hm : m < 65536)
    (cf : ∀ i < n, ∀ j < m, Canonical (f i j)) (cg : ∀ i < n, ∀ j < m, Canonical (g i j)) :
    ExactOr ok n m (Mat.runR (Mat.zipWith (· + ·) (mem.map (lit (ok := ok))) v (mem'.map lit) v')) (fun i j => val (f i j) + val (g i j)) ∧
    ExactOr ok n m (Mat.runR (Mat.zipWith (· - ·) (mem.map (lit (ok := ok))) v (mem'.map lit) v')) (fun i j => val (f i j) - val (g i j)) := by
  constructor
  · obtain ⟨c, h1, h2, h3⟩ := (c31_add_sub (K := RChk ok) (· + ·) _ _ v v' n m n m _ _ (entries_map lit hf) (entries_map lit hg) hn hm).2 rfl
    rw [h1]
    exact exactOr_of h2 h3 hn hm (fun i hi j hj => is_add (is_lit (cf i hi j hj)) (is_lit (cg i hi j hj)))
  · obtain ⟨c, h1, h2, h3⟩ := (c31_add_sub (K := RChk ok) (· - ·) _ _ v v' n m n m _ _ (entries_map lit hf) (entries_map lit hg) hn hm).2 rfl
    rw [h1]
    exact exactOr_of h2 h3 hn hm (fun i hi j hj => is_sub (is_lit (cf i hi j hj)) (is_lit (cg i hi j hj)))

/-- **C124**, multiplication and division by a number (division by zero panics, C15). -/
theorem c124_scale (hf : Entries mem v n m f) (hn : n < 65536) (hm : m < 65536) (cf : ∀ i < n, ∀ j < m, Canonical (f i j)) {c : Rational} (hc : Canonical c) :
    ExactOr ok n m (Mat.runR (Mat.smul (mem.map (lit (ok := ok))) v (lit c))) (fun i j => val (f i j) * val c) ∧
    (val c ≠ 0 → ExactOr ok n m (Mat.runR (Mat.sdiv (mem.map (lit (ok := ok))) v (lit c))) (fun i j => val (f i j) / val c)) ∧
    (val c = 0 → 0 < n → 0 < m → Mat.runR (Mat.sdiv (mem.map (lit (ok := ok))) v (lit c)) = none) := by
  refine ⟨?_, fun h0 => ?_, fun h0 hn0 hm0 => ?_⟩
  · obtain ⟨d, h1, h2, h3⟩ := c31_smul (K := RChk ok) _ v n m _ (lit c) (entries_map lit hf) hn hm
    rw [h1]
    exact exactOr_of h2 h3 hn hm (fun i hi j hj => is_mul (is_lit (cf i hi j hj)) (is_lit hc))
  · obtain ⟨d, h1, h2, h3⟩ := c31_sdiv (K := RChk ok) _ v n m _ (lit c) (entries_map lit hf) hn hm
    rw [h1]
    exact exactOr_of h2 h3 hn hm (fun i hi j hj => is_div (is_lit (cf i hi j hj)) (is_lit hc) h0)
  · obtain ⟨d, h1, h2, h3⟩ := c31_sdiv (K := RChk ok) _ v n m _ (lit c) (entries_map lit hf) hn hm
    rw [h1]
    refine (collect_some RChk.out h2 h3 hn hm).2 ⟨0, hn0, 0, hm0, ?_⟩
    have e : c = Rational.zero := canonical_ext hc SmithF.canonical_zero (by rw [h0, SmithF.val_zero])
    subst e
    show Rational.div ok (f 0 0) Rational.zero = none
    simp [Rational.div]

/-- **C124**, products. -/
theorem c124_mul (hf : Entries mem v n l f) (hg : Entries mem' v' l m g) (hv : v.Fits) (hv' : v'.Fits) (hn : 0 < n) (hl : 0 < l) (hm : 0 < m)
    (cf : ∀ i < n, ∀ j < l, Canonical (f i j)) (cg : ∀ i < l, ∀ j < m, Canonical (g i j)) :
    ExactOr ok n m (Mat.runR (Mat.mul (mem.map (lit (ok := ok))) v (mem'.map lit) v')) (fun i j => ∑ k ∈ Finset.range l, val (f i k) * val (g k j)) := by
  have hn' : n < 65536 := by have := hv.1; rw [hf.1] at this; exact this
  have hm' : m < 65536 := by have := hv'.2.1; rw [hg.1] at this; exact this
  obtain ⟨c, h1, h2, h3⟩ := (mul_fold (K := RChk ok) _ _ v v' n l l m _ _ (entries_map lit hf) (entries_map lit hg) hv hv' hn hl hl hm).2 rfl
  rw [h1]
  refine exactOr_of h2 h3 hn' hm' (fun i hi j hj => ?_)
  have e : ∑ k ∈ Finset.range l, val (f i k) * val (g k j) = ((List.range l).map (fun k => val (f i k) * val (g k j))).sum := by
    rw [List.sum_eq_foldl, foldl_sum]
  rw [e]
  refine is_sum ?_
  rw [List.forall₂_map_left_iff, List.forall₂_map_right_iff, List.forall₂_same]
  intro k hk
  have hk := List.mem_range.mp hk
  exact is_mul (is_lit (cf i hi k hk)) (is_lit (cg k hk j hj))

/-! ### sparse products -/

theorem rmul_comm (x y : RChk ok) : x * y = y * x := by
  obtain ⟨_ | x⟩ := x
  · obtain ⟨_ | y⟩ := y <;> rfl
  · obtain ⟨_ | y⟩ := y
    · rfl
    · refine congrArg RChk.mk ?_
      show Rational.mul ok x y = Rational.mul ok y x
      unfold Rational.mul
      rw [Nat.mul_comm x.numerator, Nat.mul_comm x.denominator, Bool.beq_comm]

/-- the number stored at a position, or zero -/
def num (x : Option Rational) : ℚ := (x.map val).getD 0

theorem is_pairs (l : Nat) (x y : Nat → Option Rational) (hx : ∀ k < l, ∀ r, x k = some r → Canonical r) (hy : ∀ k < l, ∀ r, y k = some r → Canonical r) :
    Is (((pairs l (fun k => (x k).map (lit (ok := ok))) (fun k => (y k).map lit)).map (fun p => p.1 * p.2)).foldl (· + ·) 0) (∑ k ∈ Finset.range l, num (x k) * num (y k)) := by
  have e : ∑ k ∈ Finset.range l, num (x k) * num (y k) = ((pairs l x y).map (fun p => val p.1 * val p.2)).sum := by
    unfold pairs
    clear hx hy
    induction l with
    | zero => rfl
    | succ l ih =>
      rw [List.range_succ, List.filterMap_append, List.map_append, List.sum_append, Finset.sum_range_succ, ih]
      congr 1
      cases h : x l <;> cases h' : y l <;> simp [h, h', num]
  rw [e]
  refine is_sum ?_
  have : (pairs l (fun k => (x k).map (lit (ok := ok))) (fun k => (y k).map lit)).map (fun p => p.1 * p.2) = (pairs l x y).map (fun p => lit p.1 * lit p.2) := by
    unfold pairs
    rw [List.map_filterMap, List.map_filterMap]
    apply List.filterMap_congr
    intro k _
    beta_reduce
    cases x k <;> cases y k <;> rfl
  rw [this, List.forall₂_map_left_iff, List.forall₂_map_right_iff, List.forall₂_same]
  intro p hp
  obtain ⟨k, hk, hp⟩ := List.mem_filterMap.mp hp
  have hk := List.mem_range.mp hk
  obtain ⟨a, ha, hp⟩ := Option.bind_eq_some_iff.mp hp
  obtain ⟨b, hb, rfl⟩ := Option.map_eq_some_iff.mp hp
  exact is_mul (is_lit (hx k hk a ha)) (is_lit (hy k hk b hb))

theorem exactOrS_of {h : Nat → Nat → Option (RChk ok)} {q : Nat → Nat → ℚ} (he : ∀ i < n, ∀ j < m, ∃ x, h i j = some x ∧ Is x (q i j)) :
    ExactOrS ok n m (Sparse.runR n m (some h)) q := by
  constructor
  · intro r hr i hi j hj
    obtain ⟨x, hx, hI⟩ := he i hi j hj
    rw [Sparse.runR, Sparse.collect, Option.bind_eq_bind, Option.bind_some, forEntries] at hr
    split at hr
    · rename_i hall
      cases hr
      have := List.all_eq_true.mp hall i (List.mem_range.mpr hi)
      have := List.all_eq_true.mp this j (List.mem_range.mpr hj)
      obtain ⟨y, hy⟩ := Option.isSome_iff_exists.mp this
      refine ⟨y, hy, hI.1 y ?_⟩
      rw [hx] at hy
      exact hy
    · cases hr
  · intro ht
    refine ⟨_, forEntries_some (g := fun i j => (((h i j).getD 0).out).getD Rational.zero) (fun i j hi hj => ?_)⟩
    obtain ⟨x, hx, hI⟩ := he i hi j hj
    obtain ⟨r, hr⟩ := hI.2 ht
    rw [hx]
    simp [hr]

/-- **C124**, sparse * sparse. -/
theorem c124_sparse_sparse {a b : SMat (RChk ok)} {f g : Nat → Nat → Option Rational} (ha : Represents a n l (fun i j => (f i j).map lit))
    (hb : Represents b l m (fun i j => (g i j).map lit)) (cf : ∀ i < n, ∀ j < l, ∀ r, f i j = some r → Canonical r)
    (cg : ∀ i < l, ∀ j < m, ∀ r, g i j = some r → Canonical r) :
    ExactOrS ok n m (Sparse.runR n m (a.mul b)) (fun i j => ∑ k ∈ Finset.range l, num (f i k) * num (g k j)) := by
  have he := fun i j hi hj => sparse_fold rmul_comm ha hb (i := i) (j := j) hi hj
  have e : a.mul b = some (fun i j => a.mulEntry b i j) := by
    rw [SMat.mul, ha.size, hb.size]
    simp only [ne_eq, not_true, if_false]
    exact forEntries_some he
  rw [e]
  exact exactOrS_of (fun i hi j hj => ⟨_, he i j hi hj, is_pairs l _ _ (fun k hk => cf i hi k hk) (fun k hk => cg k hk j hj)⟩)

theorem mulDense_rat {a : SMat (RChk ok)} {f : Nat → Nat → Option Rational} (ha : Represents a n l (fun i j => (f i j).map lit)) (g : Nat → Nat → Rational) {i : Nat}
    (hi : i < n) (j : Nat) : (do let l ← a.rowIter i
                                 return l.foldl (fun s p => s + p.2 * lit (g p.1 j)) 0 : Option (RChk ok)) =
      some (((pairs l (fun k => (f i k).map (lit (ok := ok))) (fun k => (some (g k j)).map lit)).map (fun p => p.1 * p.2)).foldl (· + ·) 0) := by
  rw [ha.row i, if_pos hi]
  simp only [Option.bind_eq_bind, Option.bind_some]
  exact congrArg some (dense_fold (K := RChk ok) l (fun k => (f i k).map lit) (fun k => lit (g k j)) i 0)

/-- **C124**, sparse * dense. -/
theorem c124_sparse_dense {a : SMat (RChk ok)} {f : Nat → Nat → Option Rational} (ha : Represents a n l (fun i j => (f i j).map lit)) {g : Nat → Nat → Rational}
    (cf : ∀ i < n, ∀ j < l, ∀ r, f i j = some r → Canonical r) (cg : ∀ i < l, ∀ j < m, Canonical (g i j)) :
    ExactOrS ok n m (Sparse.runR n m (a.mulDense (l, m) (fun i j => lit (g i j)))) (fun i j => ∑ k ∈ Finset.range l, num (f i k) * val (g k j)) := by
  have he : ∀ i j, i < n → j < m → _ := fun i j hi _ => mulDense_rat ha g hi j
  rw [SMat.mulDense, ha.size]
  simp only [ne_eq, not_true, if_false]
  rw [forEntries_some he]
  exact exactOrS_of (fun i hi j hj => ⟨_, he i j hi hj, is_pairs l _ _ (fun k hk => cf i hi k hk) (fun k hk r hr => by cases hr; exact cg k hk j hj)⟩)

/-- **C124**, dense * sparse. -/
theorem c124_dense_sparse {b : SMat (RChk ok)} {f : Nat → Nat → Option Rational} (hb : Represents b l m (fun i j => (f i j).map lit)) {g : Nat → Nat → Rational}
    (cf : ∀ i < l, ∀ j < m, ∀ r, f i j = some r → Canonical r) (cg : ∀ i < n, ∀ j < l, Canonical (g i j)) :
    ExactOrS ok n m (Sparse.runR n m (denseMul (n, l) (fun i j => lit (g i j)) b)) (fun i j => ∑ k ∈ Finset.range l, val (g i k) * num (f k j)) := by
  have ht : Represents b.transpose m l (fun i j => (f j i).map lit) := c40_transpose hb
  have he : ∀ i j, i < m → j < n → _ := fun i j hi _ => mulDense_rat (f := fun i j => f j i) ht (fun i j => g j i) hi j
  rw [denseMul, hb.size]
  simp only [ne_eq, not_true, if_false]
  rw [SMat.mulDense, ht.size]
  simp only [ne_eq, not_true, if_false]
  rw [forEntries_some he]
  simp only [mul_comm (val _)]
  exact exactOrS_of (fun i hi j hj => ⟨_, he j i hj hi, is_pairs l _ _ (fun k hk => cf k hk j hj) (fun k hk r hr => by cases hr; exact cg i hi k hk)⟩)

/-! ### fixed-size vectors and matrices -/

/-- **C124**, fixed-size vectors: entry by entry, the exact result in canonical form, unless something overflows. -/
theorem c124_const_vector (x y : Fin n → Rational) (c : Rational) (hx : ∀ i, Canonical (x i)) (hy : ∀ i, Canonical (y i)) (hc : Canonical c) :
    let X : List (RChk ok) := CMat.arr (fun i => lit (x i)); let Y : List (RChk ok) := CMat.arr (fun i => lit (y i))
    (∃ z, CMat.vAdd X Y = CMat.arr z ∧ ∀ i, Is (z i) (val (x i) + val (y i))) ∧ (∃ z, CMat.vSub X Y = CMat.arr z ∧ ∀ i, Is (z i) (val (x i) - val (y i))) ∧
    (∃ z, CMat.vMul X (lit c) = CMat.arr z ∧ ∀ i, Is (z i) (val (x i) * val c)) ∧
    (val c ≠ 0 → ∃ z, CMat.vDiv X (lit c) = CMat.arr z ∧ ∀ i, Is (z i) (val (x i) / val c)) ∧
    Is (CMat.dot X Y) (∑ i, val (x i) * val (y i)) := by
  intro X Y
  refine ⟨⟨_, CMat.zipAssign_arr _ _ _, fun i => is_add (is_lit (hx i)) (is_lit (hy i))⟩, ⟨_, CMat.zipAssign_arr _ _ _, fun i => is_sub (is_lit (hx i)) (is_lit (hy i))⟩,
    ⟨fun i => lit (x i) * lit c, ?_, fun i => is_mul (is_lit (hx i)) (is_lit hc)⟩, fun h0 => ⟨fun i => lit (x i) / lit c, ?_, fun i => is_div (is_lit (hx i)) (is_lit hc) h0⟩, ?_⟩
  · simp only [CMat.vMul, X, CMat.arr, List.map_ofFn]; rfl
  · simp only [CMat.vDiv, X, CMat.arr, List.map_ofFn]; rfl
  · have h : List.zipWith (fun a b => a * b) X Y = (List.finRange n).map (fun i => (lit (x i) : RChk ok) * lit (y i)) := by
      apply List.ext_getElem <;> simp [X, Y, CMat.arr]
    rw [CMat.dot, h, ← List.sum_ofFn, List.ofFn_eq_map]
    refine is_sum ?_
    rw [List.forall₂_map_left_iff, List.forall₂_map_right_iff, List.forall₂_same]
    exact fun i _ => is_mul (is_lit (hx i)) (is_lit (hy i))

/-- **C124**, fixed-size matrices. -/
theorem c124_const_matrix (A B : Matrix (Fin n) (Fin m) Rational) (c : Rational) (hA : ∀ i j, Canonical (A i j)) (hB : ∀ i j, Canonical (B i j)) (hc : Canonical c) :
    let X : List (List (RChk ok)) := CMat.rows (fun i j => lit (A i j)); let Y : List (List (RChk ok)) := CMat.rows (fun i j => lit (B i j))
    (∃ Z : Matrix (Fin n) (Fin m) (RChk ok), CMat.mAdd X Y = CMat.rows Z ∧ ∀ i j, Is (Z i j) (val (A i j) + val (B i j))) ∧
    (∃ Z : Matrix (Fin n) (Fin m) (RChk ok), CMat.mSub X Y = CMat.rows Z ∧ ∀ i j, Is (Z i j) (val (A i j) - val (B i j))) ∧
    (∃ Z : Matrix (Fin n) (Fin m) (RChk ok), CMat.mMul X (lit c) = CMat.rows Z ∧ ∀ i j, Is (Z i j) (val (A i j) * val c)) ∧
    (val c ≠ 0 → ∃ Z : Matrix (Fin n) (Fin m) (RChk ok), CMat.mDiv X (lit c) = CMat.rows Z ∧ ∀ i j, Is (Z i j) (val (A i j) / val c)) := by
  intro X Y
  refine ⟨⟨_, CMat.flatZipAssign_rows _ _ _, fun i j => is_add (is_lit (hA i j)) (is_lit (hB i j))⟩,
    ⟨_, CMat.flatZipAssign_rows _ _ _, fun i j => is_sub (is_lit (hA i j)) (is_lit (hB i j))⟩,
    ⟨fun i j => lit (A i j) * lit c, ?_, fun i j => is_mul (is_lit (hA i j)) (is_lit hc)⟩,
    fun h0 => ⟨fun i j => lit (A i j) / lit c, ?_, fun i j => is_div (is_lit (hA i j)) (is_lit hc) h0⟩⟩
  · simp only [CMat.mMul, X, CMat.rows, List.map_ofFn, Function.comp_def]
  · simp only [CMat.mDiv, X, CMat.rows, List.map_ofFn, Function.comp_def]

/-- **C124**, the negative has the right value, but it is in canonical form only where the entry is not zero: the negative of a zero entry is not equal to zero
(the derived `==` compares the sign). -/
theorem c124_neg (x : Fin n → Rational) (hx : ∀ i, Canonical (x i)) :
    ∃ z : Fin n → Rational, CMat.vNeg (CMat.arr (fun i => (lit (x i) : RChk ok))) = CMat.arr (fun i => lit (z i)) ∧
      ∀ i, val (z i) = -val (x i) ∧ (Canonical (z i) ↔ val (x i) ≠ 0) := by
  refine ⟨fun i => (x i).neg, by simp only [CMat.vNeg, CMat.arr, List.map_ofFn]; rfl, fun i => ⟨val_neg _, fun h h0 => ?_, fun h0 => ⟨(hx i).1, fun e => ?_⟩⟩⟩
  · have e := (val_eq_zero (hx i).1.1).mp h0
    have h1 := (hx i).2 e
    have h2 := h.2 e
    simp only [Rational.neg, h1, Bool.not_true] at h2
    cases h2
  · exact absurd ((val_eq_zero (hx i).1.1).mpr e) h0

/-! ### integers -/

/-- an integer as a `Rational` -/
def ofInt (z : ℤ) : Rational := ⟨z.natAbs, 1, decide (0 ≤ z)⟩

/-- representable as an integral `Rational` -/
def Fits64 (z : ℤ) : Prop := |z| < 2 ^ 64

theorem natAbs_u64 {z : ℤ} (h : Fits64 z) : u64 z.natAbs = true := by
  have : (z.natAbs : ℤ) < 2 ^ 64 := by rw [Int.natCast_natAbs]; exact h
  simp only [u64, decide_eq_true_eq]
  exact_mod_cast this

theorem uck_u64 {n : Nat} {z : ℤ} (h : Fits64 z) (e : n = z.natAbs) : uck u64 n = some n := by
  rw [uck, e, if_pos (natAbs_u64 h)]

theorem optimize_int (n : Nat) (s : Bool) : Rational.optimize ⟨n, 1, s⟩ = some ⟨n, 1, if n = 0 then true else s⟩ := by
  unfold Rational.optimize
  by_cases h : n = 0
  · simp [h]
  · simp [h, udiv]

theorem canonical_int (z : ℤ) : Canonical (ofInt z) := by
  refine ⟨⟨Nat.one_pos, Nat.coprime_one_right _⟩, fun h => ?_⟩
  have : z = 0 := Int.natAbs_eq_zero.mp h
  simp [ofInt, this]

theorem cast_natAbs (z : ℤ) : (z.natAbs : ℚ) = |(z : ℚ)| := by
  rw [← Int.cast_abs, Int.abs_eq_natAbs]; rfl

theorem val_int (z : ℤ) : val (ofInt z) = z := by
  unfold val ofInt
  rw [cast_natAbs]
  by_cases h : 0 ≤ z
  · have : (0 : ℚ) ≤ z := by exact_mod_cast h
    simp [h, abs_of_nonneg this]
  · have : (z : ℚ) ≤ 0 := by exact_mod_cast (by omega : z ≤ 0)
    simp [h, abs_of_nonpos this]

theorem u64_one : uck u64 (1 * 1) = some 1 := by decide

theorem mul_int {a b : ℤ} (h : Fits64 (a * b)) : Rational.mul u64 (ofInt a) (ofInt b) = some (ofInt (a * b)) := by
  have : ∃ r, Rational.mul u64 (ofInt a) (ofInt b) = some r := by
    unfold Rational.mul ofInt
    simp only [Option.bind_eq_bind, ← Int.natAbs_mul]
    rw [uck_u64 h rfl, Option.bind_some, u64_one, Option.bind_some, optimize_int]
    exact ⟨_, rfl⟩
  obtain ⟨r, hr⟩ := this
  obtain ⟨h1, h2⟩ := mul_some (canonical_int a).1.1 (canonical_int b).1.1 hr
  rw [hr, canonical_ext h1 (canonical_int (a * b)) (by rw [h2, val_int, val_int, val_int]; push_cast; rfl)]

theorem cmp_int {a b : ℤ} (ha : Fits64 a) (hb : Fits64 b) (h : a ≠ 0 ∨ b ≠ 0) : ∃ o, Rational.cmp u64 (ofInt a).abs (ofInt b).abs = some o := by
  unfold Rational.cmp ofInt Rational.abs
  have hg : Nat.gcd a.natAbs b.natAbs ≠ 0 := by
    rw [Ne, Nat.gcd_eq_zero_iff, Int.natAbs_eq_zero, Int.natAbs_eq_zero]; tauto
  have hle : ∀ {z : ℤ}, Fits64 z → ∀ g, uck u64 (z.natAbs / g * 1) = some (z.natAbs / g) := by
    intro z hz g
    have := natAbs_u64 hz
    simp only [u64, decide_eq_true_eq] at this
    rw [Nat.mul_one, uck, if_pos]
    simp only [u64, decide_eq_true_eq]
    exact lt_of_le_of_lt (Nat.div_le_self _ _) this
  simp only [Option.bind_eq_bind, udiv, hg, if_false, Option.bind_some, Nat.gcd_self, Nat.one_ne_zero, Nat.div_self Nat.one_pos, hle ha, hle hb]
  exact ⟨_, rfl⟩

theorem add_int {a b : ℤ} (ha : Fits64 a) (hb : Fits64 b) (h : Fits64 (a + b)) : Rational.add u64 (ofInt a) (ofInt b) = some (ofInt (a + b)) := by
  have : ∃ r, Rational.add u64 (ofInt a) (ofInt b) = some r := by
    unfold Rational.add
    have key : ∃ p, Rational.addParts u64 (ofInt a) (ofInt b) = some p := by
      unfold Rational.addParts
      simp only [show (ofInt a).denominator = 1 from rfl, show (ofInt b).denominator = 1 from rfl, show (ofInt a).numerator = a.natAbs from rfl,
        show (ofInt b).numerator = b.natAbs from rfl, show (ofInt a).sign = decide (0 ≤ a) from rfl, show (ofInt b).sign = decide (0 ≤ b) from rfl,
        Nat.gcd_self, udiv, Nat.one_ne_zero, if_false, Nat.div_self Nat.one_pos, Option.bind_eq_bind, Option.bind_some, Nat.mul_one, Nat.one_mul,
        uck_u64 ha rfl, uck_u64 hb rfl]
      split
      · rename_i hs
        have e : a.natAbs + b.natAbs = (a + b).natAbs := by
          have : (0 ≤ a ↔ 0 ≤ b) := by simpa using hs
          by_cases h0 : 0 ≤ a
          · have := this.mp h0; omega
          · have := mt this.mpr h0; omega
        rw [uck_u64 h e]
        exact ⟨_, rfl⟩
      · rename_i hs
        have hne : a ≠ 0 ∨ b ≠ 0 := by
          by_contra hc
          push Not at hc
          simp [hc.1, hc.2] at hs
        obtain ⟨o, ho⟩ := cmp_int ha hb hne
        have hc' := (cmp_some (by simp [Rational.abs, ofInt]) (by simp [Rational.abs, ofInt]) ho)
        rw [ho, Option.bind_some]
        have hv : ∀ z : ℤ, val (ofInt z).abs = (z.natAbs : ℚ) := by
          intro z; rw [val_abs, val_int, cast_natAbs]
        rw [hv, hv] at hc'
        have hcmp := hc'.2.2
        split
        · rename_i hlt
          have : b.natAbs ≤ a.natAbs := by
            by_contra hh
            push Not at hh
            have : ((a.natAbs : ℚ)) < b.natAbs := by exact_mod_cast hh
            exact hlt (hcmp.trans (compare_lt_iff_lt.mpr this))
          rw [usub, if_pos this]
          exact ⟨_, rfl⟩
        · rename_i hlt
          have hlt : o = .lt := by simpa using hlt
          rw [hlt] at hcmp
          have : ((a.natAbs : ℚ)) < b.natAbs := compare_lt_iff_lt.mp hcmp.symm
          have : a.natAbs ≤ b.natAbs := by exact_mod_cast this.le
          rw [usub, if_pos this]
          exact ⟨_, rfl⟩
    obtain ⟨p, hp⟩ := key
    rw [hp]
    simp only [Option.bind_eq_bind, Option.bind_some, show (ofInt a).denominator = 1 from rfl, show (ofInt b).denominator = 1 from rfl, Nat.gcd_self, udiv, Nat.one_ne_zero,
      if_false, Nat.div_self Nat.one_pos, u64_one, optimize_int]
    exact ⟨_, rfl⟩
  obtain ⟨r, hr⟩ := this
  obtain ⟨h1, h2⟩ := add_some (canonical_int a).1.1 (canonical_int b).1.1 hr
  rw [hr, canonical_ext h1 (canonical_int (a + b)) (by rw [h2, val_int, val_int, val_int]; push_cast; rfl)]

theorem fold_int (ts : List ℤ) : ∀ s : ℤ, Fits64 s → (∀ t ∈ ts, Fits64 t) → (∀ k ≤ ts.length, Fits64 (s + (ts.take k).sum)) →
    (ts.map (fun t => (lit (ofInt t) : RChk u64))).foldl (· + ·) (lit (ofInt s)) = lit (ofInt (s + ts.sum)) := by
  induction ts with
  | nil => intro s _ _ _; simp
  | cons t ts ih =>
    intro s hs h1 h2
    have e2 : (lit (ofInt s) : RChk u64) + lit (ofInt t) = lit (ofInt (s + t)) :=
      congrArg RChk.mk (add_int hs (h1 t (List.mem_cons_self ..)) (by simpa using h2 1 (by simp)))
    rw [List.map_cons, List.foldl_cons, e2, ih (s + t) (by simpa using h2 1 (by simp)) (fun u hu => h1 u (List.mem_cons_of_mem _ hu)) (fun k hk => ?_)]
    · rw [List.sum_cons, add_assoc]
    · have := h2 (k + 1) (by simpa using hk)
      rwa [List.take_succ_cons, List.sum_cons, ← add_assoc] at this

/-- **C124**, integers: scalar products of integral entries are returned on the machine if all terms and all partial sums are smaller than `2^64` in absolute value. -/
theorem c124_integers (x y : Fin n → ℤ) (h1 : ∀ i, |x i * y i| < 2 ^ 64) (h2 : ∀ k ≤ n, |((List.ofFn fun i => x i * y i).take k).sum| < 2 ^ 64) :
    CMat.dot (CMat.arr (fun i => (lit (ofInt (x i)) : RChk u64))) (CMat.arr (fun i => lit (ofInt (y i)))) = lit (ofInt (∑ i, x i * y i)) := by
  have h : List.zipWith (fun a b => a * b) (CMat.arr (fun i => (lit (ofInt (x i)) : RChk u64))) (CMat.arr (fun i => lit (ofInt (y i)))) =
      (List.ofFn fun i => x i * y i).map (fun t => (lit (ofInt t) : RChk u64)) := by
    rw [List.map_ofFn]
    apply List.ext_getElem
    · simp [CMat.arr]
    · intro i h1' h2'
      simp only [CMat.arr, List.getElem_zipWith, List.getElem_ofFn, Function.comp]
      exact congrArg RChk.mk (mul_int (h1 _))
  have hz : (0 : RChk u64) = lit (ofInt 0) := rfl
  rw [CMat.dot, h, hz, fold_int _ 0 (by norm_num [Fits64]) ?_ ?_, zero_add, List.sum_ofFn]
  · intro t ht
    obtain ⟨i, rfl⟩ := (List.mem_ofFn' _ _).mp ht
    exact h1 i
  · intro k hk
    rw [zero_add]
    exact h2 k (by simpa using hk)

/-- a case: `(3, -2) · (5, 7) = 1` -/
example : CMat.dot (CMat.arr ![(lit (ofInt 3) : RChk u64), lit (ofInt (-2))]) (CMat.arr ![lit (ofInt 5), lit (ofInt 7)]) = lit (ofInt 1) := by rfl

/-- a case on the machine: `(1/2, 1/3) · (1/2, -3/4) = 0` is returned -/
example : CMat.dot (CMat.arr ![(lit ⟨1, 2, true⟩ : RChk u64), lit ⟨1, 3, true⟩]) (CMat.arr ![lit ⟨1, 2, true⟩, lit ⟨3, 4, false⟩]) = lit Rational.zero := by
  rfl

/-- a case of an overflow: `1/(2^32) * 1/(2^32)` panics -/
example : CMat.dot (CMat.arr ![(lit ⟨1, 2 ^ 32, true⟩ : RChk u64)]) (CMat.arr ![lit ⟨1, 2 ^ 32, true⟩]) = ⟨none⟩ := by
  rfl

/-- a case of a dense product -/
example : ∃ c, Mat.runR (Mat.mul ([⟨1, 2, true⟩, ⟨1, 3, true⟩].map (lit (ok := u64))) ⟨0, (1, 2), (2, 1)⟩ ([⟨1, 2, true⟩, ⟨3, 1, false⟩].map lit) ⟨0, (2, 1), (1, 1)⟩) = some c ∧
    c.data = [⟨3, 4, false⟩] := ⟨⟨[⟨3, 4, false⟩], (1, 1), (1, 1)⟩, by rfl, rfl⟩

end Toppo.CheckedProps
