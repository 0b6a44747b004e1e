import Verif.Proof.FloatNear
import Verif.Props.FloatMul
import Verif.Props.Sparse
set_option linter.unusedVariables false
/-!
# Products of `SparseMatrix<f64>` (C122)

`f`, `g` give the stored entries (`none`: nothing is stored); `value f i k` is the stored entry or zero.
-/
namespace Toppo.Sparse
variable {K : Type}

/-! ### what the loops compute, without any law of arithmetic except commutativity of the product -/

/-- the terms that are multiplied: positions stored on both sides -/
def pairs (l : Nat) (x y : Nat → Option K) : List (K × K) := (List.range l).filterMap (fun k => (x k).bind (fun a => (y k).map (fun b => (a, b))))

theorem lookup_none {l : List (Nat × K)} {k : Nat} (h : ∀ p ∈ l, p.1 ≠ k) : l.lookup k = none := by
  rw [List.lookup_eq_none_iff]
  intro p hp
  simpa using fun e : k = p.1 => h p hp e.symm

theorem lookup_ne {l : List (Nat × K)} {k j : Nat} {v : K} (h : k ≠ j) : ((j, v) :: l).lookup k = l.lookup k := by
  have : (k == j) = false := by simpa using h
  rw [List.lookup_cons, this]

theorem range_split {N a : Nat} (h : a < N) : List.range N = List.range a ++ a :: List.range' (a + 1) (N - (a + 1)) := by
  have := List.range'_append_1 (s := 0) (m := a) (n := N - (a + 1) + 1)
  rw [Nat.zero_add, show a + (N - (a + 1) + 1) = N by omega, List.range'_succ] at this
  rw [List.range_eq_range', List.range_eq_range']
  exact this.symm

theorem filterMap_none {α β : Type} {l : List α} {F : α → Option β} (h : ∀ x ∈ l, F x = none) : l.filterMap F = [] := List.filterMap_eq_nil_iff.mpr h

theorem filterMap_first {β : Type} {N a : Nat} (h : a < N) {F F' : Nat → Option β} {x : β} (h0 : ∀ k < a, F k = none) (ha : F a = some x)
    (h0' : ∀ k ≤ a, F' k = none) (he : ∀ k, a < k → F k = F' k) : (List.range N).filterMap F = x :: (List.range N).filterMap F' := by
  rw [range_split h, List.filterMap_append, List.filterMap_append, filterMap_none (fun k hk => h0 k (List.mem_range.mp hk)),
    filterMap_none (fun k hk => h0' k (List.mem_range.mp hk).le), List.filterMap_cons, List.filterMap_cons, ha, h0' a le_rfl]
  simp only [List.nil_append, List.cons.injEq, true_and]
  refine List.filterMap_congr (fun k hk => he k ?_)
  have := List.mem_range'_1.mp hk
  omega

theorem merge_pairs [Add K] [Mul K] (hc : ∀ x y : K, x * y = y * x) (N : Nat) : ∀ (d : Nat) (l1 l2 : List (Nat × K)) (k2 : Nat) (v2 s : K), l1.length + l2.length = d →
    l1.Pairwise (fun p q => p.1 < q.1) → ((k2, v2) :: l2).Pairwise (fun p q => p.1 < q.1) → (∀ p ∈ l1, p.1 < N) → (∀ p ∈ (k2, v2) :: l2, p.1 < N) →
    merge s l1 k2 v2 l2 = ((pairs N (fun k => l1.lookup k) (fun k => ((k2, v2) :: l2).lookup k)).map (fun p => p.1 * p.2)).foldl (· + ·) s := by
  intro d
  induction d using Nat.strong_induction_on with
  | _ d ih =>
    intro l1 l2 k2 v2 s hd h1 h2 b1 b2
    cases l1 with
    | nil => rw [merge, pairs, filterMap_none (by simp)]; rfl
    | cons p rest =>
      obtain ⟨k1, v1⟩ := p
      rw [List.length_cons] at hd
      have h1' := List.pairwise_cons.mp h1
      have h2' := List.pairwise_cons.mp h2
      have b1' : ∀ p ∈ rest, p.1 < N := fun p hp => b1 p (List.mem_cons_of_mem _ hp)
      have hk1 : k1 < N := b1 (k1, v1) (List.mem_cons_self ..)
      rw [merge]
      split
      · rename_i e
        subst e
        rw [ih _ (by omega) rest l2 k1 v2 _ rfl h1'.2 h2 b1' b2]
        have e1 : pairs N (fun k => ((k1, v1) :: rest).lookup k) (fun k => ((k1, v2) :: l2).lookup k) =
            (v1, v2) :: pairs N (fun k => rest.lookup k) (fun k => ((k1, v2) :: l2).lookup k) := by
          have hr : ∀ k ≤ k1, rest.lookup k = none := fun k hk => lookup_none (fun p hp => by have := h1'.1 p hp; simp at this; omega)
          refine filterMap_first hk1 (fun k hk => ?_) ?_ (fun k hk => ?_) (fun k hk => ?_)
          · beta_reduce; rw [lookup_ne (l := rest) (by omega : k ≠ k1), hr k hk.le]; rfl
          · beta_reduce; rw [List.lookup_cons_self, List.lookup_cons_self]; rfl
          · beta_reduce; rw [hr k hk]; rfl
          · beta_reduce; rw [lookup_ne (l := rest) (by omega : k ≠ k1)]
        rw [e1]; rfl
      · split
        · rename_i hne hgt
          rw [ih _ (by omega) l2 rest k1 v1 s rfl h2'.2 h1 (fun p hp => b2 p (List.mem_cons_of_mem _ hp)) b1]
          congr 1
          unfold pairs
          rw [List.map_filterMap, List.map_filterMap]
          apply List.filterMap_congr
          intro k _
          beta_reduce
          by_cases hk : k = k2
          · subst hk
            rw [lookup_none (l := l2), lookup_none (l := (k1, v1) :: rest)]
            · rfl
            · intro p hp
              rcases List.mem_cons.mp hp with rfl | hp
              · exact hne
              · have := h1'.1 p hp; simp at this; omega
            · intro p hp; have := h2'.1 p hp; simp at this; omega
          · have : ((k2, v2) :: l2).lookup k = l2.lookup k := by rw [lookup_ne hk]
            rw [this]
            cases l2.lookup k <;> cases ((k1, v1) :: rest).lookup k <;> simp [hc]
        · rename_i hne hgt
          rw [ih _ (by omega) rest l2 k2 v2 s rfl h1'.2 h2 b1' b2]
          congr 2
          unfold pairs
          apply List.filterMap_congr
          intro k _
          beta_reduce
          by_cases hk : k = k1
          · subst hk
            rw [lookup_none (l := (k2, v2) :: l2) (k := k)]
            · simp
            · intro p hp
              rcases List.mem_cons.mp hp with rfl | hp
              · exact Ne.symm hne
              · have := h2'.1 p hp; simp at this; omega
          · rw [lookup_ne (l := rest) hk]

theorem lookup_sel (g : Nat → Option K) (hi k : Nat) : ∀ d lo, hi - lo = d → (sel lo hi g).lookup k = if lo ≤ k ∧ k < hi then g k else none := by
  intro d
  induction d with
  | zero => intro lo hd; rw [sel_nil (by omega), if_neg (by omega)]; rfl
  | succ d ih =>
    intro lo hd
    cases hv : g lo with
    | none =>
      rw [sel_none (by omega) hv, ih (lo + 1) (by omega)]
      by_cases e : k = lo
      · subst e; rw [if_neg (by omega), if_pos (by omega), hv]
      · by_cases e2 : lo ≤ k ∧ k < hi
        · rw [if_pos e2, if_pos (by omega)]
        · rw [if_neg e2, if_neg (by omega)]
    | some v =>
      rw [sel_some (by omega) hv]
      by_cases e : k = lo
      · subst e; rw [List.lookup_cons_self, if_pos (by omega), hv]
      · rw [lookup_ne e, ih (lo + 1) (by omega)]
        by_cases e2 : lo ≤ k ∧ k < hi
        · rw [if_pos e2, if_pos (by omega)]
        · rw [if_neg e2, if_neg (by omega)]

theorem sparse_fold [Zero K] [Add K] [Mul K] (hc : ∀ x y : K, x * y = y * x) {a b : SMat K} {n l m : Nat} {f g : Nat → Nat → Option K} (ha : Represents a n l f)
    (hb : Represents b l m g) {i j : Nat} (hi : i < n) (hj : j < m) :
    a.mulEntry b i j = some (((pairs l (f i) (fun k => g k j)).map (fun p => p.1 * p.2)).foldl (· + ·) 0) := by
  have hp : ∀ x y : Nat → Option K, pairs l x y = pairs l (fun k => (sel 0 l x).lookup k) (fun k => (sel 0 l y).lookup k) := by
    intro x y
    unfold pairs
    apply List.filterMap_congr
    intro k hk
    have := List.mem_range.mp hk
    beta_reduce
    rw [lookup_sel x l k l 0 rfl, lookup_sel y l k l 0 rfl, if_pos (by omega)]
    simp [this]
  rw [SMat.mulEntry, ha.row i, hb.col j, if_pos hi, if_pos hj]
  simp only [Option.bind_eq_bind, Option.bind_some, rowLine_eq]
  have hs1 := sel_sorted (f i) l l 0 (by omega)
  have hs2 := sel_sorted (fun i => g i j) l l 0 (by omega)
  rw [hp]
  cases h : sel 0 l (fun i => g i j) with
  | nil => rw [pairs, filterMap_none (by simp)]; rfl
  | cons p l2 =>
    obtain ⟨k2, v2⟩ := p
    simp only
    rw [merge_pairs hc l _ _ _ k2 v2 0 rfl hs1 (by rw [← h]; exact hs2) (fun p hp => (sel_mem hp).2.1) (fun p hp => by
      have : p ∈ sel 0 l (fun i => g i j) := by rw [h]; exact hp
      exact (sel_mem this).2.1)]
    rfl

theorem dense_fold [Add K] [Mul K] (l : Nat) (x : Nat → Option K) (y : Nat → K) (i : Nat) (s : K) :
    (rowLine l (fun _ => x) i).foldl (fun s p => s + p.2 * y p.1) s = ((pairs l x (fun k => some (y k))).map (fun p => p.1 * p.2)).foldl (· + ·) s := by
  have : (rowLine l (fun _ => x) i).map (fun p => p.2 * y p.1) = (pairs l x (fun k => some (y k))).map (fun p => p.1 * p.2) := by
    unfold rowLine pairs
    rw [List.map_filterMap, List.map_filterMap]
    apply List.filterMap_congr
    intro k _
    beta_reduce
    cases x k <;> rfl
  rw [← this, List.foldl_map]

end Toppo.Sparse

namespace Toppo.FloatProps
open Toppo Toppo.Sparse Toppo.View Toppo.MatrixProps F64 FloatAlg

theorem mul_comm' (x y : F64) : x * y = y * x := by
  rw [mul_def, mul_def]
  cases x <;> cases y <;> simp only [mul, Bool.xor_comm, mul_comm]

/-- the dense value at a position: the stored entry, or zero -/
def fvalue (f : Nat → Nat → Option F64) (i j : Nat) : F64 := (f i j).getD 0

/-- the number of positions stored on both sides -/
def common (l : Nat) (x y : Nat → Option F64) : Nat := ((Finset.range l).filter (fun k => (x k).isSome = true ∧ (y k).isSome = true)).card

theorem pairs_sum (l : Nat) (x y : Nat → Option F64) (h : ℚ → ℚ) (h0 : h 0 = 0) :
    ((pairs l x y).map (fun p => h (val p.1 * val p.2))).sum = ∑ k ∈ Finset.range l, h (val ((x k).getD 0) * val ((y k).getD 0)) := by
  induction l with
  | zero => rfl
  | succ l ih =>
    rw [Finset.sum_range_succ, ← ih, pairs, List.range_succ, List.filterMap_append, List.map_append, List.sum_append]
    congr 1
    cases hx : x l <;> cases hy : y l <;> simp [List.filterMap_cons, hx, hy, val_zero, h0]

theorem pairs_length (l : Nat) (x y : Nat → Option F64) : (pairs l x y).length = common l x y := by
  induction l with
  | zero => rfl
  | succ l ih =>
    rw [common, Finset.range_add_one, Finset.filter_insert, pairs, List.range_succ, List.filterMap_append, List.length_append]
    change (pairs l x y).length + _ = _
    rw [ih]
    cases hx : x l <;> cases hy : y l <;> simp [List.filterMap_cons, hx, hy, common]

theorem pairs_mem {l : Nat} {x y : Nat → Option F64} {k : Nat} (hk : k < l) {a b : F64} (ha : x k = some a) (hb : y k = some b) : (a, b) ∈ pairs l x y :=
  List.mem_filterMap.mpr ⟨k, List.mem_range.mpr hk, by simp [ha, hb]⟩

/-- what is proved about one entry: it is computed; if it is finite, all factors used are finite and it is within the classical bound (`t` terms) of the exact sum of
products; it is finite if the factors are and the sum of the sizes of the products is not too large -/
structure GoodEntry (l : Nat) (x y : Nat → Option F64) (z : F64) : Prop where
  finite : z.isFinite = true → ∀ k < l, ∀ a b, x k = some a → y k = some b → a.isFinite = true ∧ b.isFinite = true
  error : z.isFinite = true → |val z - ∑ k ∈ Finset.range l, val ((x k).getD 0) * val ((y k).getD 0)| ≤
    ((1 + u) ^ common l x y - 1) * ∑ k ∈ Finset.range l, |val ((x k).getD 0) * val ((y k).getD 0)| + common l x y * (1 + u) ^ common l x y * eta
  small : (∀ k < l, ∀ a b, x k = some a → y k = some b → a.isFinite = true ∧ b.isFinite = true) →
    (1 + u) ^ (common l x y + 1) * (∑ k ∈ Finset.range l, |val ((x k).getD 0) * val ((y k).getD 0)| + common l x y * eta) < 2 ^ 1023 → z.isFinite = true

theorem goodEntry (l : Nat) (x y : Nat → Option F64) : GoodEntry l x y (((pairs l x y).map (fun p => p.1 * p.2)).foldl (· + ·) 0) := by
  have e1 := pairs_sum l x y (fun q => q) rfl
  have e2 := pairs_sum l x y (fun q => |q|) abs_zero
  refine ⟨fun h k hk a b ha hb => ?_, fun h => ?_, fun hf hb => ?_⟩
  · exact (prod_err (pairs l x y) Prod.fst Prod.snd h).1 (a, b) (pairs_mem hk ha hb)
  · have := (prod_err (pairs l x y) Prod.fst Prod.snd h).2
    rw [pairs_length, e1, e2] at this
    exact this
  · have hm : ∀ p ∈ pairs l x y, p.1.isFinite = true ∧ p.2.isFinite = true := by
      intro p hp
      obtain ⟨k, hk, e⟩ := List.mem_filterMap.mp hp
      cases hx : x k with
      | none => rw [hx] at e; simp at e
      | some a =>
        cases hy : y k with
        | none => rw [hx, hy] at e; simp at e
        | some b =>
          rw [hx, hy] at e
          simp at e
          rw [← e]
          exact hf k (List.mem_range.mp hk) a b hx hy
    refine prod_fin (pairs l x y) Prod.fst Prod.snd (fun p hp => (hm p hp).1) (fun p hp => (hm p hp).2) ?_
    rw [pairs_length, e2]
    exact hb

/-- **C122**, sparse * sparse: every entry is computed and is within the error bound of the exact product, the number of terms being the number of positions stored on
both sides. -/
theorem c122_sparse_sparse {a b : SMat F64} {n l m : Nat} {f g : Nat → Nat → Option F64} (ha : Represents a n l f) (hb : Represents b l m g) :
    ∃ r, a.mul b = some r ∧ ∀ i < n, ∀ j < m, ∃ z, r i j = some z ∧ GoodEntry l (f i) (fun k => g k j) z := by
  rw [SMat.mul, ha.size, hb.size]
  simp only [ne_eq, not_true, if_false]
  refine ⟨_, forEntries_some (fun i j hi hj => sparse_fold mul_comm' ha hb hi hj), fun i hi j hj => ⟨_, sparse_fold mul_comm' ha hb hi hj, goodEntry _ _ _⟩⟩

theorem mulDense_entry {a : SMat F64} {n l : Nat} {f : Nat → Nat → Option F64} (ha : Represents a n l f) (g : Nat → Nat → F64) {i : Nat} (hi : i < n) (j : Nat) :
    (do let l ← a.rowIter i
        return l.foldl (fun s p => s + p.2 * g p.1 j) 0 : Option F64) =
      some (((pairs l (f i) (fun k => some (g k j))).map (fun p => p.1 * p.2)).foldl (· + ·) 0) := by
  rw [ha.row i, if_pos hi]
  simp only [Option.bind_eq_bind, Option.bind_some]
  exact congrArg some (dense_fold l (f i) (fun k => g k j) i 0)

/-- **C122**, sparse * dense. -/
theorem c122_sparse_dense {a : SMat F64} {n l m : Nat} {f : Nat → Nat → Option F64} (ha : Represents a n l f) (g : Nat → Nat → F64) :
    ∃ r, a.mulDense (l, m) g = some r ∧ ∀ i < n, ∀ j < m, ∃ z, r i j = some z ∧ GoodEntry l (f i) (fun k => some (g k j)) z := by
  rw [SMat.mulDense, ha.size]
  simp only [ne_eq, not_true, if_false]
  refine ⟨_, forEntries_some (fun i j hi hj => mulDense_entry ha g hi j), fun i hi j hj => ⟨_, mulDense_entry ha g hi j, goodEntry _ _ _⟩⟩

/-- **C122**, dense * sparse (the terms are multiplied in the other order, which makes no difference). -/
theorem c122_dense_sparse {b : SMat F64} {n l m : Nat} {f : Nat → Nat → Option F64} (hb : Represents b l m f) (g : Nat → Nat → F64) :
    ∃ r, denseMul (n, l) g b = some r ∧ ∀ i < n, ∀ j < m, ∃ z, r i j = some z ∧ GoodEntry l (fun k => f k j) (fun k => some (g i k)) z := by
  rw [denseMul, hb.size]
  simp only [ne_eq, not_true, if_false]
  obtain ⟨r, h1, h2⟩ := c122_sparse_dense (m := n) (c40_transpose hb) (fun i j => g j i)
  rw [h1]
  exact ⟨_, rfl, fun i hi j hj => h2 j hj i hi⟩

/-! ### comparison with the dense product -/

/-- equal, or equal up to the sign of zero -/
def Same (x y : F64) : Prop := x = y ∨ (x.isFinite = true ∧ y.isFinite = true ∧ val x = val y)

theorem same_ofExact (s t : Bool) (q : ℚ) : Same (ofExact s q) (ofExact t q) := by
  unfold ofExact
  split_ifs
  · right; exact ⟨rfl, rfl, by cases s <;> cases t <;> simp [val]⟩
  · left; rfl
  · left; rfl

theorem same_add {x y : F64} (h : Same x y) (p : F64) : Same (x + p) (y + p) := by
  rcases h with rfl | ⟨h1, h2, h3⟩
  · left; rfl
  · obtain ⟨s, m, rfl⟩ := fin_iff.mp h1
    obtain ⟨t, n, rfl⟩ := fin_iff.mp h2
    cases p with
    | nan => left; rfl
    | inf b => left; rfl
    | num b q =>
      have e : ∀ s' m', (num s' m' : F64) + num b q = ofExact (s' && b) (val (num s' m') + val (num b q)) := fun _ _ => rfl
      rw [e, e, h3]
      exact same_ofExact _ _ _

theorem add_comm' (x y : F64) : x + y = y + x := by
  rw [add_def, add_def]
  cases x <;> cases y <;> simp only [add, Bool.and_comm, add_comm, eq_comm]
  split_ifs with h1 h2 h2 <;> first | rfl | (subst h1; rfl) | simp_all

/-- adding a zero -/
theorem same_add_zero {x z : F64} (hx : Rep x) (hz : z.isFinite = true) (h0 : val z = 0) : Same x (x + z) := by
  obtain ⟨b, q, rfl⟩ := fin_iff.mp hz
  cases x with
  | nan => left; rfl
  | inf s => left; rfl
  | num s m =>
    right
    obtain ⟨h1, h2⟩ := zero_add_val hx rfl
    have e : (num s m : F64) + num b q = ofExact (s && b) (val (num s m)) := by
      have : (num s m : F64) + num b q = ofExact (s && b) (val (num s m) + val (num b q)) := rfl
      rw [this, h0, add_zero]
    have e' : (0 : F64) + num s m = ofExact (false && s) (val (num s m)) := by
      have : (0 : F64) + num s m = ofExact (false && s) (0 + val (num s m)) := rfl
      rw [this, zero_add]
    rw [e'] at h1 h2
    rw [e]
    rcases same_ofExact (s && b) (false && s) (val (num s m)) with h | ⟨h3, h4, h5⟩
    · rw [h]; exact ⟨rfl, h1, h2.symm⟩
    · exact ⟨rfl, h3, by rw [h5, h2]⟩

theorem Same.trans {x y z : F64} (h : Same x y) (h' : Same y z) : Same x z := by
  rcases h with rfl | ⟨a, b, c⟩
  · exact h'
  · rcases h' with rfl | ⟨d, e, f⟩
    · right; exact ⟨a, b, c⟩
    · right; exact ⟨a, e, c.trans f⟩

theorem mul_zero_fin {x y : F64} (hx : x.isFinite = true) (hy : y.isFinite = true) (h : val x = 0 ∨ val y = 0) : (x * y).isFinite = true ∧ val (x * y) = 0 := by
  obtain ⟨s, e⟩ := mul_ex hx hy
  have : val x * val y = 0 := by rcases h with h | h <;> rw [h] <;> simp
  rw [e, this]
  unfold ofExact
  rw [if_pos rfl]
  exact ⟨rfl, by cases s <;> simp [val]⟩

/-- leaving out the terms that are not stored changes at most the sign of a zero -/
theorem same_fold (l : Nat) (x y : Nat → Option F64) (hx : ∀ k < l, ((x k).getD 0).isFinite = true) (hy : ∀ k < l, ((y k).getD 0).isFinite = true) :
    Same (((pairs l x y).map (fun p => p.1 * p.2)).foldl (· + ·) 0) (((List.range l).map (fun k => (x k).getD 0 * (y k).getD 0)).foldl (· + ·) 0) := by
  induction l with
  | zero => left; rfl
  | succ l ih =>
    have ih := ih (fun k hk => hx k (by omega)) (fun k hk => hy k (by omega))
    have hrep : ∀ (L : List F64), Rep (L.foldl (· + ·) 0) := by
      intro L
      rcases List.eq_nil_or_concat L with rfl | ⟨L', p, rfl⟩
      · exact rep_zero'
      · rw [List.concat_eq_append, List.foldl_append]; exact rep_add _ _
    rw [pairs, List.range_succ, List.filterMap_append, List.map_append, List.map_append, List.foldl_append, List.foldl_append]
    change Same (List.foldl _ (((pairs l x y).map (fun p => p.1 * p.2)).foldl (· + ·) 0) _) _
    have hxl := hx l (by omega)
    have hyl := hy l (by omega)
    cases ex : x l with
    | none =>
      rw [ex] at hxl
      obtain ⟨q1, q2⟩ := mul_zero_fin hxl hyl (Or.inl rfl)
      simp only [List.filterMap_cons, ex, Option.bind_none, List.filterMap_nil, List.map_nil, List.foldl_nil, List.map_cons, List.foldl_cons]
      exact ih.trans (same_add_zero (hrep _) q1 q2)
    | some a =>
      cases ey : y l with
      | none =>
        rw [ey] at hyl
        rw [ex] at hxl
        obtain ⟨q1, q2⟩ := mul_zero_fin hxl hyl (Or.inr rfl)
        simp only [List.filterMap_cons, ex, ey, Option.bind_some, Option.map_none, List.filterMap_nil, List.map_nil, List.foldl_nil, List.map_cons, List.foldl_cons]
        exact ih.trans (same_add_zero (hrep _) q1 q2)
      | some b =>
        simp only [List.filterMap_cons, ex, ey, Option.bind_some, Option.map_some, List.filterMap_nil, List.map_nil, List.foldl_nil, List.map_cons, List.foldl_cons,
          Option.getD_some]
        exact same_add ih _

/-- **C122**, agreement with the dense product: for finite entries the sparse product equals the product of the dense matrices with the same entries, bit for bit except
for signs of zeros (also where it overflows). -/
theorem c122_agrees {a b : SMat F64} {n l m : Nat} {f g : Nat → Nat → Option F64} (ha : Represents a n l f) (hb : Represents b l m g)
    (hn : 0 < n) (hl : 0 < l) (hm : 0 < m) (mem mem' : List F64) (v w : View) (hv : v.Fits) (hw : w.Fits)
    (hf : Entries mem v n l (fvalue f)) (hg : Entries mem' w l m (fvalue g))
    (finf : ∀ i < n, ∀ k < l, (fvalue f i k).isFinite = true) (fing : ∀ k < l, ∀ j < m, (fvalue g k j).isFinite = true) :
    ∃ r s t c h, a.mul b = some r ∧ a.mulDense (l, m) (fvalue g) = some s ∧ denseMul (n, l) (fvalue f) b = some t ∧
      Mat.mul mem v mem' w = some c ∧ c.size = (n, m) ∧ Entries c.data c.view n m h ∧
      ∀ i < n, ∀ j < m, (∃ z, r i j = some z ∧ Same z (h i j)) ∧ (∃ z, s i j = some z ∧ Same z (h i j)) ∧ (∃ z, t i j = some z ∧ Same z (h i j)) := by
  obtain ⟨c, h1, h2, h3⟩ := (mul_fold mem mem' v w n l l m _ _ hf hg hv hw hn hl hl hm).2 rfl
  have r1 : a.mul b = some (fun i j => a.mulEntry b i j) := by
    rw [SMat.mul, ha.size, hb.size]
    simp only [ne_eq, not_true, if_false]
    exact forEntries_some (fun i j hi hj => sparse_fold mul_comm' ha hb hi hj)
  have r2 : ∀ (a : SMat F64) (n l m : Nat) (f : Nat → Nat → Option F64) (ha : Represents a n l f) (g : Nat → Nat → F64), ∃ s, a.mulDense (l, m) g = some s ∧
      ∀ i < n, ∀ j < m, s i j = some (((pairs l (f i) (fun k => some (g k j))).map (fun p => p.1 * p.2)).foldl (· + ·) 0) := by
    intro a n l m f ha g
    rw [SMat.mulDense, ha.size]
    simp only [ne_eq, not_true, if_false]
    exact ⟨_, forEntries_some (fun i j hi hj => mulDense_entry ha g hi j), fun i hi j hj => mulDense_entry ha g hi j⟩
  obtain ⟨s, s1, s2⟩ := r2 a n l m f ha (fvalue g)
  obtain ⟨t, t1, t2⟩ := r2 b.transpose m l n _ (c40_transpose hb) (fun i j => fvalue f j i)
  refine ⟨_, s, _, c, _, r1, s1, ?_, h1, h2, h3, fun i hi j hj => ⟨⟨_, sparse_fold mul_comm' ha hb hi hj, ?_⟩, ⟨_, s2 i hi j hj, ?_⟩, ⟨_, t2 j hj i hi, ?_⟩⟩⟩
  · rw [denseMul, hb.size]
    simp only [ne_eq, not_true, if_false, t1, Option.map_some]
  · exact same_fold l (f i) (fun k => g k j) (fun k hk => finf i hi k hk) (fun k hk => fing k hk j hj)
  · exact same_fold l (f i) (fun k => some (fvalue g k j)) (fun k hk => finf i hi k hk) (fun k hk => fing k hk j hj)
  · have := same_fold l (fun k => g k j) (fun k => some (fvalue f i k)) (fun k hk => fing k hk j hj) (fun k hk => finf i hi k hk)
    have e : ∀ k, (g k j).getD 0 * (some (fvalue f i k)).getD 0 = fvalue f i k * fvalue g k j := fun k => mul_comm' _ _
    simp only [e] at this
    exact this

/-- a case: a matrix with three stored entries; its product with its transpose has the entry `1 * 1 + 2 * 2` -/
example : ∃ a, fromFn (2, 3) (fun i j => if (i, j) = (0, 0) then some (1 : F64) else if (i, j) = (0, 2) then some (F64.lit 2) else if (i, j) = (1, 1) then some (F64.lit (1/10))
      else none) = some a ∧
    Represents a 2 3 (fun i j => if (i, j) = (0, 0) then some (1 : F64) else if (i, j) = (0, 2) then some (F64.lit 2) else if (i, j) = (1, 1) then some (F64.lit (1/10)) else none) ∧
    ∃ r, a.mul a.transpose = some r ∧ ∃ z, r 0 0 = some z ∧ z.isFinite = true ∧ val z = 5 := by
  obtain ⟨a, h1, h2⟩ := c40_from_partial 2 3 (fun i j => if (i, j) = (0, 0) then some (1 : F64) else if (i, j) = (0, 2) then some (F64.lit 2)
    else if (i, j) = (1, 1) then some (F64.lit (1/10)) else none) ⟨0, 0, 1, by decide, by decide, rfl⟩
  refine ⟨a, h1, h2, ?_⟩
  have e := sparse_fold mul_comm' h2 (c40_transpose h2) (i := 0) (j := 0) (by decide) (by decide)
  refine ⟨fun i j => a.mulEntry a.transpose i j, ?_, _, e, by decide +kernel, by decide +kernel⟩
  rw [SMat.mul, h2.size, (c40_transpose h2).size]
  simp only [ne_eq, not_true, if_false]
  exact forEntries_some (fun i j hi hj => sparse_fold mul_comm' h2 (c40_transpose h2) hi hj)

end Toppo.FloatProps
