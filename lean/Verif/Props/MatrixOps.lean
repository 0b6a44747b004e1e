import Verif.Props.MatrixView
set_option linter.unusedVariables false

/-!
# Dense matrix arithmetic and elementary operations (C31, C32, C39)

Specification: `Entries mem v n m f` says that the view `v` of the memory `mem` is an `n × m` matrix whose entry at row `i`,
column `j` (as read by the index operator) is `f i j`.
-/
namespace Toppo.MatrixProps
open Toppo Toppo.View

variable {K : Type}

/-- The view `v` of the memory `mem` is the `n × m` matrix with entries `f`. -/
def Entries (mem : List K) (v : View) (n m : Nat) (f : Nat → Nat → K) : Prop :=
  v.size = (n, m) ∧ ∀ i j, i < n → j < m → View.get mem v i j = some (f i j)

/-- Every element of the memory that does not belong to the view `v`. -/
def SameOutside (mem mem' : List K) (v : View) : Prop :=
  mem'.length = mem.length ∧ ∀ a, (∀ i j, i < v.size.1 → j < v.size.2 → v.addr i j ≠ a) → mem'[a]? = mem[a]?

/-- Every view derived from a matrix is `Good` (its elements are inside the memory at pairwise distinct places). -/
theorem derived_good (n m : Nat) (a : Mat K) (ha : IsMat n m a) (steps : List Step) (v : View) (h : runSteps a.view steps = some v) :
    Good a.data v := by
  rcases rep_run ha.hn.2 ha.hm.2 ha.hm.1 steps _ _ (rep_view ha) with ⟨v', s', e1, e2, h'⟩ | ⟨e1, e2⟩
  · rw [h] at e1; cases e1
    exact rep_good ha.hn.2 ha.hm.2 ha.hm.1 h' ha.len
  · rw [h] at e1; cases e1

theorem good_entries [Nonempty K] {mem : List K} {v : View} (g : Good mem v) : ∃ f, Entries mem v v.size.1 v.size.2 f := by
  obtain ⟨d⟩ := ‹Nonempty K›
  refine ⟨fun i j => mem.getD (v.addr i j) d, rfl, fun i j hi hj => ?_⟩
  rw [get_eq g.o1 g.o2 hi hj]
  have := g.inside i j hi hj
  simp [List.getD, this]

theorem entries_off {mem : List K} {v : View} {n m : Nat} {f : Nat → Nat → K} (h : Entries mem v n m f) (hn : 0 < n) (hm : 0 < m) :
    0 < v.off.1 ∧ 0 < v.off.2 := by
  have := h.2 0 0 hn hm
  simp only [View.get] at this
  split at this
  · cases hp : v.asPtr with
    | none => rw [hp] at this; cases this
    | some p =>
      simp only [asPtr, sliceLen] at hp
      split at hp
      · cases hp
      · rename_i hh
        rw [not_or, Nat.mul_eq_zero, Nat.mul_eq_zero] at hh
        omega
  · cases this

theorem entries_of_build {n m : Nat} (hn : n < 65536) (hm : m < 65536) {a : Mat K} {g : Nat → Nat → K} (h1 : a.size = (n, m)) (h2 : a.off = (m, 1))
    (h : ∀ i j, i < n → j < m → a.data[i * m + j]? = some (g i j)) : Entries a.data a.view n m g := by
  have e : a.view = ⟨0, (n, m), (m, 1)⟩ := by
    rw [Mat.view, h1, h2, fromRaw_eq ⟨hn, hm, hm, by norm_num⟩]
  refine ⟨by rw [e], fun i j hi hj => ?_⟩
  rw [e, get_eq (by simp only; omega) (by simp) hi hj]
  simpa [View.addr] using h i j hi hj

/-! ## C31 -/

/-- Addition and subtraction (`op` is the scalar operation): entrywise on equal sizes, panic otherwise. -/
theorem c31_add_sub (op : K → K → K) (mem mem' : List K) (v w : View) (n m n' m' : Nat) (f g : Nat → Nat → K)
    (hf : Entries mem v n m f) (hg : Entries mem' w n' m' g) (hn : n < 65536) (hm : m < 65536) :
    ((n, m) ≠ (n', m') → Mat.zipWith op mem v mem' w = none) ∧
    ((n, m) = (n', m') → ∃ c, Mat.zipWith op mem v mem' w = some c ∧ c.size = (n, m) ∧ Entries c.data c.view n m (fun i j => op (f i j) (g i j))) := by
  constructor
  · intro h
    rw [Mat.zipWith, if_pos (by rw [hf.1, hg.1]; exact h)]
  · intro h
    rw [Prod.mk.injEq] at h
    obtain ⟨rfl, rfl⟩ := h
    rw [Mat.zipWith, if_neg (by rw [hf.1, hg.1]; simp)]
    obtain ⟨a, ha, h1, h2, h3, h4⟩ := Mat.build_some (K := K) (n := v.size.1) (m := v.size.2)
      (f := fun i j => do let x ← View.get mem v i j; let y ← View.get mem' w i j; return op x y)
      (g := fun i j => op (f i j) (g i j)) (fun i j hi hj => by
        rw [hf.1] at hi hj
        simp [hf.2 i j hi hj, hg.2 i j hi hj])
    rw [hf.1] at h1 h2 h4
    exact ⟨a, ha, h1, entries_of_build hn hm h1 h2 h4⟩

/-- Scalar multiplication. -/
theorem c31_smul [Mul K] (mem : List K) (v : View) (n m : Nat) (f : Nat → Nat → K) (c : K)
    (hf : Entries mem v n m f) (hn : n < 65536) (hm : m < 65536) :
    ∃ a, Mat.smul mem v c = some a ∧ a.size = (n, m) ∧ Entries a.data a.view n m (fun i j => f i j * c) := by
  obtain ⟨a, ha, h1, h2, h3, h4⟩ := Mat.build_some (K := K) (n := v.size.1) (m := v.size.2)
      (f := fun i j => do let x ← View.get mem v i j; return x * c)
      (g := fun i j => f i j * c) (fun i j hi hj => by
        rw [hf.1] at hi hj
        simp [hf.2 i j hi hj])
  rw [hf.1] at h1 h2 h4
  exact ⟨a, ha, h1, entries_of_build hn hm h1 h2 h4⟩

/-- Scalar division. -/
theorem c31_sdiv [Div K] (mem : List K) (v : View) (n m : Nat) (f : Nat → Nat → K) (c : K)
    (hf : Entries mem v n m f) (hn : n < 65536) (hm : m < 65536) :
    ∃ a, Mat.sdiv mem v c = some a ∧ a.size = (n, m) ∧ Entries a.data a.view n m (fun i j => f i j / c) := by
  obtain ⟨a, ha, h1, h2, h3, h4⟩ := Mat.build_some (K := K) (n := v.size.1) (m := v.size.2)
      (f := fun i j => do let x ← View.get mem v i j; return x / c)
      (g := fun i j => f i j / c) (fun i j hi hj => by
        rw [hf.1] at hi hj
        simp [hf.2 i j hi hj])
  rw [hf.1] at h1 h2 h4
  exact ⟨a, ha, h1, entries_of_build hn hm h1 h2 h4⟩

/-- Copying (`clone`, `as_matrix`). -/
theorem c31_clone (mem : List K) (v : View) (n m : Nat) (f : Nat → Nat → K)
    (hf : Entries mem v n m f) (hn : n < 65536) (hm : m < 65536) :
    ∃ a, Mat.ofView mem v = some a ∧ a.size = (n, m) ∧ Entries a.data a.view n m f := by
  obtain ⟨a, ha, h1, h2, h3, h4⟩ := Mat.build_some (K := K) (n := v.size.1) (m := v.size.2)
      (f := fun i j => View.get mem v i j) (g := f) (fun i j hi hj => by
        rw [hf.1] at hi hj
        exact hf.2 i j hi hj)
  rw [hf.1] at h1 h2 h4
  exact ⟨a, ha, h1, entries_of_build hn hm h1 h2 h4⟩

/-- Transposition of views and of matrices. -/
theorem c31_transpose (mem : List K) (v : View) (n m : Nat) (f : Nat → Nat → K) (hf : Entries mem v n m f) (hv : v.Fits) :
    Entries mem v.transpose m n (fun i j => f j i) := by
  have e : v.transpose = ⟨v.base, (v.size.2, v.size.1), (v.off.2, v.off.1)⟩ := by
    rw [transpose, fromRaw_eq ⟨hv.2.1, hv.1, hv.2.2.2, hv.2.2.1⟩]
  refine ⟨by rw [e, hf.1], fun i j hi hj => ?_⟩
  have ho := entries_off hf (by omega) (by omega)
  have h := hf.2 j i hj hi
  rw [get_eq ho.1 ho.2 (by rw [hf.1]; exact hj) (by rw [hf.1]; exact hi)] at h
  rw [e, get_eq ho.2 ho.1 (by rw [hf.1]; exact hi) (by rw [hf.1]; exact hj), ← h]
  simp only [View.addr]
  congr 2; omega

theorem c31_matrix_transpose (a : Mat K) (n m : Nat) (f : Nat → Nat → K) (hs : a.size = (n, m)) (ho : a.off.1 < 65536 ∧ a.off.2 < 65536)
    (hn : n < 65536) (hm : m < 65536) (hf : Entries a.data a.view n m f) :
    a.transpose.size = (m, n) ∧ Entries a.transpose.data a.transpose.view m n (fun i j => f j i) := by
  have e : a.view = ⟨0, (n, m), a.off⟩ := by rw [Mat.view, hs, fromRaw_eq ⟨hn, hm, ho.1, ho.2⟩]
  have e' : a.transpose.view = a.view.transpose := by
    rw [e]; simp only [Mat.view, Mat.transpose, View.transpose, hs]
  refine ⟨by simp [Mat.transpose, hs], ?_⟩
  rw [e']
  exact c31_transpose a.data a.view n m f hf (fromRaw_fits _ _ _)

/-- the sum computed by `iter.map(..).sum()` -/
theorem foldl_sum [AddCommMonoid K] (n : Nat) (h : Nat → K) :
    ((List.range n).map h).foldl (· + ·) 0 = ∑ k ∈ Finset.range n, h k := by
  induction n with
  | zero => simp
  | succ n ih => rw [List.range_succ, List.map_append, List.foldl_append, ih, Finset.sum_range_succ]; rfl

/-- Dot product with any addition and multiplication (integers, rationals, `f64`): products added from the left to zero. -/
theorem dot_fold [Add K] [Mul K] [Zero K] (mem mem' : List K) (v w : View) (n m n' m' : Nat) (f g : Nat → Nat → K)
    (hf : Entries mem v n m f) (hg : Entries mem' w n' m' g) :
    (¬ (n = 1 ∧ m' = 1 ∧ m = n') → View.dot mem v mem' w = none) ∧
    (n = 1 ∧ m' = 1 ∧ m = n' → View.dot mem v mem' w = some (((List.range m).map (fun k => f 0 k * g k 0)).foldl (· + ·) 0)) := by
  constructor
  · intro h
    rw [View.dot, if_neg (by rw [hf.1, hg.1]; exact h)]
  · rintro ⟨rfl, rfl, rfl⟩
    rw [View.dot, if_pos (by rw [hf.1, hg.1]; simp)]
    rw [mapM_range (α := K) v.size.2 _ (fun k => f 0 k * g k 0) (fun k hk => by
      rw [hf.1] at hk
      simp [hf.2 0 k (by omega) hk, hg.2 k 0 hk (by omega)])]
    show some _ = _
    rw [hf.1]

/-- Dot product of a row and a column: the sum of products; any other shapes panic. -/
theorem c31_dot [NonUnitalNonAssocSemiring K] (mem mem' : List K) (v w : View) (n m n' m' : Nat) (f g : Nat → Nat → K)
    (hf : Entries mem v n m f) (hg : Entries mem' w n' m' g) :
    (¬ (n = 1 ∧ m' = 1 ∧ m = n') → View.dot mem v mem' w = none) ∧
    (n = 1 ∧ m' = 1 ∧ m = n' → View.dot mem v mem' w = some (∑ k ∈ Finset.range m, f 0 k * g k 0)) := by
  have h := dot_fold mem mem' v w n m n' m' f g hf hg
  refine ⟨h.1, fun hh => ?_⟩
  rw [h.2 hh, foldl_sum]

theorem entries_row {mem : List K} {v : View} {n m : Nat} {f : Nat → Nat → K} (hf : Entries mem v n m f) (hv : v.Fits) {i : Nat}
    (hi : i < n) (hm : 0 < m) : ∃ r, v.sub (.idx i) .full = some r ∧ Entries mem r 1 m (fun _ j => f i j) := by
  have ho := entries_off hf (by omega) hm
  refine ⟨_, row_sub hv ho.1 ho.2 (by rw [hf.1]; exact hm) (by rw [hf.1]; exact hi), by simp [hf.1], fun k j hk hj => ?_⟩
  rw [get_eq (v := ⟨v.addr i 0, (1, v.size.2), v.off⟩) ho.1 ho.2 hk (by rw [hf.1]; exact hj)]
  have h := hf.2 i j hi hj
  rw [get_eq ho.1 ho.2 (by rw [hf.1]; exact hi) (by rw [hf.1]; exact hj)] at h
  rw [← h]
  have : k = 0 := by omega
  subst this
  simp only [View.addr]; congr 1; ring

theorem entries_col {mem : List K} {v : View} {n m : Nat} {f : Nat → Nat → K} (hf : Entries mem v n m f) (hv : v.Fits) {j : Nat}
    (hj : j < m) (hn : 0 < n) : ∃ r, v.sub .full (.idx j) = some r ∧ Entries mem r n 1 (fun i _ => f i j) := by
  have ho := entries_off hf hn (by omega)
  refine ⟨_, col_sub hv ho.1 ho.2 (by rw [hf.1]; exact hn) (by rw [hf.1]; exact hj), by simp [hf.1], fun i k hi hk => ?_⟩
  rw [get_eq (v := ⟨v.addr 0 j, (v.size.1, 1), v.off⟩) ho.1 ho.2 (by rw [hf.1]; exact hi) hk]
  have h := hf.2 i j hi hj
  rw [get_eq ho.1 ho.2 (by rw [hf.1]; exact hi) (by rw [hf.1]; exact hj)] at h
  rw [← h]
  have : k = 0 := by omega
  subst this
  simp only [View.addr]; congr 1; ring

/-- Matrix product with any addition and multiplication: every entry is the dot product of a row and a column. -/
theorem mul_fold [Add K] [Mul K] [Zero K] (mem mem' : List K) (v w : View) (n l l' m : Nat) (f g : Nat → Nat → K)
    (hf : Entries mem v n l f) (hg : Entries mem' w l' m g) (hv : v.Fits) (hw : w.Fits)
    (hn : 0 < n) (hl : 0 < l) (hl' : 0 < l') (hm : 0 < m) :
    (l ≠ l' → Mat.mul mem v mem' w = none) ∧
    (l = l' → ∃ c, Mat.mul mem v mem' w = some c ∧ c.size = (n, m) ∧
      Entries c.data c.view n m (fun i j => ((List.range l).map (fun k => f i k * g k j)).foldl (· + ·) 0)) := by
  have hsn : n < 65536 := by have := hv.1; rw [hf.1] at this; exact this
  have hsm : m < 65536 := by have := hw.2.1; rw [hg.1] at this; exact this
  constructor
  · intro hne
    rw [Mat.mul]
    apply Mat.build_none
    refine ⟨0, 0, by rw [hf.1]; exact hn, by rw [hg.1]; exact hm, ?_⟩
    obtain ⟨r, hr, er⟩ := entries_row hf hv hn hl
    obtain ⟨c, hc, ec⟩ := entries_col hg hw hm hl'
    rw [hr, hc]
    exact (dot_fold mem mem' r c 1 l l' 1 _ _ er ec).1 (by simp [hne])
  · rintro rfl
    obtain ⟨a, ha, h1, h2, h3, h4⟩ := Mat.build_some (K := K) (n := v.size.1) (m := w.size.2)
      (f := fun i j => do let a ← v.sub (.idx i) .full; let b ← w.sub .full (.idx j); View.dot mem a mem' b)
      (g := fun i j => ((List.range l).map (fun k => f i k * g k j)).foldl (· + ·) 0) (fun i j hi hj => by
        rw [hf.1] at hi
        rw [hg.1] at hj
        obtain ⟨r, hr, er⟩ := entries_row hf hv hi hl
        obtain ⟨c, hc, ec⟩ := entries_col hg hw hj hl'
        simp only [hr, hc, Option.bind_eq_bind, Option.bind_some]
        exact (dot_fold mem mem' r c 1 l l 1 _ _ er ec).2 ⟨rfl, rfl, rfl⟩)
    rw [hf.1, hg.1] at h1 h4
    rw [hg.1] at h2
    exact ⟨a, ha, h1, entries_of_build hsn hsm h1 h2 h4⟩

/-- Matrix product: the usual entries on compatible sizes; incompatible sizes panic. -/
theorem c31_mul [NonUnitalNonAssocSemiring K] (mem mem' : List K) (v w : View) (n l l' m : Nat) (f g : Nat → Nat → K)
    (hf : Entries mem v n l f) (hg : Entries mem' w l' m g) (hv : v.Fits) (hw : w.Fits)
    (hn : 0 < n) (hl : 0 < l) (hl' : 0 < l') (hm : 0 < m) :
    (l ≠ l' → Mat.mul mem v mem' w = none) ∧
    (l = l' → ∃ c, Mat.mul mem v mem' w = some c ∧ c.size = (n, m) ∧
      Entries c.data c.view n m (fun i j => ∑ k ∈ Finset.range l, f i k * g k j)) := by
  have h := mul_fold mem mem' v w n l l' m f g hf hg hv hw hn hl hl' hm
  refine ⟨h.1, fun hh => ?_⟩
  obtain ⟨c, h1, h2, h3⟩ := h.2 hh
  simp only [foldl_sum] at h3
  exact ⟨c, h1, h2, h3⟩

/-- the zero matrix -/
theorem c31_zero [Zero K] (n m : Nat) (hn : n < 65536) (hm : m < 65536) :
    (n = 0 ∨ m = 0 → Mat.zero (K := K) n m = none) ∧
    (0 < n → 0 < m → ∃ a, Mat.zero (K := K) n m = some a ∧ a.size = (n, m) ∧ Entries a.data a.view n m (fun _ _ => 0)) := by
  constructor
  · intro h; rw [Mat.zero, if_neg (by omega)]
  · intro h1 h2
    rw [Mat.zero, if_pos ⟨h1, h2⟩]
    obtain ⟨a, ha, s1, s2, s3, s4⟩ := Mat.build_some (K := K) (n := n) (m := m) (f := fun _ _ => some 0) (g := fun _ _ => 0) (fun _ _ _ _ => rfl)
    exact ⟨a, ha, s1, entries_of_build hn hm s1 s2 s4⟩

/-! ### updates in place -/

/-- `m'` is `mem` with the entries of the view replaced by `F` and nothing else changed -/
def Upd (mem : List K) (v : View) (F : Nat → Nat → K) (m' : List K) : Prop :=
  Entries m' v v.size.1 v.size.2 F ∧ SameOutside mem m' v

theorem upd_start {mem : List K} {v : View} {n m : Nat} {f : Nat → Nat → K} (h : Entries mem v n m f) : Upd mem v f mem := by
  refine ⟨⟨rfl, ?_⟩, rfl, fun _ _ => rfl⟩
  rw [h.1]; exact h.2

theorem upd_set {mem m' : List K} {v : View} (g : Good mem v) {F : Nat → Nat → K} (h : Upd mem v F m') {i j : Nat}
    (hi : i < v.size.1) (hj : j < v.size.2) (x : K) :
    ∃ m'', View.set m' v i j x = some m'' ∧ Upd mem v (fun i' j' => if i' = i ∧ j' = j then x else F i' j') m'' := by
  obtain ⟨⟨_, he⟩, hlen, hout⟩ := h
  have g' : Good m' v := g.congr hlen
  refine ⟨_, set_eq g' hi hj x, ⟨rfl, ?_⟩, by simp [hlen], ?_⟩
  · intro i' j' hi' hj'
    have h0 := he i' j' hi' hj'
    rw [get_eq g.o1 g.o2 hi' hj'] at h0 ⊢
    rw [List.getElem?_set]
    by_cases hc : i' = i ∧ j' = j
    · obtain ⟨rfl, rfl⟩ := hc
      simp [g'.inside _ _ hi hj]
    · rw [if_neg (fun hh => hc (by have := g.inj _ _ _ _ hi hj hi' hj' hh; omega))]
      simpa [hc] using h0
  · intro a ha
    rw [List.getElem?_set, if_neg (ha i j hi hj)]
    exact hout a ha

theorem Upd.funext {mem m' : List K} {v : View} {F G : Nat → Nat → K} (h : Upd mem v F m')
    (e : ∀ i j, i < v.size.1 → j < v.size.2 → F i j = G i j) : Upd mem v G m' :=
  ⟨⟨rfl, fun i j hi hj => by rw [← e i j hi hj]; exact h.1.2 i j hi hj⟩, h.2⟩

/-- a loop over all positions that replaces each entry by a function of it -/
theorem upd_map {mem : List K} {v : View} (g : Good mem v) {f : Nat → Nat → K} (hf : Entries mem v v.size.1 v.size.2 f)
    (h : Nat → Nat → K → K) (step : List K → Nat × Nat → Option (List K))
    (hstep : ∀ m p x, p.1 < v.size.1 → p.2 < v.size.2 → View.get m v p.1 p.2 = some x → step m p = View.set m v p.1 p.2 (h p.1 p.2 x)) :
    ∃ m', (positions v.size.1 v.size.2).foldlM step mem = some m' ∧ Upd mem v (fun i j => h i j (f i j)) m' := by
  have hrow : ∀ (i : Nat), i < v.size.1 → ∀ (m : List K) (F : Nat → Nat → K), Upd mem v F m → (∀ j, j < v.size.2 → F i j = f i j) →
      ∀ k, k ≤ v.size.2 → ∃ m', ((List.range k).map (fun j => (i, j))).foldlM step m = some m' ∧
        Upd mem v (fun i' j' => if i' = i ∧ j' < k then h i j' (f i j') else F i' j') m' := by
    intro i hi m F hF hFf k
    induction k with
    | zero => intro _; exact ⟨m, rfl, by simpa using hF⟩
    | succ k ih =>
      intro hk
      obtain ⟨m', h1, h2⟩ := ih (by omega)
      have hx : View.get m' v i k = some (f i k) := by
        rw [h2.1.2 i k hi (by omega)]; simp [hFf k (by omega)]
      obtain ⟨m'', h3, h4⟩ := upd_set g h2 hi (show k < v.size.2 by omega) (h i k (f i k))
      refine ⟨m'', ?_, h4.funext ?_⟩
      · rw [List.range_succ, List.map_append, List.foldlM_append, h1]
        simp only [List.map_cons, List.map_nil, List.foldlM_cons, List.foldlM_nil, Option.bind_eq_bind, Option.bind_some]
        rw [hstep m' (i, k) _ hi (by simp only; omega) hx, h3]; rfl
      · intro i' j' hi' hj'
        by_cases e1 : i' = i
        · subst e1
          by_cases e2 : j' = k
          · subst e2; simp
          · by_cases e3 : j' < k
            · simp [e2, e3, show j' < k + 1 by omega]
            · simp [e2, e3, show ¬ j' < k + 1 by omega]
        · simp [e1]
  have hall : ∀ k, k ≤ v.size.1 → ∃ m', (positions k v.size.2).foldlM step mem = some m' ∧
      Upd mem v (fun i j => if i < k then h i j (f i j) else f i j) m' := by
    intro k
    induction k with
    | zero => intro _; exact ⟨mem, rfl, by simpa using upd_start hf⟩
    | succ k ih =>
      intro hk
      obtain ⟨m', h1, h2⟩ := ih (by omega)
      obtain ⟨m'', h3, h4⟩ := hrow k (by omega) m' _ h2 (fun j _ => by simp) v.size.2 (le_refl _)
      refine ⟨m'', ?_, h4.funext ?_⟩
      · rw [positions_succ, List.foldlM_append, h1]; exact h3
      · intro i j hi hj
        by_cases e1 : i = k
        · subst e1; simp [hj]
        · simp only [e1, false_and, if_false]
          by_cases e2 : i < k
          · simp [e2, show i < k + 1 by omega]
          · simp [e2, show ¬ i < k + 1 by omega]
  obtain ⟨m', h1, h2⟩ := hall v.size.1 (le_refl _)
  refine ⟨m', h1, h2.funext fun i j hi hj => by simp [hi]⟩

/-- `+=`, `-=`: entrywise in place, nothing outside the view changes; sizes must agree. -/
theorem c31_add_sub_assign (op : K → K → K) (mem mem' : List K) (v w : View) (n m n' m' : Nat) (f g : Nat → Nat → K)
    (hg : Good mem v) (hf : Entries mem v n m f) (hw : Entries mem' w n' m' g) :
    ((n, m) ≠ (n', m') → View.combineAssign op mem v mem' w = none) ∧
    ((n, m) = (n', m') → ∃ r, View.combineAssign op mem v mem' w = some r ∧
      Entries r v n m (fun i j => op (f i j) (g i j)) ∧ SameOutside mem r v) := by
  constructor
  · intro h
    rw [View.combineAssign, if_neg (by rw [hf.1, hw.1]; exact h)]
  · intro h
    rw [Prod.mk.injEq] at h
    obtain ⟨rfl, rfl⟩ := h
    rw [View.combineAssign, if_pos (by rw [hf.1, hw.1])]
    have e1 : v.size.1 = n := by rw [hf.1]
    have e2 : v.size.2 = m := by rw [hf.1]
    obtain ⟨r, h1, h2⟩ := upd_map hg (f := f) (by rw [e1, e2]; exact hf) (fun i j x => op x (g i j))
      (fun mem p => do
        let x ← View.get mem v p.1 p.2
        let y ← View.get mem' w p.1 p.2
        View.set mem v p.1 p.2 (op x y)) (fun m p x hp1 hp2 hx => by
          rw [e1] at hp1; rw [e2] at hp2
          simp [hx, hw.2 _ _ hp1 hp2])
    refine ⟨r, h1, ?_, h2.2⟩
    have := h2.1
    rw [e1, e2] at this
    exact this

/-- `*=`, `/=` by a scalar: entrywise in place. -/
theorem c31_scale_assign (op : K → K) (mem : List K) (v : View) (n m : Nat) (f : Nat → Nat → K)
    (hg : Good mem v) (hf : Entries mem v n m f) :
    ∃ r, View.mapAssign op mem v = some r ∧ Entries r v n m (fun i j => op (f i j)) ∧ SameOutside mem r v := by
  have e1 : v.size.1 = n := by rw [hf.1]
  have e2 : v.size.2 = m := by rw [hf.1]
  obtain ⟨r, h1, h2⟩ := upd_map hg (f := f) (by rw [e1, e2]; exact hf) (fun i j x => op x)
    (fun mem p => do
      let x ← View.get mem v p.1 p.2
      View.set mem v p.1 p.2 (op x)) (fun m p x hp1 hp2 hx => by simp [hx])
  refine ⟨r, h1, ?_, h2.2⟩
  have := h2.1
  rw [e1, e2] at this
  exact this

/-- Writing one matrix over a view (C29, C31): the view takes the entries of the other matrix; nothing else changes. -/
theorem c29_write (mem mem' : List K) (v w : View) (n m n' m' : Nat) (f g : Nat → Nat → K)
    (hg : Good mem v) (hf : Entries mem v n m f) (hw : Entries mem' w n' m' g) :
    ((n, m) ≠ (n', m') → View.write mem v mem' w = none) ∧
    ((n, m) = (n', m') → ∃ r, View.write mem v mem' w = some r ∧ Entries r v n m g ∧ SameOutside mem r v) := by
  constructor
  · intro h
    rw [View.write, if_neg (by rw [hf.1, hw.1]; exact h)]
  · intro h
    rw [Prod.mk.injEq] at h
    obtain ⟨rfl, rfl⟩ := h
    rw [View.write, if_pos (by rw [hf.1, hw.1])]
    have e1 : v.size.1 = n := by rw [hf.1]
    have e2 : v.size.2 = m := by rw [hf.1]
    obtain ⟨r, h1, h2⟩ := upd_map hg (f := f) (by rw [e1, e2]; exact hf) (fun i j x => g i j)
      (fun mem p => do
        let x ← View.get mem' w p.1 p.2
        View.set mem v p.1 p.2 x) (fun m p x hp1 hp2 hx => by
          rw [e1] at hp1; rw [e2] at hp2
          simp [hw.2 _ _ hp1 hp2])
    refine ⟨r, h1, ?_, h2.2⟩
    have := h2.1
    rw [e1, e2] at this
    exact this

/-- Equality of matrices decides equality of sizes and of all entries. -/
theorem c31_eq [DecidableEq K] (mem mem' : List K) (v w : View) (n m n' m' : Nat) (f g : Nat → Nat → K)
    (hf : Entries mem v n m f) (hw : Entries mem' w n' m' g) :
    ∃ b, View.eq mem v mem' w = some b ∧ (b = true ↔ (n, m) = (n', m') ∧ ∀ i j, i < n → j < m → f i j = g i j) := by
  by_cases h : v.size = w.size
  · have h' : (n, m) = (n', m') := by rw [← hf.1, ← hw.1]; exact h
    have h'' := h'
    rw [Prod.mk.injEq] at h''
    obtain ⟨rfl, rfl⟩ := h''
    rw [View.eq, if_neg (by simp [h])]
    have : ∀ (l : List (Nat × Nat)) (b0 : Bool), (∀ p ∈ l, p.1 < n ∧ p.2 < m) →
        ∃ b, l.foldlM (fun b p => if b then do
          let x ← View.get mem v p.1 p.2
          let y ← View.get mem' w p.1 p.2
          return decide (x = y)
        else some false) b0 = some b ∧ (b = true ↔ b0 = true ∧ ∀ p ∈ l, f p.1 p.2 = g p.1 p.2) := by
      intro l
      induction l with
      | nil => intro b0 _; exact ⟨b0, rfl, by simp⟩
      | cons p l ih =>
        intro b0 hl
        have hp := hl p (by simp)
        cases b0 with
        | false =>
          obtain ⟨b, hb, hb'⟩ := ih false (fun q hq => hl q (by simp [hq]))
          refine ⟨b, by rw [List.foldlM_cons]; simpa using hb, by rw [hb']; simp⟩
        | true =>
          obtain ⟨b, hb, hb'⟩ := ih (decide (f p.1 p.2 = g p.1 p.2)) (fun q hq => hl q (by simp [hq]))
          refine ⟨b, ?_, ?_⟩
          · rw [List.foldlM_cons]
            simp only [if_true, hf.2 _ _ hp.1 hp.2, hw.2 _ _ hp.1 hp.2, Option.bind_eq_bind, Option.bind_some, Option.pure_def]
            exact hb
          · rw [hb']; simp
    obtain ⟨b, hb, hb'⟩ := this (positions v.size.1 v.size.2) true (fun p hp => by rw [mem_positions, hf.1] at hp; exact hp)
    refine ⟨b, hb, ?_⟩
    rw [hb']
    simp only [true_and]
    constructor
    · intro hh i j hi hj
      exact hh (i, j) (by rw [mem_positions, hf.1]; exact ⟨hi, hj⟩)
    · intro hh p hp
      rw [mem_positions, hf.1] at hp
      exact hh _ _ hp.1 hp.2
  · refine ⟨false, by rw [View.eq, if_pos h], ?_⟩
    simp only [Bool.false_eq_true, false_iff]
    rintro ⟨e, _⟩
    exact h (by rw [hf.1, hw.1, e])

/-! ## C32 -/

/-- `is_diagonal` answers whether all entries off the diagonal are zero. -/
theorem c31_is_diagonal [Zero K] [DecidableEq K] (a : Mat K) (n m : Nat) (f : Nat → Nat → K) (hs : a.size = (n, m)) (hf : Entries a.data a.view n m f) :
    ∃ b, Mat.isDiagonal a = some b ∧ (b = true ↔ ∀ i j, i < n → j < m → i ≠ j → f i j = 0) := by
  have : ∀ (l : List (Nat × Nat)) (b0 : Bool), (∀ p ∈ l, p.1 < n ∧ p.2 < m) →
      ∃ b, l.foldlM (fun b p => if b then do
        let x ← View.get a.data a.view p.1 p.2
        return !(decide (x ≠ 0) && decide (p.1 ≠ p.2))
      else some false) b0 = some b ∧ (b = true ↔ b0 = true ∧ ∀ p ∈ l, p.1 ≠ p.2 → f p.1 p.2 = 0) := by
    intro l
    induction l with
    | nil => intro b0 _; exact ⟨b0, rfl, by simp⟩
    | cons p l ih =>
      intro b0 hl
      have hp := hl p (by simp)
      cases b0 with
      | false =>
        obtain ⟨b, hb, hb'⟩ := ih false (fun q hq => hl q (by simp [hq]))
        refine ⟨b, by rw [List.foldlM_cons]; simpa using hb, by rw [hb']; simp⟩
      | true =>
        obtain ⟨b, hb, hb'⟩ := ih (!(decide (f p.1 p.2 ≠ 0) && decide (p.1 ≠ p.2))) (fun q hq => hl q (by simp [hq]))
        refine ⟨b, ?_, ?_⟩
        · rw [List.foldlM_cons]
          simp only [if_true, hf.2 _ _ hp.1 hp.2, Option.bind_eq_bind, Option.bind_some, Option.pure_def]
          exact hb
        · rw [hb']
          simp only [List.mem_cons, forall_eq_or_imp, Bool.not_eq_true', Bool.and_eq_false_iff, decide_eq_false_iff_not, not_not, true_and]
          constructor
          · rintro ⟨h1 | h1, h2⟩
            · exact ⟨fun _ => h1, h2⟩
            · exact ⟨fun h => absurd h1 h, h2⟩
          · rintro ⟨h1, h2⟩
            refine ⟨?_, h2⟩
            by_cases h : p.1 = p.2
            · exact Or.inr h
            · exact Or.inl (h1 h)
  obtain ⟨b, hb, hb'⟩ := this (positions a.size.1 a.size.2) true (fun p hp => by rw [mem_positions, hs] at hp; exact hp)
  refine ⟨b, hb, ?_⟩
  rw [hb']
  simp only [true_and]
  constructor
  · intro hh i j hi hj
    exact hh (i, j) (by rw [mem_positions, hs]; exact ⟨hi, hj⟩)
  · intro hh p hp
    rw [mem_positions, hs] at hp
    exact hh p.1 p.2 hp.1 hp.2

/-- `swap_rows` exchanges exactly the two rows. -/
theorem c32_swap_rows (mem : List K) (v : View) (n m : Nat) (f : Nat → Nat → K) (hg : Good mem v) (hf : Entries mem v n m f)
    (r1 r2 : Nat) (h1 : r1 < n) (h2 : r2 < n) :
    ∃ r, View.swapRows mem v r1 r2 = some r ∧
      Entries r v n m (fun i j => f (if i = r1 then r2 else if i = r2 then r1 else i) j) ∧ SameOutside mem r v := by
  have e1 : v.size.1 = n := by rw [hf.1]
  have e2 : v.size.2 = m := by rw [hf.1]
  obtain ⟨r, hr, hP⟩ := foldlM_inv (α := Unit)
    (fun k mem' => Upd mem v (fun i j => if j < k then f (if i = r1 then r2 else if i = r2 then r1 else i) j else f i j) mem') v.size.2
    (fun mem j => do
      let tmp ← View.get mem v r1 j
      let x ← View.get mem v r2 j
      let mem ← View.set mem v r1 j x
      View.set mem v r2 j tmp) mem (by simpa using upd_start hf) (by
      intro k m' hk hU
      have g1 : View.get m' v r1 k = some (f r1 k) := by rw [hU.1.2 _ _ (by omega) hk]; simp
      have g2 : View.get m' v r2 k = some (f r2 k) := by rw [hU.1.2 _ _ (by omega) hk]; simp
      obtain ⟨m1, s1, u1⟩ := upd_set hg hU (show r1 < v.size.1 by omega) hk (f r2 k)
      obtain ⟨m2, s2, u2⟩ := upd_set hg u1 (show r2 < v.size.1 by omega) hk (f r1 k)
      refine ⟨m2, ?_, u2.funext ?_⟩
      · simp only [g1, g2, Option.bind_eq_bind, Option.bind_some, s1, s2]
      · intro i j hi hj
        by_cases ej : j = k
        · subst ej
          by_cases ea : i = r1 <;> by_cases eb : i = r2
          · subst ea; subst eb; simp
          · subst ea; simp [eb]
          · subst eb; simp [ea]
          · simp [ea, eb]
        · simp only [ej, and_false, if_false]
          by_cases ek : j < k
          · simp [ek, show j < k + 1 by omega]
          · simp [ek, show ¬ j < k + 1 by omega])
  refine ⟨r, hr, ?_, hP.2⟩
  have := (hP.funext (G := fun i j => f (if i = r1 then r2 else if i = r2 then r1 else i) j) (fun i j hi hj => by simp [hj])).1
  rw [e1, e2] at this; exact this

/-- `swap_cols` exchanges exactly the two columns. -/
theorem c32_swap_cols (mem : List K) (v : View) (n m : Nat) (f : Nat → Nat → K) (hg : Good mem v) (hf : Entries mem v n m f)
    (c1 c2 : Nat) (h1 : c1 < m) (h2 : c2 < m) :
    ∃ r, View.swapCols mem v c1 c2 = some r ∧
      Entries r v n m (fun i j => f i (if j = c1 then c2 else if j = c2 then c1 else j)) ∧ SameOutside mem r v := by
  have e1 : v.size.1 = n := by rw [hf.1]
  have e2 : v.size.2 = m := by rw [hf.1]
  obtain ⟨r, hr, hP⟩ := foldlM_inv (α := Unit)
    (fun k mem' => Upd mem v (fun i j => if i < k then f i (if j = c1 then c2 else if j = c2 then c1 else j) else f i j) mem') v.size.1
    (fun mem i => do
      let tmp ← View.get mem v i c1
      let x ← View.get mem v i c2
      let mem ← View.set mem v i c1 x
      View.set mem v i c2 tmp) mem (by simpa using upd_start hf) (by
      intro k m' hk hU
      have g1 : View.get m' v k c1 = some (f k c1) := by rw [hU.1.2 _ _ hk (by omega)]; simp
      have g2 : View.get m' v k c2 = some (f k c2) := by rw [hU.1.2 _ _ hk (by omega)]; simp
      obtain ⟨m1, s1, u1⟩ := upd_set hg hU hk (show c1 < v.size.2 by omega) (f k c2)
      obtain ⟨m2, s2, u2⟩ := upd_set hg u1 hk (show c2 < v.size.2 by omega) (f k c1)
      refine ⟨m2, ?_, u2.funext ?_⟩
      · simp only [g1, g2, Option.bind_eq_bind, Option.bind_some, s1, s2]
      · intro i j hi hj
        by_cases ej : i = k
        · subst ej
          by_cases ea : j = c1 <;> by_cases eb : j = c2
          · subst ea; subst eb; simp
          · subst ea; simp [eb]
          · subst eb; simp [ea]
          · simp [ea, eb]
        · simp only [ej, false_and, if_false]
          by_cases ek : i < k
          · simp [ek, show i < k + 1 by omega]
          · simp [ek, show ¬ i < k + 1 by omega])
  refine ⟨r, hr, ?_, hP.2⟩
  have := (hP.funext (G := fun i j => f i (if j = c1 then c2 else if j = c2 then c1 else j)) (fun i j hi hj => by simp [hi])).1
  rw [e1, e2] at this; exact this

/-- `row_operation(r1, r2, c)` adds `c` times row `r2` to row `r1`. -/
theorem c32_row_operation [Add K] [Mul K] (mem : List K) (v : View) (n m : Nat) (f : Nat → Nat → K) (hg : Good mem v)
    (hf : Entries mem v n m f) (r1 r2 : Nat) (h1 : r1 < n) (h2 : r2 < n) (hm : 0 < m) (c : K) :
    ∃ r, View.rowOperation mem v r1 r2 c = some r ∧
      Entries r v n m (fun i j => if i = r1 then f r1 j + f r2 j * c else f i j) ∧ SameOutside mem r v := by
  have e1 : v.size.1 = n := by rw [hf.1]
  have e2 : v.size.2 = m := by rw [hf.1]
  obtain ⟨row, hrow, erow⟩ := entries_row hf hg.fits h2 hm
  have hvals := mapM_range (α := K) row.size.2 (fun j => do let x ← View.get mem row 0 j; return x * c) (fun j => f r2 j * c) (fun j hj => by
    rw [erow.1] at hj
    simp [erow.2 0 j (by omega) hj])
  have hrs : row.size.2 = m := by rw [erow.1]
  obtain ⟨r, hr, hP⟩ := foldlM_inv (α := Unit)
    (fun k mem' => Upd mem v (fun i j => if i = r1 ∧ j < k then f r1 j + f r2 j * c else f i j) mem') v.size.2
    (fun mem i => do
      let x ← View.get mem v r1 i
      let y ← ((List.range row.size.2).map (fun j => f r2 j * c))[i]?
      View.set mem v r1 i (x + y)) mem (by simpa using upd_start hf) (by
      intro k m' hk hU
      have g1 : View.get m' v r1 k = some (f r1 k) := by rw [hU.1.2 _ _ (by omega) hk]; simp
      obtain ⟨m1, s1, u1⟩ := upd_set hg hU (show r1 < v.size.1 by omega) hk (f r1 k + f r2 k * c)
      refine ⟨m1, ?_, u1.funext ?_⟩
      · have : k < row.size.2 := by omega
        simp [g1, this, s1]
      · intro i j hi hj
        by_cases ei : i = r1
        · subst ei
          by_cases ej : j = k
          · subst ej; simp
          · by_cases ek : j < k
            · simp [ej, ek, show j < k + 1 by omega]
            · simp [ej, ek, show ¬ j < k + 1 by omega]
        · simp [ei])
  refine ⟨r, ?_, ?_, hP.2⟩
  · rw [View.rowOperation]
    simp only [hrow, Option.bind_eq_bind, Option.bind_some]
    simp only [Option.bind_eq_bind] at hvals
    rw [hvals]
    exact hr
  · have := (hP.funext (G := fun i j => if i = r1 then f r1 j + f r2 j * c else f i j) (fun i j hi hj => by simp [hj])).1
    rw [e1, e2] at this; exact this

/-- `col_operation(c1, c2, c)` adds `c` times column `c2` to column `c1`. -/
theorem c32_col_operation [Add K] [Mul K] (mem : List K) (v : View) (n m : Nat) (f : Nat → Nat → K) (hg : Good mem v)
    (hf : Entries mem v n m f) (c1 c2 : Nat) (h1 : c1 < m) (h2 : c2 < m) (hn : 0 < n) (c : K) :
    ∃ r, View.colOperation mem v c1 c2 c = some r ∧
      Entries r v n m (fun i j => if j = c1 then f i c1 + f i c2 * c else f i j) ∧ SameOutside mem r v := by
  have e1 : v.size.1 = n := by rw [hf.1]
  have e2 : v.size.2 = m := by rw [hf.1]
  obtain ⟨col, hcol, ecol⟩ := entries_col hf hg.fits h2 hn
  have hvals := mapM_range (α := K) col.size.1 (fun i => do let x ← View.get mem col i 0; return x * c) (fun i => f i c2 * c) (fun i hi => by
    rw [ecol.1] at hi
    simp [ecol.2 i 0 hi (by omega)])
  have hrs : col.size.1 = n := by rw [ecol.1]
  obtain ⟨r, hr, hP⟩ := foldlM_inv (α := Unit)
    (fun k mem' => Upd mem v (fun i j => if j = c1 ∧ i < k then f i c1 + f i c2 * c else f i j) mem') v.size.1
    (fun mem i => do
      let x ← View.get mem v i c1
      let y ← ((List.range col.size.1).map (fun j => f j c2 * c))[i]?
      View.set mem v i c1 (x + y)) mem (by simpa using upd_start hf) (by
      intro k m' hk hU
      have g1 : View.get m' v k c1 = some (f k c1) := by rw [hU.1.2 _ _ hk (by omega)]; simp
      obtain ⟨m1, s1, u1⟩ := upd_set hg hU hk (show c1 < v.size.2 by omega) (f k c1 + f k c2 * c)
      refine ⟨m1, ?_, u1.funext ?_⟩
      · have : k < col.size.1 := by omega
        simp [g1, this, s1]
      · intro i j hi hj
        by_cases ei : j = c1
        · subst ei
          by_cases ej : i = k
          · subst ej; simp
          · by_cases ek : i < k
            · simp [ej, ek, show i < k + 1 by omega]
            · simp [ej, ek, show ¬ i < k + 1 by omega]
        · simp [ei])
  refine ⟨r, ?_, ?_, hP.2⟩
  · rw [View.colOperation]
    simp only [hcol, Option.bind_eq_bind, Option.bind_some]
    simp only [Option.bind_eq_bind] at hvals
    rw [hvals]
    exact hr
  · have := (hP.funext (G := fun i j => if j = c1 then f i c1 + f i c2 * c else f i j) (fun i j hi hj => by simp [hi])).1
    rw [e1, e2] at this; exact this

/-- the identity matrix -/
theorem c31_identity [Zero K] [One K] (n : Nat) (hn : 0 < n) (hn' : n < 65536) :
    ∃ a, Mat.identity (K := K) n = some a ∧ a.size = (n, n) ∧ Entries a.data a.view n n (fun i j => if i = j then 1 else 0) := by
  obtain ⟨a, ha, s1, s2, s3, s4⟩ := Mat.build_some (K := K) (n := n) (m := n) (f := fun _ _ => some 0) (g := fun _ _ => 0) (fun _ _ _ _ => rfl)
  have ez : Mat.zero (K := K) n n = some a := by rw [Mat.zero, if_pos ⟨hn, hn⟩]; exact ha
  have he := entries_of_build hn' hn' s1 s2 s4
  have hI : IsMat n n a := ⟨⟨hn, hn'⟩, ⟨hn, hn'⟩, s1, s2, s3⟩
  have hg : Good a.data a.view := derived_good n n a hI [] a.view rfl
  have e1 : a.view.size.1 = n := by rw [he.1]
  have e2 : a.view.size.2 = n := by rw [he.1]
  obtain ⟨r, hr, hP⟩ := foldlM_inv (α := Unit)
    (fun k mem' => Upd a.data a.view (fun i j => if i = j ∧ i < k then 1 else 0) mem') n
    (fun mem i => View.set mem a.view i i 1) a.data (by simpa using upd_start he) (by
      intro k m' hk hU
      obtain ⟨m1, t1, u1⟩ := upd_set hg hU (show k < a.view.size.1 by omega) (show k < a.view.size.2 by omega) 1
      refine ⟨m1, t1, u1.funext ?_⟩
      intro i j hi hj
      by_cases h : i = k ∧ j = k
      · obtain ⟨rfl, rfl⟩ := h; simp
      · rw [if_neg h]
        by_cases h' : i = j ∧ i < k
        · rw [if_pos h', if_pos ⟨h'.1, by omega⟩]
        · rw [if_neg h', if_neg (by omega)])
  refine ⟨{ a with data := r }, ?_, s1, ?_⟩
  · simp only [Mat.identity, if_pos hn, ez, Option.bind_eq_bind, Option.bind_some, hr]
    rfl
  · have h0 := (hP.funext (G := fun i j => if i = j then 1 else 0) (fun i j hi hj => by
      have : i < n := by omega
      simp [this])).1
    rw [e1, e2] at h0
    exact h0

/-! ## C39 -/

/-- Rectangular literals give the matrix with these entries. -/
theorem c39_literal_partial (rows : List (List K)) (n m : Nat) (hn : rows.length = n) (hm : ∀ r ∈ rows, r.length = m)
    (hn0 : 0 < n) (hm0 : 0 < m) (hn' : n < 65536) (hm' : m < 65536) :
    ∃ a, Mat.fromArray rows = some a ∧ a.size = (n, m) ∧
      ∀ i j, i < n → j < m → View.get a.data a.view i j = (rows[i]?).bind (fun r => r[j]?) ∧ (View.get a.data a.view i j).isSome := by
  cases rows with
  | nil => simp at hn; omega
  | cons r0 rest =>
    have h0 : r0.length = m := hm r0 (by simp)
    have hne : Nonempty K := by
      cases r0 with
      | nil => simp at h0; omega
      | cons x _ => exact ⟨x⟩
    obtain ⟨d⟩ := hne
    have hall : ((r0 :: rest).all fun x => decide (x.length ≠ r0.length)) = false := by
      rw [List.all_eq_false]; exact ⟨r0, by simp, by simp⟩
    have hget : ∀ i j, i < n → j < m → ((r0 :: rest)[i]?).bind (fun r => r[j]?) = some ((((r0 :: rest).getD i []).getD j d)) := by
      intro i j hi hj
      have hi' : i < (r0 :: rest).length := by omega
      have hl : ((r0 :: rest)[i]).length = m := hm _ (List.getElem_mem hi')
      rw [List.getElem?_eq_getElem hi']
      simp only [Option.bind_some, List.getD_eq_getElem?_getD, List.getElem?_eq_getElem hi', Option.getD_some]
      rw [List.getElem?_eq_getElem (by omega)]
      simp
    obtain ⟨a, ha, s1, s2, s3, s4⟩ := Mat.build_some (K := K) (n := n) (m := m)
      (f := fun i j => do let row ← (r0 :: rest)[i]?; row[j]?) (g := fun i j => ((r0 :: rest).getD i []).getD j d)
      (fun i j hi hj => hget i j hi hj)
    have he := entries_of_build hn' hm' s1 s2 s4
    refine ⟨a, ?_, s1, fun i j hi hj => ?_⟩
    · simp only [Mat.fromArray]
      rw [if_neg (by omega), if_neg (by simp [hall]), hn, h0]; exact ha
    · rw [he.2 i j hi hj, hget i j hi hj]; simp

/-- empty literals and literals in which a later row is shorter than the first panic -/
theorem c39_short_row_panics_partial (rows : List (List K)) :
    (rows = [] → Mat.fromArray rows = none) ∧
    (∀ r0 rest, rows = r0 :: rest → (r0 = [] ∨ ∃ r ∈ rest, r.length < r0.length) → Mat.fromArray rows = none) := by
  refine ⟨by rintro rfl; rfl, ?_⟩
  rintro r0 rest rfl h
  simp only [Mat.fromArray]
  rcases h with rfl | ⟨r, hr, hlt⟩
  · simp
  · rw [if_neg (by omega)]
    split
    · rfl
    · apply Mat.build_none
      obtain ⟨i, hi, rfl⟩ := List.mem_iff_getElem.mp hr
      refine ⟨i + 1, r0.length - 1, by simp; omega, by omega, ?_⟩
      simp [List.getElem?_eq_getElem hi]
      omega

/-- **C39 is false**: whenever every later row is at least as long as the first one, the literal is accepted and the longer
rows are silently truncated. -/
theorem c39_ragged_accepted_false (r0 : List K) (rest : List (List K)) (h0 : 0 < r0.length)
    (h : ∀ r ∈ rest, r0.length ≤ r.length) : Mat.fromArray (r0 :: rest) = Mat.fromArray (r0 :: rest.map (List.take r0.length)) ∧
    (Mat.fromArray (r0 :: rest)).isSome := by
  have hall : ∀ l : List (List K), ((r0 :: l).all fun x => decide (x.length ≠ r0.length)) = false := by
    intro l; rw [List.all_eq_false]; exact ⟨r0, by simp, by simp⟩
  obtain ⟨d⟩ : Nonempty K := by
    cases r0 with
    | nil => simp at h0
    | cons x _ => exact ⟨x⟩
  have hcell : ∀ i j, i < rest.length + 1 → j < r0.length →
      (do let row ← (r0 :: rest)[i]?; row[j]?) = some (((r0 :: rest).getD i []).getD j d) ∧
      (do let row ← (r0 :: rest.map (List.take r0.length))[i]?; row[j]?) = some (((r0 :: rest).getD i []).getD j d) := by
    intro i j hi hj
    cases i with
    | zero => simp [List.getD, hj]
    | succ i =>
      have hi' : i < rest.length := by omega
      have hl := h _ (List.getElem_mem hi')
      have : j < rest[i].length := by omega
      simp [List.getD, hi', this, hj]
  have b1 := Mat.build_some (K := K) (n := rest.length + 1) (m := r0.length)
      (f := fun i j => do let row ← (r0 :: rest)[i]?; row[j]?) (g := fun i j => ((r0 :: rest).getD i []).getD j d)
      (fun i j hi hj => (hcell i j hi hj).1)
  have e : Mat.fromArray (r0 :: rest) = Mat.fromArray (r0 :: rest.map (List.take r0.length)) := by
    simp only [Mat.fromArray, hall, if_neg (show ¬ r0.length = 0 by omega)]
    simp only [List.length_cons, List.length_map, Bool.false_eq_true, if_false, Mat.build]
    rw [mapM_some _ _ (fun p : Nat × Nat => ((r0 :: rest).getD p.1 []).getD p.2 d) (fun p hp => by
        rw [mem_positions] at hp; exact (hcell _ _ hp.1 hp.2).1),
      mapM_some _ _ (fun p : Nat × Nat => ((r0 :: rest).getD p.1 []).getD p.2 d) (fun p hp => by
        rw [mem_positions] at hp; exact (hcell _ _ hp.1 hp.2).2)]
  refine ⟨e, ?_⟩
  obtain ⟨a, ha, _⟩ := b1
  simp only [Mat.fromArray, hall, if_neg (show ¬ r0.length = 0 by omega), Bool.false_eq_true, if_false, List.length_cons]
  rw [ha]; rfl

/-! ## the hypotheses are met by concrete matrices -/

/-- a 2 × 2 literal has the expected entries, and is `Good` -/
example : ∃ a, Mat.fromArray [[1, 2], [3, (4 : Int)]] = some a ∧ Entries a.data a.view 2 2 (fun i j => 2 * i + j + 1) ∧ Good a.data a.view := by
  refine ⟨⟨[1, 2, 3, 4], (2, 2), (2, 1)⟩, rfl, ⟨by rw [Mat.view, fromRaw_eq (by norm_num)], ?_⟩, ?_⟩
  · intro i j hi hj
    rw [Mat.view, fromRaw_eq (by norm_num)]
    rcases (by omega : i = 0 ∨ i = 1) with rfl | rfl <;> rcases (by omega : j = 0 ∨ j = 1) with rfl | rfl <;> rfl
  · exact derived_good 2 2 _ ⟨by omega, by omega, rfl, rfl, rfl⟩ [] _ rfl

end Toppo.MatrixProps
