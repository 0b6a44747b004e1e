import Verif.Props.Laplacian
import Verif.Props.Checked
import Verif.Props.FloatMul
set_option linter.unusedVariables false
set_option linter.unusedSectionVars false
/-!
# C147: the combinatorial Laplacians on machine integers

combinatorial_laplacian.rs:34-55 works with `Matrix<i64>` and converts the entries to `f64`. No product and no sum overflows, and the
conversion is exact: the matrices handed to `spectrum` are the Laplacians.  `Mat.run` is the program on integers of `w` bits: `none` is a
panic (overflow).
-/
namespace Toppo.Lap
open Toppo Toppo.View Toppo.MatrixProps Toppo.CheckedProps Chk Toppo.Simp

variable {w : Nat}

/-- the entry of `∂ᵀ ∂ + ∂' ∂'ᵀ` -/
def entry (n : Nat) (f : Nat → Nat → ℤ) (l : Nat) (g : Nat → Nat → ℤ) (i j : Nat) : ℤ :=
  (∑ k ∈ Finset.range n, f k i * f k j) + ∑ k ∈ Finset.range l, g i k * g j k

theorem transpose_fits (v : View) : v.transpose.Fits := fromRaw_fits _ _ _

theorem sum_le {n : Nat} {x y : Nat → ℤ} (hx : ∀ k < n, |x k| ≤ 1) (hy : ∀ k < n, |y k| ≤ 1) : |∑ k ∈ Finset.range n, x k * y k| ≤ n := by
  refine (Finset.abs_sum_le_sum_abs _ _).trans ?_
  have : ∀ k ∈ Finset.range n, |x k * y k| ≤ 1 := by
    intro k hk
    rw [abs_mul]
    have hk := Finset.mem_range.mp hk
    exact mul_le_one₀ (hx k hk) (abs_nonneg _) (hy k hk)
  refine (Finset.sum_le_sum this).trans ?_
  simp

theorem pow_bound (hw : 18 ≤ w) : (131072 : ℤ) ≤ 2 ^ (w - 1) := by
  have : (2 : ℤ) ^ 17 ≤ 2 ^ (w - 1) := pow_le_pow_right₀ (by norm_num) (by omega)
  norm_num at this
  exact this

theorem small_safe (hw : 18 ≤ w) {n : Nat} (hn : n < 65536) {x y : Nat → ℤ} (hx : ∀ k < n, |x k| ≤ 1) (hy : ∀ k < n, |y k| ≤ 1) :
    SumSafe w (products n x y) := by
  refine (c123_mul_bound n x y).2 1 1 hx hy ?_
  have := pow_bound hw
  have hn : (n : ℤ) < 65536 := by exact_mod_cast hn
  linarith

/-- **C147** for matrices with entries `-1`, `0`, `1`: the two products and the sum are computed on integers of `w ≥ 18` bits (so for `i32`
and `i64`) without overflow. The rows and columns of a matrix are at most `65535`, as the program demands of every matrix. -/
theorem c147_matrices (hw : 18 ≤ w) (mem mem' : List ℤ) (v v' : View) (n m l : Nat) (f g : Nat → Nat → ℤ) (hf : Entries mem v n m f)
    (hg : Entries mem' v' m l g) (hv : v.Fits) (hv' : v'.Fits) (hn : 0 < n) (hm : 0 < m) (hl : 0 < l)
    (hf1 : ∀ i < n, ∀ j < m, |f i j| ≤ 1) (hg1 : ∀ i < m, ∀ j < l, |g i j| ≤ 1) :
    ∃ p q c, Mat.run (Mat.mul (mem.map (lit (w := w))) v.transpose (mem.map lit) v) = some p ∧
      Mat.run (Mat.mul (mem'.map (lit (w := w))) v' (mem'.map lit) v'.transpose) = some q ∧
      Mat.run (Mat.zipWith (· + ·) (p.data.map (lit (w := w))) p.view (q.data.map lit) q.view) = some c ∧
      p.size = (m, m) ∧ Entries p.data p.view m m (fun i j => ∑ k ∈ Finset.range n, f k i * f k j) ∧
      c.size = (m, m) ∧ Entries c.data c.view m m (entry n f l g) ∧ ∀ i < m, ∀ j < m, |entry n f l g i j| ≤ n + l := by
  have hn' : n < 65536 := by have := hv.1; rw [hf.1] at this; exact this
  have hm' : m < 65536 := by have := hv.2.1; rw [hf.1] at this; exact this
  have hl' : l < 65536 := by have := hv'.2.1; rw [hg.1] at this; exact this
  have hft := c31_transpose mem v n m f hf hv
  have hgt := c31_transpose mem' v' m l g hg hv'
  obtain ⟨p, p1, p2, p3⟩ := (c123_mul (w := w) mem mem v.transpose v m n m _ _ hft hf (transpose_fits v) hv hm hn hm).1
    (fun i hi j hj => small_safe hw hn' (fun k hk => hf1 k hk i hi) (fun k hk => hf1 k hk j hj))
  obtain ⟨q, q1, q2, q3⟩ := (c123_mul (w := w) mem' mem' v' v'.transpose m l m _ _ hg hgt hv' (transpose_fits v') hm hl hm).1
    (fun i hi j hj => small_safe hw hl' (fun k hk => hg1 i hi k hk) (fun k hk => hg1 j hj k hk))
  have hb : ∀ i < m, ∀ j < m, |entry n f l g i j| ≤ n + l := by
    intro i hi j hj
    refine (abs_add_le _ _).trans (add_le_add ?_ ?_)
    · exact sum_le (fun k hk => hf1 k hk i hi) (fun k hk => hf1 k hk j hj)
    · exact sum_le (fun k hk => hg1 i hi k hk) (fun k hk => hg1 j hj k hk)
  obtain ⟨c, c1, c2, c3⟩ := (c123_add (w := w) p.data q.data p.view q.view m m _ _ p3 q3 hm' hm').1 (by
    intro i hi j hj
    have h1 := abs_le.mp (hb i hi j hj)
    have h2 := pow_bound hw
    have h3 : (n : ℤ) < 65536 := by exact_mod_cast hn'
    have h4 : (l : ℤ) < 65536 := by exact_mod_cast hl'
    unfold entry at h1
    constructor <;> linarith [h1.1, h1.2])
  exact ⟨p, q, c, p1, q1, c1, p2, p3, c2, c3, hb⟩

/-- **C147**, the conversion `as f64` of the entries is exact. -/
theorem c147_convert (z : ℤ) (h : |z| ≤ 131072) : (F64.lit z).isFinite = true ∧ F64.val (F64.lit z) = z := by
  have h' : |z| ≤ 2 ^ 53 := by norm_num; linarith
  exact F64.ofExact_exact (FloatProps.repM_int h') (FloatProps.int_lt h')

section
variable {T : Type} [DecidableEq T]

/-- the entries of the boundary maps of a simplicial complex are `-1`, `0`, `1` -/
theorem entries_small {history : List (List T)} {bm : List (Hom.BMap (Simplex T))} {r0 : T → ℤ} (hk : Known history bm r0) {k : Nat}
    {b : Hom.BMap (Simplex T)} (hb : bm[k]? = some b) : ∀ i < b.n, ∀ j < b.m, |b.a i j| ≤ 1 := by
  intro i hi j hj
  cases k with
  | zero => rw [hk.zero b hb]; simp
  | succ k =>
    have hlt : k < bm.length := by have := (List.getElem?_eq_some_iff.mp hb).1; omega
    have hb0 : bm[k]? = some bm[k] := List.getElem?_eq_getElem hlt
    have h0 := hk.cc.sizes _ (List.mem_of_getElem? hb0)
    have h1 := hk.cc.sizes _ (List.mem_of_getElem? hb)
    have hfit := hk.cc.fit k _ _ hb0 hb
    have hs : b.basis[j]? = some (b.basis[j]'(by rw [h1.2.2.1]; exact hj)) := List.getElem?_eq_getElem _
    have ht : bm[k].basis[i]? = some (bm[k].basis[i]'(by rw [h0.2.2.1]; omega)) := List.getElem?_eq_getElem _
    obtain ⟨e1, e2⟩ := hk.entries k _ b hb0 hb j _ hs
    by_cases hx : ∀ x ∈ (b.basis[j]'(by rw [h1.2.2.1]; exact hj)).labels,
        (bm[k].basis[i]'(by rw [h0.2.2.1]; omega)).labels.toFinset ≠ (b.basis[j]'(by rw [h1.2.2.1]; exact hj)).labels.toFinset.erase x
    · rw [e2 i _ ht hx]; simp
    · push Not at hx
      obtain ⟨x, hx, hE⟩ := hx
      obtain ⟨i', t, ht', hE', hval⟩ := e1 x hx
      have hnd := (hk.basis k _ hb0).1
      have : i' = i := by
        have g1 : (bm[k].basis.map (fun s => s.labels.toFinset))[i']? = (bm[k].basis.map (fun s => s.labels.toFinset))[i]? := by
          rw [List.getElem?_map, List.getElem?_map, ht', ht]; simp [hE, hE']
        have hi' : i' < (bm[k].basis.map (fun s => s.labels.toFinset)).length := by
          rw [List.length_map]; exact (List.getElem?_eq_some_iff.mp ht').1
        exact List.getElem?_inj hi' hnd |>.mp g1
      rw [← this, hval, abs_pow]; simp

/-- **C147** for simplicial complexes: for every history of `attach` calls the entries of all boundary maps are `-1`, `0` or `1`; wherever
two consecutive boundary maps `b`, `b'` are stored (`mem`, `v` and `mem'`, `v'`), `x.transpose() * x + y * y.transpose()` returns on `i64`,
and it returns the exact Laplacian; the highest one returns too; and all entries are converted to `f64` exactly. -/
theorem c147_simplicial {history : List (List T)} (hh : GoodHistory history) :
    ∃ c bm, Cplx.build history = some c ∧ c.boundaryMap = some bm ∧
      (∀ b ∈ bm, ∀ i < b.n, ∀ j < b.m, |b.a i j| ≤ 1) ∧
      (∀ k b b', bm[k]? = some b → bm[k + 1]? = some b' → ∀ mem mem' v v', Entries mem v b.n b.m b.a → Entries mem' v' b'.n b'.m b'.a →
        v.Fits → v'.Fits →
        ∃ p q s L, Mat.run (Mat.mul (mem.map (lit (w := 64))) v.transpose (mem.map lit) v) = some p ∧
          Mat.run (Mat.mul (mem'.map (lit (w := 64))) v' (mem'.map lit) v'.transpose) = some q ∧
          Mat.run (Mat.zipWith (· + ·) (p.data.map (lit (w := 64))) p.view (q.data.map lit) q.view) = some s ∧
          middle b b' = some L ∧ Entries s.data s.view L.n L.m L.a ∧
          ∀ i < L.n, ∀ j < L.m, (F64.lit (L.a i j)).isFinite = true ∧ F64.val (F64.lit (L.a i j)) = L.a i j) ∧
      ∀ b ∈ bm, ∀ mem v, Entries mem v b.n b.m b.a → v.Fits →
        ∃ p L, Mat.run (Mat.mul (mem.map (lit (w := 64))) v.transpose (mem.map lit) v) = some p ∧
          (Mt.ofMap b).tr.mul (Mt.ofMap b) = some L ∧ Entries p.data p.view L.n L.m L.a ∧
          ∀ i < L.n, ∀ j < L.m, (F64.lit (L.a i j)).isFinite = true ∧ F64.val (F64.lit (L.a i j)) = L.a i j := by
  obtain ⟨c, bm, r0, e1, e2, hk⟩ := known hh
  have hsm : ∀ b ∈ bm, ∀ i < b.n, ∀ j < b.m, |b.a i j| ≤ 1 := by
    intro b hb
    obtain ⟨k, hk'⟩ := List.mem_iff_getElem?.mp hb
    exact entries_small hk hk'
  refine ⟨c, bm, e1, e2, hsm, ?_, ?_⟩
  · intro k b b' hb hb' mem mem' v v' hf hg hv hv'
    have s1 := hk.cc.sizes b (List.mem_of_getElem? hb)
    have s2 := hk.cc.sizes b' (List.mem_of_getElem? hb')
    have hfit := hk.cc.fit k b b' hb hb'
    have hg0 := hsm b' (List.mem_of_getElem? hb')
    rw [hfit] at hg hg0
    have hn : b.n < 65536 := by have := hv.1; rw [hf.1] at this; exact this
    have hl : b'.m < 65536 := by have := hv'.2.1; rw [hg.1] at this; exact this
    obtain ⟨p, q, s, h1, h2, h3, -, -, -, h4, h5⟩ := c147_matrices (w := 64) (by norm_num) mem mem' v v' b.n b.m b'.m b.a b'.a hf hg hv hv' s1.1 s1.2.1
      s2.2.1 (hsm b (List.mem_of_getElem? hb)) hg0
    refine ⟨p, q, s, ⟨b.m, b.m, entry b.n b.a b'.m b'.a⟩, h1, h2, h3, ?_, h4, fun i hi j hj => c147_convert _ ?_⟩
    · simp [middle, Mt.mul, Mt.tr, Mt.ofMap, Mt.add, hfit]; rfl
    · have := h5 i hi j hj
      have g1 : (b.n : ℤ) < 65536 := by exact_mod_cast hn
      have g2 : (b'.m : ℤ) < 65536 := by exact_mod_cast hl
      simp only; linarith
  · intro b hb mem v hf hv
    have s1 := hk.cc.sizes b hb
    have hn : b.n < 65536 := by have := hv.1; rw [hf.1] at this; exact this
    obtain ⟨p, h1, h2, h3⟩ := (c123_mul (w := 64) mem mem v.transpose v b.m b.n b.m _ _ (c31_transpose mem v b.n b.m b.a hf hv) hf (transpose_fits v) hv
      s1.2.1 s1.1 s1.2.1).1 (fun i hi j hj => small_safe (by norm_num) hn (fun k hk => hsm b hb k hk i hi) (fun k hk => hsm b hb k hk j hj))
    refine ⟨p, ⟨b.m, b.m, fun i j => ∑ k ∈ Finset.range b.n, b.a k i * b.a k j⟩, h1, ?_, h3, fun i hi j hj => c147_convert _ ?_⟩
    · simp [Mt.mul, Mt.tr, Mt.ofMap]
    · have := sum_le (fun k hk => hsm b hb k hk i hi) (fun k hk => hsm b hb k hk j hj)
      have g1 : (b.n : ℤ) < 65536 := by exact_mod_cast hn
      simp only; linarith

end

/-- C147, a case: the boundary map of a triangle with a tail, stored in a memory and read through a view -/
example : Entries ([-1, -1, 0, 0, 1, 0, -1, 0, 0, 1, 1, -1, 0, 0, 0, 1] : List ℤ) ⟨0, (4, 4), (4, 1)⟩ 4 4
    (fun i j => ([[-1, -1, 0, 0], [1, 0, -1, 0], [0, 1, 1, -1], [0, 0, 0, 1]] : List (List ℤ))[i]!.getD j 0) :=
  ⟨rfl, by intro i j hi hj; interval_cases i <;> interval_cases j <;> decide +kernel⟩

example : (Mat.run (Mat.mul (([-1, -1, 0, 0, 1, 0, -1, 0, 0, 1, 1, -1, 0, 0, 0, 1] : List ℤ).map (lit (w := 64))) (View.transpose ⟨0, (4, 4), (4, 1)⟩)
    (([-1, -1, 0, 0, 1, 0, -1, 0, 0, 1, 1, -1, 0, 0, 0, 1] : List ℤ).map lit) ⟨0, (4, 4), (4, 1)⟩)).map (fun p => p.data) =
    some [2, 1, -1, 0, 1, 2, 1, -1, -1, 1, 2, -1, 0, -1, -1, 2] := by
  decide +kernel

/-- with two bits there is an overflow: the size of the integers matters -/
example : Mat.run (Mat.mul (([-1, -1, 0, 0, 1, 0, -1, 0, 0, 1, 1, -1, 0, 0, 0, 1] : List ℤ).map (lit (w := 2))) (View.transpose ⟨0, (4, 4), (4, 1)⟩)
    (([-1, -1, 0, 0, 1, 0, -1, 0, 0, 1, 1, -1, 0, 0, 0, 1] : List ℤ).map lit) ⟨0, (4, 4), (4, 1)⟩) = none := by
  decide +kernel

end Toppo.Lap
