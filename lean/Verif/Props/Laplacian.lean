import Verif.Model.Laplacian
import Verif.Proof.Hodge
import Verif.Props.UnivCoeff
import Verif.Props.SimplicialCount
set_option linter.unusedVariables false
set_option linter.unusedSectionVars false
/-!
# C137: combinatorial Laplacians.  C138: weighted Laplacians.

`LinAlg.mat n m f` is the Mathlib matrix with the entries of `f`. All numbers are real numbers (exact arithmetic).
-/
namespace Toppo.Lap
open Toppo Toppo.ModProps Module Toppo.Univ Matrix
open Toppo.Simp (reportedMod)
open Toppo.LinAlg (mat)

variable {B : Type}

/-- The matrix `L` has `m` rows and columns, its characteristic polynomial is a product of `m` linear factors with real roots, none of
them negative, and exactly `k` of them zero. -/
def Spectrum (m k : Nat) (L : Mt ℝ) : Prop :=
  L.n = m ∧ L.m = m ∧ ∃ ev : Fin m → ℝ, (∀ j, 0 ≤ ev j) ∧ (mat m m L.a).charpoly = ∏ j, (Polynomial.X - Polynomial.C (ev j)) ∧
    (Finset.univ.filter (fun j => ev j = 0)).card = k

theorem mat_mul {n k m : Nat} (f g : Nat → Nat → ℝ) : mat n m (fun i j => ∑ t ∈ Finset.range k, f i t * g t j) = mat n k f * mat k m g := by
  ext i j
  simp only [mat, Matrix.of_apply, Matrix.mul_apply, Finset.sum_range]

theorem mat_add {n m : Nat} (f g : Nat → Nat → ℝ) : mat n m (fun i j => f i j + g i j) = mat n m f + mat n m g := by
  ext i j; rfl

theorem mat_tr {n m : Nat} (f : Nat → Nat → ℝ) : mat m n (fun i j => f j i) = (mat n m f)ᵀ := by
  ext i j; rfl

theorem mat_diag {n : Nat} (w : Nat → ℝ) : mat n n (fun i j => if i = j then w i else 0) = diagonal (fun i : Fin n => w i) := by
  ext i j
  simp only [mat, Matrix.of_apply, diagonal, Fin.ext_iff]

theorem mul_some {x y : Mt ℝ} {n k m : Nat} (h1 : x.n = n) (h2 : x.m = k) (h3 : y.n = k) (h4 : y.m = m) :
    ∃ z, x.mul y = some z ∧ z.n = n ∧ z.m = m ∧ mat n m z.a = mat n k x.a * mat k m y.a := by
  subst h1 h2 h4
  refine ⟨⟨x.n, y.m, fun i j => ∑ k ∈ Finset.range x.m, x.a i k * y.a k j⟩, by simp [Mt.mul, h3], rfl, rfl, ?_⟩
  exact mat_mul _ _

theorem add_some {x y : Mt ℝ} {n m : Nat} (h1 : x.n = n) (h2 : x.m = m) (h3 : y.n = n) (h4 : y.m = m) :
    ∃ z, x.add y = some z ∧ z.n = n ∧ z.m = m ∧ mat n m z.a = mat n m x.a + mat n m y.a := by
  subst h1 h2
  exact ⟨⟨x.n, x.m, fun i j => x.a i j + y.a i j⟩, by simp [Mt.add, h3, h4], rfl, rfl, rfl⟩

theorem diag_one {n : Nat} : (diagonal (fun _ : Fin n => (1 : ℝ) / 1)) = 1 := by
  rw [← diagonal_one]; congr 1; funext; norm_num

theorem lap_one {n m l : Nat} (P : Matrix (Fin n) (Fin m) ℝ) (C : Matrix (Fin m) (Fin l) ℝ) :
    Hodge.lap P C (fun _ => 1) (fun _ => 1) (fun _ => 1) = Pᵀ * P + C * Cᵀ := by
  rw [Hodge.lap, diag_one]
  have e : ∀ {k : Nat}, (diagonal (fun _ : Fin k => (1 : ℝ))) = 1 := fun {k} => diagonal_one
  rw [e, e, e, Matrix.one_mul, Matrix.mul_one, Matrix.mul_one, Matrix.mul_one]

/-- ranks over the real numbers -/
theorem ranks [LinearOrder B] {cplx : List (Hom.BMap B)} (h : Hom.ChainCplx cplx) (h0 : ∀ b, cplx[0]? = some b → ∀ i j, b.a i j = 0) :
    ∃ f0 res, (∀ fuel, f0 ≤ fuel → Hom.new fuel cplx none = some res) ∧ ∀ i b, cplx[i]? = some b →
      (reportedMod res i).freeRank + (mat b.n b.m (inField ℝ b.a)).rank + (mat b.m (Hom.upper cplx i).1 (inField ℝ (Hom.upper cplx i).2)).rank = b.m ∧
      mat b.n b.m (inField ℝ b.a) * mat b.m (Hom.upper cplx i).1 (inField ℝ (Hom.upper cplx i).2) = 0 := by
  obtain ⟨f0, res, h1, h2⟩ := c134_char_zero h h0 none
  refine ⟨f0, res, h1, fun i b hb => ?_⟩
  have hz : FHom.Bd b.m (Hom.upper cplx i).1 (inField ℝ (Hom.upper cplx i).2) ≤ FHom.Z b.n b.m (inField ℝ b.a) := by
    have hb' : (fieldMaps ℝ cplx)[i]? = some ⟨b.n, b.m, inField ℝ b.a⟩ := by simp [fieldMaps, hb]
    have := FHom.bd_le (field_chain ℝ h) hb'
    have e : FHom.upper (fieldMaps ℝ cplx) i = ((Hom.upper cplx i).1, inField ℝ (Hom.upper cplx i).2) := by
      cases hc : cplx[i + 1]? with
      | none => simp [FHom.upper, Hom.upper, fieldMaps, hc]; funext p q; simp [inField]
      | some c => simp [FHom.upper, Hom.upper, fieldMaps, hc]
    rw [e] at this; exact this
  have hbe := FHom.betti_eq hz
  rw [(h2 ℝ i b hb (by simp)).1 inferInstance] at hbe
  refine ⟨hbe, ?_⟩
  cases hc : cplx[i + 1]? with
  | none =>
    have : Hom.upper cplx i = (0, fun _ _ => 0) := by simp [Hom.upper, hc]
    rw [this]; ext p q; exact q.elim0
  | some c =>
    have : Hom.upper cplx i = (c.m, c.a) := by simp [Hom.upper, hc]
    rw [this, ← kmat_eq, ← kmat_eq]
    have hh := h.zero i b c hb hc
    rw [kmat, kmat, ← Matrix.map_mul, hh]
    ext; simp

theorem mapM_get {α β : Type} {f : α → Option β} : ∀ {l : List α}, (∀ a ∈ l, ∃ b, f a = some b) →
    ∃ r, l.mapM f = some r ∧ r.length = l.length ∧ ∀ (i : Nat) (a : α), l[i]? = some a → f a = r[i]? := by
  intro l
  induction l with
  | nil => intro _; exact ⟨[], rfl, rfl, by simp⟩
  | cons a l ih =>
    intro h
    obtain ⟨b, hb⟩ := h a (by simp)
    obtain ⟨r, h1, h2, h3⟩ := ih (fun x hx => h x (by simp [hx]))
    refine ⟨b :: r, by simp [List.mapM_cons, hb, h1], by simp [h2], fun i x hx => ?_⟩
    cases i with
    | zero => simp at hx; subst hx; simpa using hb
    | succ i => simp at hx ⊢; exact h3 i x hx

theorem combinatorial_spec {cplx : List (Hom.BMap B)} (hne : cplx ≠ [])
    (hfit : ∀ i b c, cplx[i]? = some b → cplx[i + 1]? = some c → c.n = b.m) :
    ∃ Ls, combinatorial ℝ cplx = some Ls ∧ Ls.length = cplx.length ∧ ∀ i b, cplx[i]? = some b → ∃ L, Ls[i]? = some L ∧ L.n = b.m ∧ L.m = b.m ∧
      mat b.m b.m L.a = (mat b.n b.m (inField ℝ b.a))ᵀ * mat b.n b.m (inField ℝ b.a) +
        mat b.m (Hom.upper cplx i).1 (inField ℝ (Hom.upper cplx i).2) * (mat b.m (Hom.upper cplx i).1 (inField ℝ (Hom.upper cplx i).2))ᵀ := by
  have hz : ∀ i (x : Hom.BMap B × Hom.BMap B), (cplx.zip (cplx.drop 1))[i]? = some x → cplx[i]? = some x.1 ∧ cplx[i + 1]? = some x.2 := by
    intro i x hx
    rw [List.getElem?_zip_eq_some] at hx
    refine ⟨hx.1, ?_⟩
    have := hx.2
    rw [List.getElem?_drop] at this
    rwa [Nat.add_comm]
  have hm : ∀ b c : Hom.BMap B, c.n = b.m → ∃ L, middle b c = some L ∧ L.n = b.m ∧ L.m = b.m ∧
      L.a = fun i j => (∑ k ∈ Finset.range b.n, b.a k i * b.a k j) + ∑ k ∈ Finset.range c.m, c.a i k * c.a j k := by
    intro b c hbc
    refine ⟨_, by simp [middle, Mt.mul, Mt.tr, Mt.ofMap, Mt.add, hbc]; rfl, ?_⟩
    exact ⟨rfl, rfl, rfl⟩
  obtain ⟨r, r1, r2, r3⟩ := mapM_get (f := fun xy : Hom.BMap B × Hom.BMap B => middle xy.1 xy.2) (l := cplx.zip (cplx.drop 1)) (by
    intro x hx
    obtain ⟨i, hi⟩ := List.mem_iff_getElem?.mp hx
    obtain ⟨h1, h2⟩ := hz i x hi
    obtain ⟨L, hL, -⟩ := hm x.1 x.2 (hfit i _ _ h1 h2)
    exact ⟨L, hL⟩)
  have hlen : r.length = cplx.length - 1 := by rw [r2]; simp
  have hpos : 0 < cplx.length := List.length_pos_iff.mpr hne
  have hlast : cplx.getLast? = some (cplx.getLast hne) := List.getLast?_eq_some_getLast hne
  let last := cplx.getLast hne
  refine ⟨(r ++ [(⟨last.m, last.m, fun i j => ∑ k ∈ Finset.range last.n, last.a k i * last.a k j⟩ : Mt Int)]).map (Mt.cast ℝ), ?_, ?_, ?_⟩
  · simp only [combinatorial, r1, hlast, Option.bind_eq_bind, Option.bind_some]
    simp [Mt.mul, Mt.tr, Mt.ofMap, last]
  · simp [hlen]; omega
  · intro i b hb
    have hi := (List.getElem?_eq_some_iff.mp hb).1
    rcases Nat.lt_or_ge (i + 1) cplx.length with hlt | hge
    · have hc : cplx[i + 1]? = some cplx[i + 1] := List.getElem?_eq_getElem hlt
      have hzi : (cplx.zip (cplx.drop 1))[i]? = some (b, cplx[i + 1]) := by
        rw [List.getElem?_zip_eq_some]
        refine ⟨hb, ?_⟩
        rw [List.getElem?_drop, Nat.add_comm 1 i]; exact hc
      have h3 := r3 i _ hzi
      obtain ⟨L, l1, l2, l3, l4⟩ := hm b cplx[i + 1] (hfit i _ _ hb hc)
      simp only at h3
      rw [l1] at h3
      refine ⟨Mt.cast ℝ L, ?_, l2, l3, ?_⟩
      · rw [List.getElem?_map, List.getElem?_append_left (by omega), ← h3]; rfl
      · have hu : Hom.upper cplx i = (cplx[i + 1].m, cplx[i + 1].a) := by simp [Hom.upper, hc]
        rw [hu, ← mat_tr, ← mat_mul, ← mat_tr, ← mat_mul, ← mat_add]
        simp only [Mt.cast, l4, inField]
        congr 1
        funext p q
        push_cast
        rfl
    · have he : i = cplx.length - 1 := by omega
      have hbl : b = last := by
        have : cplx[i]? = some last := by rw [he, ← hlast, List.getLast?_eq_getElem?]
        rw [hb] at this; exact Option.some.inj this
      have hc : cplx[i + 1]? = none := List.getElem?_eq_none_iff.mpr hge
      have hu : Hom.upper cplx i = (0, fun _ _ => 0) := by simp [Hom.upper, hc]
      refine ⟨Mt.cast ℝ ⟨last.m, last.m, fun i j => ∑ k ∈ Finset.range last.n, last.a k i * last.a k j⟩, ?_, by rw [hbl]; rfl, by rw [hbl]; rfl, ?_⟩
      · rw [List.getElem?_map, List.getElem?_append_right (by omega)]
        have : i - r.length = 0 := by omega
        rw [this]; rfl
      · rw [hu, hbl]
        have e0 : mat last.m 0 (inField ℝ fun _ _ => 0) * (mat last.m 0 (inField ℝ fun _ _ => 0))ᵀ = 0 := by
          ext p q; simp [Matrix.mul_apply]
        simp only
        rw [e0, add_zero, ← mat_tr, ← mat_mul]
        simp only [Mt.cast, inField]
        congr 1
        funext p q
        push_cast
        rfl

/-- **C137.** For every chain complex with explicit bases whose first boundary map is zero: the program of the example returns one square
matrix per dimension, with as many rows as there are cells; the matrix is symmetric; its null space consists of the chains that the
boundary map and the transposed boundary map from above both send to zero; its eigenvalues are not negative, and the number of
eigenvalues zero, with multiplicity, is the free rank that `IntegralHomology` reports for this dimension. -/
theorem c137_combinatorial [LinearOrder B] {cplx : List (Hom.BMap B)} (h : Hom.ChainCplx cplx) (h0 : ∀ b, cplx[0]? = some b → ∀ i j, b.a i j = 0) :
    ∃ f0 res Ls, (∀ fuel, f0 ≤ fuel → Hom.new fuel cplx none = some res) ∧ combinatorial ℝ cplx = some Ls ∧ Ls.length = cplx.length ∧
      ∀ i b, cplx[i]? = some b → ∃ L, Ls[i]? = some L ∧ Spectrum b.m (reportedMod res i).freeRank L ∧ (∀ p q, p < b.m → q < b.m → L.a p q = L.a q p) ∧
        ∀ x : Fin b.m → ℝ, (mat b.m b.m L.a).mulVec x = 0 ↔ (mat b.n b.m (inField ℝ b.a)).mulVec x = 0 ∧
          (mat b.m (Hom.upper cplx i).1 (inField ℝ (Hom.upper cplx i).2))ᵀ.mulVec x = 0 := by
  obtain ⟨f0, res, h1, h2⟩ := ranks h h0
  obtain ⟨Ls, l1, l2, l3⟩ := combinatorial_spec h.nonempty h.fit
  refine ⟨f0, res, Ls, h1, l1, l2, fun i b hb => ?_⟩
  obtain ⟨L, hL, e1, e2, e3⟩ := l3 i b hb
  obtain ⟨hr, hbc⟩ := h2 i b hb
  have p1 : ∀ {k : Nat} (i : Fin k), (0 : ℝ) < (fun _ => 1 : Fin k → ℝ) i := fun _ => one_pos
  rw [← lap_one] at e3
  have hk := Hodge.finrank_ker _ _ (fun _ => 1) (fun _ => 1) (fun _ => 1) p1 p1 p1 hbc
  obtain ⟨ev, v1, v2, v3⟩ := Hodge.charpoly (mat b.n b.m (inField ℝ b.a)) (mat b.m (Hom.upper cplx i).1 (inField ℝ (Hom.upper cplx i).2))
    (fun _ => 1) (fun _ => 1) (fun _ => 1) p1 p1 p1
  refine ⟨L, hL, ⟨e1, e2, ev, v1, by rw [e3]; exact v2, by omega⟩, fun p q hp hq => ?_, fun x => ?_⟩
  · have hs : (mat b.m b.m L.a)ᵀ = mat b.m b.m L.a := by
      rw [e3, lap_one, transpose_add, transpose_mul, transpose_mul, transpose_transpose, transpose_transpose]
    exact congrFun (congrFun hs ⟨q, hq⟩) ⟨p, hp⟩
  · rw [e3, Hodge.ker_iff _ _ _ _ _ p1 p1 p1]
    have : (fun _ => 1 : Fin b.m → ℝ) * x = x := by funext i; simp
    rw [this]

end Toppo.Lap

namespace Toppo.Lap
open Toppo Toppo.ModProps Module Toppo.Univ Matrix Toppo.Simp
open Toppo.LinAlg (mat)
variable {T : Type} [DecidableEq T] [LinearOrder (Simplex T)]

/-- **C137** for simplicial complexes: every history of `attach` calls. -/
theorem c137_simplicial {history : List (List T)} (hh : GoodHistory history) :
    ∃ bm res Ls, Computes history none bm res ∧ combinatorial ℝ bm = some Ls ∧ Ls.length = bm.length ∧
      ∀ i b, bm[i]? = some b → ∃ L, Ls[i]? = some L ∧ Spectrum b.m (reportedMod res i).freeRank L := by
  obtain ⟨c, bm, r0, e1, e2, hk⟩ := known hh
  obtain ⟨f0, res, Ls, h1, h2, h3, h4⟩ := c137_combinatorial hk.cc hk.zero
  refine ⟨bm, res, Ls, ⟨c, f0, e1, e2, h1⟩, h2, h3, fun i b hb => ?_⟩
  obtain ⟨L, a1, a2, -⟩ := h4 i b hb
  exact ⟨L, a1, a2⟩

/-- **C138.** For every history of `attach` calls and all positive weights of the cells: the program of the example builds, in every
dimension, a square matrix with as many rows as there are cells; it is symmetric for the weighted inner product; its eigenvalues are
not negative, and the number of eigenvalues zero, with multiplicity, is the free rank that `IntegralHomology` reports, whatever the
weights. -/
theorem c138_weighted {history : List (List T)} (hh : GoodHistory history) :
    ∃ c bm res, Cplx.build history = some c ∧ c.boundaryMap = some bm ∧ Computes history none bm res ∧
      ∀ w : Nat → Nat → ℝ, (∀ i j, 0 < w i j) → ∀ i b, bm[i]? = some b → ∃ L, weighted c bm w i = some L ∧
        Spectrum b.m (reportedMod res i).freeRank L ∧ ∀ p q, p < b.m → q < b.m → w i p * L.a p q = w i q * L.a q p := by
  obtain ⟨c, bm, r0, e1, e2, hk⟩ := known hh
  obtain ⟨f0, res, h1, h2⟩ := ranks hk.cc hk.zero
  refine ⟨c, bm, res, e1, e2, ⟨c, f0, e1, e2, h1⟩, fun w hw i b hb => ?_⟩
  have hn : ∀ (j : Nat) (d : Hom.BMap (Simplex T)), bm[j]? = some d → nCells c j = some d.m := by
    intro j d hd
    obtain ⟨c', bm', g1, g2, g3, -⟩ := c47_n_cells hh j
    rw [e1] at g1; cases g1
    rw [e2] at g2; cases g2
    rw [nCells, g3 d hd]
    have := (hk.cc.sizes d (List.mem_of_getElem? hd)).2.2.1
    simp [this]
  obtain ⟨hr, hbc⟩ := h2 i b hb
  have hi := (List.getElem?_eq_some_iff.mp hb).1
  have hdim : c.dim = some (bm.length - 1) := by
    obtain ⟨c', q1, q2⟩ := build_hist history hh.simplices
    rw [e1] at q1; cases q1
    obtain ⟨d, bm', Ls, f1, f2, f3, f4, f5⟩ := boundaryMap_spec q2.inv (cells_ne q2 hh)
    rw [e2] at f2; cases f2
    rw [f1, f3]; rfl
  -- the part below
  have hlow : ∃ wl : Nat → ℝ, (∀ j, 0 < wl j) ∧ lowWeights c w i = some (Mt.diag b.n wl) := by
    cases i with
    | zero =>
      refine ⟨fun _ => 1, fun _ => one_pos, ?_⟩
      have : b.n = 1 := by
        obtain ⟨c', bm', g1, g2, g3, -⟩ := c45_entries hh
        rw [e1] at g1; cases g1
        rw [e2] at g2; cases g2
        exact (g3 b hb).1
      simp [lowWeights, this]
    | succ j =>
      have hj : bm[j]? = some bm[j] := List.getElem?_eq_getElem (by omega)
      refine ⟨w j, hw j, ?_⟩
      simp [lowWeights, weightMat, hn j _ hj, hk.cc.fit j _ b hj hb]
  obtain ⟨wl, hwl, elow⟩ := hlow
  -- the part above
  have hhigh : ∃ (l : Nat) (C : Nat → Nat → ℝ) (wh : Nat → ℝ), (∀ j, 0 < wh j) ∧
      highMap c bm i = some (⟨b.m, l, C⟩ : Mt ℝ) ∧ highWeights c bm w i = some (Mt.diag l wh) ∧
      mat b.n b.m (inField ℝ b.a) * mat b.m l C = 0 ∧
      (mat b.m l C).rank = (mat b.m (Hom.upper bm i).1 (inField ℝ (Hom.upper bm i).2)).rank := by
    cases hc : bm[i + 1]? with
    | some d =>
      have hlt := (List.getElem?_eq_some_iff.mp hc).1
      have hu : Hom.upper bm i = (d.m, d.a) := by simp [Hom.upper, hc]
      rw [hu] at hbc
      refine ⟨d.m, inField ℝ d.a, fun j => 1 / w (i + 1) j, fun j => one_div_pos.mpr (hw _ j), ?_, ?_, hbc, by rw [hu]⟩
      · rw [highMap, if_pos (by omega), hc]
        simp only [Option.map_some, Mt.cast, Mt.ofMap, hk.cc.fit i b d hb hc]; rfl
      · rw [highWeights, if_pos (by omega), weightMat, hn _ d hc]; rfl
    | none =>
      have hge := List.getElem?_eq_none_iff.mp hc
      have hie : i = bm.length - 1 := by omega
      have hu : Hom.upper bm i = (0, fun _ _ => 0) := by simp [Hom.upper, hc]
      have z1 : mat b.m 1 (fun _ _ => (0 : ℝ)) = 0 := by ext; rfl
      have z2 : mat b.m 0 (inField ℝ fun _ _ => 0) = 0 := by ext p q; exact q.elim0
      refine ⟨1, fun _ _ => 0, fun _ => 1, fun _ => one_pos, ?_, ?_, by rw [z1, Matrix.mul_zero], ?_⟩
      · rw [highMap, if_neg (by omega), hdim, ← hie, Option.bind_some, hn i b hb]; rfl
      · rw [highWeights, if_neg (by omega)]
      · rw [hu, z1]
        simp only
        rw [z2, rank_zero, rank_zero]
  obtain ⟨l, C, wh, hwh, ehigh, ewh, hBC, hrk⟩ := hhigh
  let P := mat b.n b.m (inField ℝ b.a)
  let Q := mat b.m l C
  have hmid : weightMat c i (w i) = some (Mt.diag b.m (w i)) := by rw [weightMat, hn i b hb]; rfl
  have hinv : weightMat c i (fun j => 1 / w i j) = some (Mt.diag b.m (fun j => 1 / w i j)) := by rw [weightMat, hn i b hb]; rfl
  have key : ∃ L, weighted c bm w i = some L ∧ L.n = b.m ∧ L.m = b.m ∧
      mat b.m b.m L.a = Hodge.lap P Q (fun j => w i j) (fun j => wl j) (fun j => wh j) := by
    let bl : Mt ℝ := Mt.cast ℝ (Mt.ofMap b)
    obtain ⟨d1, a1, a2, a3, a4⟩ := mul_some (x := Mt.diag b.m (fun j => 1 / w i j)) (y := bl.tr) (n := b.m) (k := b.m) (m := b.n) rfl rfl rfl rfl
    obtain ⟨d2, b1, b2, b3, b4⟩ := mul_some (x := d1) (y := Mt.diag b.n wl) (n := b.m) (k := b.n) (m := b.n) a2 a3 rfl rfl
    obtain ⟨dn, c1, c2, c3, c4⟩ := mul_some (x := d2) (y := bl) (n := b.m) (k := b.n) (m := b.m) b2 b3 rfl rfl
    obtain ⟨u1, x1, x2, x3, x4⟩ := mul_some (x := ⟨b.m, l, C⟩) (y := Mt.diag l wh) (n := b.m) (k := l) (m := l) rfl rfl rfl rfl
    obtain ⟨u2, y1, y2, y3, y4⟩ := mul_some (x := u1) (y := (⟨b.m, l, C⟩ : Mt ℝ).tr) (n := b.m) (k := l) (m := b.m) x2 x3 rfl rfl
    obtain ⟨up, z1, z2, z3, z4⟩ := mul_some (x := u2) (y := Mt.diag b.m (w i)) (n := b.m) (k := b.m) (m := b.m) y2 y3 rfl rfl
    obtain ⟨L, v1, v2, v3, v4⟩ := add_some (x := dn) (y := up) (n := b.m) (m := b.m) c2 c3 z2 z3
    refine ⟨L, ?_, v2, v3, ?_⟩
    · unfold weighted
      rw [hb, ehigh, elow, ewh, hmid, hinv]
      simp only [Option.bind_eq_bind, Option.bind_some]
      change ((Mt.diag b.m (fun j => 1 / w i j)).mul bl.tr).bind _ = _
      rw [a1, Option.bind_some, b1, Option.bind_some]
      change (d2.mul bl).bind _ = _
      rw [c1, Option.bind_some, x1, Option.bind_some, y1, Option.bind_some, z1, Option.bind_some, v1]
    · rw [v4, c4, z4, b4, y4, a4, x4]
      simp only [Mt.diag, Mt.tr, mat_diag]
      rw [mat_tr, mat_tr]
      rfl
  obtain ⟨L, l1, l2, l3, l4⟩ := key
  have hker := Hodge.finrank_ker P Q (fun j => w i j) (fun j => wl j) (fun j => wh j) (fun j => hw i j) (fun j => hwl j) (fun j => hwh j) hBC
  obtain ⟨ev, v1, v2, v3⟩ := Hodge.charpoly P Q (fun j => w i j) (fun j => wl j) (fun j => wh j) (fun j => hw i j) (fun j => hwl j) (fun j => hwh j)
  refine ⟨L, l1, ⟨l2, l3, ev, v1, by rw [l4]; exact v2, ?_⟩, fun p q hp hq => ?_⟩
  · have : Q.rank = (mat b.m (Hom.upper bm i).1 (inField ℝ (Hom.upper bm i).2)).rank := hrk
    have : P.rank = (mat b.n b.m (inField ℝ b.a)).rank := rfl
    omega
  · have hs : (diagonal (fun j : Fin b.m => w i j) * mat b.m b.m L.a)ᵀ = diagonal (fun j : Fin b.m => w i j) * mat b.m b.m L.a := by
      rw [l4, Hodge.lap, Matrix.mul_add, transpose_add]
      have t1 := Hodge.diag_mul_inv (fun j : Fin b.m => w i j) (fun j => hw i j)
      have t2 := mul_eq_one_comm.mp t1
      have t0 : ∀ X : Matrix (Fin b.m) (Fin b.m) ℝ, diagonal (fun j : Fin b.m => w i j) * (diagonal (fun j : Fin b.m => 1 / w i j) * X) = X := by
        intro X
        rw [← Matrix.mul_assoc, t1, Matrix.one_mul]
      simp only [Matrix.mul_assoc, transpose_mul, transpose_transpose, diagonal_transpose]
      rw [t2, t0, Matrix.mul_one]
    have := congrFun (congrFun hs ⟨q, hq⟩) ⟨p, hp⟩
    simpa [diagonal_mul, mat] using this

/-- a case: the hollow triangle with a tail has Betti numbers 1 and 1; its Laplacian in dimension 0 is that of the graph -/
example : ((Cplx.build [[0, 1], [1, 2], [2, 0], [2, 3]]).bind (fun c => c.boundaryMap)).bind (fun bm => (combinatorial ℤ bm).map (fun Ls => Ls.map (fun L =>
    (List.range L.n).map (fun i => (List.range L.m).map (L.a i))))) =
    some [[[2, -1, -1, 0], [-1, 2, -1, 0], [-1, -1, 3, -1], [0, 0, -1, 1]], [[2, -1, 1, 0], [-1, 2, 1, -1], [1, 1, 2, -1], [0, -1, -1, 2]]] := by
  decide +kernel

end Toppo.Lap
