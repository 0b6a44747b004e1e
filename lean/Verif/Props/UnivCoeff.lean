import Verif.Proof.UnivCoeff
import Verif.Props.Euler
import Verif.Props.SimpSum
import Mathlib.Algebra.Field.ZMod
set_option linter.unusedVariables false
set_option linter.unusedSectionVars false
/-!
# C134: integral homology determines the Betti numbers over every field
-/
namespace Toppo.Univ
open Toppo Toppo.ModProps Module
open Toppo.Simp (reportedMod)

/-- the integer matrix `f` with entries read in `K` -/
def inField (K : Type) [Field K] (f : Smith.M) : Nat → Nat → K := fun i j => ((f i j : ℤ) : K)

/-- the boundary maps of a complex with entries read in `K` -/
def fieldMaps (K : Type) [Field K] {B : Type} (cplx : List (Hom.BMap B)) : List (FHom.FMap K) := cplx.map (fun b => ⟨b.n, b.m, inField K b.a⟩)

theorem kmat_eq (K : Type) [Field K] (n m : Nat) (f : Smith.M) : kmat K n m f = LinAlg.mat n m (inField K f) := by
  ext i j; rfl

variable {B : Type} [LinearOrder B]

/-- in every dimension up to the bound, reported or not, the module is the homology group and its free rank is right -/
theorem all_dims {cplx : List (Hom.BMap B)} (h : Hom.ChainCplx cplx) (maxDim : Option Nat) :
    ∃ f0 res, (∀ fuel, f0 ≤ fuel → Hom.new fuel cplx maxDim = some res) ∧
      (∀ i, ∀ dk ∈ (reportedMod res i).divisors, dk.1 ≠ 0) ∧
      ∀ i b, cplx[i]? = some b → (∀ d, maxDim = some d → i ≤ d) →
        Nonempty (Hom.HGrp b.n b.m (Hom.upper cplx i).1 b.a (Hom.upper cplx i).2 ≃+ Grp (reportedMod res i)) ∧
        (reportedMod res i).freeRank + Hom.rk b.n b.m b.a + Hom.rk b.m (Hom.upper cplx i).1 (Hom.upper cplx i).2 = b.m := by
  obtain ⟨f0, res, h1, h2, h3, h4, -⟩ := Hom.c44_homology h maxDim
  obtain ⟨f1, res', g1, g2⟩ := Hom.dropped_ranks h maxDim
  have : res' = res := by
    have a := h1 (f0 + f1) (by omega)
    have b := g1 (f0 + f1) (by omega)
    rw [a] at b; exact (Option.some.inj b).symm
  subst this
  refine ⟨f0, res', h1, fun i dk hdk => ?_, fun i b hb hd => ?_⟩
  · cases ho : res'[i]? with
    | none => simp [reportedMod, ho] at hdk
    | some o =>
      have hi := (List.getElem?_eq_some_iff.mp ho).1
      have hc : cplx[i]? = some cplx[i] := List.getElem?_eq_getElem (by omega)
      have e : reportedMod res' i = o.module := by simp [reportedMod, ho]
      rw [e] at hdk
      exact ((h2 i _ o hc ho).torsion.1 dk hdk).2.1
  · cases ho : res'[i]? with
    | none =>
      have hl := List.getElem?_eq_none_iff.mp ho
      have e : reportedMod res' i = ⟨0, []⟩ := by simp [reportedMod, ho]
      rw [e]
      have s1 := h3 i b hb hl hd
      have s2 : Subsingleton (Grp ⟨0, []⟩) := Hom.isZero_subsingleton (a := ⟨0, []⟩) rfl
      refine ⟨⟨?_⟩, by have := g2 i b hb hl hd; simpa using this⟩
      exact { toFun := fun _ => 0, invFun := fun _ => 0, left_inv := fun _ => Subsingleton.elim _ _, right_inv := fun _ => Subsingleton.elim _ _,
              map_add' := fun _ _ => Subsingleton.elim _ _ }
    | some o =>
      have e : reportedMod res' i = o.module := by simp [reportedMod, ho]
      rw [e]
      exact ⟨(h2 i b o hb ho).iso, (h2 i b o hb ho).freeRank⟩

/-- boundaries are cycles -/
theorem bd_le_z {cplx : List (Hom.BMap B)} (h : Hom.ChainCplx cplx) {i b} (hb : cplx[i]? = some b) :
    Hom.Bd b.m (Hom.upper cplx i).1 (Hom.upper cplx i).2 ≤ Hom.Z b.n b.m b.a := by
  rintro x ⟨y, rfl⟩
  show (Smith.mat b.n b.m b.a).mulVec ((Smith.mat b.m _ _).mulVec y) = 0
  rw [Matrix.mulVec_mulVec]
  suffices Smith.mat b.n b.m b.a * Smith.mat b.m (Hom.upper cplx i).1 (Hom.upper cplx i).2 = 0 by rw [this, Matrix.zero_mulVec]
  cases hc : cplx[i + 1]? with
  | none =>
    have : Hom.upper cplx i = (0, fun _ _ => 0) := by simp [Hom.upper, hc]
    rw [this]; ext p q; exact q.elim0
  | some c =>
    have : Hom.upper cplx i = (c.m, c.a) := by simp [Hom.upper, hc]
    rw [this]; exact h.zero i b c hb hc

/-- a chain complex over the integers is one over every field -/
theorem field_chain (K : Type) [Field K] {cplx : List (Hom.BMap B)} (h : Hom.ChainCplx cplx) : FHom.ChainCplx (fieldMaps K cplx) := by
  constructor
  · intro i b c hb hc
    simp only [fieldMaps, List.getElem?_map, Option.map_eq_some_iff] at hb hc
    obtain ⟨b', hb', rfl⟩ := hb
    obtain ⟨c', hc', rfl⟩ := hc
    exact h.fit i b' c' hb' hc'
  · intro i b c hb hc
    simp only [fieldMaps, List.getElem?_map, Option.map_eq_some_iff] at hb hc
    obtain ⟨b', hb', rfl⟩ := hb
    obtain ⟨c', hc', rfl⟩ := hc
    have := congrArg (fun M => M.map (Int.castRingHom K)) (h.zero i b' c' hb' hc')
    simp only [Matrix.map_mul] at this
    have e : (0 : Matrix (Fin b'.n) (Fin c'.m) ℤ).map (Int.castRingHom K) = 0 := by ext; simp
    rw [e] at this
    exact this

/-- **C134** (universal coefficients). For every chain complex with explicit bases whose first boundary map is zero and every field `K`: the Betti number over `K` in dimension
`i`, that is the dimension of the cycles modulo the boundaries with coefficients in `K`, is the sum of the free rank reported by `IntegralHomology` in dimension `i`, of the
number of torsion coefficients reported in dimension `i` that vanish in `K`, and of the number of those reported in dimension `i - 1`. -/
theorem c134_universal {cplx : List (Hom.BMap B)} (h : Hom.ChainCplx cplx) (h0 : ∀ b, cplx[0]? = some b → ∀ i j, b.a i j = 0) (maxDim : Option Nat) :
    ∃ f0 res, (∀ fuel, f0 ≤ fuel → Hom.new fuel cplx maxDim = some res) ∧
      ∀ (K : Type) [Field K] (i : Nat) (b : Hom.BMap B), cplx[i]? = some b → (∀ d, maxDim = some d → i ≤ d) →
        FHom.betti b.n b.m (Hom.upper cplx i).1 (inField K b.a) (inField K (Hom.upper cplx i).2) =
          (reportedMod res i).freeRank + tor K (reportedMod res i) + if i = 0 then 0 else tor K (reportedMod res (i - 1)) := by
  obtain ⟨f0, res, h1, h2, h3⟩ := all_dims h maxDim
  refine ⟨f0, res, h1, fun K _ i b hb hd => ?_⟩
  classical
  obtain ⟨⟨e⟩, hr⟩ := h3 i b hb hd
  have up := rank_field K (bd_le_z h hb) e hr (h2 i)
  have dn : (kmat K b.n b.m b.a).rank + (if i = 0 then 0 else tor K (reportedMod res (i - 1))) = Hom.rk b.n b.m b.a := by
    cases i with
    | zero =>
      have z : Smith.mat b.n b.m b.a = 0 := by ext p q; exact h0 b hb p q
      have z1 : kmat K b.n b.m b.a = 0 := by rw [kmat, z]; ext; simp
      have z2 : (Smith.mat b.n b.m b.a).map (Int.castRingHom ℚ) = 0 := by rw [z]; ext; simp
      rw [Hom.rk, z1, z2, Matrix.rank_zero, Matrix.rank_zero, if_pos rfl]
    | succ j =>
      have hj := (List.getElem?_eq_some_iff.mp hb).1
      have hc : cplx[j]? = some cplx[j] := List.getElem?_eq_getElem (by omega)
      obtain ⟨⟨e'⟩, hr'⟩ := h3 j _ hc (fun d hdd => by have := hd d hdd; omega)
      have hu : Hom.upper cplx j = (b.m, b.a) := by simp [Hom.upper, hb]
      have hn : b.n = cplx[j].m := h.fit j _ b hc hb
      have up' := rank_field K (bd_le_z h hc) e' hr' (h2 j)
      rw [hu, ← hn] at up'
      simpa using up'
  have hz : FHom.Bd b.m (Hom.upper cplx i).1 (inField K (Hom.upper cplx i).2) ≤ FHom.Z b.n b.m (inField K b.a) := by
    have hb' : (fieldMaps K cplx)[i]? = some ⟨b.n, b.m, inField K b.a⟩ := by simp [fieldMaps, hb]
    have := FHom.bd_le (field_chain K h) hb'
    have e : FHom.upper (fieldMaps K cplx) i = ((Hom.upper cplx i).1, inField K (Hom.upper cplx i).2) := by
      cases hc : cplx[i + 1]? with
      | none => simp [FHom.upper, Hom.upper, fieldMaps, hc]; funext p q; simp [inField]
      | some c => simp [FHom.upper, Hom.upper, fieldMaps, hc]
    rw [e] at this; exact this
  have hb := FHom.betti_eq hz
  rw [← kmat_eq, ← kmat_eq] at hb
  omega

/-- Over a field of characteristic zero the Betti numbers are the reported free ranks; over any field they are at least as large. -/
theorem c134_char_zero {cplx : List (Hom.BMap B)} (h : Hom.ChainCplx cplx) (h0 : ∀ b, cplx[0]? = some b → ∀ i j, b.a i j = 0) (maxDim : Option Nat) :
    ∃ f0 res, (∀ fuel, f0 ≤ fuel → Hom.new fuel cplx maxDim = some res) ∧
      ∀ (K : Type) [Field K] (i : Nat) (b : Hom.BMap B), cplx[i]? = some b → (∀ d, maxDim = some d → i ≤ d) →
        (CharZero K → FHom.betti b.n b.m (Hom.upper cplx i).1 (inField K b.a) (inField K (Hom.upper cplx i).2) = (reportedMod res i).freeRank) ∧
        (reportedMod res i).freeRank ≤ FHom.betti b.n b.m (Hom.upper cplx i).1 (inField K b.a) (inField K (Hom.upper cplx i).2) := by
  obtain ⟨f0, res, h1, h2⟩ := c134_universal h h0 maxDim
  obtain ⟨f1, res', g1, g2, -⟩ := all_dims h maxDim
  have : res' = res := by
    have a := h1 (f0 + f1) (by omega)
    have b := g1 (f0 + f1) (by omega)
    rw [a] at b; exact (Option.some.inj b).symm
  subst this
  refine ⟨f0, res', h1, fun K _ i b hb hd => ⟨fun hz => ?_, ?_⟩⟩
  · have t0 : ∀ i, tor K (reportedMod res' i) = 0 := fun i => by
      rw [tor, List.sum_eq_zero_iff]
      intro x hx
      obtain ⟨dk, e1, rfl⟩ := List.mem_map.mp hx
      rw [if_neg]
      exact_mod_cast g2 i dk e1
    rw [h2 K i b hb hd, t0, t0]; simp
  · rw [h2 K i b hb hd]; omega

/-- **C134** and the code for field coefficients: `homology()` over `K` of the same complex answers in every dimension, with a number that is at least the one determined by the
integral homology; it is that number if the ranks of the boundary matrices are computed correctly (see C37, C70). -/
theorem c134_field_code {cplx : List (Hom.BMap B)} (h : Hom.ChainCplx cplx) (h0 : ∀ b, cplx[0]? = some b → ∀ i j, b.a i j = 0) :
    ∃ f0 res, (∀ fuel, f0 ≤ fuel → Hom.new fuel cplx none = some res) ∧
      ∀ (K : Type) [Field K] [DecidableEq K], ∃ out, FHom.homology (fieldMaps K cplx) = some out ∧ out.length = cplx.length ∧
        ∀ i, i < cplx.length → ∃ v, out[i]? = some v ∧
          (reportedMod res i).freeRank + tor K (reportedMod res i) + (if i = 0 then 0 else tor K (reportedMod res (i - 1))) ≤ v ∧
          ((∀ b ∈ cplx, LinAlg.rankAsLinearMap b.n b.m (inField K b.a) = (LinAlg.mat b.n b.m (inField K b.a)).rank) →
            v = (reportedMod res i).freeRank + tor K (reportedMod res i) + (if i = 0 then 0 else tor K (reportedMod res (i - 1)))) := by
  obtain ⟨f0, res, h1, h2⟩ := c134_universal h h0 none
  refine ⟨f0, res, h1, fun K _ _ => ?_⟩
  obtain ⟨out, a1, a2, a3⟩ := FHom.c70_upper_bound_partial (field_chain K h)
  refine ⟨out, a1, by simpa [fieldMaps] using a2, fun i hi => ?_⟩
  have hb : cplx[i]? = some cplx[i] := List.getElem?_eq_getElem hi
  have hb' : (fieldMaps K cplx)[i]? = some ⟨cplx[i].n, cplx[i].m, inField K cplx[i].a⟩ := by simp [fieldMaps, hb]
  have e : FHom.upper (fieldMaps K cplx) i = ((Hom.upper cplx i).1, inField K (Hom.upper cplx i).2) := by
    cases hc : cplx[i + 1]? with
    | none => simp [FHom.upper, Hom.upper, fieldMaps, hc]; funext p q; simp [inField]
    | some c => simp [FHom.upper, Hom.upper, fieldMaps, hc]
  obtain ⟨v, b1, b2⟩ := a3 i _ hb'
  have u := h2 K i _ hb (by simp)
  refine ⟨v, b1, ?_, fun hrk => ?_⟩
  · rw [e] at b2; rw [← u]; exact b2
  · obtain ⟨out', c1, c2, c3⟩ := FHom.c70_exact_partial (field_chain K h) (by
      intro b hb
      obtain ⟨b', hb', rfl⟩ := List.mem_map.mp hb
      exact hrk b' hb')
    rw [a1] at c1; cases c1
    have := c3 i _ hb'
    rw [b1, e] at this
    rw [← u]; exact Option.some.inj this

end Toppo.Univ

namespace Toppo.Simp
open Toppo Toppo.ModProps Toppo.Univ
variable {T : Type} [DecidableEq T] [LinearOrder (Simplex T)]

/-- **C134** for simplicial complexes: every history of `attach` calls and every field. -/
theorem c134_simplicial {history : List (List T)} (hh : GoodHistory history) (maxDim : Option Nat) :
    ∃ bm res, Computes history maxDim bm res ∧ ∀ (K : Type) [Field K] (i : Nat) (b : Hom.BMap (Simplex T)), bm[i]? = some b → (∀ d, maxDim = some d → i ≤ d) →
      FHom.betti b.n b.m (Hom.upper bm i).1 (inField K b.a) (inField K (Hom.upper bm i).2) =
        (reportedMod res i).freeRank + tor K (reportedMod res i) + if i = 0 then 0 else tor K (reportedMod res (i - 1)) := by
  obtain ⟨c, bm, r0, e1, e2, hk⟩ := known hh
  obtain ⟨f0, res, h1, h2⟩ := c134_universal hk.cc hk.zero maxDim
  exact ⟨bm, res, ⟨c, f0, e1, e2, h1⟩, h2⟩

end Toppo.Simp

namespace Toppo.Univ

/-- a case: `ℤ --2--> ℤ --0--> ℤ`. The torsion coefficient 2 vanishes over the field with two elements, and not over the rationals. -/
def exTwo : List (Hom.BMap Nat) :=
  [{ n := 1, m := 1, a := fun _ _ => 0, basis := [0] }, { n := 1, m := 1, a := fun _ _ => 2, basis := [1] }]

example : Hom.ChainCplx exTwo where
  nonempty := by simp [exTwo]
  sizes := by simp [exTwo]
  fit := by
    intro i b c hb hc
    match i with
    | 0 => simp [exTwo] at hb hc; subst hb hc; rfl
    | i + 1 => simp [exTwo] at hc
  zero := by
    intro i b c hb hc
    match i with
    | 0 => simp [exTwo] at hb hc; subst hb hc; ext p q; simp [Smith.mat, Matrix.mul_apply]
    | i + 1 => simp [exTwo] at hc

example : (Hom.new 10 exTwo none).map (fun res => res.map (fun o => (o.module.freeRank, o.module.divisors))) = some [(0, [(2, 1)])] := by decide +kernel

example : tor (ZMod 2) ⟨0, [(2, 1)]⟩ = 1 ∧ tor ℚ ⟨0, [(2, 1)]⟩ = 0 := by
  constructor
  · have : ((2 : ℤ) : ZMod 2) = 0 := by decide
    simp only [tor, List.map_cons, List.map_nil, List.sum_cons, List.sum_nil, this, if_pos, Nat.add_zero]
  · simp [tor]

end Toppo.Univ
