import Verif.Props.SimpHom
import Verif.Props.SimplicialCount
set_option linter.unusedVariables false
/-!
# C116: the Euler characteristic
-/
namespace Toppo.Hom
open Toppo Toppo.ModProps Toppo.Smith Toppo.FSum Module
variable {B : Type} [LinearOrder B]

/-- in a dimension that is not kept the ranks of the two boundary maps add up to the number of cells -/
theorem dropped_ranks {cplx : List (BMap B)} (h : ChainCplx cplx) (maxDim : Option Nat) :
    ∃ f0 res, (∀ fuel, f0 ≤ fuel → new fuel cplx maxDim = some res) ∧
      (∀ i b, cplx[i]? = some b → res.length ≤ i → (∀ d, maxDim = some d → i ≤ d) →
        rk b.n b.m b.a + rk b.m (upper cplx i).1 (upper cplx i).2 = b.m) := by
  obtain ⟨last, hlast⟩ : ∃ b, cplx.getLast? = some b := by
    cases e : cplx.getLast? with
    | none => exact absurd (List.getLast?_eq_none_iff.mp e) h.nonempty
    | some b => exact ⟨b, rfl⟩
  obtain ⟨f0, outs, hi, r1, r2, r3, r4, r5⟩ := run_spec cplx { rank := 0, divs := [], rowOp := ident, size := last.m } h.sizes h.fit h.zero
    (fun b hb => by rw [hlast] at hb; cases hb; rfl)
  set kept := (match maxDim with
    | none => outs
    | some d => outs.take (d + 1)) with hkept
  have hk2 : ∀ i o, outs[i]? = some o → (∀ d, maxDim = some d → i ≤ d) → kept[i]? = some o := by
    intro i o ho hd
    rw [hkept]; cases maxDim with
    | none => exact ho
    | some d =>
      simp only
      rw [List.getElem?_take, if_pos (by have := hd d rfl; omega)]; exact ho
  obtain ⟨d1, d2, d3⟩ := rdrop_spec (fun o : Out B => o.module.isZero) kept
  refine ⟨f0, (kept.reverse.dropWhile (fun o => o.module.isZero)).reverse, fun fuel hf => ?_, ?_⟩
  · simp only [new, hlast, r1 fuel hf, Option.bind_eq_bind, Option.bind_some]; rfl
  · intro i b hb hlen hd
    have hi : i < outs.length := by
      rw [r2]; exact (List.getElem?_eq_some_iff.mp hb).1
    have ho : outs[i]? = some outs[i] := List.getElem?_eq_getElem hi
    have hz := d2 i outs[i] hlen (hk2 i _ ho hd)
    have := (r3 i b _ hb ho).freeRank
    simp only [Mod.isZero, Bool.and_eq_true, beq_iff_eq] at hz
    omega

/-- the free rank reported in dimension `i`; zero if the dimension is not reported -/
def betti (res : List (Out B)) (i : Nat) : Nat := (res[i]?.map (fun o => o.module.freeRank)).getD 0

/-- the number of cells of dimension `i` -/
def cells (cplx : List (BMap B)) (i : Nat) : Nat := (cplx[i]?.map (fun b => b.basis.length)).getD 0

/-- the rank of the boundary map of dimension `i` -/
noncomputable def bdRank (cplx : List (BMap B)) (i : Nat) : Nat := (cplx[i]?.map (fun b => rk b.n b.m b.a)).getD 0

theorem cells_eq {cplx : List (BMap B)} (h : ChainCplx cplx) :
    ∃ f0 res, (∀ fuel, f0 ≤ fuel → new fuel cplx none = some res) ∧ ∀ i, cells cplx i = betti res i + bdRank cplx i + bdRank cplx (i + 1) := by
  obtain ⟨f0, res, h1, h2, h3, h4, -⟩ := c44_homology h none
  obtain ⟨f1, res', g1, g2⟩ := dropped_ranks h none
  have : res' = res := by
    have a := h1 (f0 + f1) (by omega)
    have b := g1 (f0 + f1) (by omega)
    rw [a] at b; exact (Option.some.inj b).symm
  subst this
  refine ⟨f0, res', h1, fun i => ?_⟩
  cases hb : cplx[i]? with
  | none =>
    have hi := List.getElem?_eq_none_iff.mp hb
    have e2 : cplx[i + 1]? = none := List.getElem?_eq_none_iff.mpr (by omega)
    have e3 : res'[i]? = none := List.getElem?_eq_none_iff.mpr (by omega)
    simp [cells, betti, bdRank, hb, e2, e3]
  | some b =>
    have hl := (h.sizes b (List.mem_of_getElem? hb)).2.2.1
    have hup : bdRank cplx (i + 1) = rk b.m (upper cplx i).1 (upper cplx i).2 := by
      cases hc : cplx[i + 1]? with
      | none =>
        have : mat b.m (upper cplx i).1 (upper cplx i).2 = 0 := by
          ext p q
          have hu : (upper cplx i).1 = 0 := by simp [upper, hc]
          exact absurd q.2 (by omega)
        simp [bdRank, hc, rk, this]
      | some c =>
        have := h.fit i b c hb hc
        simp [bdRank, hc, upper, this]
    have e1 : cells cplx i = b.m := by simp [cells, hb, hl]
    have e2 : bdRank cplx i = rk b.n b.m b.a := by simp [bdRank, hb]
    rw [e1, e2, hup]
    cases ho : res'[i]? with
    | none =>
      have := g2 i b hb (List.getElem?_eq_none_iff.mp ho) (by simp)
      simp [betti, ho]; omega
    | some o =>
      have := (h2 i b o hb ho).freeRank
      simp [betti, ho]; omega

theorem telescope (r : Nat → ℤ) : ∀ n, (∑ i ∈ Finset.range n, (-1) ^ i * (r i + r (i + 1))) = r 0 - (-1) ^ n * r n
  | 0 => by simp
  | n + 1 => by rw [Finset.sum_range_succ, telescope r n, pow_succ]; ring

/-- **C116** for chain complexes: the alternating sum of the reported free ranks is the alternating sum of the numbers of cells, if the boundary of 0-cells is zero. -/
theorem c116_chain {cplx : List (BMap B)} (h : ChainCplx cplx) (h0 : ∀ b, cplx[0]? = some b → ∀ i j, b.a i j = 0) :
    ∃ f0 res, (∀ fuel, f0 ≤ fuel → new fuel cplx none = some res) ∧ ∀ n, cplx.length ≤ n →
      (∑ i ∈ Finset.range n, (-1 : ℤ) ^ i * betti res i) = ∑ i ∈ Finset.range n, (-1 : ℤ) ^ i * cells cplx i := by
  obtain ⟨f0, res, h1, h2⟩ := cells_eq h
  refine ⟨f0, res, h1, fun n hn => ?_⟩
  have e0 : bdRank cplx 0 = 0 := by
    cases hb : cplx[0]? with
    | none => simp [bdRank, hb]
    | some b =>
      have : mat b.n b.m b.a = 0 := by ext p q; exact h0 b hb p q
      simp [bdRank, hb, rk, this]
  have en : bdRank cplx n = 0 := by simp [bdRank, List.getElem?_eq_none_iff.mpr hn]
  have := telescope (fun i => (bdRank cplx i : ℤ)) n
  simp only [e0, en, Nat.cast_zero, mul_zero, sub_zero] at this
  rw [← sub_eq_zero, ← Finset.sum_sub_distrib, ← neg_eq_zero, ← Finset.sum_neg_distrib, ← this]
  refine Finset.sum_congr rfl (fun i _ => ?_)
  rw [h2 i]; push_cast; ring

end Toppo.Hom

namespace Toppo.Simp
open Toppo Toppo.ModProps
variable {T : Type} [DecidableEq T] [LinearOrder (Simplex T)]

/-- **C116**. For every history of `attach` calls: the alternating sum of the free ranks of the reported homology is the alternating sum of the numbers returned by
`n_cells_of_dim`. -/
theorem c116_euler {history : List (List T)} (hh : GoodHistory history) :
    ∃ c bm f0 res d, Cplx.build history = some c ∧ c.boundaryMap = some bm ∧ (∀ fuel, f0 ≤ fuel → Hom.new fuel bm none = some res) ∧
      ∀ n, d ≤ n → ∃ ns : Nat → ℤ, (∀ i, c.nCellsOfDim i = some (ns i)) ∧
        (∑ i ∈ Finset.range n, (-1 : ℤ) ^ i * Hom.betti res i) = ∑ i ∈ Finset.range n, (-1) ^ i * ns i := by
  obtain ⟨c, bm, r0, e1, e2, hk⟩ := known hh
  obtain ⟨f0, res, h1, h2⟩ := Hom.c116_chain hk.cc hk.zero
  refine ⟨c, bm, f0, res, bm.length, e1, e2, h1, fun n hn => ⟨fun i => Hom.cells bm i, fun i => ?_, h2 n hn⟩⟩
  obtain ⟨c', bm', g1, g2, g3, g4⟩ := c47_n_cells hh i
  rw [e1] at g1; cases g1
  rw [e2] at g2; cases g2
  cases hb : bm[i]? with
  | none => rw [g4 (List.getElem?_eq_none_iff.mp hb)]; simp [Hom.cells, hb]
  | some b => rw [g3 b hb]; simp [Hom.cells, hb]

/-- **C116** with at most 64 labels: the alternating sum of the free ranks is the sum of `(-1)^(number of labels - 1)` over the non-empty sets of labels that are
contained in an attached simplex. -/
theorem c116_history {history : List (List T)} (hh : GoodHistory history) (hb : history.flatten.toFinset.card ≤ 64) :
    ∃ c bm f0 res, Cplx.build history = some c ∧ c.boundaryMap = some bm ∧ (∀ fuel, f0 ≤ fuel → Hom.new fuel bm none = some res) ∧
      ∃ F : Finset (Finset T), (∀ A, A ∈ F ↔ IsFace history A) ∧
        ∀ n, bm.length ≤ n → (∑ i ∈ Finset.range n, (-1 : ℤ) ^ i * Hom.betti res i) = ∑ A ∈ F, (-1) ^ (A.card - 1) := by
  obtain ⟨c, bm, r0, e1, e2, hk⟩ := known hh
  obtain ⟨f0, res, h1, h2⟩ := Hom.c116_chain hk.cc hk.zero
  have hL := listed_eq hh hb e1 e2
  classical
  have hfin : ∀ A, IsFace history A → A ⊆ history.flatten.toFinset := by
    intro A hA; rw [← hL] at hA; exact hk.subset hA
  refine ⟨c, bm, f0, res, e1, e2, h1, history.flatten.toFinset.powerset.filter (IsFace history), fun A => ?_, fun n hn => ?_⟩
  · rw [Finset.mem_filter, Finset.mem_powerset]
    exact ⟨fun h => h.2, fun h => ⟨hfin A h, h⟩⟩
  · rw [h2 n hn]
    rw [← Finset.sum_fiberwise_of_maps_to (s := history.flatten.toFinset.powerset.filter (IsFace history)) (t := Finset.range n) (g := fun A => A.card - 1)]
    · refine Finset.sum_congr rfl (fun i hi => ?_)
      rw [Finset.sum_congr rfl (g := fun _ => (-1 : ℤ) ^ i) (fun A hA => by rw [(Finset.mem_filter.mp hA).2]), Finset.sum_const, nsmul_eq_mul, mul_comm]
      congr 1
      norm_cast
      cases hbi : bm[i]? with
      | none =>
        simp only [Hom.cells, hbi, Option.map_none, Option.getD_none]
        symm
        rw [Finset.card_eq_zero, Finset.filter_eq_empty_iff]
        intro A hA he
        have := hk.dims (by rw [hL]; exact (Finset.mem_filter.mp hA).2)
        have := List.getElem?_eq_none_iff.mp hbi
        omega
      | some b =>
        simp only [Hom.cells, hbi, Option.map_some, Option.getD_some]
        rw [(hk.cc.sizes b (List.mem_of_getElem? hbi)).2.2.1]
        rw [← Finset.card_fin b.m, ← Finset.card_image_of_injective Finset.univ (f := simplexAt b) (fun j k e => hk.simplex_inj hbi j k e)]
        congr 1
        ext A
        rw [Finset.mem_image, Finset.mem_filter, Finset.mem_filter, Finset.mem_powerset]
        have := hk.listed hbi A
        rw [hL] at this
        constructor
        · rintro ⟨j, -, e⟩
          obtain ⟨p, q⟩ := this.mpr ⟨j, e⟩
          exact ⟨⟨hfin A p, p⟩, by omega⟩
        · rintro ⟨⟨-, p⟩, q⟩
          have hp := Finset.card_pos.mpr p.1
          obtain ⟨j, e⟩ := this.mp ⟨p, by omega⟩
          exact ⟨j, Finset.mem_univ _, e⟩
    · intro A hA
      have := hk.dims (by rw [hL]; exact (Finset.mem_filter.mp hA).2)
      rw [Finset.mem_range]; omega

/-- a case that meets the hypotheses: a hollow tetrahedron with one face doubled and a tail -/
example : GoodHistory [[1, 2, 3], [1, 2, 4], [1, 3, 4], [2, 3, 4], [4, 2, 3], [4, 5]] ∧
    ([[1, 2, 3], [1, 2, 4], [1, 3, 4], [2, 3, 4], [4, 2, 3], [4, 5]] : List (List Nat)).flatten.toFinset.card ≤ 64 := ⟨⟨by simp, by decide⟩, by decide⟩

end Toppo.Simp
