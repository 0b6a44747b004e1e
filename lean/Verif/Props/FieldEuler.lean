import Verif.Props.UnivCoeff
import Verif.Props.CubeCount
set_option linter.unusedVariables false
/-!
# C146: the alternating sum of the answers with field coefficients
-/
namespace Toppo.FHom
open Toppo.LinAlg Module
variable {K : Type} [Field K] [DecidableEq K]

/-- a zero matrix gets the rank answer zero -/
theorem rkc_zero {b : FMap K} (h : ∀ i j, i < b.n → j < b.m → b.a i j = 0) : rkc b = 0 := by
  have h1 := c37_le_rank_partial (n := b.n) (m := b.m) b.a
  have : mat b.n b.m b.a = 0 := by
    ext p q
    exact h p q p.2 q.2
  rw [this, Matrix.rank_zero] at h1
  exact Nat.le_zero.mp h1

/-- **C146**, any chain complex whose first matrix is zero: `homology()` answers, and the alternating sum of its answers is the alternating sum of the widths of the matrices — also
where the single answers are wrong (C70). -/
theorem c146_chain {maps : List (FMap K)} (h : ChainCplx maps) (h0 : ∀ b, maps[0]? = some b → ∀ i j, i < b.n → j < b.m → b.a i j = 0) :
    ∃ out, homology maps = some out ∧ out.length = maps.length ∧
      ((List.range maps.length).map (fun i => (-1 : ℤ) ^ i * ((out[i]?).getD 0 : Nat))).sum =
        ((List.range maps.length).map (fun i => (-1 : ℤ) ^ i * (((maps[i]?).map (·.m)).getD 0 : Nat))).sum := by
  obtain ⟨out, h1, h2, h3⟩ := homology_eq h
  refine ⟨out, h1, h2, ?_⟩
  let ρ : Nat → Nat := fun i => ((maps[i]?).map rkc).getD 0
  have hρ0 : ρ 0 = 0 := by
    cases hb : maps[0]? with
    | none => simp [ρ, hb]
    | some b => simp only [ρ, hb, Option.map_some, Option.getD_some]; exact rkc_zero (h0 b hb)
  have hρn : ρ maps.length = 0 := by simp [ρ]
  have key : ∀ i, i < maps.length → (((maps[i]?).map (·.m)).getD 0 : Nat) = (out[i]?).getD 0 + (ρ i + ρ (i + 1)) := by
    intro i hi
    have hb : maps[i]? = some maps[i] := List.getElem?_eq_getElem hi
    have e := h3 i _ hb
    have hbt := betti_eq (bd_le h hb)
    have r1 := c37_le_rank_partial (n := maps[i].n) (m := maps[i].m) maps[i].a
    rw [e, hb]
    cases hc : maps[i + 1]? with
    | none =>
      simp only [ρ, hb, hc, Option.map_some, Option.map_none, Option.getD_some, Option.getD_none, rkc] at *
      omega
    | some c =>
      have e2 : upper maps i = (c.m, c.a) := by simp [upper, hc]
      have hn := h.fit i _ c hb hc
      have r2 := c37_le_rank_partial (n := c.n) (m := c.m) c.a
      rw [e2, ← hn] at hbt
      simp only [ρ, hb, hc, Option.map_some, Option.getD_some, rkc] at *
      rw [hn] at r2 hbt ⊢
      omega
  have conv : ∀ (n : Nat) (f : Nat → ℤ), ((List.range n).map f).sum = ∑ i ∈ Finset.range n, f i := fun n f => by
    rw [Finset.sum_range]
    rw [← List.sum_ofFn, List.ofFn_eq_map]
    congr 1
    rw [← List.map_coe_finRange_eq_range, List.map_map]; rfl
  have t := Hom.telescope (fun i => (ρ i : ℤ)) maps.length
  simp only [hρ0, hρn, Nat.cast_zero, mul_zero, sub_zero] at t
  rw [conv, conv, ← sub_eq_zero, ← Finset.sum_sub_distrib, ← neg_eq_zero, ← Finset.sum_neg_distrib, ← t]
  refine Finset.sum_congr rfl (fun i hi => ?_)
  rw [key i (Finset.mem_range.mp hi)]
  push_cast; ring

end Toppo.FHom

namespace Toppo.Simp
open Toppo Toppo.ModProps Toppo.Univ
variable {T : Type} [DecidableEq T] [LinearOrder (Simplex T)]

/-- **C146**, simplicial complexes: over every field the alternating sum of the answers for the boundary matrices is the alternating sum of the free ranks of the integral homology. -/
theorem c146_simplicial {history : List (List T)} (hh : GoodHistory history) :
    ∃ bm res, Computes history none bm res ∧ ∀ (K : Type) [Field K] [DecidableEq K], ∃ out, FHom.homology (fieldMaps K bm) = some out ∧ out.length = bm.length ∧
      ((List.range bm.length).map (fun i => (-1 : ℤ) ^ i * ((out[i]?).getD 0 : Nat))).sum =
        ((List.range bm.length).map (fun i => (-1 : ℤ) ^ i * (reportedMod res i).freeRank)).sum := by
  obtain ⟨c, bm, r0, e1, e2, hk⟩ := known hh
  obtain ⟨f0, res, h1, h2⟩ := Hom.c116_chain hk.cc hk.zero
  refine ⟨bm, res, ⟨c, f0, e1, e2, h1⟩, fun K _ _ => ?_⟩
  obtain ⟨out, a1, a2, a3⟩ := FHom.c146_chain (field_chain K hk.cc) (fun b hb i j _ _ => by
    simp only [fieldMaps, List.getElem?_map, Option.map_eq_some_iff] at hb
    obtain ⟨b', hb', rfl⟩ := hb
    simp [inField, hk.zero b' hb'])
  have hl : (fieldMaps K bm).length = bm.length := by simp [fieldMaps]
  rw [hl] at a2 a3
  refine ⟨out, a1, a2, a3.trans ?_⟩
  have conv : ∀ (n : Nat) (f : Nat → ℤ), ((List.range n).map f).sum = ∑ i ∈ Finset.range n, f i := fun n f => by
    rw [Finset.sum_range]
    rw [← List.sum_ofFn, List.ofFn_eq_map]
    congr 1
    rw [← List.map_coe_finRange_eq_range, List.map_map]; rfl
  rw [conv, conv]
  have h3 := h2 bm.length le_rfl
  have e3 : ∀ i, Hom.betti res i = (reportedMod res i).freeRank := fun i => by
    unfold Hom.betti reportedMod
    cases res[i]? <;> rfl
  simp only [e3] at h3
  rw [h3]
  refine Finset.sum_congr rfl (fun i hi => ?_)
  have hi := Finset.mem_range.mp hi
  have hb : bm[i]? = some bm[i] := List.getElem?_eq_getElem hi
  have hsz := (hk.cc.sizes _ (List.mem_of_getElem? hb)).2.2.1
  simp [fieldMaps, Hom.cells, hb, hsz]

end Toppo.Simp

namespace Toppo.CubeProps
open Toppo RawGraph Cub GraphProps EdgePath MGraphProps Toppo.SubdivideProps Toppo.Univ
variable {α : Type} [DecidableEq α]

theorem field_chain_of {s : Cplx} {maps : List (Hom.BMap (List Factor))} (h : BoundaryOK s maps) (K : Type) [Field K] : FHom.ChainCplx (fieldMaps K maps) := by
  have get : ∀ (i : Nat) b, (fieldMaps K maps)[i]? = some b → ∃ b', maps[i]? = some b' ∧ b = ⟨b'.n, b'.m, inField K b'.a⟩ := by
    intro i b hb
    simp only [fieldMaps, List.getElem?_map, Option.map_eq_some_iff] at hb
    obtain ⟨b', hb', rfl⟩ := hb
    exact ⟨b', hb', rfl⟩
  constructor
  · intro i b c hb hc
    obtain ⟨b', hb', rfl⟩ := get i b hb
    obtain ⟨c', hc', rfl⟩ := get (i + 1) c hc
    exact (h.square i b' c' hb' hc').1
  · intro i b c hb hc
    obtain ⟨b', hb', rfl⟩ := get i b hb
    obtain ⟨c', hc', rfl⟩ := get (i + 1) c hc
    ext p q
    have e := (h.square i b' c' hb' hc').2 p q p.2 q.2
    have e' := congrArg (Int.cast : ℤ → K) e
    rw [Matrix.mul_apply, Matrix.zero_apply]
    have conv : ((List.range b'.m).map (fun k => b'.a p k * c'.a k q)).sum = ∑ k : Fin b'.m, b'.a p k * c'.a k q := by
      rw [← List.sum_ofFn, List.ofFn_eq_map, ← List.map_coe_finRange_eq_range, List.map_map]; rfl
    rw [conv] at e'
    simpa [LinAlg.mat, inField] using e'

/-- **C146**, configuration complexes: over every field, the alternating sum of the answers for the boundary matrices of the configuration complex of a connected multigraph is the
alternating sum over `d` of the number of matchings of size `d` of the subdivided graph times `n - 2 d` choose `points - d`, with `n` its number of vertices. -/
theorem c146_configurations (edges : List (α × α)) (hc : ConnectedInput edges) (m : MGraph α) (hm : MGraph.ofEdges edges = some m) (points : Nat) (hp0 : points ≠ 0)
    (hp : points + 1 < 2 ^ 63) (g : SGraph α) (hg : SGraph.subdivide m points = some g) :
    ∃ s maps, udc m points = some s ∧ s.boundaryMap = some maps ∧ ∃ Ms : Nat → Finset (Finset (Nat × Nat)), (∀ d M, M ∈ Ms d ↔ IsMatching g.data d M) ∧
      ∀ (K : Type) [Field K] [DecidableEq K], ∃ out, FHom.homology (fieldMaps K maps) = some out ∧ out.length = s.dim + 1 ∧
        ((List.range (s.dim + 1)).map (fun i => (-1 : ℤ) ^ i * ((out[i]?).getD 0 : Nat))).sum =
          ∑ d ∈ Finset.range (points + 1), (-1 : ℤ) ^ d * ((Ms d).card * Nat.choose (g.verts.length - 2 * d) (points - d) : Nat) := by
  obtain ⟨s, maps, s1, s2, s3⟩ := c58_boundary_map_partial edges hc m hm points hp0 hp g hg
  obtain ⟨s', q1, q2⟩ := c75_udc edges hc m hm points hp0 hp g hg
  rw [s1] at q1; cases q1
  obtain ⟨-, k2, -, -, -, -, hb, -⟩ := c57_subdivision edges hc m hm points hp g hg
  choose Ms hMs using fun d => matchings_finite hb d
  refine ⟨s, maps, s1, s2, Ms, hMs, fun K _ _ => ?_⟩
  obtain ⟨b0, hb0, -, hw0, hz0⟩ := s3.bottom
  obtain ⟨out, a1, a2, a3⟩ := FHom.c146_chain (field_chain_of s3 K) (fun b hb i j _ _ => by
    simp only [fieldMaps, List.getElem?_map, Option.map_eq_some_iff] at hb
    obtain ⟨b', hb', rfl⟩ := hb
    rw [hb0] at hb'; cases hb'
    simp [inField, hz0])
  have hl : (fieldMaps K maps).length = s.dim + 1 := by simp [fieldMaps, s3.length]
  rw [hl] at a2 a3
  refine ⟨out, a1, a2, a3.trans ?_⟩
  have conv : ∀ (n : Nat) (f : Nat → ℤ), ((List.range n).map f).sum = ∑ i ∈ Finset.range n, f i := fun n f => by
    rw [Finset.sum_range]
    rw [← List.sum_ofFn, List.ofFn_eq_map]
    congr 1
    rw [← List.map_coe_finRange_eq_range, List.map_map]; rfl
  rw [conv]
  have hdim : s.dim ≤ points := by
    rcases q2.dim.2 with e | ⟨c, hcs, e⟩
    · omega
    · have hcell := (q2.count.2.2 c).mp hcs
      have := hcell.length
      obtain ⟨l1, l2⟩ := lengths c
      omega
  have hcnt : ∀ d, d ≤ points → (cellsDim s d).length = (Ms d).card * Nat.choose (g.verts.length - 2 * d) (points - d) := by
    intro d hd
    have e1 := q2.ranks.2 d hd
    have e2 := count_ranks hb q2 hd (hMs d)
    rw [e1] at e2
    rw [← k2]
    exact Option.some.inj e2
  rw [← Finset.sum_subset (Finset.range_mono (show s.dim + 1 ≤ points + 1 by omega))]
  · refine Finset.sum_congr rfl (fun d hd => ?_)
    have hd := Finset.mem_range.mp hd
    have hw : ∃ b, maps[d]? = some b ∧ b.m = (cellsDim s d).length := by
      rcases d with _ | d
      · exact ⟨b0, hb0, hw0⟩
      · obtain ⟨b, x1, -, x2, -⟩ := s3.entries d (by omega)
        exact ⟨b, x1, x2⟩
    obtain ⟨b, x1, x2⟩ := hw
    rw [← hcnt d (by omega), ← x2]
    simp [fieldMaps, x1]
  · intro d hd hnd
    have hd := Finset.mem_range.mp hd
    have hnd : s.dim < d := by
      by_contra hlt
      exact hnd (Finset.mem_range.mpr (by omega))
    have : cellsDim s d = [] := by
      rw [List.eq_nil_iff_forall_not_mem]
      intro c hc
      rw [cellsDim, List.mem_filter, decide_eq_true_iff] at hc
      have := q2.dim.1 c hc.1
      omega
    rw [← hcnt d (by omega), this]
    simp

/-- a case: an edge and a loop, two points (see Props/CubeCount.lean): `10 - 15 + 4 = -1` -/
example : ∑ d ∈ Finset.range 3, (-1 : ℤ) ^ d * (([1, 5, 4][d]?).getD 0 * Nat.choose (5 - 2 * d) (2 - d) : Nat) = -1 ∧
    (((MGraph.ofEdges [((0 : Nat), 1), (1, 1)]).bind (fun m => udc m 2)).bind (fun s => s.boundaryMap)).map (fun maps => FHom.homology (fieldMaps ℚ maps)) = some (some [1, 2, 0]) := by
  refine ⟨by decide, by decide +kernel⟩

end Toppo.CubeProps
