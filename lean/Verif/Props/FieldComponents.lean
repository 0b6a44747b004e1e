import Verif.Props.OnePoint
import Verif.Props.UnivCoeff
set_option linter.unusedVariables false
/-!
# C157: the first answers over a field for configuration complexes
-/
namespace Toppo.CubeProps
open Toppo RawGraph Cub GraphProps EdgePath MGraphProps Toppo.SubdivideProps Toppo.Univ Module
variable {α : Type} [DecidableEq α]

/-- the boundary map above degree `i`, over a field -/
theorem upper_field {K : Type} [Field K] (maps : List (Hom.BMap (List Factor))) (i : Nat) :
    FHom.upper (fieldMaps K maps) i = ((Hom.upper maps i).1, inField K (Hom.upper maps i).2) := by
  cases hc : maps[i + 1]? with
  | none => simp [FHom.upper, Hom.upper, fieldMaps, hc]; funext p q; simp [inField]
  | some c => simp [FHom.upper, Hom.upper, fieldMaps, hc]

/-- the boundary maps of a configuration complex over `ℤ` square to zero -/
theorem bd_le_z_of {s : Cplx} {maps : List (Hom.BMap (List Factor))} (h : BoundaryOK s maps) {i : Nat} {b} (hb : maps[i]? = some b) :
    Hom.Bd b.m (Hom.upper maps i).1 (Hom.upper maps i).2 ≤ Hom.Z b.n b.m b.a := by
  rintro x ⟨y, rfl⟩
  show (Smith.mat b.n b.m b.a).mulVec ((Smith.mat b.m _ _).mulVec y) = 0
  rw [Matrix.mulVec_mulVec]
  have : Smith.mat b.n b.m b.a * Smith.mat b.m (Hom.upper maps i).1 (Hom.upper maps i).2 = 0 := by
    cases hc : maps[i + 1]? with
    | none =>
      have : Hom.upper maps i = (0, fun _ _ => 0) := by simp [Hom.upper, hc]
      rw [this]
      ext p q
      exact absurd q.2 (by omega)
    | some c =>
      have : Hom.upper maps i = (c.m, c.a) := by simp [Hom.upper, hc]
      rw [this]
      ext p q
      have e := (h.square i b c hb hc).2 p q p.2 q.2
      rw [← List.map_coe_finRange_eq_range, List.map_map, ← List.ofFn_eq_map, List.sum_ofFn] at e
      rw [Matrix.mul_apply, Matrix.zero_apply]
      exact e
  rw [this, Matrix.zero_mulVec]

/-- if the integral homology in degree 0 is `ℤ`, the rank of the first boundary map over any field is one less than the number of vertices -/
theorem first_rank {s : Cplx} {maps : List (Hom.BMap (List Factor))} (h : BoundaryOK s maps) (hH : HomologyIs maps 0 (Fin 1 → ℤ)) (K : Type) [Field K] :
    1 + (LinAlg.mat (cellsDim s 0).length (Hom.upper maps 0).1 (inField K (Hom.upper maps 0).2)).rank = (cellsDim s 0).length := by
  obtain ⟨b, b1, -, b3, b4⟩ := h.bottom
  obtain ⟨b', hb', ⟨E⟩⟩ | ⟨hb', -⟩ := hH
  swap
  · rw [b1] at hb'; cases hb'
  rw [b1] at hb'; cases hb'
  let T : ((Fin 1 → ℤ) →ₗ[ℤ] K) ≃ₗ[K] (Hom.HGrp b.n b.m (Hom.upper maps 0).1 b.a (Hom.upper maps 0).2 →ₗ[ℤ] K) :=
    { toFun := fun φ => φ.comp E.toIntLinearEquiv.toLinearMap
      map_add' := fun _ _ => rfl
      map_smul' := fun _ _ => rfl
      invFun := fun φ => φ.comp E.symm.toIntLinearEquiv.toLinearMap
      left_inv := fun φ => by ext x; simp
      right_inv := fun φ => by ext x <;> simp }
  have hfin : Module.Finite K (Hom.HGrp b.n b.m (Hom.upper maps 0).1 b.a (Hom.upper maps 0).2 →ₗ[ℤ] K) := Module.Finite.equiv T
  have c := core K (bd_le_z_of h b1)
  rw [← T.finrank_eq, hom_free, kmat_eq] at c
  have z : (Smith.mat b.n b.m b.a) = 0 := by ext i j; exact b4 i j
  rw [z] at c
  have z2 : finrank ℤ (LinearMap.range (0 : Matrix (Fin b.n) (Fin b.m) ℤ).mulVecLin) = 0 := by
    rw [Matrix.mulVecLin_zero, LinearMap.range_zero, finrank_bot]
  rw [z2, b3] at c
  omega

/-- **C157**, the first Betti number over any field of the configuration complex of a connected multigraph is 1; `homology()` answers with at least that, and with exactly that if and
only if the rank of the boundary matrix of dimension 1 is computed correctly (compare C37, where it is not for every matrix). -/
theorem c157_first (edges : List (α × α)) (hc : ConnectedInput edges) (m : MGraph α) (hm : MGraph.ofEdges edges = some m) (points : Nat) (hp0 : points ≠ 0)
    (hp : points + 1 < 2 ^ 63) (g : SGraph α) (hg : SGraph.subdivide m points = some g) :
    ∃ s maps b, udc m points = some s ∧ s.boundaryMap = some maps ∧ maps[0]? = some b ∧ ∀ (K : Type) [Field K] [DecidableEq K],
      FHom.betti b.n b.m (Hom.upper maps 0).1 (inField K b.a) (inField K (Hom.upper maps 0).2) = 1 ∧
      ∃ out x, FHom.homology (fieldMaps K maps) = some out ∧ out[0]? = some x ∧ 1 ≤ x ∧
        (x = 1 ↔ ∀ c, maps[1]? = some c → LinAlg.rankAsLinearMap c.n c.m (inField K c.a) = (LinAlg.mat c.n c.m (inField K c.a)).rank) := by
  obtain ⟨s, maps, s1, s2, s3, s4⟩ := udc_maps edges hc m hm points hp0 hp g hg
  obtain ⟨s', maps', t1, t2, t3⟩ := c78_components edges hc m hm points hp0 hp g hg
  rw [s1] at t1; cases t1
  rw [s2] at t2; cases t2
  obtain ⟨b, b1, b2, b3, b4⟩ := s4.bottom
  refine ⟨s, maps, b, s1, s2, b1, fun K _ _ => ?_⟩
  have hr := first_rank s4 t3 K
  have hb' : (fieldMaps K maps)[0]? = some ⟨b.n, b.m, inField K b.a⟩ := by simp [fieldMaps, b1]
  have z : LinAlg.mat b.n b.m (inField K b.a) = 0 := by ext i j; simp [LinAlg.mat, inField, b4]
  have hz := FHom.bd_le (field_chain_of s4 K) hb'
  rw [upper_field] at hz
  have hbt := FHom.betti_eq hz
  simp only [] at hbt
  rw [z, Matrix.rank_zero, b3] at hbt
  refine ⟨by rw [b3]; omega, ?_⟩
  obtain ⟨out, o1, o2, o3⟩ := FHom.homology_eq (field_chain_of s4 K)
  have v := o3 0 _ hb'
  refine ⟨out, _, o1, v, ?_⟩
  have r0 : FHom.rkc (⟨b.n, b.m, inField K b.a⟩ : FHom.FMap K) = 0 := by
    have := LinAlg.c37_le_rank_partial (n := b.n) (m := b.m) (inField K b.a)
    rw [z, Matrix.rank_zero] at this
    exact Nat.le_zero.mp this
  rw [r0, b3, Nat.sub_zero]
  cases hc1 : maps[1]? with
  | none =>
    have hu : Hom.upper maps 0 = (0, fun _ _ => 0) := by simp [Hom.upper, hc1]
    rw [hu] at hr
    have hw : (LinAlg.mat (cellsDim s 0).length 0 (inField K (fun _ _ => 0))).rank = 0 := by
      have := (LinAlg.mat (cellsDim s 0).length 0 (inField K (fun _ _ => 0))).rank_le_width
      omega
    have hn : (fieldMaps K maps)[0 + 1]? = none := by simp [fieldMaps, hc1]
    rw [hn]
    simp only [] at hr
    rw [hw] at hr
    simp only [Nat.sub_zero]
    refine ⟨by omega, fun _ c h => ?_, fun _ => by omega⟩
    cases h
  | some c =>
    have hu : Hom.upper maps 0 = (c.m, c.a) := by simp [Hom.upper, hc1]
    have hcn := (s4.square 0 b c b1 hc1).1
    rw [hu, ← b3, ← hcn] at hr
    have hn : (fieldMaps K maps)[0 + 1]? = some ⟨c.n, c.m, inField K c.a⟩ := by simp [fieldMaps, hc1]
    rw [hn, ← b3, ← hcn]
    have hle := LinAlg.c37_le_rank_partial (n := c.n) (m := c.m) (inField K c.a)
    simp only [] at hr
    have hrk : FHom.rkc (⟨c.n, c.m, inField K c.a⟩ : FHom.FMap K) = LinAlg.rankAsLinearMap c.n c.m (inField K c.a) := rfl
    simp only [hrk]
    refine ⟨by omega, fun h c' hc' => ?_, fun h => ?_⟩
    · cases hc'; omega
    · have := h c rfl; omega

/-- **C157**, one point: the two numbers `homology()` answers exceed the Betti numbers of the graph, 1 and `E - V + 1`, by the same number, and this number is 0 if and only if the
rank of the boundary matrix is computed correctly. -/
theorem c157_one_point (edges : List (α × α)) (hc : ConnectedInput edges) (m : MGraph α) (hm : MGraph.ofEdges edges = some m) (g : SGraph α) (hg : SGraph.subdivide m 1 = some g) :
    ∃ s maps r, udc m 1 = some s ∧ s.boundaryMap = some maps ∧ r + (MGraphProps.endpoints edges).length = edges.length + 1 ∧
      ∀ (K : Type) [Field K] [DecidableEq K], ∃ t, FHom.homology (fieldMaps K maps) = some [1 + t, r + t] ∧
        (t = 0 ↔ ∀ c, maps[1]? = some c → LinAlg.rankAsLinearMap c.n c.m (inField K c.a) = (LinAlg.mat c.n c.m (inField K c.a)).rank) := by
  obtain ⟨s, maps, b, s1, s2, b1, h⟩ := c157_first edges hc m hm 1 (by omega) (by omega) g hg
  obtain ⟨s', maps', t1, t2, h'⟩ := c155_field edges hc m hm g hg
  rw [s1] at t1; cases t1
  rw [s2] at t2; cases t2
  obtain ⟨s', maps', r, q1, q2, q3, -⟩ := c155_one_point edges hc m hm g hg
  refine ⟨s, maps, r, s1, s2, q3, fun K _ _ => ?_⟩
  obtain ⟨-, out, x, o1, o2, o3, o4⟩ := h K
  obtain ⟨x', y, p1, p2⟩ := h' K
  rw [o1] at p1; cases p1
  simp only [List.getElem?_cons_zero, Option.some.injEq] at o2
  subst o2
  refine ⟨x' - 1, ?_, ?_⟩
  · rw [o1]
    congr 2
    · omega
    · congr 1; omega
  · rw [← o4]; omega

/-- the hypotheses are met: a segment, one point; the answer over the rationals is that of a point -/
example : ((MGraph.ofEdges [((0 : Nat), 1)]).bind (fun m => udc m 1)).map (fun s => (s.boundaryMap).map (fun maps => FHom.homology (fieldMaps ℚ maps))) = some (some (some [1, 0])) := by
  decide +kernel

end Toppo.CubeProps
