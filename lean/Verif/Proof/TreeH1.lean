import Verif.Proof.TreeInd
import Mathlib.LinearAlgebra.Quotient.Basic
import Mathlib.LinearAlgebra.Isomorphisms
set_option linter.unusedVariables false

/-! The first homology group of the configuration complex of a subdivided tree is free on the critical cells. -/
namespace Toppo.CubeProps
open Toppo RawGraph Cub GraphProps EdgePath

theorem hgrp_free {n m l r : Nat} {f u : Smith.M} (crit : Fin r → Fin m) (C : Submodule ℤ (Fin m → ℤ)) (Ψ : (Fin m → ℤ) →ₗ[ℤ] (Fin r → ℤ))
    (hb : ∀ z ∈ Hom.Bd m l u, Ψ z = 0) (hcrit : ∀ t, Ψ (Pi.single (crit t) 1) = Pi.single t 1) (hcoll : ∀ z ∈ C, Ψ z = 0)
    (gen : ∀ j : Fin m, (Pi.single j 1 : Fin m → ℤ) ∈ Submodule.span ℤ (Set.range fun t => (Pi.single (crit t) 1 : Fin m → ℤ)) ⊔ C ⊔ Hom.Bd m l u)
    (hU : ∀ z ∈ C, z ∈ Hom.Z n m f → z = 0) (hT : ∀ t, ∃ w ∈ C, Pi.single (crit t) 1 + w ∈ Hom.Z n m f) (sq : Hom.Bd m l u ≤ Hom.Z n m f) :
    Nonempty (Hom.HGrp n m l f u ≃+ (Fin r → ℤ)) := by
  classical
  let Ψ' : Hom.Z n m f →ₗ[ℤ] (Fin r → ℤ) := Ψ.comp (Hom.Z n m f).subtype
  have hsurj : Function.Surjective Ψ' := by
    intro y
    choose w w1 w2 using hT
    refine ⟨∑ t, y t • ⟨Pi.single (crit t) 1 + w t, w2 t⟩, ?_⟩
    rw [map_sum]
    have : ∀ t, Ψ' (y t • ⟨Pi.single (crit t) 1 + w t, w2 t⟩) = Pi.single t (y t) := by
      intro t
      rw [map_smul]
      show y t • Ψ (Pi.single (crit t) 1 + w t) = _
      rw [map_add, hcrit, hcoll _ (w1 t), add_zero]
      funext i
      by_cases hi : i = t
      · subst hi; simp
      · simp [hi]
    simp only [this]
    funext i
    rw [Finset.sum_apply]
    simp [Pi.single_apply]
  have hall : ∀ z : Fin m → ℤ, z ∈ Submodule.span ℤ (Set.range fun t => (Pi.single (crit t) 1 : Fin m → ℤ)) ⊔ C ⊔ Hom.Bd m l u := by
    intro z
    have : z = ∑ j, z j • (Pi.single j 1 : Fin m → ℤ) := by
      funext i
      rw [Finset.sum_apply]
      simp [Pi.single_apply]
    rw [this]
    exact Submodule.sum_mem _ (fun j _ => Submodule.smul_mem _ _ (gen j))
  have hker : LinearMap.ker Ψ' = (Hom.Bd m l u).submoduleOf (Hom.Z n m f) := by
    ext ⟨z, hz⟩
    rw [LinearMap.mem_ker]
    show Ψ z = 0 ↔ z ∈ Hom.Bd m l u
    refine ⟨fun h0 => ?_, hb z⟩
    obtain ⟨y, hy, b, hbb, rfl⟩ := Submodule.mem_sup.mp (hall z)
    obtain ⟨a, ha, c, hc, rfl⟩ := Submodule.mem_sup.mp hy
    rw [map_add, map_add, hcoll c hc, hb b hbb, add_zero, add_zero] at h0
    have ha0 : a = 0 := by
      obtain ⟨y, rfl⟩ := (Submodule.mem_span_range_iff_exists_fun ℤ).mp ha
      have hy0 : y = 0 := by
        have : Ψ (∑ t, y t • (Pi.single (crit t) 1 : Fin m → ℤ)) = y := by
          rw [map_sum]
          funext i
          rw [Finset.sum_apply]
          simp only [map_smul, hcrit, Pi.smul_apply, smul_eq_mul, Pi.single_apply]
          simp
        rw [this] at h0
        exact h0
      rw [hy0]
      simp
    subst ha0
    rw [zero_add] at hz ⊢
    have : c ∈ Hom.Z n m f := by
      have := Submodule.sub_mem _ hz (sq hbb)
      rwa [add_sub_cancel_right] at this
    rw [hU c hc this, zero_add]
    exact hbb
  exact ⟨((Submodule.quotEquivOfEq _ _ hker.symm).trans (Ψ'.quotKerEquivOfSurjective hsurj)).toAddEquiv⟩

theorem low_comm {g : RawGraph} {M : Finset Nat} {a b : Nat} (ha : Free g M a) (hb : Free g M b) (hab : par g a ≠ par g b) : low g (low g M a) b = low g (low g M b) a := by
  have h1 : par g a ≠ b := fun e => ha.par (by rw [e]; exact hb.mem)
  have h2 : par g b ≠ a := fun e => hb.par (by rw [e]; exact ha.mem)
  ext v
  simp only [mem_low]
  constructor
  · rintro (rfl | ⟨h3, rfl | ⟨h4, h5⟩⟩)
    · exact Or.inr ⟨h2, Or.inl rfl⟩
    · exact Or.inl rfl
    · exact Or.inr ⟨h4, Or.inr ⟨h3, h5⟩⟩
  · rintro (rfl | ⟨h3, rfl | ⟨h4, h5⟩⟩)
    · exact Or.inr ⟨h1, Or.inl rfl⟩
    · exact Or.inl rfl
    · exact Or.inr ⟨h4, Or.inr ⟨h3, h5⟩⟩

theorem range_single {m l : Nat} (φ : (Fin l → ℤ) →ₗ[ℤ] (Fin m → ℤ)) (P : Submodule ℤ (Fin m → ℤ)) (h : ∀ j, φ (Pi.single j 1) ∈ P) : LinearMap.range φ ≤ P := by
  rintro _ ⟨z, rfl⟩
  have : z = ∑ j, z j • (Pi.single j 1 : Fin l → ℤ) := by
    funext i
    rw [Finset.sum_apply]
    simp [Pi.single_apply]
  rw [this, map_sum]
  exact Submodule.sum_mem _ (fun j _ => by rw [map_smul]; exact Submodule.smul_mem _ _ (h j))

namespace Cx
variable {g : RawGraph} {k : Nat} {L0 L1 L2 : List (List Factor)} {f u : Smith.M}

theorem h1 (x : Cx g k L0 L1 L2 f u) (h : Morse.SubTree g k) (crit : List (List Factor)) (hcn : crit.Nodup)
    (hcm : ∀ c, c ∈ crit ↔ IsCell g k c ∧ property g c = some .critical ∧ dimC c = 1) :
    Nonempty (Hom.HGrp L0.length L1.length L2.length f u ≃+ (Fin crit.length → ℤ)) := by
  classical
  have ht := h.tree
  choose MM mm r1 r2 r3 using (fun j : Fin L1.length => pair_cell ht h.all (x.c1 j).1 (x.c1 j).2)
  have hci : ∀ t : Fin crit.length, ∃ j : Fin L1.length, L1[j] = crit[t] := by
    intro t
    obtain ⟨c1, c2, c3⟩ := (hcm _).mp (List.getElem_mem t.2)
    exact x.index1 c1 c3
  choose ci hci using hci
  have hcrit : ∀ t, Crit g (MM (ci t)) (mm (ci t)) := by
    intro t
    obtain ⟨c1, c2, c3⟩ := (hcm _).mp (List.getElem_mem t.2)
    refine (crit_iff ht c1 (r1 _) (r2 _) ?_).mp c2
    rw [← r3]
    exact congrArg List.toFinset (hci t).symm
  -- the cochains
  let Ψ : (Fin L1.length → ℤ) →ₗ[ℤ] (Fin crit.length → ℤ) := LinearMap.pi (fun t => ∑ j, (if Phi g (MM j) (mm j) = Phi g (MM (ci t)) (mm (ci t)) then (1 : ℤ) else 0) • LinearMap.proj j)
  have hΨ : ∀ j t, Ψ (Pi.single j 1) t = if Phi g (MM j) (mm j) = Phi g (MM (ci t)) (mm (ci t)) then 1 else 0 := by
    intro j t
    simp only [Ψ, LinearMap.pi_apply, LinearMap.sum_apply, LinearMap.smul_apply, LinearMap.proj_apply]
    simp [Pi.single_apply]
  have hΨE : ∀ M m, Conf g k M → Free g M m → ∀ t, Ψ (E L1 (PS g M m)) t = if Phi g M m = Phi g (MM (ci t)) (mm (ci t)) then 1 else 0 := by
    intro M m hM hm t
    obtain ⟨c, c1, c2, c3⟩ := cell_pair ht hM hm
    obtain ⟨j, hj⟩ := x.index1 c1 c2
    have e0 : L1[j].toFinset = PS g M m := by rw [← c3]; exact congrArg List.toFinset hj
    obtain ⟨e1, e2⟩ := PS_inj hm.mem (r2 j).mem (e0.symm.trans (r3 j))
    rw [← e0, x.single1, hΨ, e1, e2]
  refine hgrp_free ci (CollS g k L1) Ψ ?_ ?_ ?_ ?_ ?_ ?_ ?_
  · -- vanishing on boundaries
    have : Hom.Bd L1.length L2.length u ≤ LinearMap.ker Ψ := by
      refine range_single _ _ (fun j => ?_)
      obtain ⟨M, a, b, h1, h2, h3, h4, -, h6⟩ := x.bd_pairs ht h.all j
      rw [LinearMap.mem_ker]
      show Ψ (bd L1 L2 u (Pi.single j 1)) = 0
      rw [h6, map_add, map_sub, map_sub]
      funext t
      simp only [Pi.add_apply, Pi.sub_apply, Pi.zero_apply]
      rw [hΨE _ _ (low_conf ht h1 h2) (low_free ht h1 h2 h3 h4), hΨE _ _ h1 h3, hΨE _ _ (low_conf ht h1 h3) (low_free ht h1 h3 h2 h4.symm), hΨE _ _ h1 h2,
        phi_low ht h1 h2 h3 h4, phi_low ht h1 h3 h2 h4.symm]
      ring
    intro z hz
    exact LinearMap.mem_ker.mp (this hz)
  · intro t
    funext t'
    rw [hΨ]
    by_cases htt : t' = t
    · subst htt; simp
    · rw [Pi.single_eq_of_ne htt, if_neg]
      intro e
      obtain ⟨e1, e2⟩ := phi_crit h (r1 _) (r1 _) (hcrit t) (hcrit t') e
      have : ci t = ci t' := by
        have := cell_ext (x.c1 (ci t)).1 (x.c1 (ci t')).1 (by rw [r3, r3, e1, e2])
        exact Fin.ext ((List.Nodup.getElem_inj_iff x.n1).mp this)
      have h1 := hci t
      have h2 := hci t'
      rw [this] at h1
      have h3 : crit[t'] = crit[t] := h2.symm.trans h1
      exact htt (Fin.ext ((List.Nodup.getElem_inj_iff hcn).mp h3))
  · have : CollS g k L1 ≤ LinearMap.ker Ψ := by
      refine Submodule.span_le.mpr ?_
      rintro z ⟨M, m, h1, h2, rfl⟩
      rw [SetLike.mem_coe, LinearMap.mem_ker]
      funext t
      rw [hΨE _ _ h1 h2.free, if_neg]
      · rfl
      · intro e
        exact phi_coll ht (r1 _) h1 (hcrit t) h2 e.symm
    intro z hz
    exact LinearMap.mem_ker.mp (this hz)
  · intro j
    have hg := x.generate ht h.all _ (MM j) (mm j) rfl (r1 j) (r2 j)
    rw [← r3, x.single1] at hg
    suffices hle : CritS g k L1 ≤ Submodule.span ℤ (Set.range fun t => (Pi.single (ci t) 1 : Fin L1.length → ℤ)) from
      (show CritS g k L1 ⊔ CollS g k L1 ⊔ LinearMap.range (bd L1 L2 u) ≤ _ from sup_le_sup_right (sup_le_sup_right hle _) _) hg
    refine Submodule.span_le.mpr ?_
    rintro z ⟨M, m, h1, h2, rfl⟩
    obtain ⟨c, c1, c2, c3⟩ := cell_pair ht h1 h2.free
    have hc := (hcm c).mpr ⟨c1, (crit_iff ht c1 h1 h2.free c3).mpr h2, c2⟩
    obtain ⟨t, ht', e⟩ := List.getElem_of_mem hc
    refine Submodule.subset_span ⟨⟨t, ht'⟩, ?_⟩
    show Pi.single (ci ⟨t, ht'⟩) 1 = _
    rw [← x.single1, ← c3, ← e]
    exact congrArg (fun c => E L1 (List.toFinset c)) (hci ⟨t, ht'⟩)
  · intro z hz hz'
    exact x.coll_cycle ht hz (LinearMap.mem_ker.mp hz')
  · intro t
    have hf := hcrit t
    obtain ⟨z1, a1, a2⟩ := x.connect ht h.stem _ (MM (ci t)) rfl (r1 _)
    obtain ⟨z2, b1, b2⟩ := x.connect ht h.stem _ (low g (MM (ci t)) (mm (ci t))) rfl (low_conf ht (r1 _) (r2 _))
    refine ⟨z1 - z2, Submodule.sub_mem _ a1 b1, ?_⟩
    show _ ∈ LinearMap.ker (bd L0 L1 f)
    rw [LinearMap.mem_ker, map_add, map_sub, a2, b2, ← x.single1, r3, x.bd_pair ht (r1 _) (r2 _)]
    abel
  · refine range_single _ _ (fun j => ?_)
    obtain ⟨M, a, b, h1, h2, h3, h4, -, h6⟩ := x.bd_pairs ht h.all j
    show bd L1 L2 u (Pi.single j 1) ∈ LinearMap.ker (bd L0 L1 f)
    rw [LinearMap.mem_ker, h6, map_add, map_sub, map_sub, x.bd_pair ht (low_conf ht h1 h2) (low_free ht h1 h2 h3 h4), x.bd_pair ht h1 h3,
      x.bd_pair ht (low_conf ht h1 h3) (low_free ht h1 h3 h2 h4.symm), x.bd_pair ht h1 h2, low_comm h2 h3 h4]
    abel

/-- the chains of dimension 0 up to boundaries: the space is connected -/
theorem h0 (x : Cx g k L0 L1 L2 f u) (h : TreeGraph g) (hs : Stem g k) (hk : k ≤ g.n) {n : Nat} {z : Smith.M} (hz : ∀ i j, z i j = 0) :
    Nonempty (Hom.HGrp n L0.length L1.length z f ≃+ (Fin 1 → ℤ)) := by
  classical
  have hbase : Conf g k (Finset.range k) := ⟨fun v hv => by rw [Finset.mem_range] at hv; omega, Finset.card_range k⟩
  have single0 : ∀ j : Fin L0.length, E L0 L0[j].toFinset = Pi.single j 1 := E_single (fun c hc => ((x.m0 c).mp hc).1) x.n0
  obtain ⟨c, c1, c2, c3⟩ := cell_vertices hbase
  obtain ⟨j0, hj0, e0⟩ := List.getElem_of_mem ((x.m0 c).mpr ⟨c1, c2⟩)
  have e1 : L0[(⟨j0, hj0⟩ : Fin L0.length)].toFinset = VS (Finset.range k) := by rw [← c3]; exact congrArg List.toFinset e0
  let Ψ : (Fin L0.length → ℤ) →ₗ[ℤ] (Fin 1 → ℤ) := LinearMap.pi (fun _ => ∑ j, LinearMap.proj j)
  have hΨ : ∀ j t, Ψ (Pi.single j 1) t = 1 := by
    intro j t
    simp only [Ψ, LinearMap.pi_apply, LinearMap.sum_apply, LinearMap.smul_apply, LinearMap.proj_apply]
    simp [Pi.single_apply]
  have hΨE : ∀ M, Conf g k M → ∀ t, Ψ (E L0 (VS M)) t = 1 := by
    intro M hM t
    obtain ⟨c, c1, c2, c3⟩ := cell_vertices hM
    obtain ⟨j, hj, e⟩ := List.getElem_of_mem ((x.m0 c).mpr ⟨c1, c2⟩)
    have e1 : L0[(⟨j, hj⟩ : Fin L0.length)].toFinset = VS M := by rw [← c3]; exact congrArg List.toFinset e
    rw [← e1, single0, hΨ]
  have hZ : ∀ w, w ∈ Hom.Z n L0.length z := by
    intro w
    show _ ∈ LinearMap.ker _
    rw [LinearMap.mem_ker, Matrix.mulVecLin_apply]
    funext i
    simp [Matrix.mulVec, dotProduct, Smith.mat, hz]
  refine hgrp_free (fun _ => ⟨j0, hj0⟩) ⊥ Ψ ?_ ?_ ?_ ?_ ?_ ?_ ?_
  · have : Hom.Bd L0.length L1.length f ≤ LinearMap.ker Ψ := by
      refine range_single _ _ (fun j => ?_)
      show bd L0 L1 f (Pi.single j 1) ∈ _
      rw [x.bd_single, LinearMap.mem_ker]
      obtain ⟨a, b, h1, h2, h3⟩ := incidence_one (x.c1 j).1 (x.c1 j).2
      -- the two faces are cells
      have hface : ∀ v, v = a ∨ v = b → ∃ M, Conf g k M ∧ faceS L1[j].toFinset a b v = VS M := by
        intro v hv
        obtain ⟨i, hi⟩ := List.mem_iff_getElem?.mp h1
        obtain ⟨r, p1, p2⟩ := split_at hi
        have hfe := (x.c1 j).1.factors _ h1
        have hdis := pairwise_perm p1 (x.c1 j).1.disjoint
        rw [List.pairwise_cons] at hdis
        have hnd := p1.nodup_iff.mp (x.c1 j).1.nodup
        have hvab : ∀ w ∈ vertsOf (Factor.vertex v), w ∈ vertsOf (Factor.edge a b) := by
          intro w hw
          simp [vertsOf] at hw ⊢
          rcases hv with rfl | rfl <;> simp [hw]
        have hl : (Factor.vertex v :: r).length = k := by
          rw [← (x.c1 j).1.length, p1.length_eq]; rfl
        have hcell := cell_of_perm (g := g) hl (by
          intro q hq
          rcases List.mem_cons.mp hq with rfl | hq
          · have := ((edge_iff h.built _ _).mp hfe.2).lt
            show v < g.n
            rcases hv with rfl | rfl
            · exact this.1
            · exact this.2.1
          · exact (x.c1 j).1.factors _ (p1.mem_iff.mpr (List.mem_cons_of_mem _ hq))) (by
          rw [List.pairwise_cons]
          exact ⟨fun q hq w hw => hdis.1 q hq w (hvab w hw), hdis.2⟩)
        have hd0 : dimC (Factor.sort (Factor.vertex v :: r)) = 0 := by
          have d1 := dimC_perm hcell.2
          have d2 := dimC_perm p1
          rw [dimC_cons_vertex] at d1
          rw [dimC_cons_edge, (x.c1 j).2] at d2
          omega
        obtain ⟨M, M1, M2⟩ := vertices_cell hcell.1 hd0
        refine ⟨M, M1, ?_⟩
        rw [← M2, List.toFinset_eq_of_perm _ _ hcell.2, List.toFinset_eq_of_perm _ _ p1]
        unfold faceS
        rw [List.toFinset_cons, List.toFinset_cons, Finset.erase_insert (by simpa using (List.nodup_cons.mp hnd).1)]
      obtain ⟨M, M1, M2⟩ := hface a (Or.inl rfl)
      obtain ⟨M', M1', M2'⟩ := hface b (Or.inr rfl)
      have : (fun i : Fin L0.length => incidence L1[j] L0[i]) = E L0 (VS M) - E L0 (VS M') := by
        funext i
        rw [h3 _ (x.c0 i).1.nodup, M2, M2']
        rfl
      rw [this, map_sub]
      funext t
      rw [Pi.sub_apply, hΨE _ M1, hΨE _ M1', sub_self]
      rfl
    intro w hw
    exact LinearMap.mem_ker.mp (this hw)
  · intro t
    funext t'
    rw [hΨ, Subsingleton.elim t' t]
    simp
  · intro w hw
    rw [(Submodule.mem_bot ℤ).mp hw, map_zero]
  · intro j
    obtain ⟨M, M1, M2⟩ := vertices_cell (x.c0 j).1 (x.c0 j).2
    obtain ⟨w, -, w2⟩ := x.connect h hs _ M rfl M1
    rw [← single0 j, M2]
    have e2 : E L0 (VS M) = E L0 (VS (Finset.range k)) + bd L0 L1 f w := by rw [w2]; abel
    rw [e2]
    refine Submodule.add_mem _ (Submodule.mem_sup_left (Submodule.mem_sup_left ?_)) (Submodule.mem_sup_right ⟨w, rfl⟩)
    rw [← e1, single0]
    exact Submodule.subset_span ⟨0, rfl⟩
  · intro w hw _
    exact (Submodule.mem_bot ℤ).mp hw
  · intro t
    exact ⟨0, Submodule.zero_mem _, hZ _⟩
  · intro w _
    exact hZ w

end Cx
end Toppo.CubeProps
