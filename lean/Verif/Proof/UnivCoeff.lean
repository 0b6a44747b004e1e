import Verif.Props.Homology
import Verif.Props.FieldHomology
import Mathlib.LinearAlgebra.FreeModule.PID
import Mathlib.LinearAlgebra.Matrix.Rank
import Mathlib.LinearAlgebra.Dimension.Constructions
set_option linter.unusedVariables false
/-!
# Universal coefficients: ranks over a field from integral homology
-/
namespace Toppo.Univ
open Toppo Toppo.ModProps Module
variable (K : Type) [Field K]

/-- precomposition, as a map of vector spaces -/
def pre {A B : Type} [AddCommGroup A] [AddCommGroup B] (f : A →ₗ[ℤ] B) : (B →ₗ[ℤ] K) →ₗ[K] (A →ₗ[ℤ] K) where
  toFun φ := φ.comp f
  map_add' _ _ := rfl
  map_smul' _ _ := rfl

/-- homomorphisms from `ℤ^m` are given by their values on the unit vectors -/
noncomputable def evals (m : Nat) : ((Fin m → ℤ) →ₗ[ℤ] K) ≃ₗ[K] (Fin m → K) where
  toFun φ i := φ (Pi.single i 1)
  map_add' _ _ := rfl
  map_smul' _ _ := rfl
  invFun v := ∑ i, (LinearMap.toSpanSingleton ℤ K (v i)).comp (LinearMap.proj i)
  left_inv φ := by
    refine LinearMap.pi_ext' (fun i => LinearMap.ext_ring ?_)
    simp [Pi.single_apply, Finset.sum_ite_eq]
  right_inv v := by
    funext i
    simp [Pi.single_apply]

theorem hom_free (m : Nat) : finrank K ((Fin m → ℤ) →ₗ[ℤ] K) = m := by
  rw [(evals K m).finrank_eq, Module.finrank_fin_fun]

instance (m : Nat) : Module.Finite K ((Fin m → ℤ) →ₗ[ℤ] K) := Module.Finite.equiv (evals K m).symm

open Classical in
theorem hom_zmod (k : Nat) : Module.Finite K (ZMod k →ₗ[ℤ] K) ∧ finrank K (ZMod k →ₗ[ℤ] K) = if (k : K) = 0 then 1 else 0 := by
  by_cases h : (k : K) = 0
  · rw [if_pos h]
    let e : (ZMod k →ₗ[ℤ] K) →ₗ[K] K := { toFun := fun φ => φ 1, map_add' := fun _ _ => rfl, map_smul' := fun _ _ => rfl }
    have hb : Function.Bijective e := by
      constructor
      · intro φ ψ hh
        ext x
        obtain ⟨n, rfl⟩ := ZMod.intCast_surjective x
        have : (n : ZMod k) = n • (1 : ZMod k) := by simp
        rw [this, map_smul, map_smul]
        congr 1
      · intro y
        let f : { f : ℤ →+ K // f k = 0 } := ⟨(LinearMap.toSpanSingleton ℤ K y).toAddMonoidHom, by simp [h]⟩
        refine ⟨(ZMod.lift k f).toIntLinearMap, ?_⟩
        have := ZMod.lift_coe k f 1
        simp only [Int.cast_one] at this
        show ZMod.lift k f 1 = y
        rw [this]; simp [f]
    let e' := LinearEquiv.ofBijective e hb
    exact ⟨Module.Finite.equiv e'.symm, by rw [e'.finrank_eq, Module.finrank_self]⟩
  · rw [if_neg h]
    have : Subsingleton (ZMod k →ₗ[ℤ] K) := by
      refine ⟨fun φ ψ => ?_⟩
      have key : ∀ φ : ZMod k →ₗ[ℤ] K, φ = 0 := by
        intro φ
        ext x
        have e : ((k : ℤ) • x : ZMod k) = 0 := by simp
        have := congrArg φ e
        rw [map_smul, map_zero] at this
        simp only [zsmul_eq_mul, Int.cast_natCast, mul_eq_zero] at this
        rcases this with h' | h'
        · exact absurd h' h
        · exact h'
      rw [key φ, key ψ]
    exact ⟨inferInstance, Module.finrank_zero_of_subsingleton⟩

open Classical in
/-- how many of the torsion coefficients vanish in `K`, with multiplicities -/
noncomputable def tor (a : Mod) : Nat := (a.divisors.map (fun dk => if (dk.1 : K) = 0 then dk.2 else 0)).sum

open Classical in
theorem hom_cyc (l : List Nat) : Module.Finite K (Cyc l →ₗ[ℤ] K) ∧ finrank K (Cyc l →ₗ[ℤ] K) = (l.map (fun k : Nat => if (k : K) = 0 then 1 else 0)).sum := by
  have e : ((i : Fin l.length) → (ZMod (l.get i) →ₗ[ℤ] K)) ≃ₗ[K] (Cyc l →ₗ[ℤ] K) := LinearMap.lsum ℤ (fun i : Fin l.length => ZMod (l.get i)) K
  have hf : ∀ i : Fin l.length, Module.Finite K (ZMod (l.get i) →ₗ[ℤ] K) := fun i => (hom_zmod K _).1
  refine ⟨Module.Finite.equiv e, ?_⟩
  rw [← e.finrank_eq, Module.finrank_pi_fintype]
  simp only [fun k => (hom_zmod K k).2]
  rw [← List.sum_ofFn]
  congr 1
  apply List.ext_getElem <;> simp

theorem hom_grp (a : Mod) : Module.Finite K (Grp a →ₗ[ℤ] K) ∧ finrank K (Grp a →ₗ[ℤ] K) = a.freeRank + tor K a := by
  classical
  have e : (((Fin a.freeRank → ℤ) →ₗ[ℤ] K) × (Cyc (orders a.divisors) →ₗ[ℤ] K)) ≃ₗ[K] (Grp a →ₗ[ℤ] K) := LinearMap.coprodEquiv K
  have h := hom_cyc K (orders a.divisors)
  have := h.1
  refine ⟨Module.Finite.equiv e, ?_⟩
  rw [← e.finrank_eq, Module.finrank_prod, hom_free, h.2, tor]
  congr 1
  induction a.divisors with
  | nil => rfl
  | cons x l ih =>
    rw [orders, List.flatMap_cons, List.map_append, List.sum_append, List.map_cons, List.sum_cons, ← ih, orders]
    congr 1
    rw [List.map_replicate, List.sum_replicate, smul_eq_mul]
    have : ((x.1.natAbs : Nat) : K) = 0 ↔ (x.1 : K) = 0 := by
      rcases Int.natAbs_eq x.1 with h | h
      · conv_rhs => rw [h]
        simp
      · conv_rhs => rw [h]
        simp
    simp only [this]
    split_ifs <;> simp

/-- the matrix over `K` -/
def kmat (n m : Nat) (f : Smith.M) : Matrix (Fin n) (Fin m) K := (Smith.mat n m f).map (Int.castRingHom K)

theorem range_pre (m l : Nat) (g : Smith.M) : finrank K (LinearMap.range (pre K (Smith.mat m l g).mulVecLin)) = (kmat K m l g).rank := by
  rw [← Matrix.rank_transpose, Matrix.rank]
  have e : (evals K l).toLinearMap ∘ₗ (pre K (Smith.mat m l g).mulVecLin) ∘ₗ (evals K m).symm.toLinearMap = ((kmat K m l g).transpose).mulVecLin := by
    refine LinearMap.ext fun v => funext fun j => ?_
    obtain ⟨φ, rfl⟩ := (evals K m).surjective v
    simp only [LinearMap.comp_apply, LinearEquiv.coe_coe, LinearEquiv.symm_apply_apply]
    show φ ((Smith.mat m l g).mulVec (Pi.single j 1)) = ∑ i, (Smith.mat m l g i j : K) * φ (Pi.single i 1)
    have : (Smith.mat m l g).mulVec (Pi.single j 1) = ∑ i, (Smith.mat m l g i j) • (Pi.single i (1 : ℤ) : Fin m → ℤ) := by
      funext i
      rw [Matrix.mulVec_single_one, Finset.sum_apply]
      simp [Pi.single_apply]
    rw [this, map_sum]
    refine Finset.sum_congr rfl fun i _ => ?_
    rw [map_smul, zsmul_eq_mul]
  rw [← e, LinearMap.range_comp, LinearMap.range_comp, LinearEquiv.range, Submodule.map_top]
  exact (LinearEquiv.finrank_map_eq (evals K l) _).symm

/-- the homomorphisms from homology to `K`, and the rank of the boundary map over `K` -/
theorem core {n m l : Nat} {f g : Smith.M} (hle : Hom.Bd m l g ≤ Hom.Z n m f) [Module.Finite K (Hom.HGrp n m l f g →ₗ[ℤ] K)] :
    finrank K (Hom.HGrp n m l f g →ₗ[ℤ] K) + finrank ℤ (LinearMap.range (Smith.mat n m f).mulVecLin) + (kmat K m l g).rank = m := by
  set F := (Smith.mat n m f).mulVecLin with hF
  set G := (Smith.mat m l g).mulVecLin with hG
  obtain ⟨s, hs⟩ := Module.projective_lifting_property F.rangeRestrict (LinearMap.id) (LinearMap.surjective_rangeRestrict F)
  have hs' : ∀ y, F.rangeRestrict (s y) = y := fun y => LinearMap.congr_fun hs y
  let R := LinearMap.range F
  let r : (Fin m → ℤ) →ₗ[ℤ] Hom.Z n m f := (LinearMap.id - s.comp F.rangeRestrict).codRestrict _ (fun x => by
    show F (x - s (F.rangeRestrict x)) = 0
    have := congrArg Subtype.val (hs' (F.rangeRestrict x))
    have this' : F (s (F.rangeRestrict x)) = F x := this
    rw [map_sub, this', sub_self])
  have hr : ∀ z : Hom.Z n m f, r z.1 = z := fun z => Subtype.ext (by
    show z.1 - s (F.rangeRestrict z.1) = z.1
    have : F.rangeRestrict z.1 = 0 := Subtype.ext z.2
    rw [this, map_zero, sub_zero])
  let π : (Fin m → ℤ) →ₗ[ℤ] Hom.HGrp n m l f g := (Submodule.mkQ _).comp r
  let T : ((Hom.HGrp n m l f g →ₗ[ℤ] K) × (R →ₗ[ℤ] K)) →ₗ[K] ((Fin m → ℤ) →ₗ[ℤ] K) := (pre K π).coprod (pre K F.rangeRestrict)
  have hT : ∀ α β x, T (α, β) x = α (π x) + β (F.rangeRestrict x) := fun _ _ _ => rfl
  have hπs : ∀ y, π (s y) = 0 := fun y => by
    have : r (s y) = 0 := Subtype.ext (by
      show s y - s (F.rangeRestrict (s y)) = 0
      rw [hs', sub_self])
    show Submodule.mkQ _ (r (s y)) = 0
    rw [this, map_zero]
  have hinj : Function.Injective T := by
    rw [← LinearMap.ker_eq_bot, LinearMap.ker_eq_bot']
    rintro ⟨α, β⟩ h
    have hβ : β = 0 := by
      ext y
      have := LinearMap.congr_fun h (s y)
      rw [hT, hπs, hs', map_zero, zero_add] at this
      exact this
    subst hβ
    have hα : α = 0 := by
      refine LinearMap.ext fun q => ?_
      obtain ⟨z, rfl⟩ := Submodule.mkQ_surjective _ q
      have := LinearMap.congr_fun h z.1
      rw [hT] at this
      have e : π z.1 = Submodule.mkQ _ z := by show Submodule.mkQ _ (r z.1) = _; rw [hr]
      rw [e] at this
      simpa using this
    rw [hα]; rfl
  have hrange : LinearMap.range T = LinearMap.ker (pre K G) := by
    ext φ
    rw [LinearMap.mem_range, LinearMap.mem_ker]
    constructor
    · rintro ⟨⟨α, β⟩, rfl⟩
      refine LinearMap.ext fun y => ?_
      show T (α, β) (G y) = 0
      have hz : G y ∈ Hom.Z n m f := hle ⟨y, rfl⟩
      have e1 : F.rangeRestrict (G y) = 0 := Subtype.ext hz
      have e2 : π (G y) = 0 := by
        show Submodule.mkQ _ (r (G y)) = 0
        rw [hr ⟨G y, hz⟩, Submodule.mkQ_apply, Submodule.Quotient.mk_eq_zero]
        exact ⟨y, rfl⟩
      rw [hT, e1, e2, map_zero, map_zero, add_zero]
    · intro h
      have hv : ∀ y, φ (G y) = 0 := fun y => LinearMap.congr_fun h y
      refine ⟨(Submodule.liftQ _ (φ.comp (Submodule.subtype _)) ?_, φ.comp s), ?_⟩
      · rintro ⟨z, hz⟩ hz'
        obtain ⟨y, hy⟩ := hz'
        show φ z = 0
        have hy' : G y = z := hy
        rw [← hy']; exact hv y
      · refine LinearMap.ext fun x => ?_
        rw [hT]
        show φ (r x).1 + φ (s (F.rangeRestrict x)) = φ x
        rw [← map_add]
        congr 1
        show x - s (F.rangeRestrict x) + s (F.rangeRestrict x) = x
        rw [sub_add_cancel]
  obtain ⟨k, ⟨bas⟩⟩ : ∃ k, Nonempty (Basis (Fin k) ℤ R) := ⟨_, ⟨Module.finBasis ℤ R⟩⟩
  have hk : finrank ℤ R = k := by rw [Module.finrank_eq_card_basis bas, Fintype.card_fin]
  let eR : (R →ₗ[ℤ] K) ≃ₗ[K] ((Fin k → ℤ) →ₗ[ℤ] K) :=
    { toFun := fun φ => φ.comp bas.equivFun.symm.toLinearMap
      map_add' := fun _ _ => rfl
      map_smul' := fun _ _ => rfl
      invFun := fun φ => φ.comp bas.equivFun.toLinearMap
      left_inv := fun φ => LinearMap.ext fun x => by
        show φ (bas.equivFun.symm (bas.equivFun x)) = φ x
        rw [LinearEquiv.symm_apply_apply]
      right_inv := fun φ => LinearMap.ext fun x => by
        show φ (bas.equivFun (bas.equivFun.symm x)) = φ x
        rw [LinearEquiv.apply_symm_apply] }
  have hfinR : Module.Finite K (R →ₗ[ℤ] K) := Module.Finite.equiv eR.symm
  have hR : finrank K (R →ₗ[ℤ] K) = finrank ℤ R := by rw [eR.finrank_eq, hom_free, hk]
  have d1 : finrank K (LinearMap.range T) = finrank K (Hom.HGrp n m l f g →ₗ[ℤ] K) + finrank ℤ R := by
    rw [LinearMap.finrank_range_of_inj hinj, Module.finrank_prod, hR]
  have d2 := LinearMap.finrank_range_add_finrank_ker (pre K G)
  rw [range_pre, hom_free, ← hrange, d1] at d2
  show _ + finrank ℤ R + _ = m
  omega

/-- **universal coefficients for the boundary maps**: the rank over `K` falls short of the rank over the rationals by the number of torsion coefficients that vanish in `K` -/
theorem rank_field {n m l : Nat} {f g : Smith.M} {a : Mod} (hle : Hom.Bd m l g ≤ Hom.Z n m f) (e : Hom.HGrp n m l f g ≃+ Grp a)
    (hr : a.freeRank + Hom.rk n m f + Hom.rk m l g = m) (hd : ∀ dk ∈ a.divisors, dk.1 ≠ 0) :
    (kmat K m l g).rank + tor K a = Hom.rk m l g := by
  have tr : ∀ (L : Type) [Field L], ∃ E : (Hom.HGrp n m l f g →ₗ[ℤ] L) ≃ₗ[L] (Grp a →ₗ[ℤ] L), True := fun L _ =>
    ⟨{ toFun := fun φ => φ.comp e.symm.toIntLinearEquiv.toLinearMap
       map_add' := fun _ _ => rfl
       map_smul' := fun _ _ => rfl
       invFun := fun φ => φ.comp e.toIntLinearEquiv.toLinearMap
       left_inv := fun φ => by ext x; simp
       right_inv := fun φ => by ext x <;> simp }, trivial⟩
  obtain ⟨E, -⟩ := tr K
  obtain ⟨E', -⟩ := tr ℚ
  have f1 := (hom_grp K a).1
  have f2 := (hom_grp ℚ a).1
  have g1 : Module.Finite K (Hom.HGrp n m l f g →ₗ[ℤ] K) := Module.Finite.equiv E.symm
  have g2 : Module.Finite ℚ (Hom.HGrp n m l f g →ₗ[ℤ] ℚ) := Module.Finite.equiv E'.symm
  have c1 := core K hle
  have c2 := core ℚ hle
  rw [E.finrank_eq, (hom_grp K a).2] at c1
  rw [E'.finrank_eq, (hom_grp ℚ a).2] at c2
  have t0 : tor ℚ a = 0 := by
    rw [tor, List.sum_eq_zero_iff]
    intro x hx
    obtain ⟨dk, h1, rfl⟩ := List.mem_map.mp hx
    rw [if_neg]
    exact_mod_cast hd dk h1
  have : (kmat ℚ m l g).rank = Hom.rk m l g := rfl
  rw [this, t0] at c2
  omega

end Toppo.Univ
