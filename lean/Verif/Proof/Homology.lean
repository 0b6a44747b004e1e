import Verif.Props.Module
import Mathlib.LinearAlgebra.Dimension.Localization
import Mathlib.LinearAlgebra.FreeModule.PID
import Mathlib.LinearAlgebra.FreeModule.Finite.Basic
import Mathlib.LinearAlgebra.Dimension.Free
import Mathlib.LinearAlgebra.FreeModule.StrongRankCondition
import Mathlib.Algebra.EuclideanDomain.Int
set_option linter.unusedVariables false

/-
Helper lemmas for C44: the quotient "cycles modulo boundaries" read off a Smith normal form.
-/
namespace Toppo.Hom
open Toppo Toppo.ModProps Module

/-- vectors whose coordinates (in the coordinates `φ`) vanish outside a set `p` of indices -/
def coordSub {m : Nat} {V : Type} [AddCommGroup V] [Module ℤ V] (φ : V →ₗ[ℤ] (Fin m → ℤ)) (p : Fin m → Prop) : Submodule ℤ V where
  carrier := {x | ∀ i, ¬ p i → φ x i = 0}
  add_mem' := by intro a b ha hb i hi; simp [ha i hi, hb i hi]
  zero_mem' := by intro i _; simp
  smul_mem' := by intro c x hx i hi; simp [hx i hi]

theorem mem_coordSub {m : Nat} {V : Type} [AddCommGroup V] [Module ℤ V] {φ : V →ₗ[ℤ] (Fin m → ℤ)} {p : Fin m → Prop} {x : V} :
    x ∈ coordSub φ p ↔ ∀ i, ¬ p i → φ x i = 0 := Iff.rfl

/-- such a submodule is free on the indices in `p` -/
noncomputable def coordEquiv {m k : Nat} (φ : (Fin m → ℤ) ≃ₗ[ℤ] (Fin m → ℤ)) (p : Fin m → Prop) (e : Fin k → Fin m) (he : Function.Injective e)
    (hp : ∀ i, p i ↔ ∃ j, e j = i) : coordSub φ.toLinearMap p ≃ₗ[ℤ] (Fin k → ℤ) := by
  refine LinearEquiv.ofBijective
    { toFun := fun x j => φ x.1 (e j), map_add' := fun x y => by funext j; simp, map_smul' := fun c x => by funext j; rw [Submodule.coe_smul, map_smul]; rfl } ⟨?_, ?_⟩
  · intro x y h
    apply Subtype.ext
    apply φ.injective
    funext i
    by_cases hi : p i
    · obtain ⟨j, rfl⟩ := (hp i).mp hi
      exact congrFun h j
    · have h1 : φ x.1 i = 0 := x.2 i hi
      have h2 : φ y.1 i = 0 := y.2 i hi
      rw [h1, h2]
  · intro z
    classical
    refine ⟨⟨φ.symm (fun i => if h : ∃ j, e j = i then z h.choose else 0), ?_⟩, ?_⟩
    · intro i hi
      have : ¬ ∃ j, e j = i := fun h => hi ((hp i).mpr h)
      simp [this]
    · funext j
      have h : ∃ j', e j' = e j := ⟨j, rfl⟩
      simp only [LinearMap.coe_mk, AddHom.coe_mk, LinearEquiv.apply_symm_apply]
      rw [dif_pos h, he h.choose_spec]

theorem finrank_coordSub_lt {m R : Nat} (hR : R ≤ m) (φ : (Fin m → ℤ) ≃ₗ[ℤ] (Fin m → ℤ)) :
    finrank ℤ (coordSub φ.toLinearMap (fun i => i.1 < R)) = R := by
  rw [(coordEquiv φ (fun i => i.1 < R) (Fin.castLE hR) (Fin.castLE_injective hR)
    (fun i => ⟨fun h => ⟨⟨i, h⟩, rfl⟩, by rintro ⟨j, rfl⟩; exact j.2⟩)).finrank_eq]
  simp

theorem finrank_coordSub_ge {m R : Nat} (hR : R ≤ m) (φ : (Fin m → ℤ) ≃ₗ[ℤ] (Fin m → ℤ)) :
    finrank ℤ (coordSub φ.toLinearMap (fun i => R ≤ i.1)) = m - R := by
  rw [(coordEquiv (k := m - R) φ (fun i => R ≤ i.1) (fun j => ⟨R + j.1, by omega⟩) (fun a b h => by
      simp only [Fin.mk.injEq] at h; exact Fin.ext (by omega))
    (fun i => ⟨fun h => ⟨⟨i.1 - R, by omega⟩, Fin.ext (by simp; omega)⟩, by rintro ⟨j, rfl⟩; simp⟩)).finrank_eq]
  simp

/-- The algebra behind C44: `K` is a saturated subgroup of `ℤ^m` of rank `rk`, containing the subgroup `I` which in some coordinates
`φ` is `s_0 ℤ ⊕ … ⊕ s_{R-1} ℤ ⊕ 0`. -/
theorem quotient_structure {m R rk : Nat} (K I : Submodule ℤ (Fin m → ℤ)) (φ : (Fin m → ℤ) ≃ₗ[ℤ] (Fin m → ℤ)) (s : Nat → ℤ)
    (hs : ∀ i, i < R → s i ≠ 0) (hRm : R ≤ m)
    (hI : ∀ x, x ∈ I ↔ ∀ i : Fin m, (i.1 < R → s i ∣ φ x i) ∧ (R ≤ i.1 → φ x i = 0))
    (hIK : I ≤ K) (hsat : ∀ (c : ℤ) x, c ≠ 0 → c • x ∈ K → x ∈ K) (hK : finrank ℤ K = rk) :
    R ≤ rk ∧ Nonempty ((K ⧸ I.submoduleOf K) ≃+ (Fin (rk - R) → ℤ) × Cyc ((List.range R).map fun i => (s i).natAbs)) := by
  classical
  -- the vectors supported on the first `R` coordinates are cycles
  have hW : coordSub φ.toLinearMap (fun i => i.1 < R) ≤ K := by
    intro x hx
    have hc : (∏ i ∈ Finset.range R, s i) ≠ 0 := Finset.prod_ne_zero_iff.mpr (fun i hi => hs i (Finset.mem_range.mp hi))
    refine hsat _ x hc (hIK ((hI _).mpr (fun i => ⟨fun hi => ?_, fun hi => ?_⟩)))
    · rw [map_smul, Pi.smul_apply, smul_eq_mul]
      exact (Finset.dvd_prod_of_mem s (Finset.mem_range.mpr hi)).mul_right _
    · rw [map_smul, Pi.smul_apply, smul_eq_mul]
      have : φ x i = 0 := hx i (by omega)
      rw [this, mul_zero]
  -- projection to the other coordinates
  let π : K →ₗ[ℤ] (Fin m → ℤ) :=
    { toFun := fun k i => if R ≤ i.1 then φ k.1 i else 0
      map_add' := fun x y => by funext i; by_cases h : R ≤ i.1 <;> simp [h]
      map_smul' := fun c x => by
        funext i
        rw [Submodule.coe_smul, map_smul]
        by_cases h : R ≤ i.1 <;> simp [h] }
  have hπ : ∀ k i, π k i = if R ≤ i.1 then φ k.1 i else 0 := fun _ _ => rfl
  let N := LinearMap.range π
  have hker : finrank ℤ (LinearMap.ker π) = R := by
    rw [← finrank_coordSub_lt hRm φ]
    refine LinearEquiv.finrank_eq (LinearEquiv.ofBijective
      { toFun := fun x => ⟨x.1.1, fun i hi => by
          have := congrFun x.2 i
          rw [hπ, if_pos (by omega)] at this
          exact this⟩
        map_add' := fun x y => rfl
        map_smul' := fun c x => rfl } ⟨?_, ?_⟩)
    · intro x y h
      apply Subtype.ext; apply Subtype.ext
      exact congrArg (fun z => z.1) h
    · intro y
      refine ⟨⟨⟨y.1, hW y.2⟩, ?_⟩, rfl⟩
      rw [LinearMap.mem_ker]
      funext i
      rw [hπ]
      split
      · exact y.2 i (by omega)
      · rfl
  have hrn : finrank ℤ N + R = rk := by
    rw [← hK, ← hker, ← (LinearMap.ker π).finrank_quotient_add_finrank, π.quotKerEquivRange.finrank_eq]
  refine ⟨by omega, ?_⟩
  have eN : N ≃ₗ[ℤ] (Fin (rk - R) → ℤ) := (Module.finBasisOfFinrankEq ℤ N (by omega)).equivFun
  have hlen : ((List.range R).map fun i => (s i).natAbs).length = R := by simp
  have hget : ∀ i : Fin ((List.range R).map fun i => (s i).natAbs).length, ((List.range R).map fun i => (s i).natAbs).get i = (s i.1).natAbs := by
    intro i; simp
  -- the map to the cyclic groups and the rest
  let f : K →+ Cyc ((List.range R).map fun i => (s i).natAbs) × N :=
    { toFun := fun k => (fun i => ((φ k.1 ⟨i.1, by have := i.2; omega⟩ : ℤ) : ZMod _), ⟨π k, ⟨k, rfl⟩⟩)
      map_zero' := by
        refine Prod.ext ?_ ?_
        · funext i; simp
        · apply Subtype.ext; simp
      map_add' := fun x y => by
        refine Prod.ext ?_ ?_
        · funext i; simp
        · apply Subtype.ext; simp }
  have hf1 : ∀ k i, (f k).1 i = ((φ k.1 ⟨i.1, by have := i.2; omega⟩ : ℤ) : ZMod _) := fun _ _ => rfl
  have hf2 : ∀ k, ((f k).2).1 = π k := fun _ => rfl
  have hkerf : f.ker = (I.submoduleOf K).toAddSubgroup := by
    ext k
    rw [AddMonoidHom.mem_ker]
    show _ ↔ k.1 ∈ I
    rw [hI]
    constructor
    · intro h i
      constructor
      · intro hi
        have h1 := congrFun (congrArg Prod.fst h) ⟨i.1, by omega⟩
        rw [hf1] at h1
        have h2 := (ZMod.intCast_zmod_eq_zero_iff_dvd _ _).mp h1
        rw [hget] at h2
        exact Int.natAbs_dvd.mp h2
      · intro hi
        have h1 := congrFun (congrArg (fun z => z.2.1) h) i
        rw [hf2, hπ, if_pos hi] at h1
        exact h1
    · intro h
      refine Prod.ext ?_ ?_
      · funext i
        rw [hf1]
        refine (ZMod.intCast_zmod_eq_zero_iff_dvd _ _).mpr ?_
        rw [hget]
        exact Int.natAbs_dvd.mpr ((h ⟨i.1, by have := i.2; omega⟩).1 (by have := i.2; simp only; omega))
      · apply Subtype.ext
        rw [hf2]
        funext i
        rw [hπ]
        split
        · rename_i hi; exact (h i).2 hi
        · rfl
  have hsurj : Function.Surjective f := by
    rintro ⟨c, ⟨z, ⟨k, rfl⟩⟩⟩
    choose lift hlift using fun i => ZMod.intCast_surjective (c i)
    let w : Fin m → ℤ := fun i => if h : i.1 < R then lift ⟨i.1, by omega⟩ - φ k.1 i else 0
    have hw : φ.symm w ∈ K := hW (fun i hi => by simp [w, hi])
    refine ⟨⟨k.1 + φ.symm w, K.add_mem k.2 hw⟩, ?_⟩
    refine Prod.ext ?_ ?_
    · funext i
      have hi : i.1 < R := by have := i.2; omega
      rw [hf1]
      refine Eq.trans ?_ (hlift i)
      congr 1
      simp [w, hi]
    · apply Subtype.ext
      rw [hf2]
      funext i
      show _ = π k i
      rw [hπ, hπ]
      split
      · rename_i hi
        have : ¬ i.1 < R := by omega
        simp [w, this]
      · rfl
  have e1 : (K ⧸ I.submoduleOf K) ≃+ Cyc ((List.range R).map fun i => (s i).natAbs) × N :=
    (QuotientAddGroup.quotientAddEquivOfEq hkerf.symm).trans (QuotientAddGroup.quotientKerEquivOfSurjective f hsurj)
  exact ⟨e1.trans (AddEquiv.prodComm.trans (eN.toAddEquiv.prodCongr (AddEquiv.refl _)))⟩

end Toppo.Hom
