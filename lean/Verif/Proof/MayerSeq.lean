import Verif.Proof.SimpGlue
import Mathlib.Algebra.Exact.Basic
set_option linter.unusedVariables false
/-!
# The Mayer-Vietoris sequence
-/
namespace Toppo.Simp
open Toppo

/-- a map defined on the values of a surjective map -/
theorem descend {R M N P : Type} [Ring R] [AddCommGroup M] [AddCommGroup N] [AddCommGroup P] [Module R M] [Module R N] [Module R P] (f : M →ₗ[R] N) (g : M →ₗ[R] P)
    (hf : Function.Surjective f) (h : ∀ x, f x = 0 → g x = 0) : ∃ d : N →ₗ[R] P, ∀ x, d (f x) = g x := by
  refine ⟨(Submodule.liftQ (LinearMap.ker f) g (fun x hx => LinearMap.mem_ker.mpr (h x (LinearMap.mem_ker.mp hx)))).comp (f.quotKerEquivOfSurjective hf).symm.toLinearMap, fun x => ?_⟩
  have : (f.quotKerEquivOfSurjective hf).symm (f x) = (LinearMap.ker f).mkQ x := by
    rw [LinearEquiv.symm_apply_eq]
    rfl
  rw [LinearMap.comp_apply, LinearEquiv.coe_coe, this]
  rfl

section
variable {T : Type} [DecidableEq T] {K K1 K2 K12 : Finset T → Prop} {r : T → ℤ}

theorem mem_cycles {K : Finset T → Prop} {i : Nat} {z : Finset T →₀ ℤ} : z ∈ Cycles K r i ↔ z ∈ Chains K i ∧ (i ≠ 0 → bdry r z = 0) := by
  unfold Cycles
  rw [Submodule.mem_inf]
  by_cases h : i = 0
  · simp [h]
  · simp [h]

/-- the class of a cycle -/
noncomputable def cls (K : Finset T → Prop) (r : T → ℤ) (i : Nat) : Cycles K r i →ₗ[ℤ] SimpHom K r i := ((Bounds K r i).submoduleOf (Cycles K r i)).mkQ

theorem cls_surj (i : Nat) : Function.Surjective (cls K r i) := Submodule.mkQ_surjective _

theorem cls_zero {i : Nat} (z : Cycles K r i) : cls K r i z = 0 ↔ z.1 ∈ Bounds K r i := Submodule.Quotient.mk_eq_zero _

/-- the Mayer-Vietoris sequence of a complex that is the union of two complexes, `K12` being their common part -/
theorem mayer_vietoris (hK : ∀ A, K A ↔ K1 A ∨ K2 A) (h12 : ∀ A, K12 A ↔ K1 A ∧ K2 A)
    (c1 : ∀ A B, K1 A → B ⊆ A → B.Nonempty → K1 B) (c2 : ∀ A B, K2 A → B ⊆ A → B.Nonempty → K2 B)
    (hr : ∀ A, K A → ∀ x ∈ A, ∀ y ∈ A, r x = r y → x = y) :
    ∃ (α : ∀ i, SimpHom K12 r i →ₗ[ℤ] SimpHom K1 r i × SimpHom K2 r i) (β : ∀ i, SimpHom K1 r i × SimpHom K2 r i →ₗ[ℤ] SimpHom K r i)
      (δ : ∀ i, SimpHom K r (i + 1) →ₗ[ℤ] SimpHom K12 r i),
      (∀ i, Function.Exact (α i) (β i)) ∧ (∀ i, Function.Exact (β (i + 1)) (δ i)) ∧ (∀ i, Function.Exact (δ i) (α i)) ∧ Function.Surjective (β 0) := by
  have hr1 : ∀ A, K1 A → ∀ x ∈ A, ∀ y ∈ A, r x = r y → x = y := fun A hA => hr A ((hK A).mpr (Or.inl hA))
  have hr2 : ∀ A, K2 A → ∀ x ∈ A, ∀ y ∈ A, r x = r y → x = y := fun A hA => hr A ((hK A).mpr (Or.inr hA))
  have m1 : ∀ j, Chains K1 j ≤ Chains K j := fun j => chains_mono (fun A hA => (hK A).mpr (Or.inl hA)) j
  have m2 : ∀ j, Chains K2 j ≤ Chains K j := fun j => chains_mono (fun A hA => (hK A).mpr (Or.inr hA)) j
  have n1 : ∀ j, Chains K12 j ≤ Chains K1 j := fun j => chains_mono (fun A hA => ((h12 A).mp hA).1) j
  have n2 : ∀ j, Chains K12 j ≤ Chains K2 j := fun j => chains_mono (fun A hA => ((h12 A).mp hA).2) j
  have y1 : ∀ j, Cycles K1 r j ≤ Cycles K r j := fun j => inf_le_inf_right _ (m1 j)
  have y2 : ∀ j, Cycles K2 r j ≤ Cycles K r j := fun j => inf_le_inf_right _ (m2 j)
  have x1 : ∀ j, Cycles K12 r j ≤ Cycles K1 r j := fun j => inf_le_inf_right _ (n1 j)
  have x2 : ∀ j, Cycles K12 r j ≤ Cycles K2 r j := fun j => inf_le_inf_right _ (n2 j)
  have bK : ∀ j z, z ∈ Bounds K r j ↔ ∃ u ∈ Chains K1 (j + 1), ∃ w ∈ Chains K2 (j + 1), bdry r u + bdry r w = z := by
    intro j z
    unfold Bounds
    rw [chains_sup hK, Submodule.map_sup, Submodule.mem_sup]
    constructor
    · rintro ⟨_, ⟨u, hu, rfl⟩, _, ⟨w, hw, rfl⟩, e⟩; exact ⟨u, hu, w, hw, e⟩
    · rintro ⟨u, hu, w, hw, e⟩; exact ⟨_, ⟨u, hu, rfl⟩, _, ⟨w, hw, rfl⟩, e⟩
  -- the three maps
  have hα : ∀ i, ∃ f : SimpHom K12 r i →ₗ[ℤ] SimpHom K1 r i × SimpHom K2 r i, ∀ z : Cycles K12 r i,
      f (cls K12 r i z) = (cls K1 r i (Submodule.inclusion (x1 i) z), -cls K2 r i (Submodule.inclusion (x2 i) z)) := by
    intro i
    refine descend (cls K12 r i) (LinearMap.prod ((cls K1 r i).comp (Submodule.inclusion (x1 i))) (-(cls K2 r i).comp (Submodule.inclusion (x2 i)))) (cls_surj i) (fun z hz => ?_)
    rw [cls_zero] at hz
    refine Prod.ext ?_ ?_
    · exact (cls_zero _).mpr (Submodule.map_mono (n1 _) hz)
    · exact neg_eq_zero.mpr ((cls_zero (Submodule.inclusion (x2 i) z)).mpr (Submodule.map_mono (f := bdry r) (n2 (i + 1)) hz))
  have hβ1 : ∀ i, ∃ f : SimpHom K1 r i →ₗ[ℤ] SimpHom K r i, ∀ z : Cycles K1 r i, f (cls K1 r i z) = cls K r i (Submodule.inclusion (y1 i) z) := by
    intro i
    refine descend (cls K1 r i) ((cls K r i).comp (Submodule.inclusion (y1 i))) (cls_surj i) (fun z hz => ?_)
    rw [cls_zero] at hz
    exact (cls_zero _).mpr (Submodule.map_mono (m1 _) hz)
  have hβ2 : ∀ i, ∃ f : SimpHom K2 r i →ₗ[ℤ] SimpHom K r i, ∀ z : Cycles K2 r i, f (cls K2 r i z) = cls K r i (Submodule.inclusion (y2 i) z) := by
    intro i
    refine descend (cls K2 r i) ((cls K r i).comp (Submodule.inclusion (y2 i))) (cls_surj i) (fun z hz => ?_)
    rw [cls_zero] at hz
    exact (cls_zero _).mpr (Submodule.map_mono (m2 _) hz)
  let D : ∀ i : Nat, Submodule ℤ ((Finset T →₀ ℤ) × (Finset T →₀ ℤ)) := fun i =>
    (Chains K1 (i + 1)).prod (Chains K2 (i + 1)) ⊓ LinearMap.ker (LinearMap.coprod (bdry r) (bdry r))
  have hD : ∀ i p, p ∈ D i ↔ (p.1 ∈ Chains K1 (i + 1) ∧ p.2 ∈ Chains K2 (i + 1)) ∧ bdry r p.1 + bdry r p.2 = 0 := by
    intro i p
    show p ∈ (Chains K1 (i + 1)).prod (Chains K2 (i + 1)) ⊓ _ ↔ _
    rw [Submodule.mem_inf, Submodule.mem_prod, LinearMap.mem_ker, LinearMap.coprod_apply]
  have hsum : ∀ i, ∀ p : D i, p.1.1 + p.1.2 ∈ Cycles K r (i + 1) := by
    intro i p
    obtain ⟨⟨a, b⟩, c⟩ := (hD i p.1).mp p.2
    exact mem_cycles.mpr ⟨Submodule.add_mem _ (m1 _ a) (m2 _ b), fun _ => by rw [map_add, c]⟩
  have hbd : ∀ i, ∀ p : D i, bdry r p.1.1 ∈ Cycles K12 r i := by
    intro i p
    obtain ⟨⟨a, b⟩, c⟩ := (hD i p.1).mp p.2
    have h1 : bdry r p.1.1 ∈ Chains K1 i := bdry_chains c1 i ⟨_, a, rfl⟩
    have h2 : bdry r p.1.2 ∈ Chains K2 i := bdry_chains c2 i ⟨_, b, rfl⟩
    exact mem_cycles.mpr ⟨chains_inf h12 i h1 (by rw [eq_neg_of_add_eq_zero_left c]; exact Submodule.neg_mem _ h2), fun _ => bdry_bdry hr1 a⟩
  let s : ∀ i, D i →ₗ[ℤ] Cycles K r (i + 1) := fun i =>
    LinearMap.codRestrict _ ((LinearMap.fst ℤ _ _ + LinearMap.snd ℤ _ _).comp (D i).subtype) (hsum i)
  let t : ∀ i, D i →ₗ[ℤ] Cycles K12 r i := fun i =>
    LinearMap.codRestrict _ ((bdry r).comp ((LinearMap.fst ℤ _ _).comp (D i).subtype)) (hbd i)
  have sv : ∀ i p, (s i p).1 = p.1.1 + p.1.2 := fun i p => rfl
  have tv : ∀ i p, (t i p).1 = bdry r p.1.1 := fun i p => rfl
  have hs : ∀ i, Function.Surjective (s i) := by
    rintro i ⟨z, hz⟩
    obtain ⟨hz1, hz2⟩ := mem_cycles.mp hz
    rw [chains_sup hK] at hz1
    obtain ⟨a, ha, b, hb, rfl⟩ := Submodule.mem_sup.mp hz1
    exact ⟨⟨(a, b), (hD i _).mpr ⟨⟨ha, hb⟩, by rw [← map_add]; exact hz2 (by omega)⟩⟩, rfl⟩
  have hδ : ∀ i, ∃ f : SimpHom K r (i + 1) →ₗ[ℤ] SimpHom K12 r i, ∀ p : D i, f (cls K r (i + 1) (s i p)) = cls K12 r i (t i p) := by
    intro i
    refine descend ((cls K r (i + 1)).comp (s i)) ((cls K12 r i).comp (t i)) ((cls_surj _).comp (hs i)) (fun p hp => ?_)
    rw [LinearMap.comp_apply, cls_zero, sv, bK] at hp
    rw [LinearMap.comp_apply, cls_zero, tv]
    obtain ⟨u, hu, w, hw, e⟩ := hp
    obtain ⟨⟨a, b⟩, c⟩ := (hD i p.1).mp p.2
    have e1 : p.1.1 - bdry r u = bdry r w - p.1.2 := by rw [sub_eq_sub_iff_add_eq_add, ← e]; abel
    have q1 : p.1.1 - bdry r u ∈ Chains K1 (i + 1) := Submodule.sub_mem _ a (bdry_chains c1 _ ⟨u, hu, rfl⟩)
    have q2 : p.1.1 - bdry r u ∈ Chains K2 (i + 1) := by rw [e1]; exact Submodule.sub_mem _ (bdry_chains c2 _ ⟨w, hw, rfl⟩) b
    exact ⟨_, chains_inf h12 _ q1 q2, by rw [map_sub, bdry_bdry hr1 hu, sub_zero]⟩
  choose α eα using hα
  choose β1 eβ1 using hβ1
  choose β2 eβ2 using hβ2
  choose δ eδ using hδ
  have eβ : ∀ i (a : Cycles K1 r i) (b : Cycles K2 r i), LinearMap.coprod (β1 i) (β2 i) (cls K1 r i a, cls K2 r i b) =
      cls K r i (Submodule.inclusion (y1 i) a + Submodule.inclusion (y2 i) b) := by
    intro i a b
    rw [LinearMap.coprod_apply, eβ1, eβ2, map_add]
  refine ⟨α, fun i => LinearMap.coprod (β1 i) (β2 i), δ, fun i => ?_, fun i => ?_, fun i => ?_, ?_⟩
  · rintro ⟨x, y⟩
    obtain ⟨⟨a, ha⟩, rfl⟩ := cls_surj i x
    obtain ⟨⟨b, hb⟩, rfl⟩ := cls_surj i y
    rw [eβ, cls_zero, bK]
    constructor
    · rintro ⟨u, hu, w, hw, e⟩
      have e : bdry r u + bdry r w = a + b := e
      obtain ⟨ha1, ha2⟩ := mem_cycles.mp ha
      obtain ⟨hb1, hb2⟩ := mem_cycles.mp hb
      have e1 : a - bdry r u = bdry r w - b := by rw [sub_eq_sub_iff_add_eq_add, ← e]; abel
      have q1 : a - bdry r u ∈ Chains K1 i := Submodule.sub_mem _ ha1 (bdry_chains c1 _ ⟨u, hu, rfl⟩)
      have q2 : a - bdry r u ∈ Chains K2 i := by rw [e1]; exact Submodule.sub_mem _ (bdry_chains c2 _ ⟨w, hw, rfl⟩) hb1
      have hz : a - bdry r u ∈ Cycles K12 r i := mem_cycles.mpr ⟨chains_inf h12 _ q1 q2, fun hi => by rw [map_sub, bdry_bdry hr1 hu, ha2 hi, sub_zero]⟩
      refine ⟨cls K12 r i ⟨_, hz⟩, ?_⟩
      rw [eα]
      refine Prod.ext ?_ ?_
      · show cls K1 r i _ = cls K1 r i _
        rw [← sub_eq_zero, ← map_sub, cls_zero]
        refine ⟨-u, Submodule.neg_mem _ hu, ?_⟩
        show bdry r (-u) = (a - bdry r u) - a
        rw [map_neg]; abel
      · show -cls K2 r i _ = cls K2 r i _
        rw [neg_eq_iff_add_eq_zero, ← map_add, cls_zero]
        refine ⟨w, hw, ?_⟩
        show bdry r w = (a - bdry r u) + b
        rw [e1]; abel
    · rintro ⟨x, e⟩
      obtain ⟨⟨z, hz⟩, rfl⟩ := cls_surj i x
      rw [eα] at e
      have h1 := (Prod.ext_iff.mp e).1
      have h2 := (Prod.ext_iff.mp e).2
      simp only at h1 h2
      rw [← sub_eq_zero, ← map_sub, cls_zero] at h1
      rw [neg_eq_iff_add_eq_zero, ← map_add, cls_zero] at h2
      obtain ⟨u, hu, eu⟩ := h1
      obtain ⟨w, hw, ew⟩ := h2
      have eu : bdry r u = z - a := eu
      have ew : bdry r w = z + b := ew
      refine ⟨-u, Submodule.neg_mem _ hu, w, hw, ?_⟩
      show bdry r (-u) + bdry r w = a + b
      rw [map_neg, eu, ew]; abel
  · intro x
    obtain ⟨z, rfl⟩ := cls_surj (i + 1) x
    obtain ⟨p, rfl⟩ := hs i z
    rw [eδ, cls_zero]
    obtain ⟨⟨a, b⟩, c⟩ := (hD i p.1).mp p.2
    constructor
    · rintro ⟨w, hw, e⟩
      have e : bdry r w = bdry r p.1.1 := e
      have q1 : p.1.1 - w ∈ Cycles K1 r (i + 1) := mem_cycles.mpr ⟨Submodule.sub_mem _ a (n1 _ hw), fun _ => by rw [map_sub, e, sub_self]⟩
      have q2 : p.1.2 + w ∈ Cycles K2 r (i + 1) := mem_cycles.mpr ⟨Submodule.add_mem _ b (n2 _ hw), fun _ => by rw [map_add, e, add_comm, c]⟩
      refine ⟨(cls K1 r (i + 1) ⟨_, q1⟩, cls K2 r (i + 1) ⟨_, q2⟩), ?_⟩
      rw [eβ]
      congr 1
      apply Subtype.ext
      show (p.1.1 - w) + (p.1.2 + w) = p.1.1 + p.1.2
      abel
    · rintro ⟨⟨x, y⟩, e⟩
      obtain ⟨⟨a', ha'⟩, rfl⟩ := cls_surj (i + 1) x
      obtain ⟨⟨b', hb'⟩, rfl⟩ := cls_surj (i + 1) y
      obtain ⟨ha1, ha2⟩ := mem_cycles.mp ha'
      obtain ⟨hb1, hb2⟩ := mem_cycles.mp hb'
      rw [eβ, ← sub_eq_zero, ← map_sub, cls_zero, bK] at e
      obtain ⟨u, hu, w, hw, e⟩ := e
      have e : bdry r u + bdry r w = (a' + b') - (p.1.1 + p.1.2) := e
      have e1 : p.1.1 - a' + bdry r u = b' - p.1.2 - bdry r w := by
        rw [eq_sub_iff_add_eq, add_assoc, e]; abel
      have q1 : p.1.1 - a' + bdry r u ∈ Chains K1 (i + 1) := Submodule.add_mem _ (Submodule.sub_mem _ a ha1) (bdry_chains c1 _ ⟨u, hu, rfl⟩)
      have q2 : p.1.1 - a' + bdry r u ∈ Chains K2 (i + 1) := by
        rw [e1]; exact Submodule.sub_mem _ (Submodule.sub_mem _ hb1 b) (bdry_chains c2 _ ⟨w, hw, rfl⟩)
      refine ⟨_, chains_inf h12 _ q1 q2, ?_⟩
      rw [map_add, map_sub, ha2 (by omega), bdry_bdry hr1 hu, sub_zero, add_zero]
      rfl
  · intro x
    obtain ⟨⟨z, hz⟩, rfl⟩ := cls_surj i x
    rw [eα]
    constructor
    · intro e
      have h1 := (Prod.ext_iff.mp e).1
      have h2 := neg_eq_zero.mp (Prod.ext_iff.mp e).2
      rw [cls_zero] at h2
      have h1 := (cls_zero _).mp h1
      obtain ⟨u, hu, eu⟩ := h1
      obtain ⟨w, hw, ew⟩ := h2
      have eu : bdry r u = z := eu
      have ew : bdry r w = z := ew
      refine ⟨cls K r (i + 1) (s i ⟨(u, -w), (hD i _).mpr ⟨⟨hu, Submodule.neg_mem _ hw⟩, by
        show bdry r u + bdry r (-w) = 0
        rw [map_neg, eu, ew, add_neg_cancel]⟩⟩), ?_⟩
      rw [eδ]
      congr 1
      apply Subtype.ext
      rw [tv]
      exact eu
    · rintro ⟨y, e⟩
      obtain ⟨q, rfl⟩ := cls_surj (i + 1) y
      obtain ⟨p, rfl⟩ := hs i q
      obtain ⟨⟨a, b⟩, c⟩ := (hD i p.1).mp p.2
      rw [eδ, ← sub_eq_zero, ← map_sub, cls_zero] at e
      obtain ⟨w, hw, ew⟩ := e
      have ew : bdry r w = bdry r p.1.1 - z := ew
      refine Prod.ext ?_ ?_
      · refine (cls_zero _).mpr ⟨p.1.1 - w, Submodule.sub_mem _ a (n1 _ hw), ?_⟩
        show bdry r (p.1.1 - w) = z
        rw [map_sub, ew]; abel
      · refine neg_eq_zero.mpr ((cls_zero _).mpr ⟨-p.1.2 - w, Submodule.sub_mem _ (Submodule.neg_mem _ b) (n2 _ hw), ?_⟩)
        show bdry r (-p.1.2 - w) = z
        rw [map_sub, map_neg, ew, ← eq_neg_of_add_eq_zero_left c]; abel
  · intro x
    obtain ⟨⟨z, hz⟩, rfl⟩ := cls_surj 0 x
    obtain ⟨hz1, -⟩ := mem_cycles.mp hz
    rw [chains_sup hK] at hz1
    obtain ⟨a, ha, b, hb, rfl⟩ := Submodule.mem_sup.mp hz1
    refine ⟨(cls K1 r 0 ⟨a, mem_cycles.mpr ⟨ha, by simp⟩⟩, cls K2 r 0 ⟨b, mem_cycles.mpr ⟨hb, by simp⟩⟩), ?_⟩
    rw [eβ]
    rfl
end

end Toppo.Simp
