import Verif.Proof.SimpWedge
import Verif.Proof.SimpRank
set_option linter.unusedVariables false
/-!
# Gluing two complexes along a common part without homology
-/
namespace Toppo.Simp
open Toppo

/-- quotients of a sum that is direct up to boundaries -/
theorem quot_glue {V : Type} [AddCommGroup V] {Z1 Z2 B1 B2 Z B : Submodule ℤ V} (hZ1 : Z1 ≤ Z) (hZ2 : Z2 ≤ Z) (hB1 : B1 ≤ B) (hB2 : B2 ≤ B)
    (hs : ∀ z ∈ Z, ∃ a ∈ Z1, ∃ b ∈ Z2, z = a + b) (hi : ∀ a ∈ Z1, ∀ b ∈ Z2, a + b ∈ B → a ∈ B1 ∧ b ∈ B2) :
    Nonempty ((Z ⧸ B.submoduleOf Z) ≃+ (Z1 ⧸ B1.submoduleOf Z1) × (Z2 ⧸ B2.submoduleOf Z2)) := by
  let s : Z1 × Z2 →ₗ[ℤ] Z := LinearMap.coprod (Submodule.inclusion hZ1) (Submodule.inclusion hZ2)
  let f := (B.submoduleOf Z).mkQ.comp s
  let g := LinearMap.prodMap (B1.submoduleOf Z1).mkQ (B2.submoduleOf Z2).mkQ
  have hf : Function.Surjective f := by
    refine (Submodule.mkQ_surjective _).comp ?_
    rintro ⟨z, hz⟩
    obtain ⟨a, ha, b, hb, rfl⟩ := hs z hz
    exact ⟨(⟨a, ha⟩, ⟨b, hb⟩), rfl⟩
  have hg : Function.Surjective g := (Submodule.mkQ_surjective _).prodMap (Submodule.mkQ_surjective _)
  have hk : LinearMap.ker f = LinearMap.ker g := by
    ext p
    rw [LinearMap.mem_ker, LinearMap.mem_ker]
    have e1 : f p = 0 ↔ p.1.1 + p.2.1 ∈ B := Submodule.Quotient.mk_eq_zero (B.submoduleOf Z)
    have e2 : g p = 0 ↔ p.1.1 ∈ B1 ∧ p.2.1 ∈ B2 :=
      Prod.ext_iff.trans (and_congr (Submodule.Quotient.mk_eq_zero (B1.submoduleOf Z1)) (Submodule.Quotient.mk_eq_zero (B2.submoduleOf Z2)))
    rw [e1, e2]
    exact ⟨hi _ p.1.2 _ p.2.2, fun h => B.add_mem (hB1 h.1) (hB2 h.2)⟩
  exact ⟨((f.quotKerEquivOfSurjective hf).symm.trans ((Submodule.quotEquivOfEq _ _ hk).trans (g.quotKerEquivOfSurjective hg))).toAddEquiv⟩

variable {T : Type} [DecidableEq T] {K K1 K2 K12 : Finset T → Prop} {r : T → ℤ}

/-- chains of both parts are chains of the common part -/
theorem chains_inf (h12 : ∀ A, K12 A ↔ K1 A ∧ K2 A) (i : Nat) {z : Finset T →₀ ℤ} (h1 : z ∈ Chains K1 i) (h2 : z ∈ Chains K2 i) : z ∈ Chains K12 i := by
  refine (Finsupp.mem_supported' _ _).mpr (fun A hA => ?_)
  by_cases a1 : K1 A ∧ A.card = i + 1
  · by_cases a2 : K2 A ∧ A.card = i + 1
    · exact absurd ⟨(h12 A).mpr ⟨a1.1, a2.1⟩, a1.2⟩ hA
    · exact (Finsupp.mem_supported' _ _).mp h2 A a2
  · exact (Finsupp.mem_supported' _ _).mp h1 A a1

theorem chains_mono {K K' : Finset T → Prop} (h : ∀ A, K A → K' A) (i : Nat) : Chains K i ≤ Chains K' i :=
  Finsupp.supported_mono (fun A hA => ⟨h A hA.1, hA.2⟩)

/-- the reduced homology of a union whose common part has none in dimensions `i` and `i - 1` -/
theorem glue_sum {v : T} (hK : ∀ A, K A ↔ K1 A ∨ K2 A) (h12 : ∀ A, K12 A ↔ K1 A ∧ K2 A) (hv : K12 {v})
    (c1 : ∀ A B, K1 A → B ⊆ A → B.Nonempty → K1 B) (c2 : ∀ A B, K2 A → B ⊆ A → B.Nonempty → K2 B)
    (hr : ∀ A, K A → ∀ x ∈ A, ∀ y ∈ A, r x = r y → x = y) (i : Nat) (ha : ∀ j, j ≤ i → RedCycles K12 r j ≤ Bounds K12 r j) :
    Nonempty (RedHom K r i ≃+ RedHom K1 r i × RedHom K2 r i) := by
  have hr1 : ∀ A, K1 A → ∀ x ∈ A, ∀ y ∈ A, r x = r y → x = y := fun A hA => hr A ((hK A).mpr (Or.inl hA))
  have hr2 : ∀ A, K2 A → ∀ x ∈ A, ∀ y ∈ A, r x = r y → x = y := fun A hA => hr A ((hK A).mpr (Or.inr hA))
  have m1 : ∀ j, Chains K1 j ≤ Chains K j := fun j => chains_mono (fun A hA => (hK A).mpr (Or.inl hA)) j
  have m2 : ∀ j, Chains K2 j ≤ Chains K j := fun j => chains_mono (fun A hA => (hK A).mpr (Or.inr hA)) j
  have n1 : ∀ j, Chains K12 j ≤ Chains K1 j := fun j => chains_mono (fun A hA => ((h12 A).mp hA).1) j
  have n2 : ∀ j, Chains K12 j ≤ Chains K2 j := fun j => chains_mono (fun A hA => ((h12 A).mp hA).2) j
  refine quot_glue (inf_le_inf_right _ (m1 i)) (inf_le_inf_right _ (m2 i)) (Submodule.map_mono (m1 _)) (Submodule.map_mono (m2 _)) ?_ ?_
  · rintro z ⟨hz, hz'⟩
    rw [SetLike.mem_coe, chains_sup hK] at hz
    obtain ⟨a, ha', b, hb, rfl⟩ := Submodule.mem_sup.mp hz
    have e : bdry r a = -bdry r b := by
      have := LinearMap.mem_ker.mp hz'
      rw [map_add] at this
      exact eq_neg_of_add_eq_zero_left this
    obtain ⟨w, hw, ew⟩ : ∃ w ∈ Chains K12 i, bdry r w = bdry r a := by
      rcases i with _ | i
      · obtain ⟨c, hc⟩ := bdry_zero (r := r) ha'
        exact ⟨c • Finsupp.single {v} (1 : ℤ), Submodule.smul_mem _ _ (single_mem hv (by simp) 1), by rw [map_smul, bdry_vertex, hc]⟩
      · have h1 : bdry r a ∈ Chains K1 i := bdry_chains c1 i ⟨a, ha', rfl⟩
        have h2 : bdry r b ∈ Chains K2 i := bdry_chains c2 i ⟨b, hb, rfl⟩
        have h3 : bdry r a ∈ Chains K12 i := chains_inf h12 i h1 (by rw [e]; exact Submodule.neg_mem _ h2)
        exact ha i (by omega) ⟨h3, LinearMap.mem_ker.mpr (bdry_bdry hr1 ha')⟩
    refine ⟨a - w, ⟨Submodule.sub_mem _ ha' (n1 _ hw), LinearMap.mem_ker.mpr (by rw [map_sub, ew, sub_self])⟩,
      b + w, ⟨Submodule.add_mem _ hb (n2 _ hw), LinearMap.mem_ker.mpr (by rw [map_add, ew, e, add_neg_cancel])⟩, by abel⟩
  · rintro a ⟨a1, a2⟩ b ⟨b1, b2⟩ hab
    unfold Bounds at hab
    rw [chains_sup hK, Submodule.map_sup] at hab
    obtain ⟨_, ⟨u, hu, rfl⟩, _, ⟨w, hw, rfl⟩, e⟩ := Submodule.mem_sup.mp hab
    have e1 : a - bdry r u = -(b - bdry r w) := by
      rw [neg_sub, sub_eq_sub_iff_add_eq_add, ← e]; abel
    have p1 : a - bdry r u ∈ Chains K1 i := Submodule.sub_mem _ a1 (bdry_chains c1 i ⟨u, hu, rfl⟩)
    have p2 : a - bdry r u ∈ Chains K2 i := by
      rw [e1]
      exact Submodule.neg_mem _ (Submodule.sub_mem _ b1 (bdry_chains c2 i ⟨w, hw, rfl⟩))
    obtain ⟨t, ht, et⟩ := ha i le_rfl ⟨chains_inf h12 i p1 p2, LinearMap.mem_ker.mpr (by
      rw [map_sub, LinearMap.mem_ker.mp a2, bdry_bdry hr1 hu, sub_zero])⟩
    refine ⟨⟨u + t, Submodule.add_mem _ hu (n1 _ ht), ?_⟩, ⟨w - t, Submodule.sub_mem _ hw (n2 _ ht), ?_⟩⟩
    · rw [map_add, et]; abel
    · rw [map_sub, et, e1]; abel

/-! ### ranks, when the common part is arbitrary -/
section
open Module
variable {V : Type} [AddCommGroup V]

theorem finrank_sup_inf (s t : Submodule ℤ V) [Module.Finite ℤ s] [Module.Finite ℤ t] [Module.Finite ℤ (s ⊓ t : Submodule ℤ V)] :
    finrank ℤ (s ⊔ t : Submodule ℤ V) + finrank ℤ (s ⊓ t : Submodule ℤ V) = finrank ℤ s + finrank ℤ t := by
  have h : Module.Finite ℤ (s ⊔ t : Submodule ℤ V) := Submodule.finite_sup _ _
  have key := Submodule.rank_sup_add_rank_inf_eq s t
  rw [← finrank_eq_rank, ← finrank_eq_rank, ← finrank_eq_rank, ← finrank_eq_rank] at key
  exact_mod_cast key

theorem finite_le {s t : Submodule ℤ V} [Module.Finite ℤ t] (h : s ≤ t) : Module.Finite ℤ s :=
  Module.Finite.of_injective (Submodule.inclusion h) (Submodule.inclusion_injective _)

theorem finrank_le {s t : Submodule ℤ V} [Module.Finite ℤ t] (h : s ≤ t) : finrank ℤ s ≤ finrank ℤ t :=
  LinearMap.finrank_le_finrank_of_injective (Submodule.inclusion_injective h)

/-- the part of `s` outside `b` is at most the part of `z` outside `b` -/
theorem finrank_part {s z b : Submodule ℤ V} [Module.Finite ℤ z] (hs : s ≤ z) (hb : b ≤ z) :
    finrank ℤ s ≤ finrank ℤ (z ⧸ b.submoduleOf z) + finrank ℤ (s ⊓ b : Submodule ℤ V) := by
  have i1 : Module.Finite ℤ s := finite_le hs
  have i2 : Module.Finite ℤ b := finite_le hb
  have i3 : Module.Finite ℤ (s ⊓ b : Submodule ℤ V) := finite_le (inf_le_left.trans hs)
  have e1 := finrank_sup_inf s b
  have e2 := finrank_quot hb
  have e3 : finrank ℤ (s ⊔ b : Submodule ℤ V) ≤ finrank ℤ z := finrank_le (sup_le hs hb)
  omega

/-- the rank of the cycles of the common part that bound in both parts, up to those that bound in the common part -/
noncomputable def defect (K1 K2 K12 : Finset T → Prop) (r : T → ℤ) (i : Nat) : Nat :=
  finrank ℤ ((Bounds K1 r i ⊓ Bounds K2 r i : Submodule ℤ (Finset T →₀ ℤ)) ⧸ (Bounds K12 r i).submoduleOf (Bounds K1 r i ⊓ Bounds K2 r i))

theorem glue_rank (hfin : {A | K A}.Finite) (hK : ∀ A, K A ↔ K1 A ∨ K2 A) (h12 : ∀ A, K12 A ↔ K1 A ∧ K2 A)
    (c1 : ∀ A B, K1 A → B ⊆ A → B.Nonempty → K1 B) (c2 : ∀ A B, K2 A → B ⊆ A → B.Nonempty → K2 B)
    (hr : ∀ A, K A → ∀ x ∈ A, ∀ y ∈ A, r x = r y → x = y) (i : Nat) :
    finrank ℤ (SimpHom K r i) + finrank ℤ (SimpHom K12 r i) = finrank ℤ (SimpHom K1 r i) + finrank ℤ (SimpHom K2 r i) + defect K1 K2 K12 r i +
      (if i = 0 then 0 else defect K1 K2 K12 r (i - 1)) ∧
    defect K1 K2 K12 r i ≤ finrank ℤ (SimpHom K12 r i) ∧
    finrank ℤ (SimpHom K12 r i) ≤ finrank ℤ (SimpHom K1 r i) + finrank ℤ (SimpHom K2 r i) + defect K1 K2 K12 r i := by
  have s1 : ∀ A, K1 A → K A := fun A hA => (hK A).mpr (Or.inl hA)
  have s2 : ∀ A, K2 A → K A := fun A hA => (hK A).mpr (Or.inr hA)
  have t1 : ∀ A, K12 A → K1 A := fun A hA => ((h12 A).mp hA).1
  have t2 : ∀ A, K12 A → K2 A := fun A hA => ((h12 A).mp hA).2
  have c : ∀ A B, K A → B ⊆ A → B.Nonempty → K B := fun A B hA hB hn => (hK B).mpr (((hK A).mp hA).imp (fun h => c1 A B h hB hn) (fun h => c2 A B h hB hn))
  have c12 : ∀ A B, K12 A → B ⊆ A → B.Nonempty → K12 B := fun A B hA hB hn => (h12 B).mpr ⟨c1 A B (t1 A hA) hB hn, c2 A B (t2 A hA) hB hn⟩
  have f1 : {A | K1 A}.Finite := hfin.subset (fun A hA => s1 A hA)
  have f2 : {A | K2 A}.Finite := hfin.subset (fun A hA => s2 A hA)
  have f12 : {A | K12 A}.Finite := f1.subset (fun A hA => t1 A hA)
  have r1 : ∀ A, K1 A → ∀ x ∈ A, ∀ y ∈ A, r x = r y → x = y := fun A hA => hr A (s1 A hA)
  have r2 : ∀ A, K2 A → ∀ x ∈ A, ∀ y ∈ A, r x = r y → x = y := fun A hA => hr A (s2 A hA)
  have r12 : ∀ A, K12 A → ∀ x ∈ A, ∀ y ∈ A, r x = r y → x = y := fun A hA => r1 A (t1 A hA)
  have fz : ∀ {L : Finset T → Prop}, {A | L A}.Finite → ∀ j, Module.Finite ℤ (Cycles L r j) := fun hL j => by
    have := chains_finite hL j
    exact finite_le inf_le_left
  have fb : ∀ {L : Finset T → Prop}, {A | L A}.Finite → ∀ j, Module.Finite ℤ (Bounds L r j) := fun hL j => by
    have := chains_finite hL (j + 1)
    exact Module.Finite.map _ _
  -- boundaries
  have hb : ∀ j, brank K r j + brank K12 r j + defect K1 K2 K12 r j = brank K1 r j + brank K2 r j := by
    intro j
    have i1 := fb f1 j
    have i2 := fb f2 j
    have i3 : Module.Finite ℤ (Bounds K1 r j ⊓ Bounds K2 r j : Submodule ℤ (Finset T →₀ ℤ)) := finite_le inf_le_left
    have e1 := finrank_sup_inf (Bounds K1 r j) (Bounds K2 r j)
    have e2 := finrank_quot (Z := Bounds K1 r j ⊓ Bounds K2 r j) (B := Bounds K12 r j)
      (le_inf (Submodule.map_mono (chains_mono t1 _)) (Submodule.map_mono (chains_mono t2 _)))
    have e3 : Bounds K r j = Bounds K1 r j ⊔ Bounds K2 r j := by
      unfold Bounds
      rw [chains_sup hK, Submodule.map_sup]
    have e4 : brank K r j = finrank ℤ (Bounds K1 r j ⊔ Bounds K2 r j : Submodule ℤ (Finset T →₀ ℤ)) := by unfold brank; rw [e3]
    unfold defect brank at *
    omega
  -- simplices
  have hn : ∀ j, Nat.card {A | K A ∧ A.card = j + 1} + Nat.card {A | K12 A ∧ A.card = j + 1} = Nat.card {A | K1 A ∧ A.card = j + 1} + Nat.card {A | K2 A ∧ A.card = j + 1} := by
    intro j
    rw [← chains_rank hfin j, ← chains_rank f12 j, ← chains_rank f1 j, ← chains_rank f2 j]
    have i1 := chains_finite f1 j
    have i2 := chains_finite f2 j
    have i3 : Module.Finite ℤ (Chains K1 j ⊓ Chains K2 j : Submodule ℤ (Finset T →₀ ℤ)) := finite_le inf_le_left
    have e1 := finrank_sup_inf (Chains K1 j) (Chains K2 j)
    have e2 : Chains K1 j ⊓ Chains K2 j = Chains K12 j :=
      le_antisymm (fun z hz => chains_inf h12 j hz.1 hz.2) (le_inf (chains_mono t1 j) (chains_mono t2 j))
    rw [e2] at e1
    rw [show finrank ℤ (Chains K j) = finrank ℤ (Chains K1 j ⊔ Chains K2 j : Submodule ℤ (Finset T →₀ ℤ)) by rw [chains_sup hK]]
    exact e1
  have hcyc : Bounds K1 r i ⊓ Bounds K2 r i ≤ Cycles K12 r i := by
    rintro z ⟨z1, z2⟩
    have w1 := bounds_cycles c1 r1 i z1
    have w2 := bounds_cycles c2 r2 i z2
    exact ⟨chains_inf h12 i w1.1 w2.1, w1.2⟩
  have i12 := fz f12 i
  have z1 := fz f1 i
  have z2 := fz f2 i
  have q12 : finrank ℤ (SimpHom K12 r i) + brank K12 r i = finrank ℤ (Cycles K12 r i) := finrank_quot (bounds_cycles c12 r12 i)
  have qd : defect K1 K2 K12 r i + brank K12 r i = finrank ℤ (Bounds K1 r i ⊓ Bounds K2 r i : Submodule ℤ (Finset T →₀ ℤ)) := by
    have i3 : Module.Finite ℤ (Bounds K1 r i ⊓ Bounds K2 r i : Submodule ℤ (Finset T →₀ ℤ)) := finite_le hcyc
    exact finrank_quot (Z := Bounds K1 r i ⊓ Bounds K2 r i) (B := Bounds K12 r i)
      (le_inf (Submodule.map_mono (chains_mono t1 _)) (Submodule.map_mono (chains_mono t2 _)))
  refine ⟨?_, ?_, ?_⟩
  · have h := hom_rank hfin c hr i
    have h1 := hom_rank f1 c1 r1 i
    have h2 := hom_rank f2 c2 r2 i
    have h3 := hom_rank f12 c12 r12 i
    have a := hb i
    have a' := hb (i - 1)
    have n := hn i
    split_ifs at * <;> omega
  · have := finrank_le hcyc
    omega
  · have m1 : Cycles K12 r i ≤ Cycles K1 r i := inf_le_inf_right _ (chains_mono t1 i)
    have m2 : Cycles K12 r i ≤ Cycles K2 r i := inf_le_inf_right _ (chains_mono t2 i)
    have p1 : finrank ℤ (Cycles K12 r i) ≤ finrank ℤ (SimpHom K1 r i) + finrank ℤ (Cycles K12 r i ⊓ Bounds K1 r i : Submodule ℤ (Finset T →₀ ℤ)) :=
      finrank_part m1 (bounds_cycles c1 r1 i)
    have p2 : finrank ℤ (Cycles K12 r i ⊓ Bounds K1 r i : Submodule ℤ (Finset T →₀ ℤ)) ≤ finrank ℤ (SimpHom K2 r i) +
        finrank ℤ (Cycles K12 r i ⊓ Bounds K1 r i ⊓ Bounds K2 r i : Submodule ℤ (Finset T →₀ ℤ)) :=
      finrank_part (inf_le_left.trans m2) (bounds_cycles c2 r2 i)
    rw [inf_assoc, inf_eq_right.mpr hcyc] at p2
    omega
end

end Toppo.Simp
