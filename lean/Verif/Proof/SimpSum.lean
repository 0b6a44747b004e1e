import Verif.Proof.SimpCalc
import Mathlib.LinearAlgebra.Prod
set_option linter.unusedVariables false
/-!
# Homology of a disjoint union of abstract complexes
-/
namespace Toppo.Simp
open Toppo

/-- quotients of an internal direct sum -/
theorem quot_sum {V : Type} [AddCommGroup V] {Z1 Z2 B1 B2 C1 C2 : Submodule ℤ V} (hZ1 : Z1 ≤ C1) (hZ2 : Z2 ≤ C2) (hB1 : B1 ≤ C1) (hB2 : B2 ≤ C2)
    (hC : C1 ⊓ C2 = ⊥) {Z B : Submodule ℤ V} (hZ : Z = Z1 ⊔ Z2) (hB : B = B1 ⊔ B2) :
    Nonempty ((Z ⧸ B.submoduleOf Z) ≃+ (Z1 ⧸ B1.submoduleOf Z1) × (Z2 ⧸ B2.submoduleOf Z2)) := by
  subst hZ hB
  have huniq : ∀ a ∈ C1, ∀ b ∈ C2, ∀ a' ∈ C1, ∀ b' ∈ C2, a + b = a' + b' → a = a' ∧ b = b' := by
    intro a ha b hb a' ha' b' hb' e
    have e1 : a - a' = b' - b := by rw [sub_eq_sub_iff_add_eq_add, e, add_comm]
    have : a - a' ∈ C1 ⊓ C2 := ⟨C1.sub_mem ha ha', by rw [e1]; exact C2.sub_mem hb' hb⟩
    rw [hC, Submodule.mem_bot] at this
    refine ⟨sub_eq_zero.mp this, ?_⟩
    rw [this] at e1
    exact (sub_eq_zero.mp e1.symm).symm
  let s : Z1 × Z2 →ₗ[ℤ] (Z1 ⊔ Z2 : Submodule ℤ V) := LinearMap.coprod (Submodule.inclusion le_sup_left) (Submodule.inclusion le_sup_right)
  have hs : ∀ p, (s p : V) = p.1.1 + p.2.1 := fun p => rfl
  let f := ((B1 ⊔ B2).submoduleOf (Z1 ⊔ Z2)).mkQ.comp s
  let g := LinearMap.prodMap (B1.submoduleOf Z1).mkQ (B2.submoduleOf Z2).mkQ
  have hf : Function.Surjective f := by
    refine (Submodule.mkQ_surjective _).comp ?_
    rintro ⟨z, hz⟩
    obtain ⟨a, ha, b, hb, rfl⟩ := Submodule.mem_sup.mp hz
    exact ⟨(⟨a, ha⟩, ⟨b, hb⟩), rfl⟩
  have hg : Function.Surjective g := (Submodule.mkQ_surjective _).prodMap (Submodule.mkQ_surjective _)
  have hk : LinearMap.ker f = LinearMap.ker g := by
    ext p
    rw [LinearMap.mem_ker, LinearMap.mem_ker]
    have e1 : f p = 0 ↔ p.1.1 + p.2.1 ∈ B1 ⊔ B2 := Submodule.Quotient.mk_eq_zero ((B1 ⊔ B2).submoduleOf (Z1 ⊔ Z2))
    have e2 : g p = 0 ↔ p.1.1 ∈ B1 ∧ p.2.1 ∈ B2 :=
      Prod.ext_iff.trans (and_congr (Submodule.Quotient.mk_eq_zero (B1.submoduleOf Z1)) (Submodule.Quotient.mk_eq_zero (B2.submoduleOf Z2)))
    rw [e1, e2]
    constructor
    · intro h
      obtain ⟨a, ha, b, hb, e⟩ := Submodule.mem_sup.mp h
      obtain ⟨e1, e2⟩ := huniq a (hB1 ha) b (hB2 hb) _ (hZ1 p.1.2) _ (hZ2 p.2.2) e
      rw [← e1, ← e2]
      exact ⟨ha, hb⟩
    · rintro ⟨h1, h2⟩
      exact Submodule.add_mem_sup h1 h2
  exact ⟨((f.quotKerEquivOfSurjective hf).symm.trans ((Submodule.quotEquivOfEq _ _ hk).trans (g.quotKerEquivOfSurjective hg))).toAddEquiv⟩

variable {T : Type} [DecidableEq T] {K K1 K2 : Finset T → Prop} {r : T → ℤ}

/-- the complex lives on a set of sets of labels -/
theorem bdry_chains (hcl : ∀ A B, K A → B ⊆ A → B.Nonempty → K B) (i : Nat) : (Chains K (i + 1)).map (bdry r) ≤ Chains K i := by
  rw [Submodule.map_le_iff_le_comap]
  refine chains_le (fun A hA hc => ?_)
  rw [Submodule.mem_comap, bdry_single]
  refine Submodule.sum_mem _ (fun x hx => single_mem ?_ ?_ _)
  · refine hcl A _ hA (Finset.erase_subset _ _) (Finset.card_pos.mp ?_)
    rw [Finset.card_erase_of_mem hx]; omega
  · rw [Finset.card_erase_of_mem hx]; omega

theorem chains_sup (hK : ∀ A, K A ↔ K1 A ∨ K2 A) (i : Nat) : Chains K i = Chains K1 i ⊔ Chains K2 i := by
  unfold Chains
  rw [← Finsupp.supported_union]
  congr 1
  ext A
  simp only [Set.mem_ofPred_eq, Set.mem_union, hK]
  tauto

theorem chains_disjoint (h12 : ∀ A, K1 A → ¬ K2 A) (i : Nat) : Chains K1 i ⊓ Chains K2 i = ⊥ := by
  rw [← disjoint_iff]
  exact Finsupp.disjoint_supported_supported (Set.disjoint_left.mpr (fun A hA hA' => h12 A hA.1 hA'.1))

/-- the homology of a disjoint union -/
theorem hom_sum (hK : ∀ A, K A ↔ K1 A ∨ K2 A) (h12 : ∀ A, K1 A → ¬ K2 A) (c1 : ∀ A B, K1 A → B ⊆ A → B.Nonempty → K1 B)
    (c2 : ∀ A B, K2 A → B ⊆ A → B.Nonempty → K2 B) (i : Nat) : Nonempty (SimpHom K r i ≃+ SimpHom K1 r i × SimpHom K2 r i) := by
  refine quot_sum (C1 := Chains K1 i) (C2 := Chains K2 i) inf_le_left inf_le_left (bdry_chains c1 i) (bdry_chains c2 i) (chains_disjoint h12 i) ?_ ?_
  · apply le_antisymm
    · rintro z ⟨hz, hz'⟩
      rw [chains_sup hK] at hz
      obtain ⟨a, ha, b, hb, rfl⟩ := Submodule.mem_sup.mp hz
      rcases i with _ | i
      · exact Submodule.add_mem_sup ⟨ha, by simp⟩ ⟨hb, by simp⟩
      · rw [if_neg (by omega)] at hz'
        have e : bdry r a = -bdry r b := by
          have := LinearMap.mem_ker.mp hz'
          rw [map_add] at this
          exact eq_neg_of_add_eq_zero_left this
        have h1 : bdry r a ∈ Chains K1 i := bdry_chains c1 i ⟨a, ha, rfl⟩
        have h2 : bdry r b ∈ Chains K2 i := bdry_chains c2 i ⟨b, hb, rfl⟩
        have h3 : bdry r a ∈ Chains K1 i ⊓ Chains K2 i := ⟨h1, by rw [e]; exact Submodule.neg_mem _ h2⟩
        rw [chains_disjoint h12, Submodule.mem_bot] at h3
        refine Submodule.add_mem_sup ⟨ha, ?_⟩ ⟨hb, ?_⟩
        · rw [if_neg (by omega)]; exact h3
        · rw [if_neg (by omega)]
          rw [h3] at e
          exact LinearMap.mem_ker.mpr (neg_eq_zero.mp e.symm)
    · refine sup_le ?_ ?_
      · exact inf_le_inf_right _ (by rw [chains_sup hK]; exact le_sup_left)
      · exact inf_le_inf_right _ (by rw [chains_sup hK]; exact le_sup_right)
  · unfold Bounds
    rw [chains_sup hK, Submodule.map_sup]

/-! ### elementary collapses -/

/-- a retraction of the chains that moves cycles by boundaries -/
theorem hom_retract {K K' : Finset T → Prop} {i : Nat} (ρ : (Finset T →₀ ℤ) →ₗ[ℤ] (Finset T →₀ ℤ)) (hK : ∀ A, K' A → K A)
    (m0 : ∀ z ∈ Chains K i, ρ z ∈ Chains K' i) (m1 : ∀ z ∈ Chains K (i + 1), ρ z ∈ Chains K' (i + 1))
    (b0 : i ≠ 0 → ∀ z ∈ Chains K i, bdry r (ρ z) = ρ (bdry r z)) (b1 : ∀ z ∈ Chains K (i + 1), bdry r (ρ z) = ρ (bdry r z))
    (hid : ∀ z ∈ Chains K' i, ρ z = z) (hc : ∀ z ∈ Cycles K r i, z - ρ z ∈ Bounds K r i) :
    Nonempty (SimpHom K r i ≃+ SimpHom K' r i) := by
  have hle : ∀ j, Chains K' j ≤ Chains K j := fun j => Finsupp.supported_mono (fun A hA => ⟨hK A hA.1, hA.2⟩)
  have hcyc : ∀ z ∈ Cycles K r i, ρ z ∈ Cycles K' r i := by
    rintro z ⟨h1, h2⟩
    refine ⟨m0 z h1, ?_⟩
    by_cases h : i = 0
    · rw [if_pos h]; trivial
    · rw [if_neg h] at h2 ⊢
      refine LinearMap.mem_ker.mpr ?_
      rw [b0 h z h1, LinearMap.mem_ker.mp h2, map_zero]
  let f := ((Bounds K' r i).submoduleOf (Cycles K' r i)).mkQ.comp (ρ.restrict hcyc)
  have hf : Function.Surjective f := by
    refine (Submodule.mkQ_surjective _).comp ?_
    rintro ⟨z, hz⟩
    refine ⟨⟨z, hle i hz.1, hz.2⟩, Subtype.ext (hid z hz.1)⟩
  have hk : (Bounds K r i).submoduleOf (Cycles K r i) = LinearMap.ker f := by
    ext ⟨z, hz⟩
    have e1 : f ⟨z, hz⟩ = 0 ↔ ρ z ∈ Bounds K' r i := Submodule.Quotient.mk_eq_zero ((Bounds K' r i).submoduleOf (Cycles K' r i))
    have e2 : (⟨z, hz⟩ : Cycles K r i) ∈ (Bounds K r i).submoduleOf (Cycles K r i) ↔ z ∈ Bounds K r i := Iff.rfl
    rw [LinearMap.mem_ker, e1, e2]
    constructor
    · rintro ⟨w, hw, rfl⟩
      exact ⟨ρ w, m1 w hw, b1 w hw⟩
    · intro h
      have h1 := hc z hz
      have h2 : Bounds K' r i ≤ Bounds K r i := Submodule.map_mono (hle _)
      have := Submodule.add_mem _ h1 (h2 h)
      rwa [sub_add_cancel] at this
  exact ⟨((Submodule.quotEquivOfEq _ _ hk).trans (f.quotKerEquivOfSurjective hf)).toAddEquiv⟩

/-- `K'` arises from `K` by an elementary collapse: `G` is a simplex of `K`, `F` is a face of `G` without one vertex, no other simplex of `K` contains `F`, and
`K'` is `K` without `F` and `G` -/
structure Collapse (K K' : Finset T → Prop) (F G : Finset T) : Prop where
  mem : K G
  face : ∃ v, v ∉ F ∧ insert v F = G
  pos : F.Nonempty
  free : ∀ A, K A → F ⊆ A → A = F ∨ A = G
  rest : ∀ A, K' A ↔ K A ∧ A ≠ F ∧ A ≠ G

/-- `F` goes to `F` minus the boundary of `G` (with the sign that removes `F`), `G` to zero -/
noncomputable def collapseMap (r : T → ℤ) (F G : Finset T) : (Finset T →₀ ℤ) →ₗ[ℤ] (Finset T →₀ ℤ) :=
  Finsupp.linearCombination ℤ (fun A => if A = G then 0 else if A = F then Finsupp.single F 1 - bdry r (Finsupp.single G 1) F • bdry r (Finsupp.single G 1)
    else Finsupp.single A 1)

theorem collapseMap_single (F G A : Finset T) : collapseMap r F G (Finsupp.single A 1) = if A = G then 0 else if A = F then
    Finsupp.single F 1 - bdry r (Finsupp.single G 1) F • bdry r (Finsupp.single G 1) else Finsupp.single A 1 := by
  unfold collapseMap
  rw [Finsupp.linearCombination_single, one_smul]

variable {K' : Finset T → Prop} {F G : Finset T}

theorem Collapse.coef (h : Collapse K K' F G) : bdry r (Finsupp.single G 1) F * bdry r (Finsupp.single G 1) F = 1 := by
  obtain ⟨v, hv, rfl⟩ := h.face
  rw [bdry_single, Finsupp.finsetSum_apply, Finset.sum_eq_single v]
  · rw [Finset.erase_insert hv, Finsupp.single_eq_same, ← mul_pow]; simp
  · intro x hx hxv
    rw [Finsupp.single_eq_of_ne]
    intro e
    have : v ∈ (insert v F).erase x := Finset.mem_erase.mpr ⟨fun e => hxv e.symm, Finset.mem_insert_self _ _⟩
    rw [← e] at this
    exact hv this
  · intro h; exact absurd (Finset.mem_insert_self _ _) h

/-- the map is the identity on chains of the smaller complex -/
theorem Collapse.id (h : Collapse K K' F G) {i : Nat} {z} (hz : z ∈ Chains K' i) : collapseMap r F G z = z := by
  have : Chains K' i ≤ LinearMap.eqLocus (collapseMap r F G) LinearMap.id := by
    refine chains_le (fun A hA hc => ?_)
    rw [LinearMap.mem_eqLocus, collapseMap_single, if_neg ((h.rest A).mp hA).2.2, if_neg ((h.rest A).mp hA).2.1]
    rfl
  exact this hz

theorem Collapse.ne (h : Collapse K K' F G) : F ≠ G := by
  obtain ⟨v, hv, rfl⟩ := h.face
  intro e
  exact hv (e ▸ Finset.mem_insert_self v F)

theorem Collapse.card (h : Collapse K K' F G) : G.card = F.card + 1 := by
  obtain ⟨v, hv, rfl⟩ := h.face
  exact Finset.card_insert_of_notMem hv

theorem Collapse.sub (h : Collapse K K' F G) : F ⊆ G := by
  obtain ⟨v, hv, rfl⟩ := h.face
  exact Finset.subset_insert _ _

/-- the boundary of `G` without `F` lies in the smaller complex -/
theorem Collapse.other (h : Collapse K K' F G) (hcl : ∀ A B, K A → B ⊆ A → B.Nonempty → K B) {i : Nat} (hi : F.card = i + 1) :
    Finsupp.single F 1 - bdry r (Finsupp.single G 1) F • bdry r (Finsupp.single G 1) ∈ Chains K' i := by
  have h1 := h.coef (r := r)
  have h2 : bdry r (Finsupp.single G 1) ∈ Chains K i := bdry_chains hcl i ⟨_, single_mem h.mem (by rw [h.card, hi]) 1, rfl⟩
  set w := bdry r (Finsupp.single G 1) with hw
  unfold Chains at *
  rw [Finsupp.mem_supported'] at *
  intro A hA
  by_cases hAF : A = F
  · subst hAF
    simp [h1]
  · have : w A = 0 := by
      refine h2 A (fun hk => hA ⟨(h.rest A).mpr ⟨hk.1, hAF, ?_⟩, hk.2⟩)
      rintro rfl
      have := h.card
      have := hk.2
      omega
    rw [Finsupp.sub_apply, Finsupp.smul_apply, this, Finsupp.single_eq_of_ne hAF, smul_zero, sub_zero]

theorem Collapse.maps (h : Collapse K K' F G) (hcl : ∀ A B, K A → B ⊆ A → B.Nonempty → K B) {i : Nat} {z} (hz : z ∈ Chains K i) :
    collapseMap r F G z ∈ Chains K' i := by
  have : Chains K i ≤ (Chains K' i).comap (collapseMap r F G) := by
    refine chains_le (fun A hA hc => ?_)
    rw [Submodule.mem_comap, collapseMap_single]
    split
    · exact Submodule.zero_mem _
    · rename_i h1
      split
      · rename_i h2
        subst h2
        exact h.other hcl hc
      · rename_i h2
        exact single_mem ((h.rest A).mpr ⟨hA, h2, h1⟩) hc 1
  exact this hz

/-- faces of a simplex other than `G` are neither `F` nor `G` -/
theorem Collapse.faces (h : Collapse K K' F G) (hcl : ∀ A B, K A → B ⊆ A → B.Nonempty → K B) {A : Finset T} (hA : K A) (hG : A ≠ G) {i : Nat} (hc : A.card = i + 2) :
    bdry r (Finsupp.single A 1) ∈ Chains K' i := by
  rw [bdry_single]
  refine Submodule.sum_mem _ (fun x hx => single_mem ?_ ?_ _)
  · refine (h.rest _).mpr ⟨hcl A _ hA (Finset.erase_subset _ _) (Finset.card_pos.mp ?_), ?_, ?_⟩
    · rw [Finset.card_erase_of_mem hx]; omega
    · intro e
      rcases h.free A hA (e ▸ Finset.erase_subset _ _) with h1 | h1
      · rw [h1, ← e] at hx
        exact absurd (Finset.mem_erase.mp (e ▸ (h1 ▸ hx))).1 (by simp)
      · exact hG h1
    · intro e
      have h2 : G ⊆ A := e ▸ Finset.erase_subset _ _
      rcases h.free A hA (h.sub.trans h2) with h1 | h1
      · exact h.ne (Finset.Subset.antisymm h.sub (h1 ▸ h2))
      · exact hG h1
  · rw [Finset.card_erase_of_mem hx]; omega

theorem Collapse.comm (h : Collapse K K' F G) (hcl : ∀ A B, K A → B ⊆ A → B.Nonempty → K B) (hr : ∀ x ∈ G, ∀ y ∈ G, r x = r y → x = y) {i : Nat} {z}
    (hz : z ∈ Chains K (i + 1)) : bdry r (collapseMap r F G z) = collapseMap r F G (bdry r z) := by
  have : Chains K (i + 1) ≤ LinearMap.eqLocus ((bdry r).comp (collapseMap r F G)) ((collapseMap r F G).comp (bdry r)) := by
    refine chains_le (fun A hA hc => ?_)
    rw [LinearMap.mem_eqLocus, LinearMap.comp_apply, LinearMap.comp_apply, collapseMap_single]
    by_cases h1 : A = G
    · subst h1
      rw [if_pos rfl, map_zero]
      have hF : F.card = i + 1 := by have := h.card; omega
      have hw := h.other (r := r) hcl hF
      have e := h.id (r := r) hw
      have h2 := h.coef (r := r)
      have h3 : collapseMap r F A (Finsupp.single F 1) = Finsupp.single F 1 - bdry r (Finsupp.single A 1) F • bdry r (Finsupp.single A 1) := by
        rw [collapseMap_single, if_neg h.ne, if_pos rfl]
      rw [map_sub, h3, map_smul, sub_eq_self] at e
      have := congrArg (fun w => bdry r (Finsupp.single A 1) F • w) e
      simpa [smul_smul, h2] using this.symm
    · rw [if_neg h1, h.id (h.faces hcl hA h1 hc)]
      by_cases h2 : A = F
      · subst h2
        rw [if_pos rfl, map_sub, map_smul, bdry_bdry_single _ rfl hr, smul_zero, sub_zero]
      · rw [if_neg h2]
  exact this hz

/-- an elementary collapse does not change the homology -/
theorem Collapse.hom (h : Collapse K K' F G) (hcl : ∀ A B, K A → B ⊆ A → B.Nonempty → K B) (hr : ∀ x ∈ G, ∀ y ∈ G, r x = r y → x = y) (i : Nat) :
    Nonempty (SimpHom K r i ≃+ SimpHom K' r i) := by
  refine hom_retract (collapseMap r F G) (fun A hA => ((h.rest A).mp hA).1) (fun z hz => h.maps hcl hz) (fun z hz => h.maps hcl hz) ?_
    (fun z hz => h.comm hcl hr hz) (fun z hz => h.id hz) ?_
  · intro h0 z hz
    obtain ⟨j, rfl⟩ := Nat.exists_eq_succ_of_ne_zero h0
    exact h.comm hcl hr hz
  · rintro z ⟨hz, hz'⟩
    -- the difference, for any chain
    have key : ∀ z : Finset T →₀ ℤ, z - collapseMap r F G z = z G • Finsupp.single G 1 + (z F * bdry r (Finsupp.single G 1) F) • bdry r (Finsupp.single G 1) := by
      intro z
      induction z using Finsupp.induction_linear with
      | zero => simp
      | add a b ha hb =>
        rw [map_add, add_sub_add_comm, ha, hb]
        simp only [Finsupp.add_apply, add_smul, add_mul]
        abel
      | single A c =>
        have e : Finsupp.single A c = c • Finsupp.single A (1 : ℤ) := by simp
        rw [e, map_smul, collapseMap_single]
        by_cases h1 : A = G
        · subst h1
          rw [if_pos rfl]
          simp [Finsupp.single_eq_of_ne h.ne]
        · rw [if_neg h1]
          by_cases h2 : A = F
          · subst h2
            rw [if_pos rfl]
            simp [Finsupp.single_eq_of_ne (Ne.symm h1), smul_sub, smul_smul]
          · rw [if_neg h2]
            simp [Finsupp.single_eq_of_ne (Ne.symm h1), Finsupp.single_eq_of_ne (Ne.symm h2)]
    have hG0 : z G = 0 := by
      by_cases hc : G.card = i + 1
      · -- the coefficient of `F` in the boundary
        have hi : i ≠ 0 := by
          rintro rfl
          have := h.card
          have := Finset.card_pos.mpr h.pos
          omega
        rw [if_neg hi] at hz'
        obtain ⟨j, rfl⟩ := Nat.exists_eq_succ_of_ne_zero hi
        have h1 := congrArg (fun w => w F) (key z)
        have h2 : bdry r (z - collapseMap r F G z) = z G • bdry r (Finsupp.single G 1) := by
          rw [key, map_add, map_smul, map_smul, bdry_bdry_single _ rfl hr, smul_zero, add_zero]
        rw [map_sub, h.comm hcl hr hz, LinearMap.mem_ker.mp hz', map_zero, sub_zero] at h2
        have h3 := congrArg (fun w => w F * bdry r (Finsupp.single G 1) F) h2
        simp only [Finsupp.coe_zero, Pi.zero_apply, zero_mul, Finsupp.smul_apply, smul_eq_mul] at h3
        rw [mul_assoc, h.coef, mul_one] at h3
        exact h3.symm
      · exact (Finsupp.mem_supported' _ _).mp hz G (fun hk => hc hk.2)
    rw [key, hG0, zero_smul, zero_add]
    by_cases hc : F.card = i + 1
    · exact Submodule.smul_mem _ _ ⟨_, single_mem h.mem (by rw [h.card, hc]) 1, rfl⟩
    · have : z F = 0 := by
        exact (Finsupp.mem_supported' _ _).mp hz F (fun hk => hc hk.2)
      rw [this, zero_mul, zero_smul]
      exact Submodule.zero_mem _

end Toppo.Simp
