import Verif.Proof.SimpSum
import Verif.Props.Module
import Mathlib.LinearAlgebra.Dimension.Localization
import Mathlib.LinearAlgebra.Dimension.RankNullity
import Mathlib.LinearAlgebra.Dimension.Finite
import Mathlib.LinearAlgebra.FreeModule.PID
import Mathlib.RingTheory.Finiteness.Finsupp
set_option linter.unusedVariables false
/-!
# Ranks of homology, and attaching one simplex
-/
namespace Toppo.Simp
open Toppo Toppo.ModProps Module

/-- the free rank is the rank of the group -/
theorem finrank_grp (m : Mod) (h : ∀ dk ∈ m.divisors, dk.1 ≠ 0) : finrank ℤ (Grp m) = m.freeRank := by
  have hfin : Module.Finite ℤ (Cyc (orders m.divisors)) := by
    have : ∀ i : Fin (orders m.divisors).length, Module.Finite ℤ (ZMod ((orders m.divisors).get i)) := fun i =>
      Module.Finite.of_surjective (Int.castAddHom (ZMod ((orders m.divisors).get i))).toIntLinearMap (ZMod.intCast_surjective)
    exact Module.Finite.pi
  have e := (LinearMap.ker (LinearMap.fst ℤ (Fin m.freeRank → ℤ) (Cyc (orders m.divisors)))).finrank_quotient_add_finrank
  rw [LinearEquiv.finrank_eq ((LinearMap.fst ℤ (Fin m.freeRank → ℤ) (Cyc (orders m.divisors))).quotKerEquivOfSurjective LinearMap.fst_surjective)] at e
  have h0 : finrank ℤ (LinearMap.ker (LinearMap.fst ℤ (Fin m.freeRank → ℤ) (Cyc (orders m.divisors)))) = 0 := by
    rw [Module.finrank_eq_zero_iff]
    rintro ⟨⟨a, x⟩, hx⟩
    have ha : a = 0 := LinearMap.mem_ker.mp hx
    have hp : (orders m.divisors).prod ≠ 0 := by
      intro e
      have := List.prod_eq_zero_iff.mp e
      obtain ⟨y, hy, e'⟩ := mem_orders this
      have := h y hy
      omega
    refine ⟨((orders m.divisors).prod : ℤ), by exact_mod_cast hp, Subtype.ext ?_⟩
    refine Prod.ext ?_ ?_
    · show ((orders m.divisors).prod : ℤ) • a = 0
      rw [ha, smul_zero]
    · funext i
      show ((orders m.divisors).prod : ℤ) • x i = 0
      have hd : (orders m.divisors).get i ∣ (orders m.divisors).prod := List.dvd_prod (List.get_mem _ _)
      have : (((orders m.divisors).prod : Nat) : ZMod ((orders m.divisors).get i)) = 0 := (ZMod.natCast_eq_zero_iff _ _).mpr hd
      rw [zsmul_eq_mul, Int.cast_natCast, this, zero_mul]
  rw [h0, add_zero, Module.finrank_fin_fun] at e
  exact e.symm

section
variable {V : Type} [AddCommGroup V]

theorem finrank_map_add (C : Submodule ℤ V) [Module.Finite ℤ C] (f : V →ₗ[ℤ] V) : finrank ℤ (C.map f) + finrank ℤ (C ⊓ LinearMap.ker f : Submodule ℤ V) = finrank ℤ C := by
  have e := (LinearMap.ker (f.domRestrict C)).finrank_quotient_add_finrank
  rw [LinearEquiv.finrank_eq (f.domRestrict C).quotKerEquivRange, LinearMap.range_domRestrict] at e
  rw [← e]
  congr 1
  have h1 : C ⊓ LinearMap.ker f = (LinearMap.ker (f.domRestrict C)).map C.subtype := by
    ext z
    simp only [Submodule.mem_inf, LinearMap.mem_ker, Submodule.mem_map, Submodule.subtype_apply]
    constructor
    · rintro ⟨h1, h2⟩
      exact ⟨⟨z, h1⟩, h2, rfl⟩
    · rintro ⟨w, h1, rfl⟩
      exact ⟨w.2, h1⟩
  rw [h1]
  exact (LinearEquiv.finrank_eq (Submodule.equivSubtypeMap C _)).symm

theorem finrank_quot {Z B : Submodule ℤ V} [Module.Finite ℤ Z] (h : B ≤ Z) : finrank ℤ (Z ⧸ B.submoduleOf Z) + finrank ℤ B = finrank ℤ Z := by
  have e := (B.submoduleOf Z).finrank_quotient_add_finrank
  rwa [LinearEquiv.finrank_eq (Submodule.submoduleOfEquivOfLe h)] at e

/-- one more generator raises the rank by one, unless a multiple of it was already there -/
theorem finrank_line (B : Submodule ℤ V) [Module.Finite ℤ B] (t : V) :
    ((∃ n : ℤ, n ≠ 0 ∧ n • t ∈ B) → finrank ℤ (B ⊔ Submodule.span ℤ {t} : Submodule ℤ V) = finrank ℤ B) ∧
    (¬ (∃ n : ℤ, n ≠ 0 ∧ n • t ∈ B) → finrank ℤ (B ⊔ Submodule.span ℤ {t} : Submodule ℤ V) = finrank ℤ B + 1) := by
  have hT : Module.Finite ℤ (Submodule.span ℤ {t}) := Module.Finite.span_singleton ℤ t
  have hS : Module.Finite ℤ (B ⊔ Submodule.span ℤ {t} : Submodule ℤ V) := Submodule.finite_sup _ _
  have e := finrank_quot (Z := B ⊔ Submodule.span ℤ {t}) (B := B) le_sup_left
  have ht : t ∈ B ⊔ Submodule.span ℤ {t} := Submodule.mem_sup_right (Submodule.mem_span_singleton_self t)
  let f : ℤ →ₗ[ℤ] (B ⊔ Submodule.span ℤ {t} : Submodule ℤ V) ⧸ B.submoduleOf (B ⊔ Submodule.span ℤ {t}) :=
    (Submodule.mkQ _).comp (LinearMap.toSpanSingleton ℤ _ ⟨t, ht⟩)
  have hf : Function.Surjective f := by
    intro q
    obtain ⟨⟨z, hz⟩, rfl⟩ := Submodule.Quotient.mk_surjective _ q
    obtain ⟨b, hb, s, hs, rfl⟩ := Submodule.mem_sup.mp hz
    obtain ⟨c, rfl⟩ := Submodule.mem_span_singleton.mp hs
    refine ⟨c, ?_⟩
    refine (Submodule.Quotient.eq _).mpr ?_
    show c • t - (b + c • t) ∈ B
    have : c • t - (b + c • t) = -b := by abel
    rw [this]
    exact Submodule.neg_mem _ hb
  have hk : ∀ c, f c = 0 ↔ c • t ∈ B := fun c => Submodule.Quotient.mk_eq_zero (B.submoduleOf (B ⊔ Submodule.span ℤ {t})) (x := c • (⟨t, ht⟩ : (B ⊔ Submodule.span ℤ {t} : Submodule ℤ V)))
  constructor
  · rintro ⟨n, hn, hnt⟩
    have h0 : finrank ℤ ((B ⊔ Submodule.span ℤ {t} : Submodule ℤ V) ⧸ B.submoduleOf (B ⊔ Submodule.span ℤ {t})) = 0 := by
      rw [Module.finrank_eq_zero_iff]
      intro x
      obtain ⟨c, rfl⟩ := hf x
      refine ⟨n, hn, ?_⟩
      rw [← map_smul, hk, smul_eq_mul, mul_comm, mul_smul]
      exact Submodule.smul_mem _ _ hnt
    omega
  · intro hno
    have hinj : Function.Injective f := by
      rw [injective_iff_map_eq_zero]
      intro c hc
      by_contra hne
      exact hno ⟨c, hne, (hk c).mp hc⟩
    have := LinearEquiv.finrank_eq (LinearEquiv.ofBijective f ⟨hinj, hf⟩)
    rw [Module.finrank_self] at this
    omega

end

variable {T : Type} [DecidableEq T] {K K' : Finset T → Prop} {r : T → ℤ}

theorem chains_finite (hK : {A | K A}.Finite) (i : Nat) : Module.Finite ℤ (Chains K i) := by
  have : Finite {A | K A ∧ A.card = i + 1} := (hK.subset (fun A hA => hA.1)).to_subtype
  exact Module.Finite.equiv (Finsupp.supportedEquivFinsupp (M := ℤ) (R := ℤ) {A | K A ∧ A.card = i + 1}).symm

theorem chains_rank (hK : {A | K A}.Finite) (i : Nat) : finrank ℤ (Chains K i) = Nat.card {A | K A ∧ A.card = i + 1} := by
  have : Finite {A | K A ∧ A.card = i + 1} := (hK.subset (fun A hA => hA.1)).to_subtype
  have := Fintype.ofFinite {A | K A ∧ A.card = i + 1}
  have e := LinearEquiv.finrank_eq (Finsupp.supportedEquivFinsupp (M := ℤ) (R := ℤ) {A | K A ∧ A.card = i + 1})
  rw [Module.finrank_finsupp_self, ← Nat.card_eq_fintype_card] at e
  exact e

/-- the rank of the boundaries in dimension `i` -/
noncomputable def brank (K : Finset T → Prop) (r : T → ℤ) (i : Nat) : Nat := finrank ℤ (Bounds K r i)

theorem bounds_cycles (hcl : ∀ A B, K A → B ⊆ A → B.Nonempty → K B) (hr : ∀ A, K A → ∀ x ∈ A, ∀ y ∈ A, r x = r y → x = y) (i : Nat) :
    Bounds K r i ≤ Cycles K r i := by
  refine le_inf (bdry_chains hcl i) ?_
  split_ifs
  · exact le_top
  · rintro _ ⟨z, hz, rfl⟩
    have : Chains K (i + 1) ≤ LinearMap.ker ((bdry r).comp (bdry r)) :=
      chains_le (fun A hA hc => LinearMap.mem_ker.mpr (bdry_bdry_single _ rfl (hr A hA)))
    exact LinearMap.mem_ker.mpr (LinearMap.mem_ker.mp (this hz))

/-- the rank of the homology: simplices less boundaries below and above -/
theorem hom_rank (hK : {A | K A}.Finite) (hcl : ∀ A B, K A → B ⊆ A → B.Nonempty → K B) (hr : ∀ A, K A → ∀ x ∈ A, ∀ y ∈ A, r x = r y → x = y) (i : Nat) :
    finrank ℤ (SimpHom K r i) + brank K r i + (if i = 0 then 0 else brank K r (i - 1)) = Nat.card {A | K A ∧ A.card = i + 1} := by
  have hf := chains_finite hK i
  have hz : Module.Finite ℤ (Cycles K r i) := Module.Finite.of_injective (Submodule.inclusion (inf_le_left : Cycles K r i ≤ Chains K i)) (Submodule.inclusion_injective _)
  have e1 : finrank ℤ (SimpHom K r i) + brank K r i = finrank ℤ (Cycles K r i) := finrank_quot (bounds_cycles hcl hr i)
  rw [← chains_rank hK i]
  rcases i with _ | i
  · have : Cycles K r 0 = Chains K 0 := by unfold Cycles; rw [if_pos rfl, inf_top_eq]
    have e2 : finrank ℤ (Cycles K r 0) = finrank ℤ (Chains K 0) := by rw [this]
    rw [if_pos rfl]
    omega
  · have h2 := finrank_map_add (Chains K (i + 1)) (bdry r)
    have : Cycles K r (i + 1) = Chains K (i + 1) ⊓ LinearMap.ker (bdry r) := by unfold Cycles; rw [if_neg (by omega)]
    rw [if_neg (by omega)]
    rw [← this] at h2
    have h3 : brank K r i = finrank ℤ ((Chains K (i + 1)).map (bdry r)) := rfl
    rw [Nat.add_sub_cancel, h3]
    omega

/-- attaching the simplex `S` of dimension `d` -/
theorem attach_rank (hK : {A | K A}.Finite) (hcl : ∀ A B, K A → B ⊆ A → B.Nonempty → K B) (hcl' : ∀ A B, K' A → B ⊆ A → B.Nonempty → K' B)
    (hr : ∀ A, K' A → ∀ x ∈ A, ∀ y ∈ A, r x = r y → x = y) {S : Finset T} {d : Nat} (hd : S.card = d + 1) (hS : ¬ K S) (hK' : ∀ A, K' A ↔ K A ∨ A = S) :
    (d = 0 ∨ (∃ n : ℤ, n ≠ 0 ∧ n • bdry r (Finsupp.single S 1) ∈ Bounds K r (d - 1)) →
      finrank ℤ (SimpHom K' r d) = finrank ℤ (SimpHom K r d) + 1 ∧ ∀ i, i ≠ d → finrank ℤ (SimpHom K' r i) = finrank ℤ (SimpHom K r i)) ∧
    (¬ (d = 0 ∨ (∃ n : ℤ, n ≠ 0 ∧ n • bdry r (Finsupp.single S 1) ∈ Bounds K r (d - 1))) →
      finrank ℤ (SimpHom K' r (d - 1)) + 1 = finrank ℤ (SimpHom K r (d - 1)) ∧ ∀ i, i ≠ d - 1 → finrank ℤ (SimpHom K' r i) = finrank ℤ (SimpHom K r i)) := by
  have hKf' : {A | K' A}.Finite := (hK.insert S).subset (fun A hA => by
    rcases (hK' A).mp hA with h | h
    · exact Set.mem_insert_of_mem _ h
    · exact h ▸ Set.mem_insert _ _)
  have hr0 : ∀ A, K A → ∀ x ∈ A, ∀ y ∈ A, r x = r y → x = y := fun A hA => hr A ((hK' A).mpr (Or.inl hA))
  have hcell : ∀ i, Nat.card {A | K' A ∧ A.card = i + 1} = Nat.card {A | K A ∧ A.card = i + 1} + if i = d then 1 else 0 := by
    intro i
    by_cases e : i = d
    · subst e
      rw [if_pos rfl]
      have : {A | K' A ∧ A.card = i + 1} = insert S {A | K A ∧ A.card = i + 1} := by
        ext A
        simp only [Set.mem_ofPred_eq, Set.mem_insert_iff, hK']
        constructor
        · rintro ⟨h1 | h1, h2⟩
          · exact Or.inr ⟨h1, h2⟩
          · exact Or.inl h1
        · rintro (rfl | ⟨h1, h2⟩)
          · exact ⟨Or.inr rfl, hd⟩
          · exact ⟨Or.inl h1, h2⟩
      rw [this, Nat.card_coe_set_eq, Nat.card_coe_set_eq, Set.ncard_insert_of_notMem (fun h => hS h.1) (hK.subset (fun A hA => hA.1))]
    · rw [if_neg e, add_zero]
      have : {A | K' A ∧ A.card = i + 1} = {A | K A ∧ A.card = i + 1} := by
        ext A
        simp only [Set.mem_ofPred_eq, hK']
        constructor
        · rintro ⟨h1 | rfl, h2⟩
          · exact ⟨h1, h2⟩
          · omega
        · rintro ⟨h1, h2⟩
          exact ⟨Or.inl h1, h2⟩
      rw [this]
  have hchain : ∀ i, i ≠ d → Chains K' i = Chains K i := by
    intro i e
    unfold Chains
    congr 1
    ext A
    simp only [Set.mem_ofPred_eq, hK']
    constructor
    · rintro ⟨h1 | rfl, h2⟩
      · exact ⟨h1, h2⟩
      · omega
    · rintro ⟨h1, h2⟩
      exact ⟨Or.inl h1, h2⟩
  have hchain' : Chains K' d = Chains K d ⊔ Submodule.span ℤ {Finsupp.single S 1} := by
    apply le_antisymm
    · refine chains_le (fun A hA hc => ?_)
      rcases (hK' A).mp hA with h | rfl
      · exact Submodule.mem_sup_left (single_mem h hc 1)
      · exact Submodule.mem_sup_right (Submodule.mem_span_singleton_self _)
    · refine sup_le (Finsupp.supported_mono (fun A hA => ⟨(hK' A).mpr (Or.inl hA.1), hA.2⟩)) ?_
      rw [Submodule.span_singleton_le_iff_mem]
      exact single_mem ((hK' S).mpr (Or.inr rfl)) hd 1
  have hb : ∀ i, i + 1 ≠ d → brank K' r i = brank K r i := by
    intro i e
    unfold brank Bounds
    rw [hchain _ e]
  have R := fun i => hom_rank hK hcl hr0 i
  have R' := fun i => hom_rank hKf' hcl' hr i
  rcases d with _ | d
  · refine ⟨fun _ => ⟨?_, fun i hi => ?_⟩, fun h => absurd (Or.inl rfl) h⟩
    · have a := R 0
      have b := R' 0
      have c := hcell 0
      rw [hb 0 (by omega)] at b
      simp only [if_true] at a b c
      omega
    · have a := R i
      have b := R' i
      have c := hcell i
      rw [hb i (by omega), if_neg hi, hb (i - 1) (by omega)] at b
      rw [if_neg hi] at a c
      omega
  · have hBf : Module.Finite ℤ (Bounds K r d) := by
      have := chains_finite hK (d + 1)
      exact Module.Finite.map _ _
    have hline := finrank_line (Bounds K r d) (bdry r (Finsupp.single S 1))
    have hB' : Bounds K' r d = Bounds K r d ⊔ Submodule.span ℤ {bdry r (Finsupp.single S 1)} := by
      unfold Bounds
      rw [hchain', Submodule.map_sup, Submodule.map_span, Set.image_singleton]
    rw [← hB'] at hline
    have hsub : d + 1 - 1 = d := rfl
    rw [hsub]
    have a := R (d + 1)
    have b := R' (d + 1)
    have c := hcell (d + 1)
    rw [hb (d + 1) (by omega)] at b
    rw [if_neg (by omega), hsub] at a b
    rw [if_pos rfl] at c
    have a2 := R d
    have b2 := R' d
    have c2 := hcell d
    rw [if_neg (by omega)] at c2
    have hlow : (if d = 0 then 0 else brank K' r (d - 1)) = if d = 0 then 0 else brank K r (d - 1) := by
      split_ifs with h
      · rfl
      · exact hb _ (by omega)
    rw [hlow] at b2
    have others : ∀ i, i ≠ d + 1 → i ≠ d → finrank ℤ (SimpHom K' r i) = finrank ℤ (SimpHom K r i) := by
      intro i h1 h2
      have a := R i
      have b := R' i
      have c := hcell i
      rw [if_neg h1] at c
      rw [hb i (by omega)] at b
      have : (if i = 0 then 0 else brank K' r (i - 1)) = if i = 0 then 0 else brank K r (i - 1) := by
        split_ifs with h
        · rfl
        · exact hb _ (by omega)
      rw [this] at b
      omega
    constructor
    · rintro (h | h)
      · omega
      · have e : brank K' r d = brank K r d := hline.1 h
        refine ⟨by omega, fun i hi => ?_⟩
        by_cases h2 : i = d
        · subst h2; omega
        · exact others i hi h2
    · intro h
      have e : brank K' r d = brank K r d + 1 := hline.2 (fun h' => h (Or.inr h'))
      refine ⟨by omega, fun i hi => ?_⟩
      by_cases h2 : i = d + 1
      · subst h2; omega
      · exact others i h2 hi

end Toppo.Simp
