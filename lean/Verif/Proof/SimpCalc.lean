import Verif.Proof.SimpHom
set_option linter.unusedVariables false
/-!
# Homology of some abstract complexes: dimension zero, cones, boundaries of simplices
-/
namespace Toppo.Simp
open Toppo
variable {T : Type} [DecidableEq T] {K : Finset T → Prop} {r : T → ℤ}

theorem bdry_single (r : T → ℤ) (A : Finset T) :
    bdry r (Finsupp.single A 1) = ∑ x ∈ A, Finsupp.single (A.erase x) ((-1) ^ (A.filter (fun y => r y < r x)).card) := by
  unfold bdry
  rw [Finsupp.linearCombination_single, one_smul]

theorem single_mem {i : Nat} {A : Finset T} (hA : K A) (hc : A.card = i + 1) (c : ℤ) : Finsupp.single A c ∈ Chains K i :=
  Finsupp.single_mem_supported ℤ c ⟨hA, hc⟩

/-- a linear property holds on all chains if it holds on all simplices -/
theorem chains_le {i : Nat} {P : Submodule ℤ (Finset T →₀ ℤ)} (h : ∀ A, K A → A.card = i + 1 → Finsupp.single A 1 ∈ P) : Chains K i ≤ P := by
  unfold Chains
  rw [Finsupp.supported_eq_span_single, Submodule.span_le]
  rintro _ ⟨A, ⟨h1, h2⟩, rfl⟩
  exact h A h1 h2

/-! ### dimension zero -/

/-- the vertices -/
abbrev Vtx (K : Finset T → Prop) : Type := {x : T // K {x}}

/-- the connected components: vertices up to edges -/
abbrev Comp (K : Finset T → Prop) : Type := Quot (fun x y : Vtx K => K {x.1, y.1})

open Classical in
/-- a vertex to its component -/
noncomputable def toComp (K : Finset T → Prop) : (Finset T →₀ ℤ) →ₗ[ℤ] (Comp K →₀ ℤ) :=
  Finsupp.linearCombination ℤ (fun A => if h : ∃ x, A = {x} ∧ K {x} then Finsupp.single (Quot.mk _ ⟨h.choose, h.choose_spec.2⟩) 1 else 0)

theorem toComp_single (x : Vtx K) : toComp K (Finsupp.single {x.1} 1) = Finsupp.single (Quot.mk _ x) 1 := by
  unfold toComp
  have h : ∃ y, ({x.1} : Finset T) = {y} ∧ K {y} := ⟨x.1, rfl, x.2⟩
  rw [Finsupp.linearCombination_single, one_smul, dif_pos h]
  have := Finset.singleton_injective h.choose_spec.1
  congr 2
  exact Subtype.ext this.symm

theorem edge_bdry (r : T → ℤ) (hr : ∀ x y, K {x} → K {y} → r x = r y → x = y) {x y : T} (hx : K {x}) (hy : K {y}) (hxy : x ≠ y) :
    bdry r (Finsupp.single {x, y} 1) = Finsupp.single {y} 1 - Finsupp.single {x} 1 ∨
    bdry r (Finsupp.single {x, y} 1) = Finsupp.single {x} 1 - Finsupp.single {y} 1 := by
  rw [bdry_single, Finset.sum_pair hxy]
  have e1 : ({x, y} : Finset T).erase x = {y} := by
    ext z; simp only [Finset.mem_erase, Finset.mem_insert, Finset.mem_singleton]; constructor
    · rintro ⟨h, h1 | h1⟩ <;> [exact absurd h1 h; exact h1]
    · rintro rfl; exact ⟨Ne.symm hxy, Or.inr rfl⟩
  have e2 : ({x, y} : Finset T).erase y = {x} := by
    ext z; simp only [Finset.mem_erase, Finset.mem_insert, Finset.mem_singleton]; constructor
    · rintro ⟨h, h1 | h1⟩ <;> [exact h1; exact absurd h1 h]
    · rintro rfl; exact ⟨hxy, Or.inl rfl⟩
  rw [e1, e2]
  rcases lt_trichotomy (r x) (r y) with h | h | h
  · left
    rw [Finset.filter_insert, Finset.filter_insert, Finset.filter_singleton, Finset.filter_singleton]
    simp [h, not_lt.mpr h.le, sub_eq_add_neg]
  · exact absurd (hr x y hx hy h) hxy
  · right
    rw [Finset.filter_insert, Finset.filter_insert, Finset.filter_singleton, Finset.filter_singleton]
    simp [h, not_lt.mpr h.le, sub_eq_add_neg, add_comm]

section
variable (hcl : ∀ A B, K A → B ⊆ A → B.Nonempty → K B) (hr : ∀ x y, K {x} → K {y} → r x = r y → x = y)
include hcl hr

theorem toComp_bounds : Bounds K r 0 ≤ LinearMap.ker (toComp K) := by
  unfold Bounds
  rw [Submodule.map_le_iff_le_comap]
  refine chains_le (fun A hA hc => ?_)
  obtain ⟨x, y, hxy, rfl⟩ := Finset.card_eq_two.mp hc
  have hx : K {x} := hcl _ _ hA (by simp) (by simp)
  have hy : K {y} := hcl _ _ hA (by simp) (by simp)
  have e : toComp K (Finsupp.single {x} 1) = toComp K (Finsupp.single {y} 1) := by
    rw [toComp_single (⟨x, hx⟩ : Vtx K), toComp_single (⟨y, hy⟩ : Vtx K)]
    congr 1
    exact Quot.sound hA
  rw [Submodule.mem_comap, LinearMap.mem_ker]
  rcases edge_bdry r hr hx hy hxy with h | h
  · rw [h, map_sub, e, sub_self]
  · rw [h, map_sub, e, sub_self]

theorem same_comp {x y : Vtx K} (h : (Quot.mk _ x : Comp K) = Quot.mk _ y) : Finsupp.single {x.1} 1 - Finsupp.single {y.1} 1 ∈ Bounds K r 0 := by
  have := Quot.eqvGen_exact h
  clear h
  induction this with
  | rel x y h =>
    by_cases hxy : x.1 = y.1
    · rw [hxy, sub_self]; exact zero_mem _
    · have hm : bdry r (Finsupp.single {x.1, y.1} 1) ∈ Bounds K r 0 :=
        Submodule.mem_map_of_mem (single_mem h (by rw [Finset.card_pair hxy]) 1)
      rcases edge_bdry r hr x.2 y.2 hxy with h | h
      · rw [h] at hm
        simpa using neg_mem hm
      · rwa [h] at hm
  | refl x => rw [sub_self]; exact zero_mem _
  | symm x y _ ih => simpa using neg_mem ih
  | trans x y z _ _ i1 i2 => simpa using add_mem i1 i2

/-- the homology in dimension zero is free on the components -/
theorem hom_zero : Nonempty (SimpHom K r 0 ≃+ (Comp K →₀ ℤ)) := by
  have hcy : ∀ x : Vtx K, Finsupp.single {x.1} (1 : ℤ) ∈ Cycles K r 0 := by
    intro x
    unfold Cycles
    rw [if_pos rfl, inf_top_eq]
    exact single_mem x.2 (by simp) 1
  set f : Cycles K r 0 →ₗ[ℤ] (Comp K →₀ ℤ) := (toComp K).comp (Cycles K r 0).subtype with hf
  let S : (Comp K →₀ ℤ) →ₗ[ℤ] (Finset T →₀ ℤ) := Finsupp.linearCombination ℤ (fun c => Finsupp.single {c.out.1} 1)
  have hS : ∀ c, S (Finsupp.single c 1) = Finsupp.single {c.out.1} 1 := by
    intro c; simp [S]
  have hSm : ∀ w, S w ∈ Cycles K r 0 := by
    intro w
    induction w using Finsupp.induction_linear with
    | zero => rw [map_zero]; exact zero_mem _
    | add a b h1 h2 => rw [map_add]; exact add_mem h1 h2
    | single c n =>
      have : Finsupp.single c n = n • Finsupp.single c (1 : ℤ) := by simp
      rw [this, map_smul, hS]
      exact Submodule.smul_mem _ _ (hcy c.out)
  have hFS : ∀ w, toComp K (S w) = w := by
    intro w
    induction w using Finsupp.induction_linear with
    | zero => rw [map_zero, map_zero]
    | add a b h1 h2 => rw [map_add, map_add, h1, h2]
    | single c n =>
      have : Finsupp.single c n = n • Finsupp.single c (1 : ℤ) := by simp
      rw [this, map_smul, map_smul, hS, toComp_single c.out]
      congr 2
      exact Quot.out_eq c
  have hsurj : Function.Surjective f := fun w => ⟨⟨S w, hSm w⟩, hFS w⟩
  have hker : LinearMap.ker f = (Bounds K r 0).submoduleOf (Cycles K r 0) := by
    ext ⟨z, hz⟩
    rw [LinearMap.mem_ker]
    show toComp K z = 0 ↔ z ∈ Bounds K r 0
    constructor
    · intro h
      have hle : Chains K 0 ≤ (Bounds K r 0).comap (LinearMap.id - S.comp (toComp K)) := by
        refine chains_le (fun A hA hc => ?_)
        obtain ⟨x, rfl⟩ := Finset.card_eq_one.mp hc
        rw [Submodule.mem_comap, LinearMap.sub_apply, LinearMap.id_apply, LinearMap.comp_apply, toComp_single (⟨x, hA⟩ : Vtx K), hS]
        exact same_comp hcl hr (x := ⟨x, hA⟩) (Quot.out_eq _).symm
      have hz' : z ∈ Chains K 0 := (Submodule.mem_inf.mp hz).1
      have := hle hz'
      rw [Submodule.mem_comap, LinearMap.sub_apply, LinearMap.comp_apply, h, map_zero, sub_zero] at this
      exact this
    · intro h
      exact toComp_bounds hcl hr h
  exact ⟨((Submodule.quotEquivOfEq _ _ hker.symm).trans (LinearMap.quotKerEquivOfSurjective f hsurj)).toAddEquiv⟩

end

/-! ### cones -/

/-- joining with the vertex `v` -/
noncomputable def join (v : T) : (Finset T →₀ ℤ) →ₗ[ℤ] (Finset T →₀ ℤ) :=
  Finsupp.linearCombination ℤ (fun A => if v ∈ A then 0 else Finsupp.single (insert v A) 1)

theorem join_single (v : T) (A : Finset T) (c : ℤ) : join v (Finsupp.single A c) = if v ∈ A then 0 else Finsupp.single (insert v A) c := by
  unfold join
  rw [Finsupp.linearCombination_single]
  split_ifs <;> simp

theorem join_mem {v : T} {K' : Finset T → Prop} {i : Nat} (hv : ∀ A, K A → A.card = i + 1 → v ∉ A → K' (insert v A)) {z} (hz : z ∈ Chains K i) : join v z ∈ Chains K' (i + 1) := by
  have : Chains K i ≤ (Chains K' (i + 1)).comap (join v) := by
    refine chains_le (fun A hA hc => ?_)
    rw [Submodule.mem_comap, join_single]
    split_ifs with h
    · exact zero_mem _
    · exact single_mem (hv A hA hc h) (by rw [Finset.card_insert_of_notMem h, hc]) 1
  exact this hz

/-- joining with the first vertex is a contraction -/
theorem join_bdry_single {v : T} {A : Finset T} (hmin : ∀ x ∈ A, x ≠ v → r v < r x) :
    bdry r (join v (Finsupp.single A 1)) + join v (bdry r (Finsupp.single A 1)) = Finsupp.single A 1 := by
  rw [join_single, bdry_single, map_sum]
  by_cases hv : v ∈ A
  · rw [if_pos hv, map_zero, zero_add, Finset.sum_eq_single v]
    · rw [join_single, if_neg (by simp), Finset.insert_erase hv]
      have : A.filter (fun y => r y < r v) = ∅ := by
        rw [Finset.filter_eq_empty_iff]
        intro y hy h
        rcases eq_or_ne y v with rfl | hyv
        · exact lt_irrefl _ h
        · exact lt_asymm h (hmin y hy hyv)
      rw [this]; simp
    · intro x hx hxv
      rw [join_single, if_pos (Finset.mem_erase.mpr ⟨Ne.symm hxv, hv⟩)]
    · exact fun h => absurd hv h
  · rw [if_neg hv, bdry_single, Finset.sum_insert hv, Finset.erase_insert hv, add_assoc]
    have e0 : (insert v A).filter (fun y => r y < r v) = ∅ := by
      rw [Finset.filter_eq_empty_iff]
      intro y hy h
      rcases Finset.mem_insert.mp hy with rfl | hyA
      · exact lt_irrefl _ h
      · exact lt_asymm h (hmin y hyA (fun e => hv (e ▸ hyA)))
    rw [e0, Finset.card_empty, pow_zero, ← Finset.sum_add_distrib, Finset.sum_eq_zero, add_zero]
    intro x hx
    have hxv : x ≠ v := fun h => hv (h ▸ hx)
    rw [join_single, if_neg (fun h => hv (Finset.mem_of_mem_erase h)), Finset.erase_insert_of_ne (Ne.symm hxv), ← Finsupp.single_add,
      Finset.filter_insert, if_pos (hmin x hx hxv), Finset.card_insert_of_notMem (fun h => hv (Finset.mem_filter.mp h).1), pow_succ]
    simp

theorem join_bdry {v : T} {z : Finset T →₀ ℤ} (hz : z ∈ Finsupp.supported ℤ ℤ {A : Finset T | ∀ x ∈ A, x ≠ v → r v < r x}) :
    bdry r (join v z) + join v (bdry r z) = z := by
  have : Finsupp.supported ℤ ℤ {A : Finset T | ∀ x ∈ A, x ≠ v → r v < r x} ≤
      LinearMap.eqLocus ((bdry r).comp (join v) + (join v).comp (bdry r)) LinearMap.id := by
    rw [Finsupp.supported_eq_span_single, Submodule.span_le]
    rintro _ ⟨A, h1, rfl⟩
    exact join_bdry_single h1
  exact this hz

theorem chains_min {v : T} (hmin : ∀ A, K A → ∀ x ∈ A, x ≠ v → r v < r x) (i : Nat) :
    Chains K i ≤ Finsupp.supported ℤ ℤ {A : Finset T | ∀ x ∈ A, x ≠ v → r v < r x} :=
  Finsupp.supported_mono (fun A hA => hmin A hA.1)

/-- a boundary has no boundary -/
theorem bdry_bdry_single : ∀ (n : Nat) {A : Finset T}, A.card = n → (∀ x ∈ A, ∀ y ∈ A, r x = r y → x = y) → bdry r (bdry r (Finsupp.single A 1)) = 0
  | 0, A, hA, _ => by rw [Finset.card_eq_zero.mp hA, bdry_single]; simp
  | n + 1, A, hA, hr => by
    obtain ⟨v, hv, hm⟩ := Finset.exists_min_image A r (Finset.card_pos.mp (by omega))
    have hmin : ∀ x ∈ A, x ≠ v → r v < r x := fun x hx hxv => lt_of_le_of_ne (hm x hx) (fun e => hxv (hr v hv x hx e).symm)
    have hj : Finsupp.single A (1 : ℤ) = join v (Finsupp.single (A.erase v) 1) := by
      rw [join_single, if_neg (by simp), Finset.insert_erase hv]
    have ih := bdry_bdry_single n (A := A.erase v) (by rw [Finset.card_erase_of_mem hv, hA]; rfl)
      (fun x hx y hy => hr x (Finset.mem_of_mem_erase hx) y (Finset.mem_of_mem_erase hy))
    have h1 := join_bdry_single (r := r) (v := v) (A := A.erase v) (fun x hx => hmin x (Finset.mem_of_mem_erase hx))
    have h2 := join_bdry (r := r) (v := v) (z := bdry r (Finsupp.single (A.erase v) 1)) (by
      rw [bdry_single]
      refine Submodule.sum_mem _ (fun x hx => Finsupp.single_mem_supported ℤ _ ?_)
      intro y hy
      exact hmin y (Finset.mem_of_mem_erase (Finset.mem_of_mem_erase hy)))
    rw [ih, map_zero, add_zero] at h2
    rw [hj, eq_sub_of_add_eq h1, map_sub, h2, sub_self]

/-- the homology in positive dimensions is trivial where simplices can be joined with a vertex -/
theorem cone_trivial {v : T} (hmin : ∀ A, K A → ∀ x ∈ A, x ≠ v → r v < r x) {i : Nat} (hi : 0 < i) (hv : ∀ A, K A → A.card = i + 1 → v ∉ A → K (insert v A)) :
    Subsingleton (SimpHom K r i) := by
  have : Cycles K r i ≤ Bounds K r i := by
    intro z hz
    obtain ⟨h1, h2⟩ := Submodule.mem_inf.mp hz
    rw [if_neg (by omega), LinearMap.mem_ker] at h2
    have := join_bdry (chains_min hmin i h1)
    rw [h2, map_zero, add_zero] at this
    rw [← this]
    exact Submodule.mem_map_of_mem (join_mem hv h1)
  refine Submodule.Quotient.subsingleton_iff.mpr ?_
  ext z
  simp only [Submodule.mem_top, iff_true]
  exact this z.2

/-! ### the boundary of a simplex -/

/-- the proper faces of a simplex -/
def Sphere (S : Finset T) (A : Finset T) : Prop := A.Nonempty ∧ A ⊂ S

/-- the homology in the top dimension of the boundary of a simplex -/
theorem sphere_top {S : Finset T} (hr : ∀ x ∈ S, ∀ y ∈ S, r x = r y → x = y) {n : Nat} (hn : 0 < n) (hc : S.card = n + 2) :
    Nonempty (SimpHom (Sphere S) r n ≃+ ℤ) := by
  obtain ⟨v, hv, hm⟩ := Finset.exists_min_image S r (Finset.card_pos.mp (by omega))
  have hmin : ∀ x ∈ S, x ≠ v → r v < r x := fun x hx hxv => lt_of_le_of_ne (hm x hx) (fun e => hxv (hr v hv x hx e).symm)
  have hS : bdry r (Finsupp.single S 1) ∈ Cycles (Sphere S) r n := by
    rw [Cycles, if_neg (by omega), Submodule.mem_inf, LinearMap.mem_ker]
    refine ⟨?_, bdry_bdry_single _ rfl hr⟩
    rw [bdry_single]
    refine Submodule.sum_mem _ (fun x hx => ?_)
    have hcx : (S.erase x).card = n + 1 := by rw [Finset.card_erase_of_mem hx, hc]; rfl
    exact single_mem ⟨Finset.card_pos.mp (by omega), Finset.erase_ssubset hx⟩ hcx _
  have hco : bdry r (Finsupp.single S 1) (S.erase v) = 1 := by
    rw [bdry_single, Finsupp.finsetSum_apply, Finset.sum_eq_single v]
    · have : S.filter (fun y => r y < r v) = ∅ := by
        rw [Finset.filter_eq_empty_iff]
        intro y hy h
        rcases eq_or_ne y v with rfl | hyv
        · exact lt_irrefl _ h
        · exact lt_asymm h (hmin y hy hyv)
      rw [this]; simp
    · intro x hx hxv
      rw [Finsupp.single_apply, if_neg]
      intro e
      have : v ∈ S.erase v := by rw [← e]; exact Finset.mem_erase.mpr ⟨Ne.symm hxv, hv⟩
      simp at this
    · exact fun h => absurd hv h
  have hB : Bounds (Sphere S) r n = ⊥ := by
    have : Chains (Sphere S) (n + 1) = ⊥ := by
      rw [eq_bot_iff]
      refine chains_le (fun A hA hcA => ?_)
      have := Finset.card_lt_card hA.2
      omega
    rw [Bounds, this, Submodule.map_bot]
  have hall : ∀ z ∈ Cycles (Sphere S) r n, ∃ c : ℤ, z = c • bdry r (Finsupp.single S 1) := by
    intro z hz
    obtain ⟨h1, h2⟩ := Submodule.mem_inf.mp hz
    rw [if_neg (by omega), LinearMap.mem_ker] at h2
    have h3 := join_bdry (chains_min (fun A hA x hx => hmin x (hA.2.subset hx)) n h1)
    rw [h2, map_zero, add_zero] at h3
    have h4 := join_mem (v := v) (K' := fun A => A ⊆ S) (fun A hA _ _ => Finset.insert_subset hv hA.2.subset) h1
    have h5 : Chains (fun A => A ⊆ S) (n + 1) ≤ Submodule.span ℤ {Finsupp.single S (1 : ℤ)} := by
      refine chains_le (fun A hA hcA => ?_)
      rw [Finset.eq_of_subset_of_card_le hA (by omega)]
      exact Submodule.mem_span_singleton_self _
    obtain ⟨c, e⟩ := Submodule.mem_span_singleton.mp (h5 h4)
    refine ⟨c, ?_⟩
    rw [← map_smul, e, h3]
  let g : ℤ →ₗ[ℤ] SimpHom (Sphere S) r n := (Submodule.mkQ _).comp (LinearMap.toSpanSingleton ℤ _ ⟨bdry r (Finsupp.single S 1), hS⟩)
  have hinj : Function.Injective g := by
    rw [injective_iff_map_eq_zero]
    intro c e
    have : c • (⟨bdry r (Finsupp.single S 1), hS⟩ : Cycles (Sphere S) r n) ∈ (Bounds (Sphere S) r n).submoduleOf (Cycles (Sphere S) r n) :=
      (Submodule.Quotient.mk_eq_zero _).mp e
    have h0 : c • bdry r (Finsupp.single S 1) ∈ Bounds (Sphere S) r n := this
    rw [hB, Submodule.mem_bot] at h0
    have := congrArg (fun f => f (S.erase v)) h0
    simpa [hco] using this
  have hsurj : Function.Surjective g := by
    intro q
    obtain ⟨⟨z, hz⟩, rfl⟩ := Submodule.Quotient.mk_surjective _ q
    obtain ⟨c, rfl⟩ := hall z hz
    exact ⟨c, rfl⟩
  exact ⟨(LinearEquiv.ofBijective g ⟨hinj, hsurj⟩).symm.toAddEquiv⟩

end Toppo.Simp
