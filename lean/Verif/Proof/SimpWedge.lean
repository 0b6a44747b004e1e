import Verif.Proof.SimpSum
set_option linter.unusedVariables false
/-!
# Reduced homology, one-point unions and suspensions of abstract complexes
-/
namespace Toppo.Simp
open Toppo
variable {T : Type} [DecidableEq T] {K K1 K2 : Finset T → Prop} {r : T → ℤ}

/-- cycles of the complex with the empty simplex: in dimension zero the sum of the coefficients is zero -/
noncomputable def RedCycles (K : Finset T → Prop) (r : T → ℤ) (i : Nat) : Submodule ℤ (Finset T →₀ ℤ) := Chains K i ⊓ LinearMap.ker (bdry r)

/-- the reduced homology -/
abbrev RedHom (K : Finset T → Prop) (r : T → ℤ) (i : Nat) : Type := RedCycles K r i ⧸ (Bounds K r i).submoduleOf (RedCycles K r i)

theorem red_pos {i : Nat} (hi : 0 < i) : Nonempty (SimpHom K r i ≃+ RedHom K r i) := by
  have : Cycles K r i = RedCycles K r i := by unfold Cycles RedCycles; rw [if_neg (by omega)]
  unfold SimpHom RedHom
  rw [this]
  exact ⟨AddEquiv.refl _⟩

theorem bdry_vertex (r : T → ℤ) (x : T) : bdry r (Finsupp.single {x} 1) = Finsupp.single ∅ 1 := by
  rw [bdry_single, Finset.sum_singleton, Finset.filter_singleton, if_neg (lt_irrefl _)]
  simp

/-- a chain of dimension zero has as boundary a multiple of the empty simplex -/
theorem bdry_zero {z : Finset T →₀ ℤ} (hz : z ∈ Chains K 0) : ∃ c : ℤ, bdry r z = c • Finsupp.single ∅ 1 := by
  have : Chains K 0 ≤ (Submodule.span ℤ {Finsupp.single (∅ : Finset T) (1 : ℤ)}).comap (bdry r) := by
    refine chains_le (fun A hA hc => ?_)
    obtain ⟨x, rfl⟩ := Finset.card_eq_one.mp hc
    rw [Submodule.mem_comap, bdry_vertex]
    exact Submodule.mem_span_singleton_self _
  obtain ⟨c, hc⟩ := Submodule.mem_span_singleton.mp (this hz)
  exact ⟨c, hc.symm⟩

theorem bdry_bdry (hr : ∀ A, K A → ∀ x ∈ A, ∀ y ∈ A, r x = r y → x = y) {i : Nat} {z : Finset T →₀ ℤ} (hz : z ∈ Chains K i) : bdry r (bdry r z) = 0 := by
  have : Chains K i ≤ LinearMap.ker ((bdry r).comp (bdry r)) :=
    chains_le (fun A hA hc => LinearMap.mem_ker.mpr (bdry_bdry_single _ rfl (hr A hA)))
  exact LinearMap.mem_ker.mp (this hz)

theorem bounds_red (hcl : ∀ A B, K A → B ⊆ A → B.Nonempty → K B) (hr : ∀ A, K A → ∀ x ∈ A, ∀ y ∈ A, r x = r y → x = y) (i : Nat) :
    Bounds K r i ≤ RedCycles K r i := by
  refine le_inf (bdry_chains hcl i) ?_
  rintro _ ⟨z, hz, rfl⟩
  exact LinearMap.mem_ker.mpr (bdry_bdry hr hz)

theorem quot_span {V : Type} [AddCommGroup V] (s : V) (h : ∀ c : ℤ, c • s = 0 → c = 0) :
    Nonempty ((Submodule.span ℤ {s} ⧸ (⊥ : Submodule ℤ V).submoduleOf (Submodule.span ℤ {s})) ≃+ ℤ) := by
  let f : ℤ →ₗ[ℤ] Submodule.span ℤ {s} ⧸ (⊥ : Submodule ℤ V).submoduleOf (Submodule.span ℤ {s}) :=
    (Submodule.mkQ _).comp (LinearMap.toSpanSingleton ℤ _ ⟨s, Submodule.mem_span_singleton_self _⟩)
  have hinj : Function.Injective f := by
    rw [injective_iff_map_eq_zero]
    intro c e
    have : c • (⟨s, Submodule.mem_span_singleton_self _⟩ : Submodule.span ℤ {s}) ∈ (⊥ : Submodule ℤ V).submoduleOf (Submodule.span ℤ {s}) :=
      (Submodule.Quotient.mk_eq_zero _).mp e
    have h0 : c • s ∈ (⊥ : Submodule ℤ V) := this
    exact h c ((Submodule.mem_bot _).mp h0)
  have hsurj : Function.Surjective f := by
    intro q
    obtain ⟨⟨z, hz⟩, rfl⟩ := Submodule.Quotient.mk_surjective _ q
    obtain ⟨c, rfl⟩ := Submodule.mem_span_singleton.mp hz
    exact ⟨c, rfl⟩
  exact ⟨(LinearEquiv.ofBijective f ⟨hinj, hsurj⟩).symm.toAddEquiv⟩

theorem quot_line {V : Type} [AddCommGroup V] (s : V) (h : ∀ c : ℤ, c • s = 0 → c = 0) {Z Z1 B : Submodule ℤ V} (hB : B ≤ Z1)
    (h1 : Z1 ⊓ Submodule.span ℤ {s} = ⊥) (h2 : Z = Z1 ⊔ Submodule.span ℤ {s}) : Nonempty ((Z ⧸ B.submoduleOf Z) ≃+ (Z1 ⧸ B.submoduleOf Z1) × ℤ) := by
  obtain ⟨e⟩ := quot_sum (B1 := B) (B2 := ⊥) le_rfl le_rfl hB bot_le h1 h2 (sup_bot_eq B).symm
  obtain ⟨e'⟩ := quot_span s h
  exact ⟨e.trans (AddEquiv.prodCongr (AddEquiv.refl _) e')⟩

/-- the homology in dimension zero has one more generator than the reduced homology -/
theorem red_zero (hcl : ∀ A B, K A → B ⊆ A → B.Nonempty → K B) (hr : ∀ A, K A → ∀ x ∈ A, ∀ y ∈ A, r x = r y → x = y) {v : T} (hv : K {v}) :
    Nonempty (SimpHom K r 0 ≃+ RedHom K r 0 × ℤ) := by
  have hs : Finsupp.single {v} (1 : ℤ) ∈ Chains K 0 := single_mem hv (by simp) 1
  have hne : ∀ c : ℤ, bdry r (c • Finsupp.single {v} 1) = 0 → c = 0 := by
    intro c h
    rw [map_smul, bdry_vertex] at h
    have := congrArg (fun f => f ∅) h
    simpa using this
  refine quot_line (Finsupp.single {v} (1 : ℤ)) (fun c h => ?_) (bounds_red hcl hr 0) ?_ ?_
  · have := congrArg (fun f => f {v}) h
    simpa using this
  · rw [eq_bot_iff]
    rintro z ⟨⟨-, h2⟩, h3⟩
    obtain ⟨c, rfl⟩ := Submodule.mem_span_singleton.mp h3
    have := hne c (LinearMap.mem_ker.mp h2)
    rw [this, zero_smul]
    exact Submodule.zero_mem _
  · apply le_antisymm
    · rintro z ⟨hz, -⟩
      obtain ⟨c, hc⟩ := bdry_zero (r := r) hz
      have : z = (z - c • Finsupp.single {v} 1) + c • Finsupp.single {v} 1 := by abel
      rw [this]
      refine Submodule.add_mem_sup ⟨Submodule.sub_mem _ hz (Submodule.smul_mem _ _ hs), ?_⟩ (Submodule.smul_mem _ _ (Submodule.mem_span_singleton_self _))
      refine LinearMap.mem_ker.mpr ?_
      rw [map_sub, map_smul, bdry_vertex, hc, sub_self]
    · refine sup_le (fun z hz => ⟨hz.1, by simp⟩) ?_
      rw [Submodule.span_singleton_le_iff_mem]
      exact ⟨hs, by simp⟩

/-! ### one-point unions -/

/-- chains of both parts that are cycles are zero -/
theorem wedge_disjoint {v : T} (h12 : ∀ A, K1 A → K2 A → A = {v}) (i : Nat) {z : Finset T →₀ ℤ} (h1 : z ∈ Chains K1 i) (h2 : z ∈ Chains K2 i) (h3 : bdry r z = 0) :
    z = 0 := by
  have hz : z ∈ Finsupp.supported ℤ ℤ ({A : Finset T | A = {v}}) := by
    refine (Finsupp.mem_supported' _ _).mpr (fun A hA => ?_)
    by_cases a1 : K1 A ∧ A.card = i + 1
    · by_cases a2 : K2 A ∧ A.card = i + 1
      · exact absurd (h12 A a1.1 a2.1) hA
      · exact (Finsupp.mem_supported' _ _).mp h2 A a2
    · exact (Finsupp.mem_supported' _ _).mp h1 A a1
  have hz' : z = Finsupp.single {v} (z {v}) := by
    ext A
    by_cases e : A = {v}
    · rw [e, Finsupp.single_eq_same]
    · rw [Finsupp.single_eq_of_ne e]
      exact (Finsupp.mem_supported' _ _).mp hz A e
  have e : z = z {v} • Finsupp.single {v} 1 := by rw [hz']; simp
  rw [e, map_smul, bdry_vertex] at h3
  have := congrArg (fun f => f ∅) h3
  have hc : z {v} = 0 := by simpa using this
  rw [hz', hc, Finsupp.single_zero]

/-- the reduced homology of a one-point union -/
theorem wedge_sum {v : T} (hK : ∀ A, K A ↔ K1 A ∨ K2 A) (v1 : K1 {v}) (v2 : K2 {v}) (h12 : ∀ A, K1 A → K2 A → A = {v})
    (c1 : ∀ A B, K1 A → B ⊆ A → B.Nonempty → K1 B) (c2 : ∀ A B, K2 A → B ⊆ A → B.Nonempty → K2 B)
    (hr : ∀ A, K A → ∀ x ∈ A, ∀ y ∈ A, r x = r y → x = y) (i : Nat) : Nonempty (RedHom K r i ≃+ RedHom K1 r i × RedHom K2 r i) := by
  have hr1 : ∀ A, K1 A → ∀ x ∈ A, ∀ y ∈ A, r x = r y → x = y := fun A hA => hr A ((hK A).mpr (Or.inl hA))
  have hr2 : ∀ A, K2 A → ∀ x ∈ A, ∀ y ∈ A, r x = r y → x = y := fun A hA => hr A ((hK A).mpr (Or.inr hA))
  refine quot_sum (C1 := RedCycles K1 r i) (C2 := RedCycles K2 r i) le_rfl le_rfl (bounds_red c1 hr1 i) (bounds_red c2 hr2 i) ?_ ?_ ?_
  · rw [eq_bot_iff]
    rintro z ⟨⟨h1, h3⟩, ⟨h2, -⟩⟩
    exact wedge_disjoint h12 i h1 h2 (LinearMap.mem_ker.mp h3)
  · apply le_antisymm
    · rintro z ⟨hz, hz'⟩
      rw [chains_sup hK] at hz
      obtain ⟨a, ha, b, hb, rfl⟩ := Submodule.mem_sup.mp hz
      have e : bdry r a = -bdry r b := by
        have := LinearMap.mem_ker.mp hz'
        rw [map_add] at this
        exact eq_neg_of_add_eq_zero_left this
      rcases i with _ | i
      · obtain ⟨c, hc⟩ := bdry_zero (r := r) ha
        have hs1 : c • Finsupp.single {v} (1 : ℤ) ∈ Chains K1 0 := Submodule.smul_mem _ _ (single_mem v1 (by simp) 1)
        have hs2 : c • Finsupp.single {v} (1 : ℤ) ∈ Chains K2 0 := Submodule.smul_mem _ _ (single_mem v2 (by simp) 1)
        have : a + b = (a - c • Finsupp.single {v} 1) + (b + c • Finsupp.single {v} 1) := by abel
        rw [this]
        refine Submodule.add_mem_sup ⟨Submodule.sub_mem _ ha hs1, LinearMap.mem_ker.mpr ?_⟩ ⟨Submodule.add_mem _ hb hs2, LinearMap.mem_ker.mpr ?_⟩
        · rw [map_sub, map_smul, bdry_vertex, hc, sub_self]
        · rw [map_add, map_smul, bdry_vertex, ← hc, e, add_neg_cancel]
      · have h1 : bdry r a ∈ Chains K1 i := bdry_chains c1 i ⟨a, ha, rfl⟩
        have h2 : bdry r b ∈ Chains K2 i := bdry_chains c2 i ⟨b, hb, rfl⟩
        have h3 : bdry r a = 0 := wedge_disjoint h12 i h1 (by rw [e]; exact Submodule.neg_mem _ h2) (bdry_bdry hr1 ha)
        refine Submodule.add_mem_sup ⟨ha, LinearMap.mem_ker.mpr h3⟩ ⟨hb, LinearMap.mem_ker.mpr ?_⟩
        rw [h3] at e
        exact neg_eq_zero.mp e.symm
    · refine sup_le ?_ ?_
      · exact inf_le_inf_right _ (by rw [chains_sup hK]; exact le_sup_left)
      · exact inf_le_inf_right _ (by rw [chains_sup hK]; exact le_sup_right)
  · unfold Bounds
    rw [chains_sup hK, Submodule.map_sup]

/-! ### suspensions -/

/-- the faces opposite to `p` of the simplices that contain `p` -/
noncomputable def link (p : T) : (Finset T →₀ ℤ) →ₗ[ℤ] (Finset T →₀ ℤ) :=
  Finsupp.linearCombination ℤ (fun A => if p ∈ A then Finsupp.single (A.erase p) 1 else 0)

theorem link_single (p : T) (A : Finset T) (c : ℤ) : link p (Finsupp.single A c) = if p ∈ A then Finsupp.single (A.erase p) c else 0 := by
  unfold link
  rw [Finsupp.linearCombination_single]
  split_ifs <;> simp

/-- a chain without `p` -/
theorem link_none {p : T} {i : Nat} (h : ∀ A, K A → p ∉ A) {z} (hz : z ∈ Chains K i) : link p z = 0 := by
  have : Chains K i ≤ LinearMap.ker (link p) := chains_le (fun A hA hc => LinearMap.mem_ker.mpr (by rw [link_single, if_neg (h A hA)]))
  exact LinearMap.mem_ker.mp (this hz)

theorem link_mem {p : T} {K' : Finset T → Prop} {i : Nat} (h : ∀ A, K A → A.card = i + 2 → p ∈ A → K' (A.erase p)) {z} (hz : z ∈ Chains K (i + 1)) : link p z ∈ Chains K' i := by
  have : Chains K (i + 1) ≤ (Chains K' i).comap (link p) := by
    refine chains_le (fun A hA hc => ?_)
    rw [Submodule.mem_comap, link_single]
    split_ifs with hp
    · exact single_mem (h A hA hc hp) (by rw [Finset.card_erase_of_mem hp, hc]; rfl) 1
    · exact zero_mem _
  exact this hz

/-- a chain with no simplex that contains `p` -/
theorem link_zero {p : T} {K' : Finset T → Prop} {i : Nat} (h : ∀ A, K A → A.card = i + 1 → p ∉ A → K' A) {z} (hz : z ∈ Chains K i) (h0 : link p z = 0) : z ∈ Chains K' i := by
  have key : ∀ z : Finset T →₀ ℤ, ∀ A, p ∈ A → link p z (A.erase p) = z A := by
    intro z A hp
    induction z using Finsupp.induction_linear with
    | zero => simp
    | add a b ha hb => rw [map_add, Finsupp.add_apply, Finsupp.add_apply, ha, hb]
    | single B c =>
      rw [link_single]
      by_cases hB : p ∈ B
      · rw [if_pos hB]
        by_cases e : A = B
        · rw [e]; simp
        · rw [Finsupp.single_eq_of_ne e, Finsupp.single_eq_of_ne]
          intro e'
          apply e
          rw [← Finset.insert_erase hp, ← Finset.insert_erase hB, e']
      · rw [if_neg hB, Finsupp.single_eq_of_ne (fun e : A = B => hB (e ▸ hp))]; rfl
  refine (Finsupp.mem_supported' _ _).mpr (fun A hA => ?_)
  by_cases hp : p ∈ A
  · rw [← key z A hp, h0]; rfl
  · by_cases hk : K A ∧ A.card = i + 1
    · exact absurd ⟨h A hk.1 hk.2 hp, hk.2⟩ hA
    · exact (Finsupp.mem_supported' _ _).mp hz A hk

theorem link_join {p : T} {i : Nat} (h : ∀ A, K A → p ∉ A) {z} (hz : z ∈ Chains K i) : link p (join p z) = z := by
  have : Chains K i ≤ LinearMap.eqLocus ((link p).comp (join p)) LinearMap.id := by
    refine chains_le (fun A hA hc => ?_)
    show link p (join p (Finsupp.single A 1)) = Finsupp.single A 1
    rw [join_single, if_neg (h A hA), link_single, if_pos (Finset.mem_insert_self _ _), Finset.erase_insert (h A hA)]
  exact this hz

theorem link_join_other {p q : T} (hpq : p ≠ q) {i : Nat} (h : ∀ A, K A → p ∉ A) {z} (hz : z ∈ Chains K i) : link p (join q z) = 0 := by
  have : Chains K i ≤ LinearMap.ker ((link p).comp (join q)) := by
    refine chains_le (fun A hA hc => LinearMap.mem_ker.mpr ?_)
    show link p (join q (Finsupp.single A 1)) = 0
    rw [join_single]
    split_ifs
    · exact map_zero _
    · rw [link_single, if_neg]
      rw [Finset.mem_insert]
      rintro (e | e)
      · exact hpq e
      · exact h A hA e
  exact LinearMap.mem_ker.mp (this hz)

/-- the link of the first vertex anticommutes with the boundary -/
theorem link_bdry {p : T} (hmin : ∀ A, K A → ∀ x ∈ A, x ≠ p → r p < r x) {i : Nat} {z} (hz : z ∈ Chains K i) : link p (bdry r z) = - bdry r (link p z) := by
  have : Chains K i ≤ LinearMap.eqLocus ((link p).comp (bdry r)) (-(bdry r).comp (link p)) := by
    refine chains_le (fun A hA hc => ?_)
    show link p (bdry r (Finsupp.single A 1)) = -(bdry r (link p (Finsupp.single A 1)))
    rw [link_single, bdry_single, map_sum]
    split_ifs with hp
    · have hA' : A = insert p (A.erase p) := (Finset.insert_erase hp).symm
      have hj := join_bdry_single (r := r) (v := p) (A := A.erase p) (fun x hx hne => hmin A hA x (Finset.mem_of_mem_erase hx) hne)
      rw [join_single, if_neg (by simp), Finset.insert_erase hp] at hj
      have h1 : bdry r (Finsupp.single A 1) = Finsupp.single (A.erase p) 1 - join p (bdry r (Finsupp.single (A.erase p) 1)) := eq_sub_of_add_eq hj
      rw [← map_sum, ← bdry_single, h1, map_sub, link_single, if_neg (by simp), zero_sub, bdry_single]
      congr 1
      rw [map_sum, map_sum]
      refine Finset.sum_congr rfl (fun x hx => ?_)
      rw [join_single, if_neg (by simp), link_single, if_pos (Finset.mem_insert_self _ _), Finset.erase_insert (by simp)]
    · rw [map_zero, neg_zero]
      refine Finset.sum_eq_zero (fun x hx => ?_)
      rw [link_single, if_neg (fun h => hp (Finset.mem_of_mem_erase h))]
  exact this hz

/-- `S` is the suspension of `K` with the apexes `p` and `q`: every simplex of `K`, extended by `p`, by `q` or by nothing, and the two apexes -/
structure Suspension (K S : Finset T → Prop) (p q : T) : Prop where
  ne : p ≠ q
  notp : ∀ A, K A → p ∉ A
  notq : ∀ A, K A → q ∉ A
  nonempty : ∀ A, K A → A.Nonempty
  simplices : ∀ A, S A ↔ K A ∨ (∃ B, (K B ∨ B = ∅) ∧ (A = insert p B ∨ A = insert q B))

theorem Suspension.hom {S : Finset T → Prop} {p q : T} (h : Suspension K S p q) (hcl : ∀ A B, K A → B ⊆ A → B.Nonempty → K B)
    (hr : ∀ A, K A → ∀ x ∈ A, ∀ y ∈ A, r x = r y → x = y) (hpq : r p < r q) (hmin : ∀ A, K A → ∀ x ∈ A, r q < r x) (i : Nat) :
    Nonempty (SimpHom S r (i + 1) ≃+ RedHom K r i) := by
  have hpm : ∀ A, S A → ∀ x ∈ A, x ≠ p → r p < r x := by
    intro A hA x hx hne
    have base : ∀ B, (K B ∨ B = ∅) → x ∈ B → r p < r x := by
      rintro B (hB | rfl) hx
      · exact hpq.trans (hmin B hB x hx)
      · simp at hx
    rcases (h.simplices A).mp hA with hA | ⟨B, hB, rfl | rfl⟩
    · exact base A (Or.inl hA) hx
    · rcases Finset.mem_insert.mp hx with e | hx
      · exact absurd e hne
      · exact base B hB hx
    · rcases Finset.mem_insert.mp hx with e | hx
      · rw [e]; exact hpq
      · exact base B hB hx
  have hSr : ∀ A, S A → ∀ x ∈ A, ∀ y ∈ A, r x = r y → x = y := by
    have one : ∀ (B : Finset T) (u : T), (K B ∨ B = ∅) → (∀ x ∈ B, r u < r x) → ∀ x ∈ insert u B, ∀ y ∈ insert u B, r x = r y → x = y := by
      intro B u hB hu x hx y hy e
      rcases Finset.mem_insert.mp hx with ex | hx <;> rcases Finset.mem_insert.mp hy with ey | hy
      · rw [ex, ey]
      · rw [ex] at e; exact absurd e (hu y hy).ne
      · rw [ey] at e; exact absurd e (hu x hx).ne'
      · rcases hB with hB | rfl
        · exact hr B hB x hx y hy e
        · simp at hx
    intro A hA
    rcases (h.simplices A).mp hA with hA | ⟨B, hB, rfl | rfl⟩
    · exact hr A hA
    · refine one B p hB (fun x hx => ?_)
      rcases hB with hB | rfl
      · exact hpq.trans (hmin B hB x hx)
      · simp at hx
    · refine one B q hB (fun x hx => ?_)
      rcases hB with hB | rfl
      · exact hmin B hB x hx
      · simp at hx
  have hKS : ∀ A, K A → S A := fun A hA => (h.simplices A).mpr (Or.inl hA)
  have hle : ∀ j, Chains K j ≤ Chains S j := fun j => Finsupp.supported_mono (fun A hA => ⟨hKS A hA.1, hA.2⟩)
  have hlk : ∀ j, ∀ A, S A → A.card = j + 2 → p ∈ A → K (A.erase p) := by
    intro j A hA hc hp
    rcases (h.simplices A).mp hA with hA | ⟨B, hB, rfl | rfl⟩
    · exact absurd hp (h.notp A hA)
    · have hB' : p ∉ B := by
        rcases hB with hB | rfl
        · exact h.notp B hB
        · simp
      rw [Finset.erase_insert hB']
      rcases hB with hB | rfl
      · exact hB
      · simp at hc
    · rcases Finset.mem_insert.mp hp with e | hp
      · exact absurd e h.ne
      · rcases hB with hB | rfl
        · exact absurd hp (h.notp B hB)
        · simp at hp
  have hjp : ∀ {j z}, z ∈ Chains K j → join p z ∈ Chains S (j + 1) := fun hz =>
    join_mem (fun A hA _ _ => (h.simplices _).mpr (Or.inr ⟨A, Or.inl hA, Or.inl rfl⟩)) hz
  have hjq : ∀ {j z}, z ∈ Chains K j → join q z ∈ Chains S (j + 1) := fun hz =>
    join_mem (fun A hA _ _ => (h.simplices _).mpr (Or.inr ⟨A, Or.inl hA, Or.inr rfl⟩)) hz
  have hbp : ∀ {j z}, z ∈ Chains K j → bdry r (join p z) + join p (bdry r z) = z := fun hz =>
    join_bdry (chains_min (fun A hA x hx _ => hpq.trans (hmin A hA x hx)) _ hz)
  have hbq : ∀ {j z}, z ∈ Chains K j → bdry r (join q z) + join q (bdry r z) = z := fun hz =>
    join_bdry (chains_min (fun A hA x hx _ => hmin A hA x hx) _ hz)
  have hcyc : ∀ z ∈ Cycles S r (i + 1), link p z ∈ RedCycles K r i := by
    rintro z ⟨h1, h2⟩
    rw [if_neg (by omega)] at h2
    refine ⟨link_mem (hlk i) h1, LinearMap.mem_ker.mpr ?_⟩
    have := link_bdry (r := r) hpm h1
    rw [LinearMap.mem_ker.mp h2, map_zero] at this
    exact neg_eq_zero.mp this.symm
  let f := ((Bounds K r i).submoduleOf (RedCycles K r i)).mkQ.comp ((link p).restrict hcyc)
  have hf : Function.Surjective f := by
    refine (Submodule.mkQ_surjective _).comp ?_
    rintro ⟨w, hw1, hw2⟩
    have e : link p (join p w - join q w) = w := by rw [map_sub, link_join h.notp hw1, link_join_other h.ne h.notp hw1, sub_zero]
    refine ⟨⟨join p w - join q w, Submodule.sub_mem _ (hjp hw1) (hjq hw1), ?_⟩, Subtype.ext e⟩
    rw [if_neg (by omega)]
    refine LinearMap.mem_ker.mpr ?_
    have a := hbp hw1
    have b := hbq hw1
    rw [LinearMap.mem_ker.mp hw2, map_zero, add_zero] at a b
    rw [map_sub, a, b, sub_self]
  have hk : (Bounds S r (i + 1)).submoduleOf (Cycles S r (i + 1)) = LinearMap.ker f := by
    ext ⟨z, hz⟩
    have e1 : f ⟨z, hz⟩ = 0 ↔ link p z ∈ Bounds K r i := Submodule.Quotient.mk_eq_zero ((Bounds K r i).submoduleOf (RedCycles K r i))
    have e2 : (⟨z, hz⟩ : Cycles S r (i + 1)) ∈ (Bounds S r (i + 1)).submoduleOf (Cycles S r (i + 1)) ↔ z ∈ Bounds S r (i + 1) := Iff.rfl
    rw [LinearMap.mem_ker, e1, e2]
    constructor
    · rintro ⟨y, hy, rfl⟩
      rw [link_bdry (r := r) hpm hy]
      exact Submodule.neg_mem _ ⟨link p y, link_mem (hlk (i + 1)) hy, rfl⟩
    · rintro ⟨u, hu, e⟩
      have hz2 := hz.2
      rw [if_neg (by omega)] at hz2
      -- remove the simplices that contain `p`
      have hju := hjp hu
      have hdu : bdry r (join p u) ∈ Bounds S r (i + 1) := ⟨_, hju, rfl⟩
      have hduS : bdry r (join p u) ∈ Chains S (i + 1) := by
        have := hbp hu
        rw [← eq_sub_iff_add_eq] at this
        rw [this]
        refine Submodule.sub_mem _ (hle _ hu) (hjp (bdry_chains hcl i ⟨u, hu, rfl⟩))
      have hl : link p (z + bdry r (join p u)) = 0 := by
        rw [map_add, link_bdry (r := r) hpm hju, link_join h.notp hu, ← e]
        exact add_neg_cancel _
      have hm := Submodule.add_mem _ hz.1 hduS
      have hz' : z + bdry r (join p u) ∈ Chains (fun A => S A ∧ p ∉ A) (i + 1) := link_zero (K := S) (fun A hA _ hp => ⟨hA, hp⟩) hm hl
      have hb0 : bdry r (z + bdry r (join p u)) = 0 := by
        rw [map_add, LinearMap.mem_ker.mp hz2, zero_add, bdry_bdry hSr hju]
      have hq : bdry r (join q (z + bdry r (join p u))) = z + bdry r (join p u) := by
        have := join_bdry (r := r) (v := q) (chains_min (K := fun A => S A ∧ p ∉ A) (fun A hA x hx hne => ?_) _ hz')
        · rwa [hb0, map_zero, add_zero] at this
        · rcases (h.simplices A).mp hA.1 with hA' | ⟨B, hB, rfl | rfl⟩
          · exact hmin A hA' x hx
          · exact absurd (Finset.mem_insert_self _ _) hA.2
          · rcases Finset.mem_insert.mp hx with e | hx
            · exact absurd e hne
            · rcases hB with hB | rfl
              · exact hmin B hB x hx
              · simp at hx
      have hjz : join q (z + bdry r (join p u)) ∈ Chains S (i + 1 + 1) := by
        refine join_mem (K := fun A => S A ∧ p ∉ A) (fun A hA _ hqA => ?_) hz'
        rcases (h.simplices A).mp hA.1 with hA' | ⟨B, hB, rfl | rfl⟩
        · exact (h.simplices _).mpr (Or.inr ⟨A, Or.inl hA', Or.inr rfl⟩)
        · exact absurd (Finset.mem_insert_self _ _) hA.2
        · exact absurd (Finset.mem_insert_self _ _) hqA
      have : z = (z + bdry r (join p u)) - bdry r (join p u) := by abel
      rw [this]
      exact Submodule.sub_mem _ ⟨_, hjz, hq⟩ hdu
  exact ⟨((Submodule.quotEquivOfEq _ _ hk).trans (f.quotKerEquivOfSurjective hf)).toAddEquiv⟩

/-! ### the highest dimension -/

/-- where there are no simplices of the next dimension the homology has no torsion -/
theorem top_free {i : Nat} (h : ∀ A, K A → A.card ≠ i + 2) (n : ℤ) (hn : n ≠ 0) (x : SimpHom K r i) (hx : n • x = 0) : x = 0 := by
  obtain ⟨⟨z, hz⟩, rfl⟩ := Submodule.Quotient.mk_surjective _ x
  have hB : Bounds K r i = ⊥ := by
    have : Chains K (i + 1) = ⊥ := by
      rw [eq_bot_iff]
      exact chains_le (fun A hA hc => absurd hc (h A hA))
    rw [Bounds, this, Submodule.map_bot]
  have h1 : n • (⟨z, hz⟩ : Cycles K r i) ∈ (Bounds K r i).submoduleOf (Cycles K r i) := (Submodule.Quotient.mk_eq_zero _).mp hx
  have h2 : n • z ∈ Bounds K r i := h1
  rw [hB, Submodule.mem_bot, smul_eq_zero] at h2
  have h3 : z = 0 := h2.resolve_left hn
  subst h3
  exact (Submodule.Quotient.mk_eq_zero _).mpr (Submodule.zero_mem _)

end Toppo.Simp
