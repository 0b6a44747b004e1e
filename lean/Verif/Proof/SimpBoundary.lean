import Verif.Proof.SimpManifold
set_option linter.unusedVariables false
set_option linter.unusedSectionVars false
/-!
# Homology of pseudomanifolds with boundary (used by C149)
-/
namespace Toppo.Simp
open Toppo

section spec
variable {T : Type} [DecidableEq T]

/-- A pseudomanifold of dimension `n` with (nonempty) boundary: every simplex is a face of one of dimension `n`; every simplex of dimension `n - 1` is a face
of at most two simplices of dimension `n`, and some simplex of dimension `n - 1` is a face of only one; any two simplices of dimension `n` are joined by a sequence in which
consecutive ones have a face of dimension `n - 1` in common. -/
structure BoundedPseudomanifold (K : Finset T → Prop) (n : Nat) : Prop where
  pure : ∀ A, K A → ∃ C, Facet K n C ∧ A ⊆ C
  atMostTwo : ∀ B, K B → B.card = n → ∃ C D, ∀ E, Facet K n E → B ⊆ E → E = C ∨ E = D
  boundary : ∃ B C, K B ∧ B.card = n ∧ ∀ E, Facet K n E ∧ B ⊆ E ↔ E = C
  connected : ∀ C D, Facet K n C → Facet K n D → Relation.ReflTransGen (fun C D => Facet K n C ∧ Facet K n D ∧ (C ∩ D).card = n) C D

end spec

variable {T : Type} [DecidableEq T] {K : Finset T → Prop} {r : T → ℤ}

section
variable {k : Nat} (M : BoundedPseudomanifold K (k + 1)) (hcl : ∀ A B, K A → B ⊆ A → B.Nonempty → K B)

/-- the coefficient of a face that lies in no other facets than these two -/
theorem bdry_two {B : Finset T} {x y : T} (hx : x ∉ B) (hy : y ∉ B) (hxy : x ≠ y)
    (honly : ∀ E, Facet K (k + 1) E → B ⊆ E → E = insert x B ∨ E = insert y B) {f : Finset T →₀ ℤ} (hf : f ∈ Chains K (k + 1)) :
    bdry r f B = f (insert x B) * faceSign r (insert x B) x + f (insert y B) * faceSign r (insert y B) y := by
  have hne : insert x B ≠ insert y B := by
    intro e
    have : x ∈ insert y B := e ▸ Finset.mem_insert_self x B
    rcases Finset.mem_insert.mp this with h | h
    · exact hxy h
    · exact hx h
  let L : (Finset T →₀ ℤ) →ₗ[ℤ] ℤ := (Finsupp.lapply B).comp (bdry r)
  let R : (Finset T →₀ ℤ) →ₗ[ℤ] ℤ := faceSign r (insert x B) x • Finsupp.lapply (insert x B) + faceSign r (insert y B) y • Finsupp.lapply (insert y B)
  have key : Chains K (k + 1) ≤ LinearMap.eqLocus L R := by
    refine chains_le (fun A hA hc => ?_)
    rw [LinearMap.mem_eqLocus]
    show bdry r (Finsupp.single A 1) B = faceSign r (insert x B) x * (Finsupp.single A (1 : ℤ)) (insert x B) +
      faceSign r (insert y B) y * (Finsupp.single A (1 : ℤ)) (insert y B)
    by_cases hBA : B ⊆ A
    · rcases honly A ⟨hA, hc⟩ hBA with rfl | rfl
      · rw [coef_face r hx, Finsupp.single_eq_same, Finsupp.single_apply, if_neg hne]; ring
      · rw [coef_face r hy, Finsupp.single_eq_same, Finsupp.single_apply, if_neg (Ne.symm hne)]; ring
    · rw [coef_other r hBA, Finsupp.single_apply, Finsupp.single_apply, if_neg (by rintro rfl; exact hBA (Finset.subset_insert _ _)),
        if_neg (by rintro rfl; exact hBA (Finset.subset_insert _ _))]; ring
  have := key hf
  rw [LinearMap.mem_eqLocus] at this
  have e : bdry r f B = faceSign r (insert x B) x * f (insert x B) + faceSign r (insert y B) y * f (insert y B) := this
  rw [e]; ring

/-- the coefficient of a face that lies in one facet only -/
theorem bdry_one {B : Finset T} {x : T} (hx : x ∉ B) (honly : ∀ E, Facet K (k + 1) E → B ⊆ E → E = insert x B) {f : Finset T →₀ ℤ}
    (hf : f ∈ Chains K (k + 1)) : bdry r f B = f (insert x B) * faceSign r (insert x B) x := by
  let L : (Finset T →₀ ℤ) →ₗ[ℤ] ℤ := (Finsupp.lapply B).comp (bdry r)
  let R : (Finset T →₀ ℤ) →ₗ[ℤ] ℤ := faceSign r (insert x B) x • Finsupp.lapply (insert x B)
  have key : Chains K (k + 1) ≤ LinearMap.eqLocus L R := by
    refine chains_le (fun A hA hc => ?_)
    rw [LinearMap.mem_eqLocus]
    show bdry r (Finsupp.single A 1) B = faceSign r (insert x B) x * (Finsupp.single A (1 : ℤ)) (insert x B)
    by_cases hBA : B ⊆ A
    · rw [honly A ⟨hA, hc⟩ hBA, coef_face r hx, Finsupp.single_eq_same]; ring
    · rw [coef_other r hBA, Finsupp.single_apply, if_neg (by rintro rfl; exact hBA (Finset.subset_insert _ _))]; ring
  have := key hf
  rw [LinearMap.mem_eqLocus] at this
  have e : bdry r f B = faceSign r (insert x B) x * f (insert x B) := this
  rw [e]; ring

include M hcl

/-- a chain of facets whose boundary is divisible by `m` is divisible by `m` -/
theorem bounded_cong {m : ℤ} {f : Finset T →₀ ℤ} (hf : f ∈ Chains K (k + 1)) (hm : ∀ B, m ∣ bdry r f B) (D : Finset T) : m ∣ f D := by
  by_cases hD : Facet K (k + 1) D
  swap
  · rw [chain_off hf hD]; exact dvd_zero _
  obtain ⟨B, C, hB, hc, hE⟩ := M.boundary
  obtain ⟨fC, bC⟩ := (hE C).mpr rfl
  have hC : m ∣ f C := by
    obtain ⟨x, hx, ex⟩ := Finset.exists_eq_insert_iff.mpr ⟨bC, by rw [hc, fC.2]⟩
    have := bdry_one (r := r) hx (fun E a b => ((hE E).mp ⟨a, b⟩).trans ex.symm) hf
    have hd := hm B
    rw [this, ex] at hd
    rcases faceSign_unit r C x with e1 | e1 <;> rw [e1] at hd
    · simpa using hd
    · simpa using hd
  have := M.connected C D fC hD
  clear hD
  induction this with
  | refl => exact hC
  | @tail P Q _ h ih =>
    obtain ⟨h1, h2, h3⟩ := h
    obtain ⟨x, y, hx, hy, hxy, eC, eD⟩ := neighbours h1 h2 h3
    obtain ⟨C', D', htwo⟩ := M.atMostTwo (P ∩ Q) (hcl _ _ h1.1 Finset.inter_subset_left (Finset.card_pos.mp (by omega))) h3
    have hne : P ≠ Q := by
      rintro rfl
      rw [Finset.inter_self, h1.2] at h3
      omega
    have := bdry_two (r := r) hx hy hxy (fun E a b => by
      rw [← eC, ← eD]
      have q1 := htwo E a b
      have q2 := htwo P h1 Finset.inter_subset_left
      have q3 := htwo Q h2 Finset.inter_subset_right
      rcases q1 with q1 | q1 <;> rcases q2 with q2 | q2 <;> rcases q3 with q3 | q3 <;>
        first | exact absurd (q2.trans q3.symm) hne | exact Or.inl (q1.trans q2.symm) | exact Or.inr (q1.trans q3.symm)) hf
    have hd := hm (P ∩ Q)
    rw [this, ← eC, ← eD] at hd
    have h4 := (Int.dvd_iff_dvd_of_dvd_add hd).mp (ih.mul_right _)
    rcases faceSign_unit r Q y with e2 | e2 <;> rw [e2] at h4
    · simpa using h4
    · simpa using h4

theorem bounded_top : Nonempty (SimpHom K r (k + 1) ≃+ (Fin 0 → ℤ)) := by
  have hs : Subsingleton (SimpHom K r (k + 1)) := by
    refine (Submodule.Quotient.subsingleton_iff.mpr ?_)
    ext ⟨z, hz⟩
    simp only [Submodule.mem_top, iff_true]
    obtain ⟨h1, h2⟩ := Submodule.mem_inf.mp hz
    rw [if_neg (by omega), LinearMap.mem_ker] at h2
    have : z = 0 := by
      ext A
      rw [Finsupp.zero_apply]
      exact zero_dvd_iff.mp (bounded_cong M hcl (m := 0) h1 (by rw [h2]; simp) A)
    subst this
    exact Submodule.zero_mem _
  exact ⟨⟨⟨fun _ => 0, fun _ => 0, fun _ => hs.elim _ _, fun _ => Subsingleton.elim _ _⟩, fun _ _ => Subsingleton.elim _ _⟩⟩

theorem bounded_torsion {m : ℤ} (hm : m ≠ 0) (x : SimpHom K r k) (hx : m • x = 0) : x = 0 := by
  obtain ⟨⟨z, hz⟩, rfl⟩ := Submodule.Quotient.mk_surjective _ x
  have h1 : m • (⟨z, hz⟩ : Cycles K r k) ∈ (Bounds K r k).submoduleOf (Cycles K r k) := (Submodule.Quotient.mk_eq_zero _).mp hx
  have h2 : m • z ∈ Bounds K r k := h1
  obtain ⟨f, hf, e⟩ := h2
  have hf : f ∈ Chains K (k + 1) := hf
  obtain ⟨h, hh, e2⟩ := div_chain hf (bounded_cong M hcl hf (m := m) (by
    intro B; rw [e, Finsupp.smul_apply, smul_eq_mul]; exact dvd_mul_right _ _))
  rw [e2, map_smul] at e
  refine (Submodule.Quotient.mk_eq_zero _).mpr ?_
  show z ∈ Bounds K r k
  exact ⟨h, hh, smul_inj hm e⟩

end
end Toppo.Simp
