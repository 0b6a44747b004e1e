import Mathlib.LinearAlgebra.Finsupp.LinearCombination
import Mathlib.LinearAlgebra.Finsupp.Supported
import Mathlib.LinearAlgebra.Quotient.Basic
import Mathlib.LinearAlgebra.Isomorphisms
import Mathlib.Algebra.Module.Submodule.Equiv
import Verif.Props.Simplicial
set_option linter.unusedVariables false
set_option linter.unusedSectionVars false
/-!
# Simplicial homology of an abstract complex

The definition (a small specification, used by C115-C118, C120, C121, C128-C130) and the comparison with matrices of boundary maps.
-/
namespace Toppo.Simp
open Toppo

/-! ### specification -/
section spec
variable {T : Type} [DecidableEq T]

/-- the boundary of a chain of simplices, the vertices of a simplex being ordered by `r`: the face opposite to the `p`-th vertex has the sign `(-1)^p` -/
noncomputable def bdry (r : T → ℤ) : (Finset T →₀ ℤ) →ₗ[ℤ] (Finset T →₀ ℤ) :=
  Finsupp.linearCombination ℤ (fun A => ∑ x ∈ A, Finsupp.single (A.erase x) ((-1) ^ (A.filter (fun y => r y < r x)).card))

/-- the chains of dimension `i`: integer combinations of the simplices with `i + 1` vertices of the complex `K` -/
noncomputable def Chains (K : Finset T → Prop) (i : Nat) : Submodule ℤ (Finset T →₀ ℤ) := Finsupp.supported ℤ ℤ {A | K A ∧ A.card = i + 1}

/-- the cycles: chains without boundary; in dimension 0 all chains -/
noncomputable def Cycles (K : Finset T → Prop) (r : T → ℤ) (i : Nat) : Submodule ℤ (Finset T →₀ ℤ) :=
  Chains K i ⊓ (if i = 0 then ⊤ else LinearMap.ker (bdry r))

/-- the boundaries -/
noncomputable def Bounds (K : Finset T → Prop) (r : T → ℤ) (i : Nat) : Submodule ℤ (Finset T →₀ ℤ) := (Chains K (i + 1)).map (bdry r)

/-- the homology of the complex `K` in dimension `i` -/
abbrev SimpHom (K : Finset T → Prop) (r : T → ℤ) (i : Nat) : Type := Cycles K r i ⧸ (Bounds K r i).submoduleOf (Cycles K r i)

end spec

/-! ### quotients -/

theorem quot_equiv {V W : Type} [AddCommGroup V] [AddCommGroup W] (Φ : V →ₗ[ℤ] W) (hΦ : Function.Injective Φ) {Z B : Submodule ℤ V} {Z' B' : Submodule ℤ W}
    (hZ : Z.map Φ = Z') (hB : B.map Φ = B') : Nonempty ((Z ⧸ B.submoduleOf Z) ≃+ (Z' ⧸ B'.submoduleOf Z')) := by
  subst hZ hB
  refine ⟨(Submodule.Quotient.equiv (B.submoduleOf Z) ((B.map Φ).submoduleOf (Z.map Φ)) (Submodule.equivMapOfInjective Φ hΦ Z) ?_).toAddEquiv⟩
  ext ⟨w, hw⟩
  simp only [Submodule.mem_map, Submodule.submoduleOf, Submodule.mem_comap, Submodule.subtype_apply]
  constructor
  · rintro ⟨z, hz, e⟩
    refine ⟨z.1, hz, ?_⟩
    have := congrArg Subtype.val e
    simpa using this
  · rintro ⟨v, hv, e⟩
    obtain ⟨z, hz, e'⟩ := hw
    have : z = v := hΦ (e'.trans e.symm)
    subst this
    exact ⟨⟨z, hz⟩, hv, by apply Subtype.ext; simpa using e⟩

/-! ### change of the order of the vertices -/
section
variable {T T' : Type} [DecidableEq T] [DecidableEq T']

/-- whether two vertices are in the same order in both rankings -/
def agree (r0 r1 : T → ℤ) (x y : T) : ℤ := if r0 x < r0 y ∧ r1 x < r1 y then -1 else 1

/-- the sign of a simplex: -1 if the number of pairs in the same order is odd -/
def orient (r0 r1 : T → ℤ) (A : Finset T) : ℤ := ∏ x ∈ A, ∏ y ∈ A, agree r0 r1 x y

theorem agree_sq (r0 r1 : T → ℤ) (x y : T) : agree r0 r1 x y * agree r0 r1 x y = 1 := by unfold agree; split <;> norm_num

theorem orient_sq (r0 r1 : T → ℤ) (A : Finset T) : orient r0 r1 A * orient r0 r1 A = 1 := by
  unfold orient
  rw [← Finset.prod_mul_distrib]
  refine Finset.prod_eq_one (fun x _ => ?_)
  rw [← Finset.prod_mul_distrib]
  exact Finset.prod_eq_one (fun y _ => agree_sq ..)

theorem orient_ne (r0 r1 : T → ℤ) (A : Finset T) : orient r0 r1 A ≠ 0 := by
  intro h
  have := orient_sq r0 r1 A
  rw [h] at this
  norm_num at this

theorem sign_prod (A : Finset T) (p : T → Prop) [DecidablePred p] : ((-1 : ℤ)) ^ (A.filter p).card = ∏ y ∈ A, (if p y then -1 else 1) := by
  rw [Finset.prod_ite, Finset.prod_const, Finset.prod_const_one, mul_one]

theorem orient_erase (r0 r1 : T → ℤ) {A : Finset T} {x : T} (hx : x ∈ A) (i0 : ∀ y ∈ A, r0 y = r0 x → y = x) (i1 : ∀ y ∈ A, r1 y = r1 x → y = x) :
    orient r0 r1 A * (-1) ^ (A.filter (fun y => r1 y < r1 x)).card = (-1) ^ (A.filter (fun y => r0 x < r0 y)).card * orient r0 r1 (A.erase x) := by
  have hA : A = insert x (A.erase x) := (Finset.insert_erase hx).symm
  have hn : x ∉ A.erase x := Finset.notMem_erase x A
  have i0' : ∀ y ∈ A.erase x, r0 y ≠ r0 x := fun y hy e => (Finset.mem_erase.mp hy).1 (i0 y (Finset.mem_of_mem_erase hy) e)
  have i1' : ∀ y ∈ A.erase x, r1 y ≠ r1 x := fun y hy e => (Finset.mem_erase.mp hy).1 (i1 y (Finset.mem_of_mem_erase hy) e)
  rw [sign_prod, sign_prod]
  generalize hB : A.erase x = B at *
  rw [hA]
  unfold orient
  rw [Finset.prod_insert hn, Finset.prod_insert hn, Finset.prod_insert hn, Finset.prod_insert hn]
  have e1 : ∏ u ∈ B, ∏ v ∈ insert x B, agree r0 r1 u v = (∏ u ∈ B, agree r0 r1 u x) * ∏ u ∈ B, ∏ v ∈ B, agree r0 r1 u v := by
    rw [← Finset.prod_mul_distrib]
    exact Finset.prod_congr rfl (fun u _ => Finset.prod_insert hn)
  have e2 : agree r0 r1 x x = 1 := by unfold agree; simp
  have e3 : ((∏ v ∈ B, agree r0 r1 x v) * (∏ u ∈ B, agree r0 r1 u x)) * (∏ y ∈ B, (if r1 y < r1 x then (-1 : ℤ) else 1)) = ∏ y ∈ B, (if r0 x < r0 y then (-1 : ℤ) else 1) := by
    rw [← Finset.prod_mul_distrib, ← Finset.prod_mul_distrib]
    refine Finset.prod_congr rfl (fun y hy => ?_)
    have h0 := i0' y hy
    have h1 := i1' y hy
    unfold agree
    rcases lt_or_gt_of_ne h0 with a | a <;> rcases lt_or_gt_of_ne h1 with b | b <;> simp [a, b, not_lt.mpr a.le, not_lt.mpr b.le]
  rw [e1, e2, ← e3]
  simp only [lt_irrefl, if_false]
  ring

/-- the chain of a vector of coefficients, for simplices `A j`; simplices are renamed by `φ` -/
noncomputable def chain (φ : T → T') (r0 r1 : T → ℤ) {m : Nat} (A : Fin m → Finset T) : (Fin m → ℤ) →ₗ[ℤ] (Finset T' →₀ ℤ) :=
  Fintype.linearCombination ℤ (fun j => Finsupp.single ((A j).image φ) (orient r0 r1 (A j)))

theorem chain_apply (φ : T → T') (r0 r1 : T → ℤ) {m : Nat} (A : Fin m → Finset T) (v : Fin m → ℤ) :
    chain φ r0 r1 A v = ∑ j, v j • Finsupp.single ((A j).image φ) (orient r0 r1 (A j)) := by
  unfold chain; rw [Fintype.linearCombination_apply]

theorem chain_inj (φ : T → T') (r0 r1 : T → ℤ) {m : Nat} (A : Fin m → Finset T) (hA : ∀ i j, (A i).image φ = (A j).image φ → i = j) :
    Function.Injective (chain φ r0 r1 A) := by
  rw [← LinearMap.ker_eq_bot, LinearMap.ker_eq_bot']
  intro v hv
  ext j
  have := congrArg (fun w => w ((A j).image φ)) hv
  simp only [chain_apply, Finsupp.coe_finset_sum, Finset.sum_apply, Finsupp.smul_apply, Finsupp.coe_zero, Pi.zero_apply, smul_eq_mul] at this
  rw [Finset.sum_eq_single j] at this
  · rw [Finsupp.single_eq_same] at this
    rcases mul_eq_zero.mp this with h | h
    · exact h
    · exact (orient_ne _ _ _ h).elim
  · intro i _ hi
    rw [Finsupp.single_eq_of_ne (fun e => hi (hA i j e.symm)), mul_zero]
  · intro h; exact absurd (Finset.mem_univ j) h

theorem chain_range (φ : T → T') (r0 r1 : T → ℤ) {m : Nat} (A : Fin m → Finset T) (K : Finset T' → Prop) (i : Nat)
    (hK : ∀ B, K B ∧ B.card = i + 1 ↔ ∃ j, (A j).image φ = B) : LinearMap.range (chain φ r0 r1 A) = Chains K i := by
  unfold chain Chains
  rw [Fintype.range_linearCombination, Finsupp.supported_eq_span_single]
  apply le_antisymm
  · rw [Submodule.span_le]
    rintro _ ⟨j, rfl⟩
    have : Finsupp.single ((A j).image φ) (orient r0 r1 (A j)) = orient r0 r1 (A j) • Finsupp.single ((A j).image φ) (1 : ℤ) := by simp
    simp only [this]
    exact Submodule.smul_mem _ _ (Submodule.subset_span ⟨_, (hK _).mpr ⟨j, rfl⟩, rfl⟩)
  · rw [Submodule.span_le]
    rintro _ ⟨B, hB, rfl⟩
    obtain ⟨j, rfl⟩ := (hK B).mp hB
    have : Finsupp.single ((A j).image φ) (1 : ℤ) = orient r0 r1 (A j) • Finsupp.single ((A j).image φ) (orient r0 r1 (A j)) := by
      rw [Finsupp.smul_single, smul_eq_mul, orient_sq]
    simp only [this]
    exact Submodule.smul_mem _ _ (Submodule.subset_span ⟨j, rfl⟩)

/-- the boundary of a renamed simplex -/
theorem bdry_image (φ : T → T') (r : T' → ℤ) (A : Finset T) (hφ : ∀ x ∈ A, ∀ y ∈ A, φ x = φ y → x = y) (c : ℤ) :
    bdry r (Finsupp.single (A.image φ) c) =
      ∑ x ∈ A, Finsupp.single ((A.erase x).image φ) (c * (-1) ^ (A.filter (fun y => r (φ y) < r (φ x))).card) := by
  unfold bdry
  rw [Finsupp.linearCombination_single, Finset.sum_image hφ, Finset.smul_sum]
  refine Finset.sum_congr rfl (fun x hx => ?_)
  rw [Finsupp.smul_single, smul_eq_mul]
  have e1 : (A.image φ).erase (φ x) = (A.erase x).image φ := by
    ext z
    simp only [Finset.mem_erase, Finset.mem_image]
    constructor
    · rintro ⟨h1, y, hy, rfl⟩
      exact ⟨y, ⟨fun e => h1 (by rw [e]), hy⟩, rfl⟩
    · rintro ⟨y, ⟨h1, hy⟩, rfl⟩
      exact ⟨fun e => h1 (hφ y hy x hx e), y, hy, rfl⟩
  have e2 : ((A.image φ).filter (fun y => r y < r (φ x))).card = (A.filter (fun y => r (φ y) < r (φ x))).card := by
    rw [Finset.filter_image, Finset.card_image_of_injOn]
    intro y hy z hz e
    exact hφ y (Finset.mem_filter.mp hy).1 z (Finset.mem_filter.mp hz).1 e
  rw [e1, e2]

/-- the matrix of a boundary map computes the boundary -/
theorem chain_comm (φ : T → T') (r : T' → ℤ) (r0 : T → ℤ) {n m : Nat} (A : Fin n → Finset T) (B : Fin m → Finset T) (a : Smith.M) (L : Finset T)
    (hB : ∀ j, B j ⊆ L) (h0 : ∀ x ∈ L, ∀ y ∈ L, r0 x = r0 y → x = y) (hφ : ∀ x ∈ L, ∀ y ∈ L, φ x = φ y → x = y)
    (hr : ∀ x ∈ L, ∀ y ∈ L, r (φ x) = r (φ y) → x = y) (hA : ∀ i j, A i = A j → i = j)
    (ha : ∀ j, (∀ x ∈ B j, ∃ i, A i = (B j).erase x ∧ a i.1 j.1 = (-1) ^ ((B j).filter (fun y => r0 x < r0 y)).card) ∧
      ∀ i, (∀ x ∈ B j, A i ≠ (B j).erase x) → a i.1 j.1 = 0) (v : Fin m → ℤ) :
    chain φ r0 (r ∘ φ) A ((Smith.mat n m a).mulVecLin v) = bdry r (chain φ r0 (r ∘ φ) B v) := by
  classical
  -- columns
  have col : ∀ j, ∑ i, a i.1 j.1 • Finsupp.single ((A i).image φ) (orient r0 (r ∘ φ) (A i)) =
      bdry r (Finsupp.single ((B j).image φ) (orient r0 (r ∘ φ) (B j))) := by
    intro j
    rw [bdry_image φ r (B j) (fun x hx y hy => hφ x (hB j hx) y (hB j hy))]
    symm
    rcases Finset.eq_empty_or_nonempty (B j) with hem | ⟨x0, hx0⟩
    · rw [hem, Finset.sum_empty]
      symm
      refine Finset.sum_eq_zero (fun i _ => ?_)
      rw [(ha j).2 i (fun x hx => by rw [hem] at hx; simp at hx), zero_smul]
    haveI : Nonempty (Fin n) := ⟨((ha j).1 x0 hx0).choose⟩
    choose! e he1 he2 using (ha j).1
    refine Finset.sum_of_injOn e ?_ (fun _ _ => Finset.mem_coe.mpr (Finset.mem_univ _)) ?_ ?_
    · intro x hx y hy h
      have h1 := he1 x hx
      rw [h, he1 y hy] at h1
      by_contra hne
      have : y ∈ (B j).erase x := Finset.mem_erase.mpr ⟨fun e => hne e.symm, hy⟩
      rw [← h1] at this
      exact absurd rfl (Finset.mem_erase.mp this).1
    · intro i _ hi
      rw [(ha j).2 i (fun x hx h => hi ⟨x, hx, hA _ _ ((he1 x hx).trans h.symm)⟩), zero_smul]
    · intro x hx
      have := orient_erase r0 (r ∘ φ) hx (fun y hy => h0 y (hB j hy) x (hB j hx)) (fun y hy => hr y (hB j hy) x (hB j hx))
      rw [he1 x hx, he2 x hx, Finsupp.smul_single, smul_eq_mul, ← this]
      rfl
  rw [chain_apply, chain_apply, map_sum]
  simp only [map_smul, ← col]
  simp only [Matrix.mulVecLin_apply, Matrix.mulVec, dotProduct, Finset.sum_smul, Finset.smul_sum]
  rw [Finset.sum_comm]
  refine Finset.sum_congr rfl (fun j _ => Finset.sum_congr rfl (fun i _ => ?_))
  rw [smul_smul, mul_comm]
  rfl

end
end Toppo.Simp
