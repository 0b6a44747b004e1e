import Verif.Proof.MayerSeq
import Verif.Props.MayerVietoris
import Verif.Props.Manifold
set_option linter.unusedVariables false
set_option linter.unusedSectionVars false
/-!
# C153: the Mayer-Vietoris sequence of the reported groups, with torsion
-/
namespace Toppo.Simp
open Toppo Toppo.ModProps

section
variable {T : Type} [DecidableEq T] [LinearOrder (Simplex T)]

/-- **C153**. If the listed simplices of `h` are those of `h₁` and those of `h₂`, and those of `h₁₂` are the simplices listed for both, then there are homomorphisms
`… → H_{i+1}(h) → H_i(h₁₂) → H_i(h₁) × H_i(h₂) → H_i(h) → H_{i-1}(h₁₂) → …` between the reported groups that form an exact sequence ending in a surjection onto `H_0(h)`. -/
theorem c153_sequence {h h₁ h₂ h₁₂ : List (List T)} (g : GoodHistory h) (g₁ : GoodHistory h₁) (g₂ : GoodHistory h₂) (g₁₂ : GoodHistory h₁₂)
    {bm bm₁ bm₂ bm₁₂ res res₁ res₂ res₁₂} (k : Computes h none bm res) (k₁ : Computes h₁ none bm₁ res₁) (k₂ : Computes h₂ none bm₂ res₂)
    (k₁₂ : Computes h₁₂ none bm₁₂ res₁₂) (hK : ∀ A, Listed bm A ↔ Listed bm₁ A ∨ Listed bm₂ A) (hI : ∀ A, Listed bm₁₂ A ↔ Listed bm₁ A ∧ Listed bm₂ A) :
    ∃ (α : ∀ i, Grp (reportedMod res₁₂ i) →+ Grp (reportedMod res₁ i) × Grp (reportedMod res₂ i))
      (β : ∀ i, Grp (reportedMod res₁ i) × Grp (reportedMod res₂ i) →+ Grp (reportedMod res i))
      (δ : ∀ i, Grp (reportedMod res (i + 1)) →+ Grp (reportedMod res₁₂ i)),
      (∀ i x, β i x = 0 ↔ ∃ y, α i y = x) ∧ (∀ i x, δ i x = 0 ↔ ∃ y, β (i + 1) y = x) ∧ (∀ i x, α i x = 0 ↔ ∃ y, δ i y = x) ∧ Function.Surjective (β 0) := by
  obtain ⟨a1, a2, a3, -, -, -, a5⟩ := k.spec g
  obtain ⟨b1, b2, b3, -, -, -, b5⟩ := k₁.spec g₁
  obtain ⟨c1, c2, c3, -, -, -, c5⟩ := k₂.spec g₂
  obtain ⟨d1, d2, d3, -, -, -, d5⟩ := k₁₂.spec g₁₂
  obtain ⟨r, hr⟩ := order_exists h
  have m1 : ∀ x ∈ h₁.flatten, x ∈ h.flatten := fun x hx => (a2 x).mpr ((hK _).mpr (Or.inl ((b2 x).mp hx)))
  have m2 : ∀ x ∈ h₂.flatten, x ∈ h.flatten := fun x hx => (a2 x).mpr ((hK _).mpr (Or.inr ((c2 x).mp hx)))
  have m3 : ∀ x ∈ h₁₂.flatten, x ∈ h.flatten := fun x hx => m1 x ((b2 x).mpr ((hI _).mp ((d2 x).mp hx)).1)
  have e : ∀ i, Nonempty (SimpHom (Listed bm) r i ≃+ Grp (reportedMod res i)) := fun i => a5 r hr i (by simp)
  have e1 : ∀ i, Nonempty (SimpHom (Listed bm₁) r i ≃+ Grp (reportedMod res₁ i)) := fun i => b5 r (fun x hx y hy => hr x (m1 x hx) y (m1 y hy)) i (by simp)
  have e2 : ∀ i, Nonempty (SimpHom (Listed bm₂) r i ≃+ Grp (reportedMod res₂ i)) := fun i => c5 r (fun x hx y hy => hr x (m2 x hx) y (m2 y hy)) i (by simp)
  have e3 : ∀ i, Nonempty (SimpHom (Listed bm₁₂) r i ≃+ Grp (reportedMod res₁₂ i)) := fun i => d5 r (fun x hx y hy => hr x (m3 x hx) y (m3 y hy)) i (by simp)
  have E := fun i => (e i).some
  have E1 := fun i => (e1 i).some
  have E2 := fun i => (e2 i).some
  have E3 := fun i => (e3 i).some
  obtain ⟨α, β, δ, p1, p2, p3, p4⟩ := mayer_vietoris hK hI b1 c1 (k.data g hr).2.2
  let F : ∀ i, SimpHom (Listed bm₁) r i × SimpHom (Listed bm₂) r i ≃+ Grp (reportedMod res₁ i) × Grp (reportedMod res₂ i) := fun i => AddEquiv.prodCongr (E1 i) (E2 i)
  refine ⟨fun i => ((F i).toAddMonoidHom.comp (α i).toAddMonoidHom).comp (E3 i).symm.toAddMonoidHom, fun i => ((E i).toAddMonoidHom.comp (β i).toAddMonoidHom).comp (F i).symm.toAddMonoidHom,
    fun i => ((E3 i).toAddMonoidHom.comp (δ i).toAddMonoidHom).comp (E (i + 1)).symm.toAddMonoidHom, fun i x => ?_, fun i x => ?_, fun i x => ?_, fun x => ?_⟩
  · show E i (β i ((F i).symm x)) = 0 ↔ ∃ y, F i (α i ((E3 i).symm y)) = x
    rw [AddEquiv.map_eq_zero_iff, p1 i]
    constructor
    · rintro ⟨y, hy⟩
      exact ⟨E3 i y, by rw [AddEquiv.symm_apply_apply, hy, AddEquiv.apply_symm_apply]⟩
    · rintro ⟨y, rfl⟩
      exact ⟨(E3 i).symm y, by rw [AddEquiv.symm_apply_apply]⟩
  · show E3 i (δ i ((E (i + 1)).symm x)) = 0 ↔ ∃ y, E (i + 1) (β (i + 1) ((F (i + 1)).symm y)) = x
    rw [AddEquiv.map_eq_zero_iff, p2 i]
    constructor
    · rintro ⟨y, hy⟩
      exact ⟨F (i + 1) y, by rw [AddEquiv.symm_apply_apply, hy, AddEquiv.apply_symm_apply]⟩
    · rintro ⟨y, rfl⟩
      exact ⟨(F (i + 1)).symm y, by rw [AddEquiv.symm_apply_apply]⟩
  · show F i (α i ((E3 i).symm x)) = 0 ↔ ∃ y, E3 i (δ i ((E (i + 1)).symm y)) = x
    rw [AddEquiv.map_eq_zero_iff, p3 i]
    constructor
    · rintro ⟨y, hy⟩
      exact ⟨E (i + 1) y, by rw [AddEquiv.symm_apply_apply, hy, AddEquiv.apply_symm_apply]⟩
    · rintro ⟨y, rfl⟩
      exact ⟨(E (i + 1)).symm y, by rw [AddEquiv.symm_apply_apply]⟩
  · obtain ⟨y, hy⟩ := p4 ((E 0).symm x)
    refine ⟨F 0 y, ?_⟩
    show E 0 (β 0 ((F 0).symm (F 0 y))) = x
    rw [AddEquiv.symm_apply_apply, hy, AddEquiv.apply_symm_apply]

theorem free_trivial {m : Mod} (h : FreeOfRank m 0) : Subsingleton (Grp m) := by
  obtain ⟨e⟩ := free_equiv h
  exact e.toEquiv.subsingleton

/-- **C153, two parts like points**. If both parts have the homology of a point, the homology of the union in dimension `i + 2` is that of the common part in dimension `i + 1`,
torsion included, and in dimension one it is free; its rank there is the number of components of the common part and of the union, less two. -/
theorem c153_shift {h h₁ h₂ h₁₂ : List (List T)} (g : GoodHistory h) (g₁ : GoodHistory h₁) (g₂ : GoodHistory h₂) (g₁₂ : GoodHistory h₁₂)
    {bm bm₁ bm₂ bm₁₂ res res₁ res₂ res₁₂} (k : Computes h none bm res) (k₁ : Computes h₁ none bm₁ res₁) (k₂ : Computes h₂ none bm₂ res₂)
    (k₁₂ : Computes h₁₂ none bm₁₂ res₁₂) (hK : ∀ A, Listed bm A ↔ Listed bm₁ A ∨ Listed bm₂ A) (hI : ∀ A, Listed bm₁₂ A ↔ Listed bm₁ A ∧ Listed bm₂ A)
    (hp₁ : PointLike none res₁) (hp₂ : PointLike none res₂) :
    (∀ i, Nonempty (Grp (reportedMod res (i + 2)) ≃+ Grp (reportedMod res₁₂ (i + 1))) ∧
      (reportedMod res (i + 2)).freeRank = (reportedMod res₁₂ (i + 1)).freeRank ∧
      (orders (reportedMod res (i + 2)).divisors).filter (fun d => decide (d ≠ 1)) = (orders (reportedMod res₁₂ (i + 1)).divisors).filter (fun d => decide (d ≠ 1))) ∧
    FreeOfRank (reportedMod res 1) (reportedMod res 1).freeRank ∧
    (reportedMod res 0).freeRank + (reportedMod res₁₂ 0).freeRank = (reportedMod res 1).freeRank + 2 := by
  obtain ⟨α, β, δ, p1, p2, p3, p4⟩ := c153_sequence g g₁ g₂ g₁₂ k k₁ k₂ k₁₂ hK hI
  obtain ⟨-, -, -, -, a4, -, -⟩ := k.spec g
  obtain ⟨-, -, -, -, d4, -, -⟩ := k₁₂.spec g₁₂
  have t1 : ∀ i, Subsingleton (Grp (reportedMod res₁ (i + 1))) := fun i => free_trivial (hp₁.pos (i + 1) (by omega) (by simp))
  have t2 : ∀ i, Subsingleton (Grp (reportedMod res₂ (i + 1))) := fun i => free_trivial (hp₂.pos (i + 1) (by omega) (by simp))
  have inj : ∀ i, Function.Injective (δ i) := by
    intro i
    rw [injective_iff_map_eq_zero]
    intro x hx
    obtain ⟨y, rfl⟩ := (p2 i x).mp hx
    have := t1 i
    have := t2 i
    rw [Subsingleton.elim y 0, map_zero]
  refine ⟨fun i => ?_, ?_, ?_⟩
  · have : Nonempty (Grp (reportedMod res (i + 2)) ≃+ Grp (reportedMod res₁₂ (i + 1))) := by
      refine ⟨AddEquiv.ofBijective (δ (i + 1)) ⟨inj _, fun x => ?_⟩⟩
      refine (p3 (i + 1) x).mp ?_
      have := t1 i
      have := t2 i
      exact Subsingleton.elim _ _
    obtain ⟨f⟩ := this
    exact ⟨⟨f⟩, same_numbers (a4 _).1 (a4 _).2 (d4 _).1 (d4 _).2 f⟩
  · refine torsion_none (a4 1).1 (k.mult g 1) (fun m x hm hx => ?_)
    apply inj 0
    rw [map_zero]
    obtain ⟨f⟩ := free_equiv (k₁₂.zero_free g₁₂)
    have h1 : m • f (δ 0 x) = 0 := by rw [← map_zsmul, ← map_zsmul, hx, map_zero, map_zero]
    refine (AddEquiv.map_eq_zero_iff f).mp ?_
    funext j
    have := congrFun h1 j
    exact (mul_eq_zero.mp this).resolve_left hm
  · obtain ⟨r, hr⟩ := order_exists h
    obtain ⟨d, hd⟩ := c145_union g g₁ g₂ g₁₂ k k₁ k₂ k₁₂ hK hI r hr
    obtain ⟨q1, q2, q3, -⟩ := hd 0 (by simp)
    obtain ⟨s1, s2, s3, -⟩ := hd 1 (by simp)
    have u1 := hp₁.zero.1
    have u2 := hp₂.zero.1
    have u3 := (hp₁.pos 1 (by omega) (by simp)).1
    have u4 := (hp₂.pos 1 (by omega) (by simp)).1
    simp only [if_true, if_neg (show ¬ (1 = 0) by omega), Nat.sub_self] at q1 s1
    omega

/-- **C153, links**. At most 64 labels: if `h'` has the faces of `h` without the vertex `v`, and `l` generates the link of `v` (the sets not containing `v` that together with `v` are
faces), and the homology of a point is reported for the link, then removing `v` does not change the reported homology. -/
theorem c153_link {h h' l : List (List T)} (g : GoodHistory h) (g' : GoodHistory h') (gl : GoodHistory l) (hb : h.flatten.toFinset.card ≤ 64) (v : T)
    (hrem : ∀ A, IsFace h' A ↔ IsFace h A ∧ v ∉ A) (hlink : ∀ A, IsFace l A ↔ A.Nonempty ∧ v ∉ A ∧ IsFace h (insert v A)) {maxDim : Option Nat}
    {bm bm' bml res res' resl} (k : Computes h maxDim bm res) (k' : Computes h' maxDim bm' res') (kl : Computes l maxDim bml resl) (hp : PointLike maxDim resl)
    (i : Nat) (hi : ∀ d, maxDim = some d → i ≤ d) :
    Nonempty (Grp (reportedMod res i) ≃+ Grp (reportedMod res' i)) ∧ (reportedMod res i).freeRank = (reportedMod res' i).freeRank ∧
      (orders (reportedMod res i).divisors).filter (fun d => decide (d ≠ 1)) = (orders (reportedMod res' i).divisors).filter (fun d => decide (d ≠ 1)) := by
  -- the star of `v`
  have lab : ∀ h₀ : List (List T), (∀ A, IsFace h₀ A → IsFace h A) → h₀.flatten.toFinset.card ≤ 64 := by
    intro h₀ hsub
    refine (Finset.card_le_card (fun x hx => ?_)).trans hb
    rw [List.mem_toFinset] at *
    obtain ⟨s, hs, hxs⟩ := List.mem_flatten.mp hx
    obtain ⟨-, t, ht, hsub⟩ := hsub {x} ⟨by simp, s, hs, by simpa using hxs⟩
    exact List.mem_flatten.mpr ⟨t, ht, by simpa using hsub⟩
  have hdown : ∀ A, IsFace h (insert v A) → A.Nonempty → IsFace h A := by
    rintro A ⟨-, s, hs, hsub⟩ hA
    exact ⟨hA, s, hs, (Finset.subset_insert _ _).trans hsub⟩
  have hstar : ∀ A, IsFace (h.filter (fun s => decide (v ∈ s))) A ↔ A.Nonempty ∧ IsFace h (insert v A) := by
    intro A
    constructor
    · rintro ⟨hA, s, hs, hsub⟩
      obtain ⟨s1, s2⟩ := List.mem_filter.mp hs
      exact ⟨hA, by simp, s, s1, Finset.insert_subset (by simpa using s2) hsub⟩
    · rintro ⟨hA, -, s, hs, hsub⟩
      exact ⟨hA, s, List.mem_filter.mpr ⟨hs, by simpa using hsub (Finset.mem_insert_self v A)⟩, (Finset.subset_insert _ _).trans hsub⟩
  obtain ⟨s0, hs0⟩ := List.exists_mem_of_ne_nil _ gl.nonempty
  obtain ⟨x0, hx0⟩ := List.exists_mem_of_ne_nil _ (gl.simplices s0 hs0).1
  have gs : GoodHistory (h.filter (fun s => decide (v ∈ s))) := by
    refine ⟨?_, fun s hs => g.simplices s (List.mem_filter.mp hs).1⟩
    obtain ⟨-, -, h3⟩ := (hlink {x0}).mp ⟨by simp, s0, hs0, by simpa using hx0⟩
    obtain ⟨-, s, hs, -⟩ := (hstar {x0}).mpr ⟨by simp, h3⟩
    exact List.ne_nil_of_mem hs
  obtain ⟨bms, ress, ks⟩ := computes_total gs maxDim
  have ls : (h.filter (fun s => decide (v ∈ s))).flatten.toFinset.card ≤ 64 := lab _ (fun A hA => by
    obtain ⟨q1, q2⟩ := (hstar A).mp hA
    exact hdown A q2 q1)
  have L := (k.spec g).2.2.2.1 hb
  have L' := (k'.spec g').2.2.2.1 (lab h' (fun A hA => ((hrem A).mp hA).1))
  have Ll := (kl.spec gl).2.2.2.1 (lab l (fun A hA => by
    obtain ⟨q1, -, q2⟩ := (hlink A).mp hA
    exact hdown A q2 q1))
  have Ls := (ks.spec gs).2.2.2.1 ls
  refine c144_unchanged g g' gs gl k k' ks kl (fun A => ?_) (fun A => ?_) hp
    (pointLike_common gs ls v (fun s hs => by simpa using (List.mem_filter.mp hs).2) ks) i hi
  · rw [L, L', Ls, hrem, hstar]
    constructor
    · intro hA
      by_cases hv : v ∈ A
      · exact Or.inr ⟨hA.1, by rwa [Finset.insert_eq_self.mpr hv]⟩
      · exact Or.inl ⟨hA, hv⟩
    · rintro (q | ⟨q1, q2⟩)
      · exact q.1
      · exact hdown A q2 q1
  · rw [Ll, L', Ls, hrem, hstar, hlink]
    constructor
    · rintro ⟨q1, q2, q3⟩
      exact ⟨⟨hdown A q3 q1, q2⟩, q1, q3⟩
    · rintro ⟨⟨-, q2⟩, q1, q3⟩
      exact ⟨q1, q2, q3⟩

/-- a case of the hypotheses of the links: the vertex 0 of a full triangle; its link is the edge opposite to it -/
example : (∀ A : Finset (Fin 3), IsFace [[1, 2]] A ↔ IsFace [[0, 1, 2]] A ∧ (0 : Fin 3) ∉ A) ∧
    ∀ A : Finset (Fin 3), IsFace [[1, 2]] A ↔ A.Nonempty ∧ (0 : Fin 3) ∉ A ∧ IsFace [[0, 1, 2]] (insert 0 A) := by
  constructor
  · intro A
    rw [← mem_faces, ← mem_faces]
    revert A
    decide +kernel
  · intro A
    rw [← mem_faces, ← mem_faces]
    revert A
    decide +kernel

/-- a case of the hypotheses of the sequence: two paths from 0 to 2 with only their ends in common; the union is a circle -/
example : GoodHistory ([[0, 1], [1, 2]] : List (List (Fin 4))) ∧ GoodHistory ([[0, 3], [3, 2]] : List (List (Fin 4))) ∧ GoodHistory ([[0], [2]] : List (List (Fin 4))) ∧
    (∀ A : Finset (Fin 4), IsFace [[0, 1], [1, 2], [0, 3], [3, 2]] A ↔ IsFace [[0, 1], [1, 2]] A ∨ IsFace [[0, 3], [3, 2]] A) ∧
    ∀ A : Finset (Fin 4), IsFace [[0], [2]] A ↔ IsFace [[0, 1], [1, 2]] A ∧ IsFace [[0, 3], [3, 2]] A := by
  refine ⟨⟨by decide, by decide⟩, ⟨by decide, by decide⟩, ⟨by decide, by decide⟩, ?_, ?_⟩
  · intro A
    rw [← mem_faces, ← mem_faces, ← mem_faces]
    revert A
    decide +kernel
  · intro A
    rw [← mem_faces, ← mem_faces, ← mem_faces]
    revert A
    decide +kernel

end

end Toppo.Simp
