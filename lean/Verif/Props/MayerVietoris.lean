import Verif.Props.SimpGlue
import Verif.Props.SimpRank
set_option linter.unusedVariables false
set_option linter.unusedSectionVars false
/-!
# C145: the free ranks of a union of two complexes, whatever their common part
-/
namespace Toppo.Simp
open Toppo Toppo.ModProps Module

/-- the quotient has rank zero if and only if every element has a multiple below -/
theorem finrank_zero_iff {V : Type} [AddCommGroup V] {Z B : Submodule ℤ V} [Module.Finite ℤ Z] :
    finrank ℤ (Z ⧸ B.submoduleOf Z) = 0 ↔ ∀ z ∈ Z, ∃ n : ℤ, n ≠ 0 ∧ n • z ∈ B := by
  rw [Module.finrank_eq_zero_iff]
  constructor
  · intro h z hz
    obtain ⟨n, hn, e⟩ := h (Submodule.Quotient.mk ⟨z, hz⟩)
    rw [← Submodule.Quotient.mk_smul, Submodule.Quotient.mk_eq_zero] at e
    exact ⟨n, hn, e⟩
  · intro h q
    obtain ⟨⟨z, hz⟩, rfl⟩ := Submodule.Quotient.mk_surjective _ q
    obtain ⟨n, hn, e⟩ := h z hz
    refine ⟨n, hn, ?_⟩
    rw [← Submodule.Quotient.mk_smul, Submodule.Quotient.mk_eq_zero]
    exact e

section
variable {T : Type} [DecidableEq T] [LinearOrder (Simplex T)]

/-- **C145**. If the listed simplices of `h` are those of `h₁` and those of `h₂`, and those of `h₁₂` are the simplices listed for both, then the free ranks reported for the four
differ by numbers `δ`: `b i + b₁₂ i = b₁ i + b₂ i + δ i + δ (i - 1)`, where `δ i ≤ b₁₂ i ≤ b₁ i + b₂ i + δ i`, and `δ i = 0` if and only if every chain of dimension `i` that is a
boundary in both parts has a multiple that is a boundary in the common part. -/
theorem c145_union {h h₁ h₂ h₁₂ : List (List T)} (g : GoodHistory h) (g₁ : GoodHistory h₁) (g₂ : GoodHistory h₂) (g₁₂ : GoodHistory h₁₂) {maxDim : Option Nat}
    {bm bm₁ bm₂ bm₁₂ res res₁ res₂ res₁₂} (k : Computes h maxDim bm res) (k₁ : Computes h₁ maxDim bm₁ res₁) (k₂ : Computes h₂ maxDim bm₂ res₂)
    (k₁₂ : Computes h₁₂ maxDim bm₁₂ res₁₂) (hK : ∀ A, Listed bm A ↔ Listed bm₁ A ∨ Listed bm₂ A) (hI : ∀ A, Listed bm₁₂ A ↔ Listed bm₁ A ∧ Listed bm₂ A)
    (r : T → ℤ) (hr : ∀ x ∈ h.flatten, ∀ y ∈ h.flatten, r x = r y → x = y) :
    ∃ δ : Nat → Nat, ∀ i, (∀ d, maxDim = some d → i ≤ d) →
      ((reportedMod res i).freeRank + (reportedMod res₁₂ i).freeRank =
        (reportedMod res₁ i).freeRank + (reportedMod res₂ i).freeRank + δ i + (if i = 0 then 0 else δ (i - 1))) ∧
      δ i ≤ (reportedMod res₁₂ i).freeRank ∧ (reportedMod res₁₂ i).freeRank ≤ (reportedMod res₁ i).freeRank + (reportedMod res₂ i).freeRank + δ i ∧
      (δ i = 0 ↔ ∀ z, z ∈ Bounds (Listed bm₁) r i → z ∈ Bounds (Listed bm₂) r i → ∃ n : ℤ, n ≠ 0 ∧ n • z ∈ Bounds (Listed bm₁₂) r i) := by
  obtain ⟨a1, a2, a3, -, -, -, -⟩ := k.spec g
  obtain ⟨b1, b2, b3, -, -, -, -⟩ := k₁.spec g₁
  obtain ⟨c1, c2, c3, -, -, -, -⟩ := k₂.spec g₂
  obtain ⟨d1, d2, d3, -, -, -, -⟩ := k₁₂.spec g₁₂
  have m1 : ∀ x ∈ h₁.flatten, x ∈ h.flatten := fun x hx => (a2 x).mpr ((hK _).mpr (Or.inl ((b2 x).mp hx)))
  have m2 : ∀ x ∈ h₂.flatten, x ∈ h.flatten := fun x hx => (a2 x).mpr ((hK _).mpr (Or.inr ((c2 x).mp hx)))
  have m3 : ∀ x ∈ h₁₂.flatten, x ∈ h.flatten := fun x hx => m1 x ((b2 x).mpr ((hI _).mp ((d2 x).mp hx)).1)
  have hr' : ∀ A, Listed bm A → ∀ x ∈ A, ∀ y ∈ A, r x = r y → x = y := fun A hA x hx y hy =>
    hr x ((a2 x).mpr (a1 A _ hA (by simpa using hx) (by simp))) y ((a2 y).mpr (a1 A _ hA (by simpa using hy) (by simp)))
  have hfin : {A | Listed bm A}.Finite := by
    refine (Finset.finite_toSet h.flatten.toFinset.powerset).subset (fun A hA => ?_)
    rw [Finset.mem_coe, Finset.mem_powerset]
    intro x hx
    rw [List.mem_toFinset]
    exact (a2 x).mpr (a1 A _ hA (by simpa using hx) (by simp))
  refine ⟨defect (Listed bm₁) (Listed bm₂) (Listed bm₁₂) r, fun i hi => ?_⟩
  obtain ⟨q1, q2, q3⟩ := glue_rank (r := r) hfin hK hI b1 c1 hr' i
  rw [k.rank g hr hi, k₁.rank g₁ (fun x hx y hy => hr x (m1 x hx) y (m1 y hy)) hi, k₁₂.rank g₁₂ (fun x hx y hy => hr x (m3 x hx) y (m3 y hy)) hi,
    k₂.rank g₂ (fun x hx y hy => hr x (m2 x hx) y (m2 y hy)) hi] at q1
  rw [k₁₂.rank g₁₂ (fun x hx y hy => hr x (m3 x hx) y (m3 y hy)) hi] at q2
  rw [k₁₂.rank g₁₂ (fun x hx y hy => hr x (m3 x hx) y (m3 y hy)) hi, k₁.rank g₁ (fun x hx y hy => hr x (m1 x hx) y (m1 y hy)) hi,
    k₂.rank g₂ (fun x hx y hy => hr x (m2 x hx) y (m2 y hy)) hi] at q3
  refine ⟨q1, q2, q3, ?_⟩
  have hf := chains_finite (hfin.subset (fun A hA => (hK A).mpr (Or.inl hA)) : {A | Listed bm₁ A}.Finite) (i + 1)
  have : Module.Finite ℤ (Bounds (Listed bm₁) r i) := Module.Finite.map _ _
  have : Module.Finite ℤ (Bounds (Listed bm₁) r i ⊓ Bounds (Listed bm₂) r i : Submodule ℤ (Finset T →₀ ℤ)) := finite_le inf_le_left
  exact finrank_zero_iff.trans ⟨fun H z h1 h2 => H z ⟨h1, h2⟩, fun H z hz => H z hz.1 hz.2⟩

/-- **C145**, inequalities: each of the three terms of the Mayer-Vietoris sequence is bounded by its neighbours; and the alternating sums add up. -/
theorem c145_inequalities {h h₁ h₂ h₁₂ : List (List T)} (g : GoodHistory h) (g₁ : GoodHistory h₁) (g₂ : GoodHistory h₂) (g₁₂ : GoodHistory h₁₂) {maxDim : Option Nat}
    {bm bm₁ bm₂ bm₁₂ res res₁ res₂ res₁₂} (k : Computes h maxDim bm res) (k₁ : Computes h₁ maxDim bm₁ res₁) (k₂ : Computes h₂ maxDim bm₂ res₂)
    (k₁₂ : Computes h₁₂ maxDim bm₁₂ res₁₂) (hK : ∀ A, Listed bm A ↔ Listed bm₁ A ∨ Listed bm₂ A) (hI : ∀ A, Listed bm₁₂ A ↔ Listed bm₁ A ∧ Listed bm₂ A) :
    (∀ i, (∀ d, maxDim = some d → i ≤ d) →
      (reportedMod res i).freeRank ≤ (reportedMod res₁ i).freeRank + (reportedMod res₂ i).freeRank + (if i = 0 then 0 else (reportedMod res₁₂ (i - 1)).freeRank) ∧
      (reportedMod res₁ i).freeRank + (reportedMod res₂ i).freeRank ≤ (reportedMod res i).freeRank + (reportedMod res₁₂ i).freeRank ∧
      ((∀ d, maxDim = some d → i + 1 ≤ d) →
        (reportedMod res₁₂ i).freeRank ≤ (reportedMod res₁ i).freeRank + (reportedMod res₂ i).freeRank + (reportedMod res (i + 1)).freeRank)) ∧
    (maxDim = none → ∀ n, res₁₂.length < n →
      (∑ i ∈ Finset.range n, (-1 : ℤ) ^ i * (reportedMod res i).freeRank) + ∑ i ∈ Finset.range n, (-1 : ℤ) ^ i * (reportedMod res₁₂ i).freeRank =
      (∑ i ∈ Finset.range n, (-1 : ℤ) ^ i * (reportedMod res₁ i).freeRank) + ∑ i ∈ Finset.range n, (-1 : ℤ) ^ i * (reportedMod res₂ i).freeRank) := by
  obtain ⟨r, hr⟩ := order_exists h
  obtain ⟨δ, hδ⟩ := c145_union g g₁ g₂ g₁₂ k k₁ k₂ k₁₂ hK hI r hr
  constructor
  · intro i hi
    obtain ⟨e1, e2, e3, -⟩ := hδ i hi
    refine ⟨?_, by omega, fun hi' => ?_⟩
    · rcases Nat.eq_zero_or_pos i with rfl | h0
      · simp at e1 ⊢; omega
      · obtain ⟨-, e4, -, -⟩ := hδ (i - 1) (fun d hd => (Nat.sub_le i 1).trans (hi d hd))
        rw [if_neg (by omega)] at e1 ⊢
        omega
    · obtain ⟨f1, f2, f3, -⟩ := hδ (i + 1) hi'
      rw [if_neg (by omega), Nat.add_sub_cancel] at f1
      omega
  · intro hm n hn
    have hall : ∀ i, (∀ d, maxDim = some d → i ≤ d) := fun i d hd => by rw [hm] at hd; cases hd
    have hz : δ (n - 1) = 0 := by
      obtain ⟨-, e, -, -⟩ := hδ (n - 1) (hall _)
      have : res₁₂[n - 1]? = none := List.getElem?_eq_none_iff.mpr (by omega)
      have h0 : (reportedMod res₁₂ (n - 1)).freeRank = 0 := by simp [reportedMod, this]
      omega
    have t := Hom.telescope (fun i => if i = 0 then 0 else (δ (i - 1) : ℤ)) n
    rw [if_pos rfl, if_neg (by omega), hz] at t
    rw [← Finset.sum_add_distrib, ← Finset.sum_add_distrib, ← sub_eq_zero, ← Finset.sum_sub_distrib]
    rw [← (show (0 : ℤ) - (-1) ^ n * ((0 : Nat) : ℤ) = 0 by simp), ← t]
    refine Finset.sum_congr rfl (fun i _ => ?_)
    obtain ⟨e, -, -, -⟩ := hδ i (hall i)
    have e' : ((reportedMod res i).freeRank : ℤ) + (reportedMod res₁₂ i).freeRank =
        (reportedMod res₁ i).freeRank + (reportedMod res₂ i).freeRank + δ i + (if i = 0 then 0 else (δ (i - 1) : ℤ)) := by exact_mod_cast e
    rw [if_neg (Nat.succ_ne_zero i), Nat.add_sub_cancel]
    linear_combination (-1 : ℤ) ^ i * e'

/-- **C145** with at most 64 labels: one history after the other; `h₁₂` generates the common part. -/
theorem c145_append {h₁ h₂ h₁₂ : List (List T)} (g₁ : GoodHistory h₁) (g₂ : GoodHistory h₂) (g₁₂ : GoodHistory h₁₂) (hb : (h₁ ++ h₂).flatten.toFinset.card ≤ 64)
    (hI : ∀ A, IsFace h₁₂ A ↔ IsFace h₁ A ∧ IsFace h₂ A) (maxDim : Option Nat) :
    ∃ bm res bm₁ res₁ bm₂ res₂ bm₁₂ res₁₂, Computes (h₁ ++ h₂) maxDim bm res ∧ Computes h₁ maxDim bm₁ res₁ ∧ Computes h₂ maxDim bm₂ res₂ ∧
      Computes h₁₂ maxDim bm₁₂ res₁₂ ∧
      (∀ i, (∀ d, maxDim = some d → i ≤ d) →
        (reportedMod res i).freeRank ≤ (reportedMod res₁ i).freeRank + (reportedMod res₂ i).freeRank + (if i = 0 then 0 else (reportedMod res₁₂ (i - 1)).freeRank) ∧
        (reportedMod res₁ i).freeRank + (reportedMod res₂ i).freeRank ≤ (reportedMod res i).freeRank + (reportedMod res₁₂ i).freeRank ∧
        ((∀ d, maxDim = some d → i + 1 ≤ d) →
          (reportedMod res₁₂ i).freeRank ≤ (reportedMod res₁ i).freeRank + (reportedMod res₂ i).freeRank + (reportedMod res (i + 1)).freeRank)) ∧
      (maxDim = none → ∀ n, res₁₂.length < n →
        (∑ i ∈ Finset.range n, (-1 : ℤ) ^ i * (reportedMod res i).freeRank) + ∑ i ∈ Finset.range n, (-1 : ℤ) ^ i * (reportedMod res₁₂ i).freeRank =
        (∑ i ∈ Finset.range n, (-1 : ℤ) ^ i * (reportedMod res₁ i).freeRank) + ∑ i ∈ Finset.range n, (-1 : ℤ) ^ i * (reportedMod res₂ i).freeRank) := by
  have g : GoodHistory (h₁ ++ h₂) := ⟨by simp [g₁.nonempty], fun s hs => (List.mem_append.mp hs).elim (g₁.simplices s) (g₂.simplices s)⟩
  obtain ⟨bm, res, k⟩ := computes_total g maxDim
  obtain ⟨bm₁, res₁, k₁⟩ := computes_total g₁ maxDim
  obtain ⟨bm₂, res₂, k₂⟩ := computes_total g₂ maxDim
  obtain ⟨bm₁₂, res₁₂, k₁₂⟩ := computes_total g₁₂ maxDim
  have l1 : h₁.flatten.toFinset ⊆ (h₁ ++ h₂).flatten.toFinset := fun x hx => by
    rw [List.mem_toFinset] at *; rw [List.flatten_append]; exact List.mem_append_left _ hx
  have l2 : h₂.flatten.toFinset ⊆ (h₁ ++ h₂).flatten.toFinset := fun x hx => by
    rw [List.mem_toFinset] at *; rw [List.flatten_append]; exact List.mem_append_right _ hx
  have l3 : h₁₂.flatten.toFinset ⊆ (h₁ ++ h₂).flatten.toFinset := fun x hx => by
    rw [List.mem_toFinset] at hx
    obtain ⟨s, hs, hxs⟩ := List.mem_flatten.mp hx
    obtain ⟨⟨-, t, ht, hsub⟩, -⟩ := (hI {x}).mp ⟨by simp, s, hs, by simpa using hxs⟩
    exact l1 (List.mem_toFinset.mpr (List.mem_flatten.mpr ⟨t, ht, by simpa using hsub⟩))
  have hK : ∀ A, Listed bm A ↔ Listed bm₁ A ∨ Listed bm₂ A := by
    rw [(k.spec g).2.2.2.1 hb, (k₁.spec g₁).2.2.2.1 ((Finset.card_le_card l1).trans hb), (k₂.spec g₂).2.2.2.1 ((Finset.card_le_card l2).trans hb)]
    intro A
    unfold IsFace
    simp only [List.mem_append, or_and_right, exists_or, and_or_left]
  have hI' : ∀ A, Listed bm₁₂ A ↔ Listed bm₁ A ∧ Listed bm₂ A := by
    rw [(k₁₂.spec g₁₂).2.2.2.1 ((Finset.card_le_card l3).trans hb), (k₁.spec g₁).2.2.2.1 ((Finset.card_le_card l1).trans hb),
      (k₂.spec g₂).2.2.2.1 ((Finset.card_le_card l2).trans hb)]
    exact hI
  exact ⟨bm, res, bm₁, res₁, bm₂, res₂, bm₁₂, res₁₂, k, k₁, k₂, k₁₂, c145_inequalities g g₁ g₂ g₁₂ k k₁ k₂ k₁₂ hK hI'⟩

/-- a case: two paths from 0 to 2 with only their ends in common; their union is a circle -/
example : GoodHistory [[0, 1], [1, 2]] ∧ GoodHistory [[2, 3], [3, 0]] ∧ GoodHistory ([[0], [2]] : List (List Nat)) ∧
    ([[0, 1], [1, 2]] ++ [[2, 3], [3, 0]] : List (List Nat)).flatten.toFinset.card ≤ 64 ∧
    (∀ A : Finset Nat, IsFace [[0], [2]] A ↔ IsFace [[0, 1], [1, 2]] A ∧ IsFace [[2, 3], [3, 0]] A) := by
  refine ⟨⟨by simp, by decide⟩, ⟨by simp, by decide⟩, ⟨by simp, by decide⟩, by decide, fun A => ⟨?_, ?_⟩⟩
  · rintro ⟨h1, s, hs, h2⟩
    simp only [List.mem_cons, List.not_mem_nil, or_false] at hs
    rcases hs with rfl | rfl
    · exact ⟨⟨h1, [0, 1], by simp, h2.trans (by decide)⟩, ⟨h1, [3, 0], by simp, h2.trans (by decide)⟩⟩
    · exact ⟨⟨h1, [1, 2], by simp, h2.trans (by decide)⟩, ⟨h1, [2, 3], by simp, h2.trans (by decide)⟩⟩
  · rintro ⟨⟨h1, s, hs, h2⟩, ⟨-, t, ht, h3⟩⟩
    have h4 := Finset.subset_inter h2 h3
    simp only [List.mem_cons, List.not_mem_nil, or_false] at hs ht
    rcases hs with rfl | rfl <;> rcases ht with rfl | rfl
    · exact absurd (Finset.subset_empty.mp (h4.trans (by decide))) h1.ne_empty
    · exact ⟨h1, [0], by simp, h4.trans (by decide)⟩
    · exact ⟨h1, [2], by simp, h4.trans (by decide)⟩
    · exact absurd (Finset.subset_empty.mp (h4.trans (by decide))) h1.ne_empty
end

end Toppo.Simp
