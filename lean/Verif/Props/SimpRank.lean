import Verif.Proof.SimpRank
import Verif.Props.SimpSum
set_option linter.unusedVariables false
set_option linter.unusedSectionVars false
/-!
# C131: attaching one simplex changes one free rank by one
-/
namespace Toppo.Simp
open Toppo Toppo.ModProps Module

section
variable {T : Type} [DecidableEq T] [LinearOrder (Simplex T)]

theorem Computes.rank {history : List (List T)} {maxDim bm res} (h : Computes history maxDim bm res) (hh : GoodHistory history) {r : T → ℤ}
    (hr : ∀ x ∈ history.flatten, ∀ y ∈ history.flatten, r x = r y → x = y) {i : Nat} (hi : ∀ d, maxDim = some d → i ≤ d) :
    finrank ℤ (SimpHom (Listed bm) r i) = (reportedMod res i).freeRank := by
  obtain ⟨-, -, -, -, a4, -, a5⟩ := h.spec hh
  obtain ⟨e⟩ := a5 r hr i hi
  rw [← finrank_grp _ (a4 i).1]
  exact LinearEquiv.finrank_eq e.toIntLinearEquiv

/-- **C131**. Let the simplices listed for `h₂` be those listed for `h₁` and one more, `S`, with `d + 1` labels. If `d = 0`, or some non-zero multiple of the boundary of `S` is
the boundary of a chain of simplices listed for `h₁`, the free rank reported in dimension `d` grows by one; otherwise the free rank reported in dimension `d - 1` drops by one.
All other free ranks (up to the bound) stay the same. -/
theorem c131_attach {h₁ h₂ : List (List T)} (g₁ : GoodHistory h₁) (g₂ : GoodHistory h₂) {maxDim : Option Nat} {bm₁ bm₂ res₁ res₂}
    (k₁ : Computes h₁ maxDim bm₁ res₁) (k₂ : Computes h₂ maxDim bm₂ res₂) (S : Finset T) (d : Nat) (hd : S.card = d + 1) (hS : ¬ Listed bm₁ S)
    (hK : ∀ A, Listed bm₂ A ↔ Listed bm₁ A ∨ A = S) (r : T → ℤ) (hr : ∀ x ∈ h₂.flatten, ∀ y ∈ h₂.flatten, r x = r y → x = y) :
    (d = 0 ∨ (∃ n : ℤ, n ≠ 0 ∧ n • bdry r (Finsupp.single S 1) ∈ Bounds (Listed bm₁) r (d - 1)) →
      ∀ i, (∀ m, maxDim = some m → i ≤ m) → (reportedMod res₂ i).freeRank = (reportedMod res₁ i).freeRank + if i = d then 1 else 0) ∧
    (¬ (d = 0 ∨ (∃ n : ℤ, n ≠ 0 ∧ n • bdry r (Finsupp.single S 1) ∈ Bounds (Listed bm₁) r (d - 1))) →
      ∀ i, (∀ m, maxDim = some m → i ≤ m) → (reportedMod res₂ i).freeRank + (if i + 1 = d then 1 else 0) = (reportedMod res₁ i).freeRank) := by
  obtain ⟨b1, b2, b3, -, -, -, -⟩ := k₁.spec g₁
  obtain ⟨c1, c2, c3, -, -, -, -⟩ := k₂.spec g₂
  have m1 : ∀ x ∈ h₁.flatten, x ∈ h₂.flatten := fun x hx => (c2 x).mpr ((hK _).mpr (Or.inl ((b2 x).mp hx)))
  have hr' : ∀ A, Listed bm₂ A → ∀ x ∈ A, ∀ y ∈ A, r x = r y → x = y := fun A hA x hx y hy =>
    hr x ((c2 x).mpr (c1 A _ hA (by simpa using hx) (by simp))) y ((c2 y).mpr (c1 A _ hA (by simpa using hy) (by simp)))
  have hfin : {A | Listed bm₁ A}.Finite := by
    refine (Finset.finite_toSet h₁.flatten.toFinset.powerset).subset (fun A hA => ?_)
    rw [Finset.mem_coe, Finset.mem_powerset]
    intro x hx
    rw [List.mem_toFinset]
    exact (b2 x).mpr (b1 A _ hA (by simpa using hx) (by simp))
  obtain ⟨p, q⟩ := attach_rank (r := r) hfin b1 c1 hr' hd hS hK
  have R1 : ∀ {i}, (∀ m, maxDim = some m → i ≤ m) → finrank ℤ (SimpHom (Listed bm₁) r i) = (reportedMod res₁ i).freeRank := fun hi =>
    k₁.rank g₁ (fun x hx y hy => hr x (m1 x hx) y (m1 y hy)) hi
  have R2 : ∀ {i}, (∀ m, maxDim = some m → i ≤ m) → finrank ℤ (SimpHom (Listed bm₂) r i) = (reportedMod res₂ i).freeRank := fun hi => k₂.rank g₂ hr hi
  constructor
  · intro h i hi
    obtain ⟨p1, p2⟩ := p h
    rw [← R1 hi, ← R2 hi]
    by_cases e : i = d
    · subst e; rw [if_pos rfl]; exact p1
    · rw [if_neg e]; exact p2 i e
  · intro h i hi
    obtain ⟨p1, p2⟩ := q h
    have hd0 : d ≠ 0 := fun e => h (Or.inl e)
    rw [← R1 hi, ← R2 hi]
    by_cases e : i + 1 = d
    · have : d - 1 = i := by omega
      rw [this] at p1
      rw [if_pos e]; exact p1
    · rw [if_neg e]; exact p2 i (by omega)

/-- **C131** with at most 64 labels: one more `attach`, of a simplex all of whose proper faces, but not itself, are already there. Exactly one of the reported free ranks
changes: that of the dimension `d` of the simplex grows by one, or that of dimension `d - 1` drops by one. -/
theorem c131_history {h : List (List T)} (g : GoodHistory h) (s : List T) (hs : s.Nodup) (d : Nat) (hd : s.length = d + 1) (hb : (h ++ [s]).flatten.toFinset.card ≤ 64)
    (hnew : ∀ t ∈ h, ¬ s ⊆ t) (hfaces : ∀ A : Finset T, A.Nonempty → A ⊂ s.toFinset → ∃ t ∈ h, A ⊆ t.toFinset) :
    ∃ bm₁ res₁ bm₂ res₂, Computes h none bm₁ res₁ ∧ Computes (h ++ [s]) none bm₂ res₂ ∧
      ((∀ i, (reportedMod res₂ i).freeRank = (reportedMod res₁ i).freeRank + if i = d then 1 else 0) ∨
        (0 < d ∧ ∀ i, (reportedMod res₂ i).freeRank + (if i + 1 = d then 1 else 0) = (reportedMod res₁ i).freeRank)) := by
  have hne : s ≠ [] := by intro e; rw [e] at hd; simp at hd
  have g' : GoodHistory (h ++ [s]) := ⟨by simp, fun t ht => by
    rcases List.mem_append.mp ht with ht | ht
    · exact g.simplices t ht
    · rw [List.mem_singleton.mp ht]; exact ⟨hne, hs⟩⟩
  obtain ⟨bm₁, res₁, k₁⟩ := computes_total g none
  obtain ⟨bm₂, res₂, k₂⟩ := computes_total g' none
  obtain ⟨r, hr⟩ := order_exists (h ++ [s])
  have hl : h.flatten.toFinset.card ≤ 64 := le_trans (Finset.card_le_card (fun x hx => by
    rw [List.mem_toFinset] at *; rw [List.flatten_append]; exact List.mem_append_left _ hx)) hb
  have L1 := (k₁.spec g).2.2.2.1 hl
  have L2 := (k₂.spec g').2.2.2.1 hb
  have hS : ¬ Listed bm₁ s.toFinset := by
    rw [L1]
    rintro ⟨-, t, ht, hsub⟩
    exact hnew t ht (fun x hx => by simpa using hsub (by simpa using hx))
  have hK : ∀ A, Listed bm₂ A ↔ Listed bm₁ A ∨ A = s.toFinset := by
    intro A
    rw [L1, L2]
    constructor
    · rintro ⟨hA, t, ht, hsub⟩
      rcases List.mem_append.mp ht with ht | ht
      · exact Or.inl ⟨hA, t, ht, hsub⟩
      · rw [List.mem_singleton.mp ht] at hsub
        by_cases e : A = s.toFinset
        · exact Or.inr e
        · obtain ⟨t, ht, h'⟩ := hfaces A hA (Finset.ssubset_iff_subset_ne.mpr ⟨hsub, e⟩)
          exact Or.inl ⟨hA, t, ht, h'⟩
    · rintro (⟨hA, t, ht, hsub⟩ | rfl)
      · exact ⟨hA, t, List.mem_append_left _ ht, hsub⟩
      · exact ⟨List.toFinset_nonempty_iff _ |>.mpr hne, s, by simp, le_rfl⟩
  obtain ⟨p, q⟩ := c131_attach g g' k₁ k₂ s.toFinset d (by rw [List.toFinset_card_of_nodup hs, hd]) hS hK r hr
  refine ⟨bm₁, res₁, bm₂, res₂, k₁, k₂, ?_⟩
  by_cases c : d = 0 ∨ (∃ n : ℤ, n ≠ 0 ∧ n • bdry r (Finsupp.single s.toFinset 1) ∈ Bounds (Listed bm₁) r (d - 1))
  · exact Or.inl (fun i => p c i (by simp))
  · exact Or.inr ⟨Nat.pos_of_ne_zero (fun e => c (Or.inl e)), fun i => q c i (by simp)⟩

/-- a case: the third edge of a triangle -/
example : GoodHistory [[0, 1], [1, 2]] ∧ [2, 0].Nodup ∧ [2, 0].length = 1 + 1 ∧ ([[0, 1], [1, 2]] ++ [[2, 0]]).flatten.toFinset.card ≤ 64 ∧
    (∀ t ∈ [[0, 1], [1, 2]], ¬ [2, 0] ⊆ t) ∧ ∀ A : Finset Nat, A.Nonempty → A ⊂ [2, 0].toFinset → ∃ t ∈ [[0, 1], [1, 2]], A ⊆ t.toFinset := by
  refine ⟨⟨by simp, by decide⟩, by decide, rfl, by decide, by decide, fun A hA hs => ?_⟩
  have : ∀ A ∈ ([2, 0] : List Nat).toFinset.powerset, A.Nonempty → A ⊂ [2, 0].toFinset → ∃ t ∈ [[0, 1], [1, 2]], A ⊆ t.toFinset := by decide +kernel
  exact this A (Finset.mem_powerset.mpr hs.subset) hA hs

end
end Toppo.Simp
