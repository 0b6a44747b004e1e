import Verif.Model.FnOrder
set_option linter.unusedVariables false

namespace Toppo.Analysis
noncomputable section

theorem then_eq_iff {a b : Ordering} : a.then b = .eq ↔ a = .eq ∧ b = .eq := by cases a <;> simp [Ordering.then]
theorem then_lt_iff {a b : Ordering} : a.then b = .lt ↔ a = .lt ∨ (a = .eq ∧ b = .lt) := by cases a <;> simp [Ordering.then]
theorem then_swap {a b : Ordering} : (a.then b).swap = a.swap.then b.swap := by cases a <;> simp [Ordering.then, Ordering.swap]

theorem cr_eq {α : Type} [LinearOrder α] {a b : α} : compare a b = .eq ↔ a = b := compare_eq_iff_eq
theorem cr_lt {α : Type} [LinearOrder α] {a b : α} : compare a b = .lt ↔ a < b := compare_lt_iff_lt
theorem cr_swap {α : Type} [LinearOrder α] (a b : α) : compare b a = (compare a b).swap := by
  rcases lt_trichotomy a b with h | h | h
  · rw [compare_lt_iff_lt.mpr h, compare_gt_iff_gt.mpr h]; rfl
  · subst h; rw [compare_eq_iff_eq.mpr rfl]; rfl
  · rw [compare_lt_iff_lt.mpr h, compare_gt_iff_gt.mpr h]; rfl

mutual
theorem cmp_eq : ∀ f g : Fn, cmp f g = .eq ↔ f = g
  | .zero, g => by cases g <;> simp [cmp, tag, cr_eq]
  | .one, g => by cases g <;> simp [cmp, tag, cr_eq]
  | .proj n, g => by cases g <;> simp [cmp, tag, cr_eq]
  | .rpow f a, g => by
    cases g <;> simp [cmp, tag, cr_eq, then_eq_iff]
    rw [cmp_eq f _]
    exact fun _ => Iff.rfl
  | .sin f, g => by
    cases g <;> simp [cmp, tag, cr_eq, then_eq_iff]
    rw [cmp_eq f _]
  | .cos f, g => by
    cases g <;> simp [cmp, tag, cr_eq, then_eq_iff]
    rw [cmp_eq f _]
  | .sum v, g => by
    cases g <;> simp [cmp, tag, cr_eq, then_eq_iff]
    rw [cmpSum_eq v _]
  | .prod v, g => by
    cases g <;> simp [cmp, tag, cr_eq, then_eq_iff]
    rw [cmpProd_eq v _]
theorem cmpSum_eq : ∀ v w : List (ℝ × Fn), cmpSum v w = .eq ↔ v = w
  | [], [] => by simp [cmpSum]
  | [], _ :: _ => by simp [cmpSum]
  | _ :: _, [] => by simp [cmpSum]
  | (a, f) :: v, (b, g) :: w => by
    simp only [cmpSum, then_eq_iff, cr_eq, List.cons.injEq, Prod.mk.injEq]
    rw [cmp_eq f g, cmpSum_eq v w]
theorem cmpProd_eq : ∀ v w : List (ℤ × Fn), cmpProd v w = .eq ↔ v = w
  | [], [] => by simp [cmpProd]
  | [], _ :: _ => by simp [cmpProd]
  | _ :: _, [] => by simp [cmpProd]
  | (a, f) :: v, (b, g) :: w => by
    simp only [cmpProd, then_eq_iff, cr_eq, List.cons.injEq, Prod.mk.injEq]
    rw [cmp_eq f g, cmpProd_eq v w]
end

mutual
theorem cmp_swap : ∀ f g : Fn, cmp g f = (cmp f g).swap
  | .zero, g => by cases g <;> simp only [cmp] <;> exact cr_swap _ _
  | .one, g => by cases g <;> simp only [cmp] <;> exact cr_swap _ _
  | .proj n, g => by cases g <;> simp only [cmp] <;> exact cr_swap _ _
  | .rpow f a, g => by
    cases g with
    | rpow g b => simp only [cmp, then_swap]; rw [cmp_swap f g, cr_swap a b]
    | _ => simp only [cmp]; exact cr_swap _ _
  | .sin f, g => by
    cases g with
    | sin g => simp only [cmp]; rw [cmp_swap f g]
    | _ => simp only [cmp]; exact cr_swap _ _
  | .cos f, g => by
    cases g with
    | cos g => simp only [cmp]; rw [cmp_swap f g]
    | _ => simp only [cmp]; exact cr_swap _ _
  | .sum v, g => by
    cases g with
    | sum w => simp only [cmp]; rw [cmpSum_swap v w]
    | _ => simp only [cmp]; exact cr_swap _ _
  | .prod v, g => by
    cases g with
    | prod w => simp only [cmp]; rw [cmpProd_swap v w]
    | _ => simp only [cmp]; exact cr_swap _ _
theorem cmpSum_swap : ∀ v w : List (ℝ × Fn), cmpSum w v = (cmpSum v w).swap
  | [], [] => by simp [cmpSum]
  | [], _ :: _ => by simp [cmpSum]
  | _ :: _, [] => by simp [cmpSum]
  | (a, f) :: v, (b, g) :: w => by
    simp only [cmpSum, then_swap]
    rw [cmp_swap f g, cmpSum_swap v w, cr_swap a b]
theorem cmpProd_swap : ∀ v w : List (ℤ × Fn), cmpProd w v = (cmpProd v w).swap
  | [], [] => by simp [cmpProd]
  | [], _ :: _ => by simp [cmpProd]
  | _ :: _, [] => by simp [cmpProd]
  | (a, f) :: v, (b, g) :: w => by
    simp only [cmpProd, then_swap]
    rw [cmp_swap f g, cmpProd_swap v w, cr_swap a b]
end

theorem cr_trans {α : Type} [LinearOrder α] {a b c : α} (h : compare a b = .lt) (k : compare b c = .lt) : compare a c = .lt :=
  cr_lt.mpr (lt_trans (cr_lt.mp h) (cr_lt.mp k))

theorem cmp_tag {f g : Fn} (h : tag f ≠ tag g) : cmp f g = compare (tag f) (tag g) := by
  cases f <;> cases g <;> simp [cmp, tag] at h ⊢

theorem cmp_le_tag {f g : Fn} (h : cmp f g = .lt) : tag f ≤ tag g := by
  by_cases e : tag f = tag g
  · exact e.le
  · rw [cmp_tag e, cr_lt] at h
    exact h.le

mutual
theorem cmp_trans : ∀ f g h : Fn, cmp f g = .lt → cmp g h = .lt → cmp f h = .lt := by
  intro f g h h1 h2
  by_cases e1 : tag f = tag g
  · by_cases e2 : tag g = tag h
    · cases f with
      | zero => cases g <;> cases h <;> simp [tag] at e1 e2; simp [cmp, tag] at h1
      | one => cases g <;> cases h <;> simp [tag] at e1 e2; simp [cmp, tag] at h1
      | proj n =>
        cases g <;> cases h <;> simp [tag] at e1 e2
        simp only [cmp] at h1 h2 ⊢
        exact cr_trans h1 h2
      | rpow f a =>
        cases g <;> cases h <;> simp [tag] at e1 e2
        rename_i g b h c
        simp only [cmp, then_lt_iff, cmp_eq] at h1 h2 ⊢
        rcases h1 with h1 | ⟨rfl, h1⟩ <;> rcases h2 with h2 | ⟨rfl, h2⟩
        · exact Or.inl (cmp_trans f g h h1 h2)
        · exact Or.inl h1
        · exact Or.inl h2
        · exact Or.inr ⟨rfl, cr_trans h1 h2⟩
      | sin f =>
        cases g <;> cases h <;> simp [tag] at e1 e2
        rename_i g h
        simp only [cmp] at h1 h2 ⊢
        exact cmp_trans f g h h1 h2
      | cos f =>
        cases g <;> cases h <;> simp [tag] at e1 e2
        rename_i g h
        simp only [cmp] at h1 h2 ⊢
        exact cmp_trans f g h h1 h2
      | sum v =>
        cases g <;> cases h <;> simp [tag] at e1 e2
        rename_i g h
        simp only [cmp] at h1 h2 ⊢
        exact cmpSum_trans v g h h1 h2
      | prod v =>
        cases g <;> cases h <;> simp [tag] at e1 e2
        rename_i g h
        simp only [cmp] at h1 h2 ⊢
        exact cmpProd_trans v g h h1 h2
    · have := cmp_le_tag h2
      rw [cmp_tag (by omega), cr_lt]
      omega
  · have := cmp_le_tag h2
    have := cmp_le_tag h1
    rw [cmp_tag (by omega), cr_lt]
    omega
theorem cmpSum_trans : ∀ u v w : List (ℝ × Fn), cmpSum u v = .lt → cmpSum v w = .lt → cmpSum u w = .lt
  | [], v, w => by cases v <;> cases w <;> simp [cmpSum]
  | _ :: _, [], w => by simp [cmpSum]
  | _ :: _, _ :: _, [] => by simp [cmpSum]
  | (a, f) :: u, (b, g) :: v, (c, h) :: w => by
    simp only [cmpSum, then_lt_iff, then_eq_iff, cmp_eq, cr_eq]
    intro h1 h2
    rcases h1 with (h1 | ⟨rfl, h1⟩) | ⟨⟨rfl, rfl⟩, h1⟩ <;> rcases h2 with (h2 | ⟨rfl, h2⟩) | ⟨⟨rfl, rfl⟩, h2⟩
    · exact Or.inl (Or.inl (cr_trans h1 h2))
    · exact Or.inl (Or.inl h1)
    · exact Or.inl (Or.inl h1)
    · exact Or.inl (Or.inl h2)
    · exact Or.inl (Or.inr ⟨rfl, cmp_trans f g h h1 h2⟩)
    · exact Or.inl (Or.inr ⟨rfl, h1⟩)
    · exact Or.inl (Or.inl h2)
    · exact Or.inl (Or.inr ⟨rfl, h2⟩)
    · exact Or.inr ⟨⟨rfl, rfl⟩, cmpSum_trans u v w h1 h2⟩
theorem cmpProd_trans : ∀ u v w : List (ℤ × Fn), cmpProd u v = .lt → cmpProd v w = .lt → cmpProd u w = .lt
  | [], v, w => by cases v <;> cases w <;> simp [cmpProd]
  | _ :: _, [], w => by simp [cmpProd]
  | _ :: _, _ :: _, [] => by simp [cmpProd]
  | (a, f) :: u, (b, g) :: v, (c, h) :: w => by
    simp only [cmpProd, then_lt_iff, then_eq_iff, cmp_eq, cr_eq]
    intro h1 h2
    rcases h1 with (h1 | ⟨rfl, h1⟩) | ⟨⟨rfl, rfl⟩, h1⟩ <;> rcases h2 with (h2 | ⟨rfl, h2⟩) | ⟨⟨rfl, rfl⟩, h2⟩
    · exact Or.inl (Or.inl (cr_trans h1 h2))
    · exact Or.inl (Or.inl h1)
    · exact Or.inl (Or.inl h1)
    · exact Or.inl (Or.inl h2)
    · exact Or.inl (Or.inr ⟨rfl, cmp_trans f g h h1 h2⟩)
    · exact Or.inl (Or.inr ⟨rfl, h1⟩)
    · exact Or.inl (Or.inl h2)
    · exact Or.inl (Or.inr ⟨rfl, h2⟩)
    · exact Or.inr ⟨⟨rfl, rfl⟩, cmpProd_trans u v w h1 h2⟩
end

theorem cmp_self (f : Fn) : cmp f f = .eq := (cmp_eq f f).mpr rfl

theorem cmp_gt {f g : Fn} : cmp f g = .gt ↔ cmp g f = .lt := by
  rw [cmp_swap f g]
  cases cmp f g <;> simp [Ordering.swap]

open Classical in
/-- the derived order as a linear order -/
@[instance_reducible] def fnOrder : LinearOrder Fn where
  le f g := cmp f g ≠ .gt
  lt f g := cmp f g = .lt
  le_refl f := by simp [cmp_self]
  le_trans f g h h1 h2 := by
    intro h3
    rw [cmp_gt] at h3
    rcases e1 : cmp f g with _ | _ | _
    · exact h2 (cmp_gt.mpr (cmp_trans _ _ _ h3 e1))
    · rw [cmp_eq] at e1; subst e1; exact h2 (cmp_gt.mpr h3)
    · exact h1 e1
  lt_iff_le_not_ge f g := by
    rw [ne_eq, ne_eq, not_not, cmp_gt (f := g)]
    constructor
    · intro h; exact ⟨by rw [h]; decide, h⟩
    · exact fun h => h.2
  le_antisymm f g h1 h2 := by
    rcases e1 : cmp f g with _ | _ | _
    · exact absurd (cmp_gt.mpr e1) h2
    · exact (cmp_eq _ _).mp e1
    · exact absurd e1 h1
  le_total f g := by
    by_contra h
    push Not at h
    have := cmp_gt.mp h.1
    rw [h.2] at this
    exact absurd this (by decide)
  toDecidableLE := Classical.decRel _

end
end Toppo.Analysis
