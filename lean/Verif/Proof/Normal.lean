import Mathlib.Logic.Relation
import Mathlib.Order.Basic
import Mathlib.Data.Nat.Find
import Mathlib.Tactic.ByContra
/-!
Orderings of a graph on `0, .., n-1` in which the "largest smaller neighbour" relation is a depth-first tree.
Stated for an arbitrary symmetric relation; used for `RawSimpleGraph`.
-/
namespace Toppo.Normal

/-- `x` is the parent of `y`: the largest neighbour of `y` below `y`. -/
def Par (A : Nat → Nat → Prop) (x y : Nat) : Prop := x < y ∧ A x y ∧ ∀ k, x < k → k < y → ¬ A k y

/-- ancestor (reflexive) -/
abbrev Anc (A : Nat → Nat → Prop) : Nat → Nat → Prop := Relation.ReflTransGen (Par A)

theorem Par.unique {A x x' y} (h : Par A x y) (h' : Par A x' y) : x = x' := by
  rcases Nat.lt_trichotomy x x' with h1 | h1 | h1
  · exact absurd h'.2.1 (h.2.2 x' h1 h'.1)
  · exact h1
  · exact absurd h.2.1 (h'.2.2 x h1 h.1)

theorem Anc.le {A a b} (h : Anc A a b) : a ≤ b := by
  induction h with
  | refl => exact Nat.le_refl _
  | tail _ h ih => have := h.1; omega

theorem Anc.chain {A a b c} (hac : Anc A a c) (hbc : Anc A b c) (h : a ≤ b) : Anc A a b := by
  induction hac with
  | refl =>
    have : a = b := Nat.le_antisymm h hbc.le
    exact this ▸ .refl
  | @tail d c hd hp ih =>
    rcases Relation.ReflTransGen.cases_tail hbc with rfl | ⟨e, he, hpe⟩
    · exact .tail hd hp
    · have := hp.unique hpe; subst this; exact ih he

/-- a vertex with a smaller neighbour has a parent -/
theorem exists_par {A : Nat → Nat → Prop} {x y : Nat} (h : x < y) (ha : A x y) : ∃ z, x ≤ z ∧ Par A z y := by
  induction hm : y - x using Nat.strongRecOn generalizing x with
  | _ m ih =>
    by_cases hk : ∃ k, x < k ∧ k < y ∧ A k y
    · obtain ⟨k, h1, h2, h3⟩ := hk
      obtain ⟨z, h4, h5⟩ := ih (y - k) (by omega) h2 h3 rfl
      exact ⟨z, by omega, h5⟩
    · exact ⟨x, Nat.le_refl _, h, ha, fun k h1 h2 h3 => hk ⟨k, h1, h2, h3⟩⟩

/-- The ordering `0, .., n-1` is a depth-first ordering of `A`, up to the vertex `j` (exclusive): every vertex but `0` has
a smaller neighbour, and for each edge the vertices between its ends descend from the lower end. -/
structure Upto (A : Nat → Nat → Prop) (j : Nat) : Prop where
  par : ∀ y, 0 < y → y < j → ∃ x, Par A x y
  between : ∀ x m y, x ≤ m → m < y → m < j → A x y → Anc A x m

theorem Anc.congr {A B : Nat → Nat → Prop} {j : Nat} (hAB : ∀ x y, x < j → y < j → (A x y ↔ B x y)) {a b}
    (h : Anc A a b) : b < j → Anc B a b := by
  induction h with
  | refl => intro _; exact .refl
  | @tail c d hc hp ih =>
    intro hd
    have := hp.1
    refine .tail (ih (by omega)) ⟨hp.1, (hAB _ _ (by omega) hd).mp hp.2.1, fun k h1 h2 => ?_⟩
    rw [← hAB k d (by omega) hd]; exact hp.2.2 k h1 h2

theorem Par.congr {A B : Nat → Nat → Prop} {j : Nat} (hAB : ∀ x y, x < j → y < j → (A x y ↔ B x y)) {a b}
    (h : Par A a b) (hb : b < j) : Par B a b :=
  ⟨h.1, (hAB _ _ (by have := h.1; omega) hb).mp h.2.1, fun k h1 h2 => by
    rw [← hAB k b (by omega) hb]; exact h.2.2 k h1 h2⟩

/-- One round of the search: `i` is the largest vertex below `j` with a neighbour from `j` on, `B` renames vertices from `j`
on so that `j` is a neighbour of `i`. -/
theorem Upto.step {A B : Nat → Nat → Prop} {i j : Nat} (h : Upto A j) (hij : i < j)
    (hlow : ∀ x y, x < j → y < j → (A x y ↔ B x y))
    (hup : ∀ x, x < j → (∃ y, j ≤ y ∧ B x y) → ∃ y, j ≤ y ∧ A x y)
    (hi : B i j) (hmax : ∀ x, i < x → x < j → ∀ y, j ≤ y → ¬ A x y) : Upto B (j + 1) := by
  have hsmall : ∀ x, x < j → (∃ y, j ≤ y ∧ B x y) → x ≤ i ∧ Anc B x (j - 1) := by
    intro x hx hy
    obtain ⟨y, h1, h2⟩ := hup x hx hy
    refine ⟨?_, ?_⟩
    · by_contra hc; exact hmax x (by omega) hx y h1 h2
    · exact (h.between x (j - 1) y (by omega) (by omega) (by omega) h2).congr hlow (by omega)
  have hpar : Par B i j := ⟨hij, hi, fun k h1 h2 h3 => by
    have := (hsmall k h2 ⟨j, Nat.le_refl _, h3⟩).1; omega⟩
  have hii := (hsmall i hij ⟨j, Nat.le_refl _, hi⟩).2
  have hanc : ∀ x, x < j → (∃ y, j ≤ y ∧ B x y) → Anc B x j := by
    intro x hx hy
    obtain ⟨h1, h2⟩ := hsmall x hx hy
    exact .tail (h2.chain hii h1) hpar
  constructor
  · intro y h0 hy
    by_cases hyj : y = j
    · subst hyj; exact ⟨i, hpar⟩
    · obtain ⟨x, hx⟩ := h.par y h0 (by omega)
      exact ⟨x, hx.congr hlow (by omega)⟩
  · intro x m y hxm hmy hm hB
    by_cases hmj : m = j
    · subst hmj
      by_cases hxj : x = m
      · subst hxj; exact .refl
      · exact hanc x (by omega) ⟨y, by omega, hB⟩
    · by_cases hyj : y < j
      · exact (h.between x m y hxm hmy (by omega) ((hlow x y (by omega) hyj).mpr hB)).congr hlow (by omega)
      · obtain ⟨y', h1, h2⟩ := hup x (by omega) ⟨y, by omega, hB⟩
        exact (h.between x m y' hxm (by omega) (by omega) h2).congr hlow (by omega)

theorem Upto.init (A : Nat → Nat → Prop) : Upto A 1 := by
  constructor
  · intro y h1 h2; omega
  · intro x m y h1 h2 h3 _
    have : x = m := by omega
    exact this ▸ .refl

/-- In a depth-first ordering every edge joins an ancestor and a descendant. -/
theorem Upto.anc {A : Nat → Nat → Prop} {j : Nat} (h : Upto A j) {x y} (hxy : x < y) (hy : y < j) (ha : A x y) :
    Anc A x y := by
  obtain ⟨z, h1, h2⟩ := exists_par hxy ha
  have := h2.1
  exact .tail (h.between x z y h1 h2.1 (by omega) ha) h2

theorem Upto.root {A : Nat → Nat → Prop} {j : Nat} (h : Upto A j) {y} (hy : y < j) : Anc A 0 y := by
  induction y using Nat.strongRecOn with
  | _ y ih =>
    by_cases h0 : y = 0
    · subst h0; exact .refl
    · obtain ⟨x, hx⟩ := h.par y (by omega) hy
      have := hx.1
      exact .tail (ih x hx.1 (by omega)) hx

end Toppo.Normal
