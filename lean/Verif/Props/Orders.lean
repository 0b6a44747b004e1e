import Verif.Model.Orders
import Verif.Props.MatrixOps
import Verif.Props.Sparse
set_option linter.unusedVariables false
/-!
# C132: the orders of cycles, cube factors and cubes; C133: comparing views and matrices
-/
namespace Toppo

/-! ### specification -/

/-- the contract of `Ord`: comparing is reflexive, antisymmetric under exchange of the arguments, and transitive -/
structure OrderLaws {α : Type} (cmp : α → α → Ordering) : Prop where
  refl : ∀ a, cmp a a = .eq
  swap : ∀ a b, cmp b a = (cmp a b).swap
  trans : ∀ a b c, cmp a b ≠ .gt → cmp b c ≠ .gt → cmp a c ≠ .gt

/-- `cmp` says "equal" for equal values only -/
def Exact {α : Type} (cmp : α → α → Ordering) : Prop := ∀ a b, cmp a b = .eq → a = b

/-- the contract of `PartialOrd` for the `some .lt` answers: `<` is transitive -/
def LtTrans {α : Type} (pcmp : α → α → Option Ordering) : Prop :=
  ∀ a b c, pcmp a b = some .lt → pcmp b c = some .lt → pcmp a c = some .lt

/-! ### cycles -/

/-- the order of cycles is that of their first elements, the empty cycle being the smallest -/
theorem c132_cycle_head (a b : Cycle) : a.cmp b = match a, b with
    | [], [] => .eq
    | [], _ :: _ => .lt
    | _ :: _, [] => .gt
    | x :: _, y :: _ => compare x y := by
  unfold Cycle.cmp
  rcases a with _ | ⟨x, a⟩ <;> rcases b with _ | ⟨y, b⟩ <;> simp
  rintro rfl -
  simp [Std.ReflCmp.compare_self]

/-- **C132**, cycles: the comparison obeys the laws of an order; on cycles without a common element it says "equal" for equal cycles only. -/
theorem c132_cycle : OrderLaws Cycle.cmp ∧
    ∀ a b : Cycle, (∀ x ∈ a, x ∉ b) → a.cmp b = .eq → a = b := by
  refine ⟨⟨fun a => ?_, fun a b => ?_, fun a b c => ?_⟩, fun a b h e => ?_⟩
  · simp [Cycle.cmp]
  · rw [c132_cycle_head, c132_cycle_head]
    rcases a with _ | ⟨x, a⟩ <;> rcases b with _ | ⟨y, b⟩ <;> simp
    exact Std.OrientedCmp.eq_swap
  · rw [c132_cycle_head, c132_cycle_head, c132_cycle_head]
    rcases a with _ | ⟨x, a⟩ <;> rcases b with _ | ⟨y, b⟩ <;> rcases c with _ | ⟨z, c⟩ <;> simp [Nat.compare_ne_gt]
    omega
  · rw [c132_cycle_head] at e
    rcases a with _ | ⟨x, a⟩ <;> rcases b with _ | ⟨y, b⟩ <;> simp at e
    · rfl
    · subst e; exact absurd (List.mem_cons_self) (h x List.mem_cons_self)

/-- Without that condition it does not agree with `==`: `(0 1)` and `(0 2)` differ but compare as equal. -/
theorem c132_cycle_exact_false : ¬ Exact Cycle.cmp := fun h => by
  have := h [0, 1] [0, 2] (by decide)
  simp at this

/-! ### cube factors -/

namespace RawGraph.Factor

/-- the vertices of a factor -/
def vs : Factor → List Nat
  | edge x y => [x, y]
  | vertex x => [x]

theorem disjoint_iff (a b : Factor) : a.disjoint b = true ↔ ∀ x ∈ a.vs, x ∉ b.vs := by
  cases a <;> cases b <;> simp [disjoint, vs] <;> tauto

theorem order_mem (a : Factor) : a.order ∈ a.vs := by cases a <;> simp [order, vs]

theorem disjoint_comm' (a b : Factor) : a.disjoint b = b.disjoint a := by
  rw [Bool.eq_iff_iff, disjoint_iff, disjoint_iff]
  exact ⟨fun h x hx h' => h x h' hx, fun h x hx h' => h x h' hx⟩

theorem disjoint_order {a b : Factor} (h : a.disjoint b = true) : a.order ≠ b.order := fun e =>
  (disjoint_iff a b).mp h _ a.order_mem (e ▸ b.order_mem)

/-- **C132**, cube factors: two factors are comparable exactly if they are equal or have no common vertex; then the order is that of their first vertices, and "equal" means equal;
exchanging the arguments reverses the answer; on a list of factors without common vertices `<` is transitive. -/
theorem c132_factor (a b : Factor) :
    (pcmp a b = none ↔ a ≠ b ∧ ∃ x ∈ a.vs, x ∈ b.vs) ∧
    (pcmp a b = some .eq ↔ a = b) ∧
    (pcmp a b = some .lt ↔ (∀ x ∈ a.vs, x ∉ b.vs) ∧ a.order < b.order) ∧
    pcmp b a = (pcmp a b).map Ordering.swap ∧
    ∀ c, (∀ x ∈ a.vs, x ∉ c.vs) → pcmp a b = some .lt → pcmp b c = some .lt → pcmp a c = some .lt := by
  have ne : ∀ {a b : Factor}, (∀ x ∈ a.vs, x ∉ b.vs) → a ≠ b := fun {a b} h e => h _ a.order_mem (e ▸ a.order_mem)
  have L : ∀ a b : Factor, pcmp a b = some .lt ↔ (∀ x ∈ a.vs, x ∉ b.vs) ∧ a.order < b.order := by
    intro a b
    unfold pcmp
    by_cases h : a = b
    · subst h; simp
    · by_cases hd : a.disjoint b = true
      · simp only [h, hd, if_false, Bool.not_true, Bool.false_eq_true]
        simp [Nat.compare_eq_lt, (disjoint_iff a b).mp hd]
        exact fun _ => (disjoint_iff a b).mp hd
      · simp only [h, hd, if_false]
        simp
        intro h'
        exact absurd ((disjoint_iff a b).mpr h') hd
  refine ⟨?_, ?_, L a b, ?_, ?_⟩
  · unfold pcmp
    by_cases h : a = b
    · subst h; simp
    · by_cases hd : a.disjoint b = true
      · simp only [h, hd, if_false, Bool.not_true, Bool.false_eq_true]
        simpa using fun _ => (disjoint_iff a b).mp hd
      · simp only [h, hd, if_false]
        have hd' := (not_congr (disjoint_iff a b)).mp hd
        push Not at hd'
        simpa [h] using hd'
  · unfold pcmp
    by_cases h : a = b
    · subst h; simp
    · by_cases hd : a.disjoint b = true
      · simp only [h, hd, if_false, Bool.not_true, Bool.false_eq_true]
        have := disjoint_order hd
        simp [Nat.compare_eq_eq, this]
      · simp [h, hd]
  · unfold pcmp
    by_cases h : a = b
    · subst h; simp
    · have h' : b ≠ a := fun e => h e.symm
      rw [disjoint_comm' b a]
      by_cases hd : a.disjoint b = true
      · simp only [h, h', hd, if_false, Bool.not_true, Bool.false_eq_true, Option.map_some]
        congr 1
        exact Std.OrientedCmp.eq_swap
      · simp [h, h', hd]
  · intro c hc h1 h2
    rw [L] at *
    exact ⟨hc, lt_trans h1.2 h2.2⟩

/-- In general `<` on cube factors is not transitive, against the contract of `PartialOrd`: `[1 5] < 2` and `2 < [3 5]`, but `[1 5]` and `[3 5]` cannot be compared. -/
theorem c132_factor_trans_false : ¬ LtTrans pcmp := fun h => by
  have := h (edge 1 5) (vertex 2) (edge 3 5) (by decide) (by decide)
  revert this; decide

/-- The derived `cmp` of cube factors obeys the laws of an order and says "equal" for equal factors only. -/
theorem c132_factor_cmp : OrderLaws ocmp ∧ Exact ocmp := by
  refine ⟨⟨fun a => ?_, fun a b => ?_, fun a b c => ?_⟩, fun a b e => ?_⟩
  · cases a <;> simp [ocmp, Std.ReflCmp.compare_self]
  · cases a <;> cases b <;> simp [ocmp, Ordering.swap_then, ← Std.OrientedCmp.eq_swap]
  · have key : ∀ x z y w : Nat, (compare x z).then (compare y w) ≠ .gt ↔ x < z ∨ x = z ∧ y ≤ w := by
      intro x z y w
      rcases Nat.lt_trichotomy x z with h | h | h
      · simp [Nat.compare_eq_lt.mpr h, h, Ordering.then]
      · simp [Nat.compare_eq_eq.mpr h, h, Ordering.then, Nat.compare_ne_gt]
      · simp [Nat.compare_eq_gt.mpr h, Ordering.then]; omega
    cases a <;> cases b <;> cases c <;> simp only [ocmp, key, Nat.compare_ne_gt] <;> first | omega | simp
  · cases a <;> cases b <;> simp [ocmp, Ordering.then_eq_eq] at e ⊢ <;> exact e

/-- `cmp` and `partial_cmp` of cube factors disagree, against the contract of `Ord`: `0 < [1 2]` holds, but `cmp` says `Greater`. -/
theorem c132_factor_agree_false : ¬ ∀ a b : Factor, ∀ o, pcmp a b = some o → ocmp a b = o := fun h => by
  have := h (vertex 0) (edge 1 2) .lt (by decide)
  revert this; decide

/-- They agree on two vertices, and on two edges that can be compared. -/
theorem c132_factor_agree_partial (a b : Factor) (h : a.isEdge = b.isEdge) (o : Ordering) (e : pcmp a b = some o) : ocmp a b = o := by
  obtain ⟨-, he, hl, hs, -⟩ := c132_factor a b
  obtain ⟨-, -, hl', -, -⟩ := c132_factor b a
  cases o with
  | eq => rw [he.mp e]; exact c132_factor_cmp.1.refl b
  | lt =>
    have := (hl.mp e).2
    cases a <;> cases b <;> simp [isEdge, order] at h this <;> simp [ocmp, Nat.compare_eq_lt.mpr this, Ordering.then]
  | gt =>
    rw [e] at hs
    have := (hl'.mp hs).2
    cases a <;> cases b <;> simp [isEdge, order] at h this <;> simp [ocmp, Nat.compare_eq_gt.mpr this, Ordering.then]

example : pcmp (edge 0 3) (edge 1 2) = some .lt ∧ ocmp (edge 0 3) (edge 1 2) = .lt ∧ pcmp (edge 0 2) (edge 1 2) = none := by decide

end RawGraph.Factor

/-! ### cubes -/

namespace Cub
open RawGraph

/-- The derived `cmp` of cubes obeys the laws of an order and says "equal" for equal cubes only. -/
theorem c132_cube_cmp : OrderLaws cocmp ∧ Exact cocmp := by
  obtain ⟨⟨r, s, t⟩, ex⟩ := Factor.c132_factor_cmp
  refine ⟨⟨fun a => ?_, fun a => ?_, fun a => ?_⟩, fun a => ?_⟩
  · induction a with
    | nil => rfl
    | cons x a ih => simp [cocmp, r, ih]
  · induction a with
    | nil => intro b; cases b <;> rfl
    | cons x a ih =>
      intro b
      cases b with
      | nil => rfl
      | cons y b => simp [cocmp, Ordering.swap_then, ← s, ← ih]
  · induction a with
    | nil => intro b c h1 h2; cases c <;> simp [cocmp]; 
    | cons x a ih =>
      intro b c h1 h2
      cases b with
      | nil => simp [cocmp] at h1
      | cons y b =>
        cases c with
        | nil => simp [cocmp] at h2
        | cons z c =>
          simp only [cocmp] at h1 h2 ⊢
          have h1' : Factor.ocmp x y ≠ .gt := fun e => by simp [e] at h1
          have h2' : Factor.ocmp y z ≠ .gt := fun e => by simp [e] at h2
          have h3 := t x y z h1' h2'
          rcases e : Factor.ocmp x z with _ | _ | _
          · simp
          · have := ex _ _ e; subst this
            have : Factor.ocmp x y = .eq := by
              rw [s] at h2'
              cases e' : Factor.ocmp x y <;> rw [e'] at h1' h2' <;> simp at h1' h2' ⊢
            have := ex _ _ this; subst this
            simp only [e, Ordering.eq_then] at h1 h2 ⊢
            exact ih b c h1 h2
          · exact absurd e h3
  · induction a with
    | nil => intro b e; cases b <;> simp [cocmp] at e ⊢
    | cons x a ih =>
      intro b e
      cases b with
      | nil => simp [cocmp] at e
      | cons y b =>
        simp only [cocmp, Ordering.then_eq_eq] at e
        rw [ex _ _ e.1, ih b e.2]

/-- `partial_cmp` of cubes: "equal" means equal, and exchanging the arguments reverses the answer. -/
theorem c132_cube (a b : List Factor) : (ccmp a b = some .eq ↔ a = b) ∧ ccmp b a = (ccmp a b).map Ordering.swap := by
  induction a generalizing b with
  | nil => cases b <;> simp [ccmp]
  | cons x a ih =>
    cases b with
    | nil => simp [ccmp]
    | cons y b =>
      obtain ⟨-, he, -, hs, -⟩ := Factor.c132_factor x y
      simp only [ccmp]
      rw [hs]
      rcases e : Factor.pcmp x y with _ | _ | _ | _
      · simp only [Option.map_none, and_true]
        simp; rintro rfl; rw [he.mpr rfl] at e; simp at e
      · simp; rintro rfl; rw [he.mpr rfl] at e; simp at e
      · have := he.mp e; subst this
        simp [ih b]
      · simp; rintro rfl; rw [he.mpr rfl] at e; simp at e

/-- `<` on cubes is not transitive either. -/
theorem c132_cube_trans_false : ¬ LtTrans ccmp := fun h => by
  have := h [.edge 1 5] [.vertex 2] [.edge 3 5] (by decide) (by decide)
  revert this; decide

end Cub

/-! ### C133 -/

section
variable {K : Type} [DecidableEq K]
open MatrixProps

/-- **C133**, matrices: `a == b` is true exactly if the sizes and all entries are equal. -/
theorem c133_matrix (a b : Mat K) (n m n' m' : Nat) (f g : Nat → Nat → K) (ha : Entries a.data a.view n m f) (hb : Entries b.data b.view n' m' g) :
    ∃ r, Mat.eq a b = some r ∧ (r = true ↔ (n, m) = (n', m') ∧ ∀ i j, i < n → j < m → f i j = g i j) :=
  c31_eq _ _ _ _ _ _ _ _ _ _ ha hb

/-- **C133**, a view and a matrix: `view == matrix` never returns, however much room the stack has. -/
theorem c133_view_matrix_false (depth : Nat) (mem : List K) (v : View) (a : Mat K) : View.eqMat depth mem v a = none := by
  induction depth with
  | zero => rfl
  | succ d ih => rw [View.eqMat, ih]

end

/-- a case: a matrix and a view of a larger matrix with the same entries are equal as views; the comparison of the view with the matrix has no answer -/
example : View.eq [1, 2, 3, 4] (View.fromRaw 0 (1, 2) (2, 1)) [1, 2] (⟨[1, 2], (1, 2), (2, 1)⟩ : Mat Int).view = some true ∧
    View.eqMat 1000 [1, 2, 3, 4] (View.fromRaw 0 (1, 2) (2, 1)) (⟨[1, 2], (1, 2), (2, 1)⟩ : Mat Int) = none := by
  exact ⟨by decide, c133_view_matrix_false _ _ _ _⟩

end Toppo
