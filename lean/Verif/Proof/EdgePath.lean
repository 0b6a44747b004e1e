import Verif.Model.EdgePath
import Mathlib.Data.List.Basic
import Mathlib.Data.List.Induction
import Mathlib.Data.List.Perm.Basic
import Mathlib.Data.List.Count
import Mathlib.Tactic.Ring
import Mathlib.Tactic.Push
set_option linter.unusedVariables false
/-! Words of motions up to exchanging disjoint neighbours and cancelling inverse ones, and the stacks they leave at every vertex. -/
namespace Toppo.EdgePath

/-- the reverse motion -/
def rev (s : Move) : Move := (s.2, s.1)

/-- the two motions have no vertex in common -/
def Disj (s t : Move) : Prop := s.1 ≠ t.1 ∧ s.1 ≠ t.2 ∧ s.2 ≠ t.1 ∧ s.2 ≠ t.2

/-- two sequences of motions are the same up to exchanging consecutive motions without common vertex, and inserting or deleting a motion
followed by its reverse -/
inductive Eqv : List Move → List Move → Prop
  | refl (u) : Eqv u u
  | symm {u v} : Eqv u v → Eqv v u
  | trans {u v w} : Eqv u v → Eqv v w → Eqv u w
  | swap (u : List Move) (s t : Move) (v : List Move) : Disj s t → Eqv (u ++ s :: t :: v) (u ++ t :: s :: v)
  | cancel (u : List Move) (s : Move) (v : List Move) : Eqv (u ++ s :: rev s :: v) (u ++ v)

/-- the second word is obtained from the first by exchanging consecutive motions without common vertex and deleting a motion followed by its
reverse -/
inductive Red : List Move → List Move → Prop
  | refl (u) : Red u u
  | trans {u v w} : Red u v → Red v w → Red u w
  | swap (u : List Move) (s t : Move) (v : List Move) : Disj s t → Red (u ++ s :: t :: v) (u ++ t :: s :: v)
  | cancel (u : List Move) (s : Move) (v : List Move) : Red (u ++ s :: rev s :: v) (u ++ v)

theorem Red.eqv {u v : List Move} (h : Red u v) : Eqv u v := by
  induction h with
  | refl u => exact .refl _
  | trans _ _ i1 i2 => exact i1.trans i2
  | swap u s t v h => exact .swap _ _ _ _ h
  | cancel u s v => exact .cancel _ _ _

theorem Red.append_right (x : List Move) {u v : List Move} (h : Red u v) : Red (u ++ x) (v ++ x) := by
  induction h with
  | refl u => exact .refl _
  | trans _ _ i1 i2 => exact i1.trans i2
  | swap u s t v h => simp only [List.append_assoc, List.cons_append]; exact .swap _ _ _ _ h
  | cancel u s v => simp only [List.append_assoc, List.cons_append]; exact .cancel _ _ _

@[simp] theorem rev_rev (s : Move) : rev (rev s) = s := rfl

theorem Disj.symm {s t : Move} (h : Disj s t) : Disj t s := ⟨h.1.symm, h.2.2.1.symm, h.2.1.symm, h.2.2.2.symm⟩
theorem Disj.rev_left {s t : Move} (h : Disj s t) : Disj (rev s) t := ⟨h.2.2.1, h.2.2.2, h.1, h.2.1⟩

theorem Eqv.append_left (x : List Move) {u v : List Move} (h : Eqv u v) : Eqv (x ++ u) (x ++ v) := by
  induction h with
  | refl u => exact .refl _
  | symm _ ih => exact ih.symm
  | trans _ _ i1 i2 => exact i1.trans i2
  | swap u s t v h => rw [← List.append_assoc, ← List.append_assoc]; exact .swap _ _ _ _ h
  | cancel u s v => rw [← List.append_assoc, ← List.append_assoc]; exact .cancel _ _ _

theorem Eqv.append_right (x : List Move) {u v : List Move} (h : Eqv u v) : Eqv (u ++ x) (v ++ x) := by
  induction h with
  | refl u => exact .refl _
  | symm _ ih => exact ih.symm
  | trans _ _ i1 i2 => exact i1.trans i2
  | swap u s t v h => simp only [List.append_assoc, List.cons_append]; exact .swap _ _ _ _ h
  | cancel u s v => simp only [List.append_assoc, List.cons_append]; exact .cancel _ _ _

theorem Eqv.append {u v x y : List Move} (h : Eqv u v) (g : Eqv x y) : Eqv (u ++ x) (v ++ y) :=
  (h.append_right x).trans (g.append_left v)

/-- the reversed path -/
def revWord (w : List Move) : List Move := (w.map rev).reverse

theorem revWord_append (u v : List Move) : revWord (u ++ v) = revWord v ++ revWord u := by simp [revWord]
theorem revWord_cons (s : Move) (v : List Move) : revWord (s :: v) = revWord v ++ [rev s] := by simp [revWord]
theorem revWord_revWord (w : List Move) : revWord (revWord w) = w := by simp [revWord, Function.comp_def]

theorem Eqv.revWord {u v : List Move} (h : Eqv u v) : Eqv (revWord u) (revWord v) := by
  induction h with
  | refl u => exact .refl _
  | symm _ ih => exact ih.symm
  | trans _ _ i1 i2 => exact i1.trans i2
  | swap u s t v h =>
    simp only [revWord_append, revWord_cons, List.append_assoc, List.cons_append, List.nil_append]
    exact .swap _ _ _ _ (h.symm.rev_left.symm.rev_left.symm)
  | cancel u s v =>
    simp only [revWord_append, revWord_cons, List.append_assoc, List.cons_append, List.nil_append]
    exact .cancel _ _ _

theorem Eqv.mul_rev (w : List Move) : Eqv (w ++ EdgePath.revWord w) [] := by
  induction w with
  | nil => exact .refl _
  | cons s w ih =>
    rw [revWord_cons, ← List.append_assoc]
    have := (ih.append_right [rev s]).append_left [s]
    refine Eqv.trans (v := [s] ++ ([] ++ [rev s])) ?_ ?_
    · simpa using this
    · exact Eqv.cancel [] s []

theorem Eqv.rev_mul (w : List Move) : Eqv (EdgePath.revWord w ++ w) [] := by
  have := Eqv.mul_rev (EdgePath.revWord w)
  rwa [revWord_revWord] at this

/-- a motion commuting with a word can be moved across it -/
theorem Eqv.across (u : List Move) (s : Move) (v : List Move) (h : ∀ t ∈ v, Disj s t) : Eqv (u ++ v ++ [s]) (u ++ s :: v) := by
  induction v generalizing u with
  | nil => simpa using .refl _
  | cons t v ih =>
    have h1 := ih (u ++ [t]) (fun x hx => h x (List.mem_cons_of_mem _ hx))
    have h2 := Eqv.swap u s t v (h t (List.mem_cons_self ..))
    simp only [List.append_assoc, List.cons_append, List.nil_append] at *
    exact h1.trans h2.symm

theorem Red.across (u : List Move) (s : Move) (v : List Move) (h : ∀ t ∈ v, Disj s t) : Red (u ++ v ++ [s]) (u ++ s :: v) := by
  induction v generalizing u with
  | nil => simpa using .refl _
  | cons t v ih =>
    have h1 := ih (u ++ [t]) (fun x hx => h x (List.mem_cons_of_mem _ hx))
    have h2 := Red.swap u t s v (h t (List.mem_cons_self ..)).symm
    simp only [List.append_assoc, List.cons_append, List.nil_append] at *
    exact h1.trans h2

/-! ### stacks -/

abbrev Stacks := Nat → List Move

def touches (s : Move) (v : Nat) : Prop := v = s.1 ∨ v = s.2
instance (s : Move) (v : Nat) : Decidable (touches s v) := by unfold touches; infer_instance

def push (s : Move) (σ : Stacks) : Stacks := fun v => if touches s v then s :: σ v else σ v
def pop (s : Move) (σ : Stacks) : Stacks := fun v => if touches s v then (σ v).tail else σ v
/-- `s` is on top of both of its stacks -/
def Top (s : Move) (σ : Stacks) : Prop := (σ s.1).head? = some s ∧ (σ s.2).head? = some s
instance (s : Move) (σ : Stacks) : Decidable (Top s σ) := by unfold Top; infer_instance
def act (s : Move) (σ : Stacks) : Stacks := if Top (rev s) σ then pop s σ else push s σ
def empty : Stacks := fun _ => []

inductive Good : Stacks → Prop
  | empty : Good empty
  | push {s : Move} {σ : Stacks} : Good σ → ¬ Top (rev s) σ → Good (push s σ)

theorem touches_rev {s : Move} {v : Nat} : touches (rev s) v ↔ touches s v := by unfold touches rev; exact Or.comm

theorem not_touches {s t : Move} (h : Disj s t) {v : Nat} (hv : touches s v) : ¬ touches t v := by
  rintro (rfl | rfl) <;> rcases hv with e | e
  · exact h.1 e.symm
  · exact h.2.2.1 e.symm
  · exact h.2.1 e.symm
  · exact h.2.2.2 e.symm

theorem disj_of_touches {s t : Move} (h : ∀ v, touches s v → ¬ touches t v) : Disj s t :=
  ⟨fun e => h s.1 (Or.inl rfl) (Or.inl e), fun e => h s.1 (Or.inl rfl) (Or.inr e),
   fun e => h s.2 (Or.inr rfl) (Or.inl e), fun e => h s.2 (Or.inr rfl) (Or.inr e)⟩

theorem push_comm {s t : Move} (h : Disj s t) (σ : Stacks) : push s (push t σ) = push t (push s σ) := by
  funext v
  unfold push
  by_cases h1 : touches s v
  · simp [h1, not_touches h h1]
  · simp [h1]

theorem top_push_disj {s t : Move} (h : Disj s t) (σ : Stacks) : Top s (push t σ) ↔ Top s σ := by
  unfold Top push
  rw [if_neg (not_touches h (Or.inl rfl)), if_neg (not_touches h (Or.inr rfl))]

theorem top_pop_disj {s t : Move} (h : Disj s t) (σ : Stacks) : Top s (pop t σ) ↔ Top s σ := by
  unfold Top pop
  rw [if_neg (not_touches h (Or.inl rfl)), if_neg (not_touches h (Or.inr rfl))]

theorem pop_comm {s t : Move} (h : Disj s t) (σ : Stacks) : pop s (pop t σ) = pop t (pop s σ) := by
  funext v
  unfold pop
  by_cases h1 : touches s v
  · simp [h1, not_touches h h1]
  · simp [h1]

theorem pop_push_comm {s t : Move} (h : Disj s t) (σ : Stacks) : pop s (push t σ) = push t (pop s σ) := by
  funext v
  unfold pop push
  by_cases h1 : touches s v
  · simp [h1, not_touches h h1]
  · simp [h1]

theorem act_comm {s t : Move} (h : Disj s t) (σ : Stacks) : act s (act t σ) = act t (act s σ) := by
  have h1 := h.rev_left
  have h2 := h.symm.rev_left
  by_cases hs : Top (rev s) σ <;> by_cases ht : Top (rev t) σ
  · simp only [act, hs, ht, if_true, (top_pop_disj h1 σ).mpr hs, (top_pop_disj h2 σ).mpr ht, pop_comm h]
  · simp only [act, hs, ht, if_true, if_false, (top_push_disj h1 σ).mpr hs, mt (top_pop_disj h2 σ).mp ht, pop_push_comm h]
  · simp only [act, hs, ht, if_true, if_false, (top_push_disj h2 σ).mpr ht, mt (top_pop_disj h1 σ).mp hs, pop_push_comm h.symm]
  · simp only [act, hs, ht, if_false, mt (top_push_disj h1 σ).mp hs, mt (top_push_disj h2 σ).mp ht, push_comm h]

theorem top_push (s : Move) (σ : Stacks) : Top s (push s σ) := by
  unfold Top push
  simp [touches]

theorem pop_push (s : Move) (σ : Stacks) : pop (rev s) (push s σ) = σ := by
  funext v
  unfold pop push
  by_cases h1 : touches s v
  · simp [h1, touches_rev]
  · simp [h1, touches_rev]

theorem good_top {σ : Stacks} (h : Good σ) : ∀ {u : Move}, Top u σ → ∃ σ', Good σ' ∧ σ = push u σ' ∧ ¬ Top (rev u) σ' := by
  induction h with
  | empty => intro u hu; simp [Top, empty] at hu
  | @push t τ hτ hnt ih =>
    intro u hu
    by_cases e : t = u
    · subst e; exact ⟨τ, hτ, rfl, hnt⟩
    · have hd : Disj u t := by
        apply disj_of_touches
        intro v hv ht
        apply e
        have key : (push t τ v).head? = some t := by unfold push; rw [if_pos ht]; rfl
        rcases hv with rfl | rfl
        · rw [hu.1] at key; injection key with key; exact key.symm
        · rw [hu.2] at key; injection key with key; exact key.symm
      obtain ⟨τ', g1, g2, g3⟩ := ih ((top_push_disj hd τ).mp hu)
      refine ⟨push t τ', Good.push g1 ?_, ?_, ?_⟩
      · rw [g2] at hnt
        exact fun h => hnt ((top_push_disj hd.symm.rev_left τ').mpr h)
      · rw [g2, push_comm hd.symm]
      · exact fun h => g3 ((top_push_disj hd.rev_left τ').mp h)

theorem act_rev {σ : Stacks} (h : Good σ) (s : Move) : act (rev s) (act s σ) = σ := by
  by_cases hs : Top (rev s) σ
  · obtain ⟨σ', g1, g2, g3⟩ := good_top h hs
    have e : act s σ = σ' := by
      unfold act
      rw [if_pos hs, g2]
      exact pop_push (rev s) σ'
    rw [e]
    unfold act
    rw [if_neg g3, g2]
  · have e : act s σ = push s σ := by unfold act; rw [if_neg hs]
    rw [e]
    unfold act
    rw [rev_rev, if_pos (top_push s σ), pop_push]

theorem act_good {σ : Stacks} (h : Good σ) (s : Move) : Good (act s σ) := by
  by_cases hs : Top (rev s) σ
  · obtain ⟨σ', g1, g2, g3⟩ := good_top h hs
    have e : act s σ = σ' := by
      unfold act
      rw [if_pos hs, g2]
      exact pop_push (rev s) σ'
    rw [e]; exact g1
  · have e : act s σ = push s σ := by unfold act; rw [if_neg hs]
    rw [e]; exact .push h hs

/-- the stacks after carrying out the motions, with cancellation -/
def run (σ : Stacks) (w : List Move) : Stacks := w.foldl (fun σ s => act s σ) σ
/-- the stacks of a word as it stands -/
def pile (w : List Move) : Stacks := w.foldl (fun σ s => push s σ) empty

theorem run_append (σ : Stacks) (u v : List Move) : run σ (u ++ v) = run (run σ u) v := by simp [run]
theorem run_cons (σ : Stacks) (s : Move) (v : List Move) : run σ (s :: v) = run (act s σ) v := rfl
theorem run_good {σ : Stacks} (h : Good σ) (w : List Move) : Good (run σ w) := by
  induction w generalizing σ with
  | nil => exact h
  | cons s w ih => exact ih (act_good h s)

theorem run_eqv {u v : List Move} (h : Eqv u v) : ∀ {σ}, Good σ → run σ u = run σ v := by
  induction h with
  | refl u => intro σ _; rfl
  | symm _ ih => intro σ g; exact (ih g).symm
  | trans _ _ i1 i2 => intro σ g; exact (i1 g).trans (i2 g)
  | swap u s t v h => intro σ g; rw [run_append, run_append, run_cons, run_cons, run_cons, run_cons, act_comm h]
  | cancel u s v => intro σ g; rw [run_append, run_append, run_cons, run_cons, act_rev (run_good g u)]

theorem pile_append (u : List Move) (s : Move) : pile (u ++ [s]) = push s (pile u) := by simp [pile]

theorem pile_at (w : List Move) (v : Nat) : pile w v = (w.filter (fun s => decide (touches s v))).reverse := by
  induction w using List.reverseRecOn with
  | nil => rfl
  | append_singleton w s ih =>
    rw [pile_append, List.filter_append, push, ih]
    by_cases h : touches s v
    · simp [h]
    · simp [h]

theorem pile_perm {u v : List Move} (h : pile u = pile v) : u.Perm v := by
  rw [List.perm_iff_count]
  intro s
  have e : ∀ w : List Move, (pile w s.1).count s = w.count s := by
    intro w
    rw [pile_at, List.count_reverse, List.count_filter]
    simp [touches]
  rw [← e u, ← e v, h]

theorem pile_across (u : List Move) (s : Move) (v : List Move) (h : ∀ t ∈ v, Disj s t) : pile (u ++ s :: v) = push s (pile (u ++ v)) := by
  induction v using List.reverseRecOn with
  | nil => rw [List.append_nil]; exact pile_append u s
  | append_singleton v t ih =>
    have e1 : u ++ s :: (v ++ [t]) = (u ++ s :: v) ++ [t] := by simp
    have e2 : u ++ (v ++ [t]) = (u ++ v) ++ [t] := by simp
    rw [e1, e2, pile_append, pile_append, ih (fun x hx => h x (List.mem_append_left _ hx)),
      push_comm (h t (by simp)).symm]

theorem run_short {w : List Move} : ∀ {z : List Move}, Good (pile z) →
    ∃ z', (run (pile z) w = pile z' ∧ Eqv (z ++ w) z') ∧ z'.length ≤ z.length + w.length ∧ (z'.length = z.length + w.length → ∀ x y, w = x ++ y → run (pile z) x = pile (z ++ x)) := by
  induction w with
  | nil =>
    intro z hz
    refine ⟨z, ⟨rfl, by rw [List.append_nil]; exact .refl _⟩, by simp, ?_⟩
    intro _ x y hxy
    obtain ⟨rfl, rfl⟩ := List.append_eq_nil_iff.mp hxy.symm
    simp [run]
  | cons s w ih =>
    intro z hz
    by_cases hs : Top (rev s) (pile z)
    · obtain ⟨z1, h1, h2, h3⟩ : ∃ z1, (act s (pile z) = pile z1 ∧ Eqv (z ++ [s]) z1) ∧ Good (pile z1) ∧ z1.length < z.length := by
        have hz2 : z.getLast? ≠ none := by
          intro hn
          rw [List.getLast?_eq_none_iff] at hn
          subst hn
          simp [Top, pile, empty] at hs
        -- the last motion touching the stack
        have hm : rev s ∈ z := by
          have := hs.1
          rw [pile_at] at this
          have := List.mem_of_mem_head? (Option.mem_def.mpr this)
          rw [List.mem_reverse] at this
          exact List.mem_of_mem_filter this
        -- split at the last occurrence
        obtain ⟨a, b, hab, hb⟩ : ∃ a b, z = a ++ rev s :: b ∧ rev s ∉ b := by
          clear hs hz hz2 ih
          induction z with
          | nil => simp at hm
          | cons t z ih =>
            by_cases h : rev s ∈ z
            · obtain ⟨a, b, h1, h2⟩ := ih h
              exact ⟨t :: a, b, by rw [h1]; rfl, h2⟩
            · have : rev s = t := by
                rcases List.mem_cons.mp hm with h' | h'
                · exact h'
                · exact absurd h' h
              exact ⟨[], z, by rw [this]; rfl, h⟩
        have hd : ∀ t ∈ b, Disj (rev s) t := by
          intro t ht
          apply disj_of_touches
          intro v hv hv'
          -- the head of the stack at `v` comes from `b`
          have hne : b.filter (fun s => decide (touches s v)) ≠ [] := by
            apply List.ne_nil_of_mem (a := t)
            rw [List.mem_filter]
            exact ⟨ht, by simpa using hv'⟩
          have hh : (pile z v).head? = some (rev s) := by
            rcases hv with rfl | rfl
            · exact hs.1
            · exact hs.2
          rw [pile_at, hab, List.filter_append, List.filter_cons] at hh
          rw [if_pos (by simpa using hv)] at hh
          rw [List.reverse_append, List.reverse_cons] at hh
          cases hf : (b.filter (fun s => decide (touches s v))).reverse with
          | nil => exact hne (List.reverse_eq_nil_iff.mp hf)
          | cons y ys =>
            rw [hf] at hh
            simp only [List.cons_append, List.head?_cons, Option.some.injEq] at hh
            have : y ∈ (b.filter (fun s => decide (touches s v))).reverse := by rw [hf]; exact List.mem_cons_self ..
            rw [List.mem_reverse] at this
            rw [hh] at this
            exact hb (List.mem_of_mem_filter this)
        have hp := pile_across a (rev s) b hd
        refine ⟨a ++ b, ⟨?_, ?_⟩, ?_, ?_⟩
        · unfold act
          rw [if_pos hs, hab, hp]
          exact pop_push (rev s) _
        · rw [hab]
          have h1 := Eqv.across (a ++ [rev s]) s b (fun t ht => (hd t ht).rev_left)
          have h2 := Eqv.cancel a (rev s) b
          simp only [List.append_assoc, List.cons_append, List.nil_append, rev_rev] at *
          exact h1.trans h2
        · have := act_good hz s
          unfold act at this
          rw [if_pos hs, hab, hp] at this
          have e := pop_push (rev s) (pile (a ++ b))
          rw [rev_rev] at e
          rw [e] at this
          exact this
        · rw [hab]; simp
      obtain ⟨z', g1, g2, g3⟩ := ih h2
      refine ⟨z', ⟨?_, ?_⟩, ?_, ?_⟩
      · rw [run_cons, h1.1]; exact g1.1
      · have e := h1.2.append_right w
        simp only [List.append_assoc, List.cons_append, List.nil_append] at e
        exact e.trans g1.2
      · rw [List.length_cons]; omega
      · rw [List.length_cons]; intro he; omega
    · have h1 : act s (pile z) = pile (z ++ [s]) := by unfold act; rw [if_neg hs, pile_append]
      have h2 : Good (pile (z ++ [s])) := by rw [← h1]; exact act_good hz s
      obtain ⟨z', g1, g2, g3⟩ := ih h2
      simp only [List.length_append, List.length_cons, List.length_nil] at g2 g3
      refine ⟨z', ⟨?_, ?_⟩, ?_, ?_⟩
      · rw [run_cons, h1]; exact g1.1
      · have e := g1.2
        simp only [List.append_assoc, List.cons_append, List.nil_append] at e
        exact e
      · rw [List.length_cons]; omega
      · rw [List.length_cons]
        intro he x y hxy
        cases x with
        | nil => simp [run]
        | cons s' x =>
          rw [List.cons_append] at hxy
          injection hxy with e1 e2
          subst e1
          rw [run_cons, h1, g3 (by omega) x y e2]
          simp

/-- a word is reduced if nothing cancels -/
def Reduced (w : List Move) : Prop := run empty w = pile w

theorem Reduced.prefix {u v : List Move} (h : Reduced (u ++ v)) : Reduced u := by
  obtain ⟨z', ⟨g1, -⟩, g2, g3⟩ := run_short (w := u ++ v) (z := []) Good.empty
  have e : run (pile []) (u ++ v) = pile (u ++ v) := h
  rw [e] at g1
  have hl := (pile_perm g1).length_eq
  have := g3 (by rw [← hl]; simp) u v rfl
  rw [List.nil_append] at this
  exact this

/-- reduced words are the shortest in their class -/
theorem Reduced.shortest {u v : List Move} (h : Reduced u) (e : Eqv u v) : u.length ≤ v.length := by
  obtain ⟨z', ⟨g1, -⟩, g2, -⟩ := run_short (w := v) (z := []) Good.empty
  have : run (pile []) v = pile u := by rw [← h]; exact (run_eqv e Good.empty).symm
  rw [this] at g1
  rw [(pile_perm g1).length_eq]
  simpa using g2

theorem pile_nil {w : List Move} (h : pile w = empty) : w = [] := by
  have := pile_perm (u := w) (v := []) (by rw [h]; rfl)
  exact List.perm_nil.mp this

/-- a word leaves no stacks exactly if it is equivalent to the empty word -/
theorem run_empty_iff {w : List Move} : run empty w = empty ↔ Eqv w [] := by
  constructor
  · intro h
    obtain ⟨z', ⟨g1, g2⟩, -, -⟩ := run_short (w := w) (z := []) Good.empty
    have e : run (pile []) w = empty := h
    rw [e] at g1
    rw [pile_nil g1.symm] at g2
    exact g2
  · intro h; exact run_eqv h Good.empty

theorem Reduced.of_pile {u v : List Move} (h : Reduced u) (e : Eqv u v) (hp : pile v = pile u) : Reduced v := by
  unfold Reduced
  rw [hp, ← h]
  exact (run_eqv e Good.empty).symm

end Toppo.EdgePath
