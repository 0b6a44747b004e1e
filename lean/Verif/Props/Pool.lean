import Verif.Proof.BinaryPool
import Verif.Model.LabeledSet

/-!
# C01-C05: `BinaryPool` and `count_ones`

A *history* is any finite tree of public operations.  `run` executes it on the model of the code, `spec` on plain
finite sets of naturals (with the declared length).  `none` = panic.
-/
namespace Toppo.PoolProps
open Toppo

/-- Any way of producing a pool with the public API. -/
inductive Hist where
  | new (n : Nat)
  | ofIndices (n : Nat) (l : List Nat)
  | add (h : Hist) (i : Nat)
  | remove (h : Hist) (i : Nat)
  | resize (h : Hist) (n : Nat)
  | fill (h : Hist)
  | union (h k : Hist)
  | inter (h k : Hist)

/-- Execution on the modelled code. -/
def run : Hist → Option BinaryPool
  | .new n => some (BinaryPool.new n)
  | .ofIndices n l => BinaryPool.ofIndices n l
  | .add h i => do (← run h).add i
  | .remove h i => do (← run h).remove i
  | .resize h n => do return (← run h).resize n
  | .fill h => do (← run h).fill
  | .union h k => do (← run h).union (← run k)
  | .inter h k => do (← run h).intersection (← run k)

/-- The specification: (length, set of members), `none` when a call must panic. -/
def spec : Hist → Option (Nat × Finset Nat)
  | .new n => some (n, ∅)
  | .ofIndices n l => if ∀ i ∈ l, i < n then some (n, l.toFinset) else none
  | .add h i => do let (n, S) ← spec h; if i < n then some (n, insert i S) else none
  | .remove h i => do let (n, S) ← spec h; if i < n then some (n, S.erase i) else none
  | .resize h m => do let (n, S) ← spec h; some (max n m, S)
  | .fill h => do let (n, _) ← spec h; some (n, Finset.range n)
  | .union h k => do let (n, S) ← spec h; let (m, T) ← spec k; if n = m then some (n, S ∪ T) else none
  | .inter h k => do let (n, S) ← spec h; let (m, T) ← spec k; if n = m then some (n, S ∩ T) else none

/-- The refinement relation (internal form). -/
def Refines (o : Option BinaryPool) (s : Option (Nat × Finset Nat)) : Prop :=
  match o, s with
  | none, none => True
  | some p, some (n, S) => p.Inv ∧ p.len = n ∧ p.members = S
  | _, _ => False

theorem refines_run (h : Hist) : Refines (run h) (spec h) := by
  induction h with
  | new n => exact ⟨(BinaryPool.inv_new n).1, (BinaryPool.inv_new n).2.2, (BinaryPool.inv_new n).2.1⟩
  | ofIndices n l =>
    have := BinaryPool.ofIndices_spec n l
    simp only [run, spec]
    split at this
    · obtain ⟨q, h1, h2, h3, h4⟩ := this
      rename_i hc; rw [if_pos hc, h1]; exact ⟨h2, h3, h4⟩
    · rename_i hc; rw [if_neg hc, this]; trivial
  | add h i ih =>
    simp only [run, spec]
    match ho : run h, hs : spec h, ih with
    | none, none, _ => trivial
    | some p, some (n, S), ⟨h1, h2, h3⟩ =>
      have := BinaryPool.add_spec h1 i
      subst h2; subst h3
      simp only [Option.bind_eq_bind, Option.bind_some]
      split at this
      · rename_i hc
        obtain ⟨q, a, b, c, d⟩ := this
        rw [if_pos hc, a]; exact ⟨b, c, d⟩
      · rename_i hc; rw [if_neg hc, this]; trivial
  | remove h i ih =>
    simp only [run, spec]
    match ho : run h, hs : spec h, ih with
    | none, none, _ => trivial
    | some p, some (n, S), ⟨h1, h2, h3⟩ =>
      have := BinaryPool.remove_spec h1 i
      subst h2; subst h3
      simp only [Option.bind_eq_bind, Option.bind_some]
      split at this
      · rename_i hc
        obtain ⟨q, a, b, c, d⟩ := this
        rw [if_pos hc, a]; exact ⟨b, c, d⟩
      · rename_i hc; rw [if_neg hc, this]; trivial
  | resize h m ih =>
    simp only [run, spec]
    match ho : run h, hs : spec h, ih with
    | none, none, _ => trivial
    | some p, some (n, S), ⟨h1, h2, h3⟩ =>
      obtain ⟨a, b, c⟩ := BinaryPool.resize_spec h1 m
      subst h2; subst h3
      exact ⟨a, b, c⟩
  | fill h ih =>
    simp only [run, spec]
    match ho : run h, hs : spec h, ih with
    | none, none, _ => trivial
    | some p, some (n, S), ⟨h1, h2, h3⟩ =>
      obtain ⟨q, a, b, c, d⟩ := BinaryPool.fill_spec h1
      subst h2; subst h3
      simp only [Option.bind_eq_bind, Option.bind_some, a]
      exact ⟨b, c, d⟩
  | union h k ihh ihk =>
    simp only [run, spec]
    match ho : run h, hs : spec h, ihh with
    | none, none, _ => trivial
    | some p, some (n, S), ⟨h1, h2, h3⟩ =>
      match ko : run k, ks : spec k, ihk with
      | none, none, _ => trivial
      | some q, some (m, T), ⟨k1, k2, k3⟩ =>
        have := BinaryPool.union_spec h1 k1
        subst h2; subst h3; subst k2; subst k3
        simp only [Option.bind_eq_bind, Option.bind_some]
        split at this
        · rename_i hc
          obtain ⟨q, a, b, c, d⟩ := this
          rw [if_pos hc, a]; exact ⟨b, c, d⟩
        · rename_i hc; rw [if_neg hc, this]; trivial
  | inter h k ihh ihk =>
    simp only [run, spec]
    match ho : run h, hs : spec h, ihh with
    | none, none, _ => trivial
    | some p, some (n, S), ⟨h1, h2, h3⟩ =>
      match ko : run k, ks : spec k, ihk with
      | none, none, _ => trivial
      | some q, some (m, T), ⟨k1, k2, k3⟩ =>
        have := BinaryPool.inter_spec h1 k1
        subst h2; subst h3; subst k2; subst k3
        simp only [Option.bind_eq_bind, Option.bind_some]
        split at this
        · rename_i hc
          obtain ⟨q, a, b, c, d⟩ := this
          rw [if_pos hc, a]; exact ⟨b, c, d⟩
        · rename_i hc; rw [if_neg hc, this]; trivial

theorem refines_some {h : Hist} {p : BinaryPool} (hp : run h = some p) :
    ∃ n S, spec h = some (n, S) ∧ p.Inv ∧ p.len = n ∧ p.members = S := by
  have := refines_run h
  rw [hp] at this
  match hs : spec h, this with
  | some (n, S), ⟨a, b, c⟩ => exact ⟨n, S, rfl, a, b, c⟩

/-! ## Property theorems -/

/-- **C01**. For every history: the code panics exactly when the specification says so; otherwise the pool has the
specified length, `contains` answers membership in the specified set for every in-range index, every member is in
range, `n_elements` is the cardinality and `is_full` says whether all indices are members. -/
theorem c01_pool_refines_set (h : Hist) :
    (run h = none ↔ spec h = none) ∧
    ∀ p n S, run h = some p → spec h = some (n, S) →
      p.len = n ∧ (∀ i, i < n → p.contains i = some (decide (i ∈ S))) ∧ (∀ i ∈ S, i < n) ∧
      p.nElements = S.card ∧ (p.isFull = true ↔ ∀ i < n, i ∈ S) := by
  constructor
  · have := refines_run h
    match ho : run h, hs : spec h, this with
    | none, none, _ => simp
    | some p, some (n, S), _ => simp
  · intro p n S hp hs
    obtain ⟨n', S', e, hinv, hl, hm⟩ := refines_some hp
    rw [hs] at e
    injection e with e; injection e with e1 e2
    subst e1; subst e2; subst hl; subst hm
    have hsub : ∀ i ∈ p.members, i < p.len := fun i hi => ((BinaryPool.mem_members p i).mp hi).1
    refine ⟨rfl, ?_, hsub, hinv.card, ?_⟩
    · intro i hi
      rw [BinaryPool.contains_eq hinv, if_pos hi]
    · unfold BinaryPool.isFull
      rw [beq_iff_eq, hinv.card]
      have hss : p.members ⊆ Finset.range p.len := fun i hi => Finset.mem_range.mpr (hsub i hi)
      constructor
      · intro hc i hi
        have : p.members = Finset.range p.len := Finset.eq_of_subset_of_card_le hss (by simp [hc])
        rw [this]; exact Finset.mem_range.mpr hi
      · intro hall
        have : p.members = Finset.range p.len := by
          apply Finset.Subset.antisymm hss
          intro i hi; exact hall i (Finset.mem_range.mp hi)
        rw [this]; simp

/-- a non-trivial history across a word boundary that runs without panic -/
example : ∃ p, run (.union (.add (.add (.new 130) 64) 129) (.remove (.fill (.new 130)) 3)) = some p ∧
    spec (.union (.add (.add (.new 130) 64) 129) (.remove (.fill (.new 130)) 3))
      = some (130, ({129, 64} ∪ (Finset.range 130).erase 3)) := by
  have hs : spec (.union (.add (.add (.new 130) 64) 129) (.remove (.fill (.new 130)) 3))
      = some (130, ({129, 64} ∪ (Finset.range 130).erase 3)) := by
    simp [spec]
  have h := (c01_pool_refines_set (.union (.add (.add (.new 130) 64) 129) (.remove (.fill (.new 130)) 3))).1
  match ho : run (.union (.add (.add (.new 130) 64) 129) (.remove (.fill (.new 130)) 3)) with
  | none => rw [ho, hs] at h; simp at h
  | some p => exact ⟨p, rfl, hs⟩

/-- **C02**. Iterating over a pool produced by any history never panics, ends, and lists exactly the members, in
strictly increasing order (hence once each). -/
theorem c02_pool_iter (h : Hist) (p : BinaryPool) (n : Nat) (S : Finset Nat)
    (hp : run h = some p) (hs : spec h = some (n, S)) :
    ∃ l, p.toList = some l ∧ l.Pairwise (· < ·) ∧ ∀ i, i ∈ l ↔ i ∈ S := by
  obtain ⟨n', S', e, hinv, hl, hm⟩ := refines_some hp
  rw [hs] at e
  injection e with e; injection e with e1 e2
  subst e1; subst e2; subst hl; subst hm
  refine ⟨_, BinaryPool.toList_spec hinv, ?_, ?_⟩
  · apply List.Pairwise.filter
    rw [List.range_eq_range']; exact List.pairwise_lt_range'
  · intro i
    simp [BinaryPool.mem_members]

example : run (.ofIndices 100 [70, 3, 64]) ≠ none ∧ spec (.ofIndices 100 [70, 3, 64]) = some (100, {70, 3, 64}) := by
  have hs : spec (.ofIndices 100 [70, 3, 64]) = some (100, {70, 3, 64}) := by simp [spec]
  refine ⟨?_, hs⟩
  intro hc
  have := (c01_pool_refines_set (.ofIndices 100 [70, 3, 64])).1.mp hc
  rw [hs] at this; simp at this

/-- **C03**. `is_subset_of`, `==`, `union`, `intersection` are the set-theoretic ones on pools of equal length, and the
three comparing operations panic on pools of different length; `==` is then `false`. -/
theorem c03_pool_set_algebra (h k : Hist) (p q : BinaryPool) (n m : Nat) (S T : Finset Nat)
    (hp : run h = some p) (hs : spec h = some (n, S)) (kp : run k = some q) (ks : spec k = some (m, T)) :
    (p.isSubsetOf q = if n = m then some (decide (S ⊆ T)) else none) ∧
    ((p == q) = true ↔ n = m ∧ S = T) ∧
    (n = m → ∃ r, p.union q = some r ∧ r.len = n ∧ ∀ i < n, r.contains i = some (decide (i ∈ S ∨ i ∈ T))) ∧
    (n = m → ∃ r, p.intersection q = some r ∧ r.len = n ∧ ∀ i < n, r.contains i = some (decide (i ∈ S ∧ i ∈ T))) ∧
    (n ≠ m → p.union q = none ∧ p.intersection q = none) := by
  obtain ⟨n', S', e, hinv, hl, hm⟩ := refines_some hp
  rw [hs] at e
  injection e with e; injection e with e1 e2
  subst e1; subst e2; subst hl; subst hm
  obtain ⟨n', S', e, kinv, hl, hm⟩ := refines_some kp
  rw [ks] at e
  injection e with e; injection e with e1 e2
  subst e1; subst e2; subst hl; subst hm
  refine ⟨BinaryPool.isSubsetOf_spec hinv kinv, ?_, ?_, ?_, ?_⟩
  · rw [beq_iff_eq]
    constructor
    · rintro rfl; exact ⟨rfl, rfl⟩
    · rintro ⟨a, b⟩; exact BinaryPool.ext_inv hinv kinv a b
  · intro hl
    have := BinaryPool.union_spec hinv kinv
    rw [if_pos hl] at this
    obtain ⟨r, a, b, c, d⟩ := this
    refine ⟨r, a, c, fun i hi => ?_⟩
    rw [BinaryPool.contains_eq b, if_pos (by omega), d]; simp
  · intro hl
    have := BinaryPool.inter_spec hinv kinv
    rw [if_pos hl] at this
    obtain ⟨r, a, b, c, d⟩ := this
    refine ⟨r, a, c, fun i hi => ?_⟩
    rw [BinaryPool.contains_eq b, if_pos (by omega), d]; simp
  · intro hl
    have h1 := BinaryPool.union_spec hinv kinv
    have h2 := BinaryPool.inter_spec hinv kinv
    rw [if_neg hl] at h1 h2
    exact ⟨h1, h2⟩

example : (∃ p, run (.add (.new 70) 65) = some p) ∧ (∃ p, run (.fill (.new 70)) = some p) ∧
    spec (.add (.new 70) 65) = some (70, {65}) ∧ spec (.fill (.new 70)) = some (70, Finset.range 70) := by
  have h1 : spec (.add (.new 70) 65) = some (70, {65}) := by simp [spec]
  have h2 : spec (.fill (.new 70)) = some (70, Finset.range 70) := by simp [spec]
  refine ⟨?_, ?_, h1, h2⟩
  · have h := (c01_pool_refines_set (.add (.new 70) 65)).1
    match ho : run (.add (.new 70) 65) with
    | none => rw [ho, h1] at h; simp at h
    | some p => exact ⟨p, rfl⟩
  · have h := (c01_pool_refines_set (.fill (.new 70))).1
    match ho : run (.fill (.new 70)) with
    | none => rw [ho, h2] at h; simp at h
    | some p => exact ⟨p, rfl⟩

/-- **C04**. On a pool produced by any history, `add`, `remove`, `contains` panic exactly for indices `≥ len`. -/
theorem c04_pool_bounds (h : Hist) (p : BinaryPool) (hp : run h = some p) (i : Nat) :
    (p.add i = none ↔ p.len ≤ i) ∧ (p.remove i = none ↔ p.len ≤ i) ∧ (p.contains i = none ↔ p.len ≤ i) := by
  obtain ⟨n', S', e, hinv, hl, hm⟩ := refines_some hp
  have h1 := BinaryPool.add_spec hinv i
  have h2 := BinaryPool.remove_spec hinv i
  have h3 := BinaryPool.contains_eq hinv i
  by_cases hi : i < p.len
  · rw [if_pos hi] at h1 h2 h3
    obtain ⟨q, a, _⟩ := h1
    obtain ⟨r, b, _⟩ := h2
    simp [a, b, h3, hi]
  · rw [if_neg hi] at h1 h2 h3
    simp [h1, h2, h3]; omega

example : ∃ p, run (.new 64) = some p ∧ p.add 64 = none ∧ p.add 63 ≠ none :=
  ⟨BinaryPool.new 64, rfl, by decide, by decide⟩

/-- **C05**. `count_ones` returns the number of positions `i < 64` whose bit is one (the loop terminates: the
definition is accepted as total). -/
theorem c05_count_ones (d : BitVec 64) :
    countOnes d = ((Finset.range 64).filter (fun i => d.getLsbD i = true)).card := by
  rw [countOnes_eq_sum, Finset.card_filter]

/-! ## C06: `LabeledSet` -/

section Labeled
variable {α : Type} [DecidableEq α]

/-- update requests -/
inductive LOp (α : Type) where
  | add (a : α)
  | remove (a : α)

/-- execution on the model of the code -/
def lrun (labels : List α) : List (LOp α) → Option (LabeledSet α)
  | [] => some (LabeledSet.new labels)
  | .add a :: ops => do (← lrun labels ops).add a
  | .remove a :: ops => do (← lrun labels ops).remove a

/-- the label named by an operation -/
def LOp.label : LOp α → α
  | .add a => a
  | .remove a => a

/-- Specification, read off the history (most recent operation first): a label is held iff the most recent operation
naming it is an `add`. -/
def held : List (LOp α) → α → Prop
  | [], _ => False
  | .add a :: ops, x => x = a ∨ held ops x
  | .remove a :: ops, x => x ≠ a ∧ held ops x

theorem findIdx?_nodup (labels : List α) (hnd : labels.Nodup) (a : α) :
    (a ∈ labels → ∃ p, labels.findIdx? (· == a) = some p ∧ p < labels.length ∧ labels[p]? = some a ∧
      ∀ j : Nat, labels[j]? = some a → j = p) ∧ (a ∉ labels → labels.findIdx? (· == a) = none) := by
  constructor
  · intro ha
    match hf : labels.findIdx? (· == a) with
    | none => rw [List.findIdx?_eq_none_iff] at hf; have := hf a ha; simp at this
    | some p =>
      rw [List.findIdx?_eq_some_iff_getElem] at hf
      obtain ⟨hlt, he, _⟩ := hf
      have he : labels[p] = a := by simpa using he
      refine ⟨p, rfl, hlt, by rw [List.getElem?_eq_getElem hlt, he], ?_⟩
      intro j hj
      rw [List.getElem?_eq_some_iff] at hj
      obtain ⟨hjl, hj⟩ := hj
      exact (List.Nodup.getElem_inj_iff hnd).mp (hj.trans he.symm)
  · intro ha
    rw [List.findIdx?_eq_none_iff]
    intro x hx
    simp; rintro rfl; exact ha hx

theorem lrun_spec (labels : List α) (hnd : labels.Nodup) (ops : List (LOp α)) :
    if ∀ o ∈ ops, o.label ∈ labels then
      ∃ s, lrun labels ops = some s ∧ s.labels = labels ∧ s.set.Inv ∧ s.set.len = labels.length ∧
        ∀ j a, labels[j]? = some a → (j ∈ s.set.members ↔ held ops a)
    else lrun labels ops = none := by
  induction ops with
  | nil =>
    simp only [List.not_mem_nil, false_implies, implies_true, if_true]
    obtain ⟨a, b, c⟩ := BinaryPool.inv_new labels.length
    exact ⟨_, rfl, rfl, a, c, fun j x _ => by simp [LabeledSet.new, b, held]⟩
  | cons o ops ih =>
    by_cases hall : ∀ o ∈ ops, o.label ∈ labels
    · rw [if_pos hall] at ih
      obtain ⟨s, h1, h2, h3, h4, h5⟩ := ih
      by_cases hl : o.label ∈ labels
      · rw [if_pos (by intro x hx; rcases List.mem_cons.mp hx with e | e
                       · subst e; exact hl
                       · exact hall x e)]
        obtain ⟨p, f1, f2, f3, f4⟩ := (findIdx?_nodup labels hnd o.label).1 hl
        cases o with
        | add a =>
          simp only [LOp.label] at *
          have := BinaryPool.add_spec h3 p
          rw [if_pos (by omega)] at this
          obtain ⟨q, q1, q2, q3, q4⟩ := this
          refine ⟨⟨q, labels⟩, by simp [lrun, h1, LabeledSet.add, h2, f1, q1], rfl, q2, by simp only; omega, ?_⟩
          intro j x hj
          simp only [q4, Finset.mem_insert, held, h5 j x hj]
          constructor
          · rintro (e | e)
            · subst e; left; rw [f3] at hj; injection hj with e; exact e.symm
            · exact Or.inr e
          · rintro (e | e)
            · subst e; left; exact f4 j hj
            · exact Or.inr e
        | remove a =>
          simp only [LOp.label] at *
          have := BinaryPool.remove_spec h3 p
          rw [if_pos (by omega)] at this
          obtain ⟨q, q1, q2, q3, q4⟩ := this
          refine ⟨⟨q, labels⟩, by simp [lrun, h1, LabeledSet.remove, h2, f1, q1], rfl, q2, by simp only; omega, ?_⟩
          intro j x hj
          simp only [q4, Finset.mem_erase, held, h5 j x hj]
          constructor
          · rintro ⟨e, e'⟩
            refine ⟨?_, e'⟩
            rintro rfl; exact e (f4 j hj)
          · rintro ⟨e, e'⟩
            refine ⟨?_, e'⟩
            rintro rfl; rw [f3] at hj; injection hj with e2; exact e e2.symm
      · rw [if_neg (by intro hh; exact hl (hh o List.mem_cons_self))]
        have hf := (findIdx?_nodup labels hnd o.label).2 hl
        cases o with
        | add a => simp only [LOp.label] at hf; simp [lrun, h1, LabeledSet.add, h2, hf]
        | remove a => simp only [LOp.label] at hf; simp [lrun, h1, LabeledSet.remove, h2, hf]
    · rw [if_neg hall] at ih
      rw [if_neg (by intro hh; exact hall (fun x hx => hh x (List.mem_cons_of_mem _ hx)))]
      cases o <;> simp [lrun, ih]

theorem lookup_filter (labels : List α) (P : Nat → Bool) (Q : α → Bool) (pre : List α)
    (h : ∀ (j : Nat) a, labels[j]? = some a → P (pre.length + j) = Q a) :
    LabeledSet.lookup (pre ++ labels) ((List.range' pre.length labels.length).filter P) = some (labels.filter Q) := by
  induction labels generalizing pre with
  | nil => simp [LabeledSet.lookup]
  | cons x xs ih =>
    have hx := h 0 x rfl
    simp only [Nat.add_zero] at hx
    have := ih (pre ++ [x]) (by
      intro j a hj
      have := h (j + 1) a (by simpa using hj)
      rw [← this]; congr 1; simp; omega)
    simp only [List.length_append, List.length_cons, List.length_nil, List.append_assoc, List.cons_append,
      List.nil_append, Nat.zero_add] at this
    rw [List.length_cons, List.range'_succ, List.filter_cons, List.filter_cons, hx]
    cases hq : Q x
    · simpa using this
    · simp [LabeledSet.lookup, this]

open Classical in
/-- **C06**. With distinct registered labels, a history of `add`/`remove` panics exactly when some operation names an
unregistered label; otherwise iteration lists, in registration order, exactly the labels whose last update was an
`add`, and `n_elements` is their number. -/
theorem c06_labeled_set (labels : List α) (hnd : labels.Nodup) (ops : List (LOp α)) :
    (lrun labels ops = none ↔ ∃ o ∈ ops, o.label ∉ labels) ∧
    ∀ s, lrun labels ops = some s →
      s.toList = some (labels.filter (fun a => held ops a)) ∧
      s.nElements = (labels.filter (fun a => held ops a)).length := by
  have hsp := lrun_spec labels hnd ops
  constructor
  · split at hsp
    · rename_i hc
      obtain ⟨s, h1, _⟩ := hsp
      rw [h1]; simp; intro o ho; exact hc o ho
    · rename_i hc
      simp only [hsp, true_iff]
      push Not at hc; exact hc
  · intro s hs
    split at hsp
    · obtain ⟨s', h1, h2, h3, h4, h5⟩ := hsp
      rw [hs] at h1; injection h1 with h1; subst h1
      have hl : s.toList = some (labels.filter (fun a => held ops a)) := by
        unfold LabeledSet.toList
        rw [BinaryPool.toList_spec h3, h4, h2, List.range_eq_range']
        have := lookup_filter labels (fun j => decide (j ∈ s.set.members)) (fun a => decide (held ops a)) [] (by
          intro j a hj
          simp [h5 j a hj])
        simpa using this
      refine ⟨hl, ?_⟩
      unfold LabeledSet.nElements
      rw [h3.card]
      have hlen : ∀ (l : List Nat) (r : List α), LabeledSet.lookup labels l = some r → l.length = r.length := by
        intro l
        induction l with
        | nil => intro r hr; simp [LabeledSet.lookup] at hr; subst hr; rfl
        | cons i is ih =>
          intro r hr
          simp only [LabeledSet.lookup, Option.bind_eq_bind, Option.bind_eq_some_iff] at hr
          obtain ⟨a, _, r', hr', e⟩ := hr
          simp at e; subst e; simp [ih r' hr']
      unfold LabeledSet.toList at hl
      rw [BinaryPool.toList_spec h3, h2] at hl
      rw [← hlen _ _ hl]
      have : s.set.members = ((List.range s.set.len).filter (· ∈ s.set.members)).toFinset := by
        ext j; simp [BinaryPool.mem_members]
      conv_lhs => rw [this]
      rw [List.toFinset_card_of_nodup]
      exact List.Nodup.filter _ List.nodup_range
    · rw [hsp] at hs; simp at hs

/-- **C06** (equality). Two labelled sets over the same distinct labels are `==` exactly when they hold the same
labels. -/
theorem c06_labeled_set_eq (labels : List α) (hnd : labels.Nodup) (ops ops' : List (LOp α)) (s s' : LabeledSet α)
    (hs : lrun labels ops = some s) (hs' : lrun labels ops' = some s') :
    (s == s') = true ↔ ∀ a ∈ labels, held ops a ↔ held ops' a := by
  have h := lrun_spec labels hnd ops
  have h' := lrun_spec labels hnd ops'
  split at h
  · split at h'
    · obtain ⟨t, h1, h2, h3, h4, h5⟩ := h
      rw [hs] at h1; injection h1 with h1; subst h1
      obtain ⟨t', k1, k2, k3, k4, k5⟩ := h'
      rw [hs'] at k1; injection k1 with k1; subst k1
      rw [beq_iff_eq]
      constructor
      · rintro rfl a ha
        obtain ⟨j, hj⟩ := List.mem_iff_getElem?.mp ha
        rw [← h5 j a hj, ← k5 j a hj]
      · intro hh
        have : s.set = s'.set := by
          apply BinaryPool.ext_inv h3 k3 (by omega)
          ext j
          by_cases hj : j < labels.length
          · have hg := List.getElem?_eq_getElem hj
            rw [h5 j _ hg, k5 j _ hg]
            exact hh _ (List.getElem_mem hj)
          · rw [BinaryPool.mem_members, BinaryPool.mem_members]
            constructor <;> (rintro ⟨a, _⟩; omega)
        cases s; cases s'; simp_all
    · rw [h'] at hs'; simp at hs'
  · rw [h] at hs; simp at hs

example : (["a", "b", "c"] : List String).Nodup ∧
    lrun ["a", "b", "c"] [.remove "a", .add "c", .add "a"] ≠ none ∧
    lrun ["a", "b", "c"] [.add "z"] = none := by
  refine ⟨by decide, ?_, by decide⟩
  rw [Ne, (c06_labeled_set _ (by decide) _).1]
  simp [LOp.label]

end Labeled

end Toppo.PoolProps
