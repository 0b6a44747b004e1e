import Verif.Proof.TupleIter
/-!
# C07: `tuple_iter` enumerates the `k`-combinations in lexicographic order
-/
namespace Toppo.TupleProps
open Toppo

/-- Specification: `t` is a choice of `k` positions of a list of length `n`, listed increasingly. -/
def IsChoice (n k : Nat) (t : List Nat) : Prop :=
  t.length = k ∧ t.Pairwise (· < ·) ∧ ∀ i ∈ t, i < n

/-- **C07**. For `k ≥ 1`, there is a number of `next` calls after which the iterator has ended (and it never panics);
the tuples it produced are, in this order, the tuples of entries at the positions `L`, where `L` lists exactly the
choices of `k` increasing positions, strictly increasing in the lexicographic order (so each appears once, in order).
In particular nothing is produced when `data.len() < k`.  More fuel (further calls) changes nothing. -/
theorem c07_tuple_iter {α : Type} (data : List α) (k : Nat) (hk : 1 ≤ k) :
    ∃ (L : List (List Nat)) (out : List (List α)),
      (∀ fuel, data.length ^ k + 1 ≤ fuel → tupleIter fuel data k = some out) ∧
      out.map (fun t => t.map some) = L.map (fun t => t.map (fun i => data[i]?)) ∧
      L.Pairwise (· < ·) ∧
      (∀ t, t ∈ L ↔ IsChoice data.length k t) := by
  have hcs : csub k 1 = some (k - 1) := by simp [csub, hk]
  by_cases hlt : data.length < k
  · refine ⟨[], [], ?_, rfl, List.Pairwise.nil, ?_⟩
    · intro fuel hf
      obtain ⟨f, rfl⟩ := Nat.exists_eq_add_of_le (by omega : 1 ≤ fuel)
      simp only [tupleIter, TupleIterator.new, hcs, Option.bind_eq_bind, Option.bind_some, Nat.add_comm 1 f,
        TupleIterator.collect, TupleIterator.next, hlt, decide_true, if_true, pure]
    · intro t
      simp only [List.not_mem_nil, false_iff]
      rintro ⟨h1, h2, h3⟩
      have := TupleIterator.pair_bound t h2 h3
      omega
  · have hv : TupleIterator.Valid data.length k (List.range k) := by
      refine ⟨by simp, ?_, ?_⟩
      · rw [List.range_eq_range']; exact List.pairwise_lt_range'
      · intro x hx; have := List.mem_range.mp hx; omega
    have key : ∀ fuel, data.length ^ k + 1 ≤ fuel →
        ∃ (L : List (List Nat)) (out : List (List α)), tupleIter fuel data k = some out ∧
        L.map (TupleIterator.fetch data) = out.map some ∧
        L.Pairwise (· < ·) ∧ ∀ u, u ∈ L ↔ TupleIterator.Valid data.length k u ∧ List.range k ≤ u := by
      intro fuel hf
      have := TupleIterator.collect_spec k hk fuel
        (⟨data, List.range k, k - 1, decide (data.length < k)⟩ : TupleIterator α) hv rfl (by simpa using hlt) (by
          simp only; omega)
      obtain ⟨L, out, e1, e2, e3, e4⟩ := this
      refine ⟨L, out, ?_, e2, e3, e4⟩
      simp only [tupleIter, TupleIterator.new, hcs, Option.bind_eq_bind, Option.bind_some, pure]
      exact e1
    obtain ⟨L, out, e1, e2, e3, e4⟩ := key (data.length ^ k + 1) (le_refl _)
    have huniq : ∀ (L' : List (List Nat)), L'.Pairwise (· < ·) →
        (∀ u, u ∈ L' ↔ TupleIterator.Valid data.length k u ∧ List.range k ≤ u) → L' = L := by
      intro L' h1 h2
      apply List.Perm.eq_of_pairwise (le := (· < ·)) _ h1 e3
      · apply (List.perm_ext_iff_of_nodup (h1.imp (fun h => ne_of_lt h)) (e3.imp (fun h => ne_of_lt h))).mpr
        intro u; rw [h2, e4]
      · intro a b _ _ h h'
        exact absurd h (lt_asymm h')
    refine ⟨L, out, ?_, ?_, e3, ?_⟩
    · intro fuel hf
      obtain ⟨L', out', f1, f2, f3, f4⟩ := key fuel hf
      have := huniq L' f3 f4
      subst this
      rw [e2] at f2
      have : out' = out := by
        have := congrArg (List.filterMap id) f2
        simpa using this.symm
      rw [f1, this]
    · have hall : ∀ t ∈ L, ∀ x ∈ t, x < data.length := fun t ht => ((e4 t).mp ht).1.2.2
      clear e1 e3 e4 huniq key
      induction L generalizing out with
      | nil => cases out with
        | nil => rfl
        | cons _ _ => simp at e2
      | cons t L ih =>
        cases out with
        | nil => simp at e2
        | cons o out =>
          simp only [List.map_cons, List.cons.injEq] at e2
          obtain ⟨o', h1, h2⟩ := TupleIterator.fetch_some data t (hall t List.mem_cons_self)
          rw [h1] at e2
          have : o' = o := by simpa using e2.1
          subst this
          simp only [List.map_cons, List.cons.injEq]
          exact ⟨h2.symm, ih out e2.2 (fun u hu => hall u (List.mem_cons_of_mem _ hu))⟩
    · intro t
      rw [e4]
      constructor
      · exact fun h => h.1
      · intro h
        refine ⟨h, ?_⟩
        have := TupleIterator.lex_range_le 0 t h.2.1 (fun _ _ => Nat.zero_le _)
        rw [h.1] at this
        rw [List.range_eq_range']; exact this

/-- the hypothesis is met and the result is non-trivial -/
example : tupleIter 9 ["a", "b", "c"] 2 = some [["a", "b"], ["a", "c"], ["b", "c"]] := by decide

/-- **C07** (rejected input). `tuple_iter(0)` panics (underflow of `size - 1`). -/
theorem c07_tuple_iter_zero {α : Type} (data : List α) (fuel : Nat) : tupleIter fuel data 0 = none := by
  simp [tupleIter, TupleIterator.new, csub]

end Toppo.TupleProps
