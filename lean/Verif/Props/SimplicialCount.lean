import Verif.Props.Simplicial
import Verif.Props.TupleIter
import Mathlib.Combinatorics.Enumerative.InclusionExclusion
import Mathlib.Data.Nat.Choose.Basic
import Mathlib.Data.Finset.Powerset
import Mathlib.Logic.Relation
set_option linter.unusedVariables false
set_option linter.unusedSectionVars false
/-!
# C47, C48: cell counts and connectivity of simplicial complexes
-/
namespace Toppo.Simp
open Toppo
variable {T : Type} [DecidableEq T]

/-! ### C48 -/

/-- two positions in a common maximal cell -/
def Linked (c : Cplx T) (i k : Nat) : Prop := ∃ m ∈ c.cells, i ∈ vs m ∧ k ∈ vs m

theorem foldJoin_le : ∀ (l : List Cell) {j : Cell}, WF j → (∀ m ∈ l, j.words.length ≤ m.words.length) →
    l.Pairwise (fun a b => a.words.length ≤ b.words.length) → WF (l.foldl Cell.join j) ∧
    ∀ i, i ∈ vs (l.foldl Cell.join j) ↔ i ∈ vs j ∨ ∃ m ∈ l, i ∈ vs m
  | [], j, hj, _, _ => ⟨hj, by simp⟩
  | m :: l, j, hj, hl, hp => by
    rw [List.pairwise_cons] at hp
    obtain ⟨h1, h2, h2'⟩ := join_wf j m
    obtain ⟨h3, h4⟩ := foldJoin_le l h1 (fun x hx => by rw [h2']; exact hp.1 x hx) hp.2
    refine ⟨h3, ?_⟩
    intro i
    rw [List.foldl_cons, h4, h2, Finset.mem_union, Finset.mem_filter]
    have : i ∈ vs j → i < 64 * m.words.length := by
      intro hi
      have := VS_lt hi
      have := hl m (by simp)
      omega
    simp only [List.mem_cons, exists_eq_or_imp, or_assoc]
    constructor
    · rintro (⟨h, -⟩ | h)
      · exact Or.inl h
      · exact Or.inr h
    · rintro (h | h)
      · exact Or.inl ⟨h, this h⟩
      · exact Or.inr h

/-- joining cells in the order of their creation to a set they cover -/
theorem foldJoin_spec (l : List Cell) {j : Cell} (hj : WF j) (hp : l.Pairwise (fun a b => a.words.length ≤ b.words.length))
    (hcov : ∀ i ∈ vs j, ∃ m ∈ l, i ∈ vs m) : WF (l.foldl Cell.join j) ∧
    ∀ i, i ∈ vs (l.foldl Cell.join j) ↔ i ∈ vs j ∨ ∃ m ∈ l, i ∈ vs m := by
  cases l with
  | nil => exact ⟨hj, by simp⟩
  | cons m l =>
    rw [List.pairwise_cons] at hp
    obtain ⟨h1, h2, h2'⟩ := join_wf j m
    obtain ⟨h3, h4⟩ := foldJoin_le l h1 (fun x hx => by rw [h2']; exact hp.1 x hx) hp.2
    refine ⟨h3, ?_⟩
    intro i
    rw [List.foldl_cons, h4, h2, Finset.mem_union, Finset.mem_filter]
    constructor
    · rintro ((⟨h, -⟩ | h) | ⟨x, hx, h⟩)
      · exact Or.inl h
      · exact Or.inr ⟨m, by simp, h⟩
      · exact Or.inr ⟨x, by simp [hx], h⟩
    · intro h
      have : ∃ x ∈ m :: l, i ∈ vs x := h.elim (hcov i) id
      obtain ⟨x, hx, h'⟩ := this
      rcases List.mem_cons.mp hx with rfl | hx
      · exact Or.inl (Or.inr h')
      · exact Or.inr ⟨x, hx, h'⟩

theorem connLoop_spec {c : Cplx T} (h : CInv c) (hpos : 0 < c.size) (i0 : Nat) :
    ∀ (fuel : Nat) (j : Cell), WF j → i0 ∈ vs j → (∀ i ∈ vs j, i < c.size ∧ Relation.ReflTransGen (Linked c) i0 i) → c.size - (vs j).card < fuel →
    ∃ b, c.connLoop fuel j j.dim = some b ∧ (b = true ↔ ∀ i, i < c.size → Relation.ReflTransGen (Linked c) i0 i)
  | 0, _, _, _, _, hf => by omega
  | fuel + 1, j, hj, h0, hr, hf => by
    have hsorted : (c.cells.filter (fun m => m.meets j)).Pairwise (fun a b => a.words.length ≤ b.words.length) := by
      refine List.Pairwise.imp_of_mem ?_ (h.sorted.sublist List.filter_sublist)
      intro a b ha hb hab
      rw [(h.ok a (List.mem_of_mem_filter ha)).words, (h.ok b (List.mem_of_mem_filter hb)).words]
      have := Nat.div_le_div_right (c := 64) hab
      omega
    obtain ⟨h1, h2⟩ := foldJoin_spec (c.cells.filter (fun m => m.meets j)) hj hsorted (by
      intro i hi
      obtain ⟨m, hm, him⟩ := h.cover i (hr i hi).1
      exact ⟨m, List.mem_filter.mpr ⟨hm, meets_iff.mpr ⟨i, Finset.mem_inter.mpr ⟨him, hi⟩⟩⟩, him⟩)
    generalize hj' : (c.cells.filter (fun m => m.meets j)).foldl Cell.join j = j' at h1 h2
    have hmeet : ∀ m ∈ c.cells, m.meets j = true ↔ ∃ i ∈ vs m, i ∈ vs j := by
      intro m hm
      rw [meets_iff]
      constructor
      · rintro ⟨i, hi⟩
        rw [Finset.mem_inter] at hi
        exact ⟨i, hi.1, hi.2⟩
      · rintro ⟨i, h1, h2⟩
        exact ⟨i, Finset.mem_inter.mpr ⟨h1, h2⟩⟩
    have hsub : vs j ⊆ vs j' := fun i hi => (h2 i).mpr (Or.inl hi)
    have hr' : ∀ i ∈ vs j', i < c.size ∧ Relation.ReflTransGen (Linked c) i0 i := by
      intro i hi
      rcases (h2 i).mp hi with hi | ⟨m, hm, hi⟩
      · exact hr i hi
      · rw [List.mem_filter] at hm
        obtain ⟨k, hk1, hk2⟩ := (hmeet m hm.1).mp hm.2
        have := (h.ok m hm.1).lt i hi
        have := (h.ok m hm.1).size_le
        exact ⟨by omega, (hr k hk2).2.tail ⟨m, hm.1, hk1, hi⟩⟩
    have hsubr : vs j' ⊆ Finset.range c.size := fun i hi => Finset.mem_range.mpr (hr' i hi).1
    have hcard := Finset.card_le_card hsubr
    rw [Finset.card_range] at hcard
    have hcs : csub c.size 1 = some (c.size - 1) := by rw [csub, if_pos (by omega)]
    have h0' : i0 ∈ vs j' := hsub h0
    rw [Cplx.connLoop]
    simp only [hj', hcs, Option.bind_eq_bind, Option.bind_some]
    by_cases ht : j'.dim = some (c.size - 1)
    · refine ⟨true, by rw [if_pos ht]; rfl, ?_⟩
      simp only [true_iff]
      intro i hi
      have hce := h1.dim_some.mp ht
      have : vs j' = Finset.range c.size := Finset.eq_of_subset_of_card_le hsubr (by rw [Finset.card_range]; omega)
      exact (hr' i (by rw [this]; exact Finset.mem_range.mpr hi)).2
    · rw [if_neg ht]
      have hlt : (vs j').card < c.size := by
        refine lt_of_le_of_ne hcard ?_
        intro e
        exact ht (h1.dim_some.mpr (by omega))
      have hp : 0 < (vs j).card := Finset.card_pos.mpr ⟨i0, h0⟩
      have hp' : 0 < (vs j').card := Finset.card_pos.mpr ⟨i0, h0'⟩
      by_cases he : j'.dim = j.dim
      · refine ⟨false, by rw [if_pos he]; rfl, ?_⟩
        simp only [Bool.false_eq_true, false_iff]
        intro hall
        have hdj : j.dim = some ((vs j).card - 1) := hj.dim_some.mpr (by omega)
        rw [hdj] at he
        have := h1.dim_some.mp he
        have heq : vs j = vs j' := Finset.eq_of_subset_of_card_le hsub (by omega)
        -- closed under links
        have hclosed : ∀ i, Relation.ReflTransGen (Linked c) i0 i → i ∈ vs j := by
          intro i hi
          induction hi with
          | refl => exact h0
          | tail _ hl ih =>
            obtain ⟨m, hm, h3, h4⟩ := hl
            rw [heq]
            exact (h2 _).mpr (Or.inr ⟨m, List.mem_filter.mpr ⟨hm, (hmeet m hm).mpr ⟨_, h3, ih⟩⟩, h4⟩)
        have : Finset.range c.size ⊆ vs j := fun i hi => hclosed i (hall i (Finset.mem_range.mp hi))
        have := Finset.card_le_card this
        rw [Finset.card_range, heq] at this
        omega
      · rw [if_neg he]
        refine connLoop_spec h hpos i0 fuel j' h1 h0' hr' ?_
        have hne : (vs j).card ≠ (vs j').card := by
          intro e
          apply he
          rw [h1.dim_some.mpr (by omega : (vs j').card = (vs j').card - 1 + 1), hj.dim_some.mpr (by omega : (vs j).card = (vs j).card - 1 + 1), e]
        have := Finset.card_le_card hsub
        omega

/-- Specification: two labels in a common simplex listed by the complex -/
def Adjacent (bm : List (Hom.BMap (Simplex T))) (x y : T) : Prop := ∃ A, Listed bm A ∧ x ∈ A ∧ y ∈ A

/-- **C48**. `is_connected` terminates and is true exactly when any two labels are joined by a chain of simplices of the complex,
consecutive ones sharing a label. -/
theorem c48_is_connected {history : List (List T)} (hh : GoodHistory history) :
    ∃ c bm b, Cplx.build history = some c ∧ c.boundaryMap = some bm ∧ (∀ fuel, history.flatten.toFinset.card < fuel → c.isConnected fuel = some b) ∧
      (b = true ↔ ∀ x ∈ history.flatten, ∀ y ∈ history.flatten, Relation.ReflTransGen (Adjacent bm) x y) := by
  obtain ⟨c, e1, e2⟩ := build_hist history hh.simplices
  have hne := cells_ne e2 hh
  obtain ⟨d, bm, Ls, f1, f2, f3, f4, f5⟩ := boundaryMap_spec e2.inv hne
  have hlist := listed_iff e2 f1 f3 f4 f5
  obtain ⟨m0, rest, hc⟩ := List.exists_cons_of_ne_nil hne
  have hm0 : m0 ∈ c.cells := by rw [hc]; simp
  have hok := e2.inv.ok m0 hm0
  obtain ⟨i0, hi0⟩ := hok.ne
  have hi0s : i0 < c.size := by have := hok.lt i0 hi0; have := hok.size_le; omega
  have hsz := e2.inv.size
  have hcard : history.flatten.toFinset.card = c.size := by rw [← e2.labels, List.toFinset_card_of_nodup e2.inv.nodup, hsz]
  have hmemlab : ∀ i (hi : i < c.size), ∃ x ∈ history.flatten, c.labels[i]? = some x := by
    intro i hi
    have hi' : i < c.labels.length := by omega
    refine ⟨c.labels[i], ?_, List.getElem?_eq_getElem hi'⟩
    have : c.labels[i] ∈ c.labels.toFinset := by simp
    rw [e2.labels] at this
    simpa using this
  have hlabmem : ∀ x ∈ history.flatten, ∃ i, i < c.size ∧ c.labels[i]? = some x := by
    intro x hx
    have : x ∈ c.labels := by
      have : x ∈ c.labels.toFinset := by rw [e2.labels]; simpa using hx
      simpa using this
    obtain ⟨i, hi, e⟩ := List.getElem_of_mem this
    exact ⟨i, by omega, by rw [List.getElem?_eq_getElem hi, e]⟩
  have hlabinj : ∀ (i k : Nat) (x : T), c.labels[i]? = some x → c.labels[k]? = some x → i = k := by
    intro i k x h1 h2
    obtain ⟨w1, g1⟩ := List.getElem?_eq_some_iff.mp h1
    obtain ⟨w2, g2⟩ := List.getElem?_eq_some_iff.mp h2
    exact (List.Nodup.getElem_inj_iff e2.inv.nodup).mp (g1.trans g2.symm)
  have hlink : ∀ i k x y, c.labels[i]? = some x → c.labels[k]? = some y → (Linked c i k ↔ Adjacent bm x y) := by
    intro i k x y hx hy
    constructor
    · rintro ⟨m, hm, h1, h2⟩
      exact ⟨lset c.labels (vs m), (hlist _).mpr ⟨vs m, (e2.inv.ok m hm).ne, ⟨m, hm, Finset.Subset.refl _⟩, rfl⟩,
        mem_lset.mpr ⟨i, h1, hx⟩, mem_lset.mpr ⟨k, h2, hy⟩⟩
    · rintro ⟨A, hA, h1, h2⟩
      obtain ⟨F, -, ⟨m, hm, hsub⟩, rfl⟩ := (hlist A).mp hA
      obtain ⟨i', h3, h4⟩ := mem_lset.mp h1
      obtain ⟨k', h5, h6⟩ := mem_lset.mp h2
      exact ⟨m, hm, hlabinj _ _ _ h4 hx ▸ hsub h3, hlabinj _ _ _ h6 hy ▸ hsub h5⟩
  have hinit : ∀ i ∈ vs m0, i < c.size ∧ Relation.ReflTransGen (Linked c) i0 i := by
    intro i hi
    refine ⟨?_, Relation.ReflTransGen.single ⟨m0, hm0, hi0, hi⟩⟩
    have := hok.lt i hi
    have := hok.size_le
    omega
  have hspec := connLoop_spec e2.inv (by omega) i0
  have hiff : (∀ i, i < c.size → Relation.ReflTransGen (Linked c) i0 i) ↔
      ∀ x ∈ history.flatten, ∀ y ∈ history.flatten, Relation.ReflTransGen (Adjacent bm) x y := by
    have hto : ∀ i k, Relation.ReflTransGen (Linked c) i k → ∀ x y, c.labels[i]? = some x → c.labels[k]? = some y → Relation.ReflTransGen (Adjacent bm) x y := by
      intro i k hik
      induction hik with
      | refl => intro x y h1 h2; rw [h1] at h2; cases h2; exact Relation.ReflTransGen.refl
      | @tail k l _ hl ih =>
        intro x y h1 h2
        obtain ⟨m, hm, h3, h4⟩ := hl
        have hk : k < c.size := by have := e2.inv.lt hm k h3; omega
        obtain ⟨z, -, hz⟩ := hmemlab k hk
        exact (ih x z h1 hz).tail ((hlink k l z y hz h2).mp ⟨m, hm, h3, h4⟩)
    have hfrom : ∀ x y, Relation.ReflTransGen (Adjacent bm) x y → ∀ i k, c.labels[i]? = some x → c.labels[k]? = some y → Relation.ReflTransGen (Linked c) i k := by
      intro x y hxy
      induction hxy with
      | refl =>
        intro i k h1 h2
        have := hlabinj i k x h1 h2
        subst this
        exact Relation.ReflTransGen.refl
      | @tail z y _ hl ih =>
        intro i k h1 h2
        obtain ⟨A, hA, h3, h4⟩ := hl
        obtain ⟨F, -, -, rfl⟩ := (hlist A).mp hA
        obtain ⟨l, -, hl⟩ := mem_lset.mp h3
        exact (ih i l h1 hl).tail ((hlink l k z y hl h2).mpr ⟨_, hA, h3, h4⟩)
    haveI hsymm : Std.Symm (Adjacent bm) := ⟨fun x y ⟨s, hs, h1, h2⟩ => ⟨s, hs, h2, h1⟩⟩
    obtain ⟨x0, hx0, hx0'⟩ := hmemlab i0 hi0s
    constructor
    · intro hall x hx y hy
      obtain ⟨i, hi, hix⟩ := hlabmem x hx
      obtain ⟨k, hk, hky⟩ := hlabmem y hy
      have h1 := hto i0 i (hall i hi) x0 x hx0' hix
      have h2 := hto i0 k (hall k hk) x0 y hx0' hky
      exact (Relation.ReflTransGen.symmetric.symm _ _ h1).trans h2
    · intro hall i hi
      obtain ⟨x, hx, hix⟩ := hmemlab i hi
      exact hfrom x0 x (hall x0 hx0 x hx) i0 i hx0' hix
  have hb : ∀ fuel, c.size < fuel → ∃ b, c.isConnected fuel = some b ∧ (b = true ↔ ∀ i, i < c.size → Relation.ReflTransGen (Linked c) i0 i) := by
    intro fuel hf
    obtain ⟨b, h1, h2⟩ := hspec fuel m0 hok.wf hi0 hinit (by omega)
    refine ⟨b, ?_, h2⟩
    rw [Cplx.isConnected, hc]
    exact h1
  obtain ⟨b, h1, h2⟩ := hb (c.size + 1) (by omega)
  refine ⟨c, bm, b, e1, f2, ?_, h2.trans hiff⟩
  intro fuel hf
  obtain ⟨b', h3, h4⟩ := hb fuel (by omega)
  have : b' = b := by rw [Bool.eq_iff_iff, h2, h4]
  rw [h3, this]

/-- **C48** (nothing attached). The empty complex is connected. -/
theorem c48_empty (fuel : Nat) : ∃ c : Cplx T, Cplx.build [] = some c ∧ c.isConnected fuel = some true := ⟨Cplx.empty, rfl, rfl⟩

/-- Specification: two labels in a common attached simplex -/
def Together (history : List (List T)) (x y : T) : Prop := ∃ s ∈ history, x ∈ s ∧ y ∈ s

/-- **C48 with C46**. With at most 64 labels, `is_connected` is true exactly when any two labels are joined by a chain of attached
simplices sharing labels. -/
theorem c48_history {history : List (List T)} (hh : GoodHistory history) (hb : history.flatten.toFinset.card ≤ 64) :
    ∃ c b, Cplx.build history = some c ∧ (∀ fuel, 65 ≤ fuel → c.isConnected fuel = some b) ∧
      (b = true ↔ ∀ x ∈ history.flatten, ∀ y ∈ history.flatten, Relation.ReflTransGen (Together history) x y) := by
  obtain ⟨c, bm, b, h1, h2, h3, h4⟩ := c48_is_connected hh
  obtain ⟨c', bm', g1, g2, g3, g4⟩ := c46_cells_partial hh hb
  rw [h1] at g1
  cases g1
  rw [h2] at g2
  cases g2
  refine ⟨c, b, h1, fun fuel hf => h3 fuel (by omega), ?_⟩
  have : Adjacent bm = Together history := by
    funext x y
    apply propext
    constructor
    · rintro ⟨A, ⟨b, hb, s, hs, rfl⟩, hx, hy⟩
      obtain ⟨i, hi⟩ := List.mem_iff_getElem?.mp hb
      obtain ⟨-, -, t, ht, hsub⟩ := ((g3 i b hi).2.2.2 _).mp ⟨s, hs, rfl⟩
      exact ⟨t, ht, by simpa using hsub hx, by simpa using hsub hy⟩
    · rintro ⟨s, hs, hx, hy⟩
      have hf : IsFace history s.toFinset := ⟨⟨x, by simpa using hx⟩, s, hs, Finset.Subset.refl _⟩
      have hp := Finset.card_pos.mpr hf.1
      have hle := g4 _ hf
      have hi : s.toFinset.card - 1 < bm.length := by omega
      obtain ⟨t, ht, e⟩ := ((g3 _ _ (List.getElem?_eq_getElem hi)).2.2.2 s.toFinset).mpr ⟨by omega, hf⟩
      exact ⟨s.toFinset, ⟨_, List.getElem_mem hi, t, ht, e⟩, by simpa using hx, by simpa using hy⟩
  rw [← this]
  exact h4

/-- both answers occur -/
example : (Cplx.build [[0, 1], [2, 3], [1, 2]]).bind (fun c => c.isConnected 65) = some true := by decide +kernel
example : (Cplx.build [[0, 1], [2, 3]]).bind (fun c => c.isConnected 65) = some false := by decide +kernel

/-- with more than 64 vertices: a path across the words, and two pieces -/
example : (Cplx.build ((List.range 64).map (fun i => [i, i + 1]) ++ [[63, 65, 66]])).bind (fun c => c.isConnected 100) = some true := by decide +kernel
example : (Cplx.build ((List.range 63).map (fun i => [i, i + 1]) ++ [[64, 65, 66]])).bind (fun c => c.isConnected 100) = some false := by decide +kernel

/-- **C46 fails beyond 64 vertices, seen by `is_connected`**: the path with the 66 vertices `0, …, 65` is reported as not connected (the edge `{64, 65}` is
taken for a face of `{0, 1}` and dropped). -/
theorem c46_path_false : (Cplx.build ((List.range 65).map (fun i => [i, i + 1]))).bind (fun c => c.isConnected 100) = some false := by
  decide +kernel

/-! ### C47 -/

theorem foldl_mul_range' (a y : Nat) : ∀ p, (List.range' a y).foldl (· * ·) p = p * a.ascFactorial y := by
  induction y with
  | zero => intro p; simp
  | succ y ih =>
    intro p
    rw [List.range'_concat, List.foldl_append, ih]
    simp only [List.foldl_cons, List.foldl_nil, Nat.ascFactorial_succ, Nat.one_mul]
    ring

theorem binomial_eq (x y : Nat) : Cplx.binomial x y = x.choose y := by
  rw [Cplx.binomial]
  split
  · rename_i h
    exact (Nat.choose_eq_zero_of_lt h).symm
  · rename_i h
    rw [foldl_mul_range', foldl_mul_range', Nat.one_mul, Nat.one_mul, Nat.one_ascFactorial]
    have := Nat.choose_eq_asc_factorial_div_factorial (x - y) y
    rw [show x - y + y = x by omega] at this
    exact this.symm

theorem largest_inter {c : Cplx T} {m : Cell} (hm : CellOk c.size m) : WF (c.largest.inter m) ∧ vs (c.largest.inter m) = vs m := by
  obtain ⟨h1, h2⟩ := inter_wf c.largest m
  refine ⟨h1, ?_⟩
  rw [h2, Finset.inter_eq_right]
  intro i hi
  have hlt := hm.lt_nw i hi
  rw [Cplx.nw] at hlt
  rw [vs, mem_VS, Cplx.largest, List.getD_eq_getElem _ _ (by rw [List.length_replicate]; omega), List.getElem_replicate, S_ones]
  exact Finset.mem_range.mpr (Nat.mod_lt _ (by omega))

theorem foldInter_spec : ∀ (t : List Cell) {a : Cell}, WF a → WF (t.foldl Cell.inter a) ∧
    ∀ i, i ∈ vs (t.foldl Cell.inter a) ↔ i ∈ vs a ∧ ∀ m ∈ t, i ∈ vs m
  | [], a, ha => ⟨ha, by simp⟩
  | m :: t, a, ha => by
    obtain ⟨h1, h2⟩ := inter_wf a m
    obtain ⟨h3, h4⟩ := foldInter_spec t h1
    refine ⟨h3, ?_⟩
    intro i
    rw [List.foldl_cons, h4, h2, Finset.mem_inter]
    simp only [List.mem_cons, forall_eq_or_imp, and_assoc]

theorem tuple_inter {c : Cplx T} (h : CInv c) {t : List Cell} (hne : t ≠ []) (ht : ∀ m ∈ t, m ∈ c.cells) :
    WF (t.foldl Cell.inter c.largest) ∧ ∀ i, i ∈ vs (t.foldl Cell.inter c.largest) ↔ ∀ m ∈ t, i ∈ vs m := by
  obtain ⟨m, t', rfl⟩ := List.exists_cons_of_ne_nil hne
  obtain ⟨h1, h2⟩ := largest_inter (h.ok m (ht m (by simp)))
  obtain ⟨h3, h4⟩ := foldInter_spec t' h1
  refine ⟨h3, ?_⟩
  intro i
  rw [List.foldl_cons, h4, h2]
  simp

/-- the vertices common to the cells at the positions `t` -/
def common (c : Cplx T) (t : Finset Nat) : Finset Nat := (Finset.range c.size).filter (fun i => ∀ p ∈ t, ∀ m, c.cells[p]? = some m → i ∈ vs m)

/-- the number of `d`-element subsets of intersections of `k` cells, counted once per choice of the cells -/
def term (c : Cplx T) (d k : Nat) : Nat := ∑ t ∈ Finset.powersetCard k (Finset.range c.cells.length), (common c t).card.choose d

theorem mapM_dim_inter (d : Nat) : ∀ (l : List Cell), (∀ m ∈ l, WF m ∧ vs m ≠ ∅) →
    ∃ ds, l.mapM (fun m => m.dim) = some ds ∧ (ds.map (fun e => Cplx.binomial (e + 1) d)).sum = (l.map (fun m => (vs m).card.choose d)).sum
  | [], _ => ⟨[], by simp, rfl⟩
  | m :: l, h => by
    obtain ⟨ds, e1, e2⟩ := mapM_dim_inter d l (fun x hx => h x (by simp [hx]))
    obtain ⟨h1, h2⟩ := h m (by simp)
    have hp : 0 < (vs m).card := Finset.card_pos.mpr (Finset.nonempty_iff_ne_empty.mpr h2)
    have hd : m.dim = some ((vs m).card - 1) := h1.dim_some.mpr (by omega)
    refine ⟨((vs m).card - 1) :: ds, by rw [List.mapM_cons, hd, e1]; rfl, ?_⟩
    rw [List.map_cons, List.sum_cons, e2, binomial_eq, show (vs m).card - 1 + 1 = (vs m).card by omega]
    simp

theorem sum_filter_empty (d : Nat) : ∀ (l : List Cell), (∀ m ∈ l, WF m) →
    ((l.filter (fun m => !m.isEmpty)).map (fun m => (vs m).card.choose (d + 1))).sum = (l.map (fun m => (vs m).card.choose (d + 1))).sum
  | [], _ => rfl
  | m :: l, h => by
    have ih := sum_filter_empty d l (fun x hx => h x (by simp [hx]))
    rw [List.filter_cons]
    by_cases hm : m.isEmpty = true
    · have := isEmpty_iff.mp hm
      simp [hm, ih, this]
    · simp only [Bool.not_eq_true] at hm
      simp [hm, ih]

/-- the tuples of `k` cells produced by the iterator, in terms of their positions -/
theorem tuples_sum {c : Cplx T} (h : CInv c) (k : Nat) (hk : 1 ≤ k) :
    ∃ out, tupleIter (c.cells.length ^ k + 1) c.cells k = some out ∧ (∀ t ∈ out, t ≠ [] ∧ ∀ m ∈ t, m ∈ c.cells) ∧
      (∀ d, (out.map (fun t => (vs (t.foldl Cell.inter c.largest)).card.choose d)).sum = term c d k) ∧
      ((∀ t ∈ out, vs (t.foldl Cell.inter c.largest) = ∅) → ∀ k' d, k ≤ k' → term c (d + 1) k' = 0) := by
  obtain ⟨L, out, h1, h2, h3, h4⟩ := TupleProps.c07_tuple_iter c.cells k hk
  refine ⟨out, h1 _ (le_refl _), ?_⟩
  have hpair : List.Forall₂ (fun t l => t.map some = l.map (fun i => c.cells[i]?)) out L := by
    have : List.Forall₂ (· = ·) (out.map (fun t => t.map some)) (L.map (fun t => t.map (fun i => c.cells[i]?))) := by
      rw [h2]; exact List.forall₂_refl _
    rw [List.forall₂_map_left_iff, List.forall₂_map_right_iff] at this
    exact this
  have hmem : ∀ (t : List Cell) (l : List Nat), t.map some = l.map (fun i => c.cells[i]?) → ∀ m, m ∈ t ↔ ∃ i ∈ l, c.cells[i]? = some m := by
    intro t l e m
    have : m ∈ t ↔ some m ∈ t.map some := by simp
    rw [this, e, List.mem_map]
  have hgood : ∀ t l, t.map some = l.map (fun i => c.cells[i]?) → l ∈ L → (t ≠ [] ∧ ∀ m ∈ t, m ∈ c.cells) ∧ vs (t.foldl Cell.inter c.largest) = common c l.toFinset := by
    intro t l e hl
    obtain ⟨g1, g2, g3⟩ := (h4 l).mp hl
    have hlen : t.length = l.length := by simpa using congrArg List.length e
    have hne : t ≠ [] := by
      rintro rfl
      simp at hlen
      omega
    have hc : ∀ m ∈ t, m ∈ c.cells := by
      intro m hm
      obtain ⟨i, -, hi⟩ := (hmem t l e m).mp hm
      exact List.mem_of_getElem? hi
    refine ⟨⟨hne, hc⟩, ?_⟩
    obtain ⟨w1, w2⟩ := tuple_inter h hne hc
    ext i
    rw [w2, common, Finset.mem_filter, Finset.mem_range]
    constructor
    · intro hall
      refine ⟨?_, ?_⟩
      · obtain ⟨m, hm⟩ := List.exists_mem_of_ne_nil _ hne
        have h5 := (h.ok m (hc m hm)).lt i (hall m hm)
        have h6 := (h.ok m (hc m hm)).size_le
        omega
      · intro p hp m hm
        exact hall m ((hmem t l e m).mpr ⟨p, by simpa using hp, hm⟩)
    · rintro ⟨-, hall⟩ m hm
      obtain ⟨p, hp, e'⟩ := (hmem t l e m).mp hm
      exact hall p (by simpa using hp) m e'
  have hLset : (L.map List.toFinset).Nodup ∧ ∀ t, t ∈ L.map List.toFinset ↔ t ∈ Finset.powersetCard k (Finset.range c.cells.length) := by
    constructor
    · refine List.Nodup.map_on ?_ (h3.imp (fun h => ne_of_lt h))
      intro l hl l' hl' e
      refine pairwise_lt_ext ((h4 l).mp hl).2.1 ((h4 l').mp hl').2.1 ?_
      intro v
      have := Finset.ext_iff.mp e v
      simpa using this
    · intro t
      rw [Finset.mem_powersetCard, List.mem_map]
      constructor
      · rintro ⟨l, hl, rfl⟩
        obtain ⟨g1, g2, g3⟩ := (h4 l).mp hl
        refine ⟨?_, ?_⟩
        · intro i hi
          exact Finset.mem_range.mpr (g3 i (by simpa using hi))
        · rw [List.toFinset_card_of_nodup (g2.imp (fun h => ne_of_lt h)), g1]
      · rintro ⟨h5, h6⟩
        refine ⟨sl t, (h4 _).mpr ⟨by rw [sl_length, h6], sl_pairwise t, ?_⟩, ?_⟩
        · intro i hi
          exact Finset.mem_range.mp (h5 (mem_sl.mp hi))
        · ext v; simp [mem_sl]
  have hout : ∀ t ∈ out, ∃ l ∈ L, t.map some = l.map (fun i => c.cells[i]?) := by
    intro t ht
    obtain ⟨q, hq⟩ := List.mem_iff_getElem?.mp ht
    obtain ⟨hlt, e⟩ := List.getElem?_eq_some_iff.mp hq
    have hlt' : q < L.length := by rw [← hpair.length_eq]; exact hlt
    have := List.Forall₂.get hpair (i := q) hlt hlt'
    simp only [List.get_eq_getElem, e] at this
    exact ⟨_, List.getElem_mem hlt', this⟩
  have houtL : ∀ l ∈ L, ∃ t ∈ out, t.map some = l.map (fun i => c.cells[i]?) := by
    intro l hl
    obtain ⟨q, hq⟩ := List.mem_iff_getElem?.mp hl
    obtain ⟨hlt, e⟩ := List.getElem?_eq_some_iff.mp hq
    have hlt' : q < out.length := by rw [hpair.length_eq]; exact hlt
    have := List.Forall₂.get hpair (i := q) hlt' hlt
    simp only [List.get_eq_getElem, e] at this
    exact ⟨_, List.getElem_mem hlt', this⟩
  refine ⟨?_, ?_, ?_⟩
  · intro t ht
    obtain ⟨l, hl, e⟩ := hout t ht
    exact (hgood t l e hl).1
  · intro d
    have e1 : out.map (fun t => (vs (t.foldl Cell.inter c.largest)).card.choose d) = (L.map List.toFinset).map (fun t => (common c t).card.choose d) := by
      rw [List.map_map]
      clear h1 h2 h3 hout houtL hLset
      have hgood' := hgood
      clear hgood
      have h4' : ∀ l ∈ L, l ∈ L := fun l hl => hl
      revert h4'
      generalize hL0 : L = L0 at hgood' ⊢
      intro h4'
      have hp := hpair
      rw [hL0] at hp
      clear hpair
      have : ∀ (L1 : List (List Nat)), (∀ l ∈ L1, l ∈ L0) → ∀ (o1 : List (List Cell)), List.Forall₂ (fun t l => t.map some = l.map (fun i => c.cells[i]?)) o1 L1 →
          o1.map (fun t => (vs (t.foldl Cell.inter c.largest)).card.choose d) = L1.map ((fun t => (common c t).card.choose d) ∘ List.toFinset) := by
        intro L1 hL1 o1 hp
        induction hp with
        | nil => rfl
        | @cons t l o1 L1 hd _ ih =>
          rw [List.map_cons, List.map_cons, ih (fun x hx => hL1 x (by simp [hx])), (hgood' t l hd (hL1 l (by simp))).2]
          rfl
      exact this L0 h4' out hp
    rw [e1, term, ← List.sum_toFinset _ hLset.1]
    apply Finset.sum_congr
    · ext t
      rw [List.mem_toFinset, hLset.2]
    · intro t _; rfl
  · intro hempty k' d hkk
    rw [term]
    apply Finset.sum_eq_zero
    intro t ht
    rw [Finset.mem_powersetCard] at ht
    obtain ⟨t', ht', hc⟩ := Finset.exists_subset_card_eq (by omega : k ≤ t.card)
    have hmemL := (hLset.2 t').mpr (Finset.mem_powersetCard.mpr ⟨ht'.trans ht.1, hc⟩)
    obtain ⟨l, hl, rfl⟩ := List.mem_map.mp hmemL
    obtain ⟨s, hs, e⟩ := houtL l hl
    have h0 := hempty s hs
    rw [(hgood s l e hl).2] at h0
    have : common c t = ∅ := by
      rw [← Finset.subset_empty, ← h0]
      intro i hi
      rw [common, Finset.mem_filter] at hi ⊢
      exact ⟨hi.1, fun p hp => hi.2 p (ht' hp)⟩
    rw [this]
    simp

theorem countLoop_spec {c : Cplx T} (h : CInv c) (d : Nat) : ∀ (k i : Nat) (sign : Bool) (out : Int), 1 ≤ i →
    c.countLoop d k i sign out = some (out + (if sign then 1 else -1) * ∑ q ∈ Finset.range k, (-1) ^ q * (term c (d + 1) (i + q) : Int))
  | 0, i, sign, out, _ => by simp [Cplx.countLoop]
  | k + 1, i, sign, out, hi => by
    obtain ⟨tup, h1, h2, h3, h4⟩ := tuples_sum h i hi
    rw [Cplx.countLoop, h1]
    simp only [Option.bind_eq_bind, Option.bind_some]
    have hwf : ∀ m ∈ tup.map (fun t => t.foldl Cell.inter c.largest), WF m := by
      intro m hm
      obtain ⟨t, ht, rfl⟩ := List.mem_map.mp hm
      exact (tuple_inter h (h2 t ht).1 (h2 t ht).2).1
    by_cases he : ((tup.map (fun t => t.foldl Cell.inter c.largest)).filter (fun m => !m.isEmpty)).isEmpty = true
    · rw [if_pos he]
      have hz := h4 (by
        intro t ht
        rw [List.isEmpty_iff, List.filter_eq_nil_iff] at he
        have := he _ (List.mem_map_of_mem ht)
        simp only [Bool.not_eq_true, Bool.not_eq_false'] at this
        exact isEmpty_iff.mp this)
      have : ∑ q ∈ Finset.range (k + 1), (-1) ^ q * (term c (d + 1) (i + q) : Int) = 0 := by
        apply Finset.sum_eq_zero
        intro q _
        rw [hz (i + q) d (by omega)]
        simp
      rw [this]
      simp
    · rw [if_neg he]
      obtain ⟨ds, e1, e2⟩ := mapM_dim_inter (d + 1) ((tup.map (fun t => t.foldl Cell.inter c.largest)).filter (fun m => !m.isEmpty)) (by
        intro m hm
        rw [List.mem_filter] at hm
        refine ⟨hwf m hm.1, ?_⟩
        intro h0
        rw [isEmpty_iff.mpr h0] at hm
        simp at hm)
      rw [sum_filter_empty d _ hwf, List.map_map] at e2
      have e3 : (ds.map (fun e => Cplx.binomial (e + 1) (d + 1))).sum = term c (d + 1) i := by
        rw [e2, ← h3 (d + 1)]
        rfl
      rw [e1]
      simp only [Option.bind_some, e3]
      rw [countLoop_spec h d k (i + 1) (!sign) _ (by omega), Finset.sum_range_succ']
      have hs : ∑ q ∈ Finset.range k, (-1 : Int) ^ (q + 1) * (term c (d + 1) (i + (q + 1)) : Int) =
          - ∑ q ∈ Finset.range k, (-1) ^ q * (term c (d + 1) (i + 1 + q) : Int) := by
        rw [← Finset.sum_neg_distrib]
        apply Finset.sum_congr rfl
        intro q _
        rw [show i + (q + 1) = i + 1 + q by omega, pow_succ]
        ring
      rw [hs]
      cases sign <;> simp <;> ring

/-- the subsets with `d + 1` elements of the cell at position `p` -/
def fam (c : Cplx T) (d p : Nat) : Finset (Finset Nat) := (c.cells[p]?).elim ∅ (fun m => Finset.powersetCard (d + 1) (vs m))

theorem inf_fam {c : Cplx T} (h : CInv c) (d : Nat) (t : Finset Nat) (ht1 : t ⊆ Finset.range c.cells.length) (ht2 : t.Nonempty) :
    (t.inf' ht2 (fam c d)).card = (common c t).card.choose (d + 1) := by
  rw [← Finset.card_powersetCard]
  congr 1
  ext A
  rw [Finset.mem_inf', Finset.mem_powersetCard]
  have hget : ∀ p ∈ t, ∃ m, c.cells[p]? = some m := by
    intro p hp
    exact ⟨_, List.getElem?_eq_getElem (Finset.mem_range.mp (ht1 hp))⟩
  constructor
  · intro hall
    obtain ⟨p0, hp0⟩ := ht2
    obtain ⟨m0, hm0⟩ := hget p0 hp0
    have h0 := hall p0 hp0
    rw [fam, hm0, Option.elim_some, Finset.mem_powersetCard] at h0
    refine ⟨?_, h0.2⟩
    intro i hi
    rw [common, Finset.mem_filter, Finset.mem_range]
    refine ⟨by rw [h.size]; exact h.lt (List.mem_of_getElem? hm0) i (h0.1 hi), ?_⟩
    intro p hp m hm
    have := hall p hp
    rw [fam, hm, Option.elim_some, Finset.mem_powersetCard] at this
    exact this.1 hi
  · rintro ⟨h1, h2⟩ p hp
    obtain ⟨m, hm⟩ := hget p hp
    rw [fam, hm, Option.elim_some, Finset.mem_powersetCard]
    refine ⟨?_, h2⟩
    intro i hi
    have := h1 hi
    rw [common, Finset.mem_filter] at this
    exact this.2 p hp m hm

/-- inclusion and exclusion -/
theorem incl_excl {c : Cplx T} (h : CInv c) (d : Nat) :
    (((Finset.range c.cells.length).biUnion (fam c d)).card : Int) =
      ∑ q ∈ Finset.range c.cells.length, (-1) ^ q * (term c (d + 1) (1 + q) : Int) := by
  rw [Finset.inclusion_exclusion_card_biUnion]
  rw [Finset.sum_congr rfl (g := fun t : {t // t ∈ (Finset.range c.cells.length).powerset.filter (·.Nonempty)} =>
    (-1 : Int) ^ (t.1.card + 1) * ((common c t.1).card.choose (d + 1) : Nat)) (by
      rintro ⟨t, ht⟩ -
      have ht' := ht
      rw [Finset.mem_filter, Finset.mem_powerset] at ht'
      rw [inf_fam h d t ht'.1 ht'.2])]
  rw [Finset.sum_coe_sort ((Finset.range c.cells.length).powerset.filter (·.Nonempty)) (fun t => (-1 : Int) ^ (t.card + 1) * ((common c t).card.choose (d + 1) : Nat))]
  rw [← Finset.sum_fiberwise_of_maps_to (s := (Finset.range c.cells.length).powerset.filter (·.Nonempty)) (t := Finset.range c.cells.length) (g := fun t => t.card - 1)]
  · apply Finset.sum_congr rfl
    intro q hq
    rw [term]
    push_cast
    rw [Finset.mul_sum]
    apply Finset.sum_congr
    · ext t
      simp only [Finset.mem_filter, Finset.mem_powerset, Finset.mem_powersetCard]
      constructor
      · rintro ⟨⟨h1, h2⟩, h3⟩
        have := Finset.card_pos.mpr h2
        exact ⟨h1, by omega⟩
      · rintro ⟨h1, h2⟩
        exact ⟨⟨h1, Finset.card_pos.mp (by omega)⟩, by omega⟩
    · intro t ht
      rw [Finset.mem_powersetCard] at ht
      rw [ht.2, show 1 + q + 1 = q + 2 by omega, pow_add]
      simp
  · intro t ht
    rw [Finset.mem_filter, Finset.mem_powerset] at ht
    have h1 := Finset.card_le_card ht.1
    rw [Finset.card_range] at h1
    have h2 := Finset.card_pos.mpr ht.2
    exact Finset.mem_range.mpr (by omega)

theorem nCells_spec {c : Cplx T} (h : CInv c) (i : Nat) :
    ∃ U : Finset (Finset Nat), (∀ A, A ∈ U ↔ A.card = i + 1 ∧ Face c A) ∧ c.nCellsOfDim i = some (U.card : Int) := by
  have hcount := countLoop_spec h i c.cells.length 1 true 0 (le_refl _)
  rw [if_pos rfl, one_mul, zero_add, ← incl_excl h i] at hcount
  refine ⟨(Finset.range c.cells.length).biUnion (fam c i), ?_, hcount⟩
  intro A
  rw [Finset.mem_biUnion]
  constructor
  · rintro ⟨p, hp, hA⟩
    have hm : c.cells[p]? = some (c.cells[p]'(Finset.mem_range.mp hp)) := List.getElem?_eq_getElem _
    rw [fam, hm, Option.elim_some, Finset.mem_powersetCard] at hA
    exact ⟨hA.2, _, List.getElem_mem _, hA.1⟩
  · rintro ⟨hA, m, hm, hsub⟩
    obtain ⟨p, hp, e⟩ := List.getElem_of_mem hm
    refine ⟨p, Finset.mem_range.mpr hp, ?_⟩
    rw [fam, List.getElem?_eq_getElem hp, e, Option.elim_some, Finset.mem_powersetCard]
    exact ⟨hsub, hA⟩

/-- **C47**. `n_cells_of_dim(i)` is the number of cells that `boundary_map` lists in dimension `i`, and zero above the dimension of
the complex. -/
theorem c47_n_cells {history : List (List T)} (hh : GoodHistory history) (i : Nat) :
    ∃ c bm, Cplx.build history = some c ∧ c.boundaryMap = some bm ∧
      (∀ b, bm[i]? = some b → c.nCellsOfDim i = some (b.basis.length : Int)) ∧
      (bm.length ≤ i → c.nCellsOfDim i = some 0) := by
  obtain ⟨c, e1, e2⟩ := build_hist history hh.simplices
  obtain ⟨d, bm, Ls, f1, f2, f3, f4, f5⟩ := boundaryMap_spec e2.inv (cells_ne e2 hh)
  obtain ⟨U, hU, hN⟩ := nCells_spec e2.inv i
  refine ⟨c, bm, e1, f2, ?_, ?_⟩
  · intro b hb
    have hi : i ≤ d := by
      have := (List.getElem?_eq_some_iff.mp hb).1
      omega
    obtain ⟨hL, -⟩ := f4 i hi
    have : ((Ls i).map vs).toFinset = U := by
      ext A
      rw [hU, ← hL.mem A]
      simp
    rw [hN, ← this, List.toFinset_card_of_nodup hL.nodup, List.length_map, (f5 i b hb).basis.length_eq]
  · intro hle
    have : U = ∅ := by
      rw [Finset.eq_empty_iff_forall_notMem]
      intro A hA
      obtain ⟨h1, h2⟩ := (hU A).mp hA
      have := face_card_le e2.inv f1 h2
      omega
    rw [hN, this]
    rfl

/-- **C47 with C46**. With at most 64 labels `n_cells_of_dim(i)` is the number of sets of `i + 1` labels all in one attached simplex. -/
theorem c47_history {history : List (List T)} (hh : GoodHistory history) (hb : history.flatten.toFinset.card ≤ 64) (i : Nat) :
    ∃ c, Cplx.build history = some c ∧
      ∃ F : Finset (Finset T), (∀ A, A ∈ F ↔ A.card = i + 1 ∧ IsFace history A) ∧ c.nCellsOfDim i = some (F.card : Int) := by
  obtain ⟨c, e1, e2⟩ := build_hist history hh.simplices
  obtain ⟨U, hU, hN⟩ := nCells_spec e2.inv i
  have hlt : ∀ A ∈ U, ∀ k ∈ A, k < c.labels.length := fun A hA => face_lt e2.inv ((hU A).mp hA).2
  refine ⟨c, e1, U.image (lset c.labels), ?_, ?_⟩
  · intro A
    rw [Finset.mem_image]
    constructor
    · rintro ⟨B, hB, rfl⟩
      obtain ⟨h1, h2⟩ := (hU B).mp hB
      rw [lset_card e2.inv.nodup (hlt B hB)]
      refine ⟨h1, ?_, face_sound e2 h2⟩
      rw [← Finset.card_pos, lset_card e2.inv.nodup (hlt B hB)]
      omega
    · rintro ⟨hA, -, s, hs, hsub⟩
      obtain ⟨B, hB, rfl⟩ := exists_idx (face_sub_labels e2 hs hsub)
      rw [lset_card e2.inv.nodup hB] at hA
      exact ⟨B, (hU B).mpr ⟨hA, (face_iff e2 hb hB).mpr ⟨s, hs, hsub⟩⟩, rfl⟩
  · rw [hN, Finset.card_image_of_injOn]
    intro A hA B hB e
    exact lset_inj e2.inv.nodup (hlt A hA) (hlt B hB) e

/-- two triangles sharing an edge: 5 edges -/
example : (Cplx.build [[0, 1, 2], [1, 2, 3]]).bind (fun c => c.nCellsOfDim 1) = some 5 := by decide +kernel

/-- 66 labels: 64 single vertices and a triangle across the words -/
example : (Cplx.build ((List.range 64).map (fun i => [i]) ++ [[63, 64, 65]])).bind (fun c => c.dim) = some 2 := by decide +kernel

end Toppo.Simp
