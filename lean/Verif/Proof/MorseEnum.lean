import Verif.Model.Morse
import Verif.Proof.CubeUdc
import Verif.Props.Pool
import Verif.Props.CubeMorse
set_option linter.unusedVariables false

/-! The enumeration of `UdnMorseCplx` without arena, labelled set and panics. -/
namespace Toppo.Cub.Morse
open RawGraph RawGraph.Factor Toppo.PoolProps

/-- membership in the maximal tree, without panic -/
def tB (g : RawGraph) : Factor → Bool
  | .edge x y => g.treeContains x y == some true
  | .vertex _ => true

/-- strictly between the ends of an edge -/
def betw (x y : Nat) : Factor → Bool
  | .vertex v => decide (x < v) && decide (v < y)
  | .edge _ _ => false

/-- an edge of the tree with no vertex of `c` between its ends -/
def owes (g : RawGraph) (c : List Factor) : Factor → Bool
  | .edge x y => tB g (.edge x y) && c.all (fun o => !betw x y o)
  | .vertex _ => false

/-- the unpaid edges, latest first -/
def unpaidB (g : RawGraph) (P : List Factor) : List Factor := P.reverse.filter (owes g P)

/-- the upper bound for the next factor -/
def ubB (g : RawGraph) (n : Nat) (P : List Factor) (r : Nat) : Nat :=
  match unpaidB g P with
  | .edge _ y :: _ => min y ((upper2 P.reverse r n).getD 0)
  | _ => (upper2 P.reverse r n).getD 0

/-- the filters -/
def admB (g : RawGraph) (n : Nat) (upper : Option Nat) (P : List Factor) (r : Nat) (f : Factor) : Bool :=
  P.all (fun p => p.disjoint f) && P.getLast?.all (fun l => lt l f) && (lt f (.vertex (ubB g n P r)) || (f.isEdge && decide (f.order < ubB g n P r))) &&
  (match f with | .vertex _ => true | .edge x y => !tB g (.edge x y) || hasCandidate P.reverse x y) &&
  (!decide (r + 1 = (unpaidB g P).length) || f.isVertex) && (!decide (r = 0) || f.isVertex || !tB g f) && (!decide (some (P.countP isEdge) = upper) || f.isVertex)

/-- the factors to branch on, of those in `S` -/
def mconts (g : RawGraph) (n : Nat) (pool : List Factor) (upper : Option Nat) (S P : List Factor) (r : Nat) : List Factor :=
  pool.filter (fun f => decide (f ∈ S) && (P.isEmpty || admB g n upper P r f))

/-- the vertices whose parent is `x` -/
def kidsB (g : RawGraph) (x : Nat) : List Factor := g.vertexIter.filter (fun v => lt (.vertex x) v && tB g (.edge x v.order))

/-- the factors that become possible after `f` -/
def addedB (g : RawGraph) : Factor → List Factor
  | .vertex v => if v + 1 < g.n then [.vertex (v + 1)] else []
  | .edge x y => kidsB g x ++ (if tB g (.edge x y) && decide (y + 1 < g.n) then [.vertex (y + 1)] else [])

def insS (S : List Factor) (f : Factor) : List Factor := if f ∈ S then S else f :: S

def addS (S fs : List Factor) : List Factor := fs.foldl insS S

def remS (S fs : List Factor) : List Factor := S.filter (fun f => decide (f ∉ fs))

/-- the loop over the branches -/
def mloop (g : RawGraph) (rec : Factor → List Factor → List (List Factor) × List Factor) : List Factor → List Factor → List (List Factor) × List Factor
  | [], S => ([], S)
  | f :: fs, S =>
    let q := rec f (addS S (addedB g f))
    let t := mloop g rec fs (remS (insS q.2 f) (addedB g f))
    (q.1 ++ t.1, t.2)

/-- the cells below a path, and the possible factors afterwards -/
def menum (g : RawGraph) (n : Nat) (pool : List Factor) (upper : Option Nat) : Nat → List Factor → List Factor → List (List Factor) × List Factor
  | 0, _, S => ([], S)
  | r + 1, P, S =>
    if r = 0 then ((mconts g n pool upper S P r).map (fun f => P ++ [f]), S)
    else mloop g (fun f S => menum g n pool upper r (P ++ [f]) S) (mconts g n pool upper S P r) S

theorem mem_insS {S : List Factor} {f x : Factor} : x ∈ insS S f ↔ x = f ∨ x ∈ S := by
  unfold insS
  split
  · constructor
    · exact Or.inr
    · rintro (rfl | h) <;> assumption
  · exact List.mem_cons

theorem mem_addS {S fs : List Factor} {x : Factor} : x ∈ addS S fs ↔ x ∈ fs ∨ x ∈ S := by
  unfold addS
  induction fs generalizing S with
  | nil => simp
  | cons f fs ih => rw [List.foldl_cons, ih, mem_insS, List.mem_cons]; tauto

theorem mem_remS {S fs : List Factor} {x : Factor} : x ∈ remS S fs ↔ x ∈ S ∧ x ∉ fs := by
  unfold remS; rw [List.mem_filter]; simp

/-! ### the labelled set -/

/-- the labelled set holds the members of `S` -/
def Rep (pool : List Factor) (ls : LabeledSet Factor) (S : List Factor) : Prop :=
  ∃ ops, lrun pool ops = some ls ∧ ∀ a ∈ pool, (held ops a ↔ a ∈ S)

theorem Rep.new (pool : List Factor) : Rep pool (LabeledSet.new pool) [] := ⟨[], rfl, by simp [held]⟩

theorem Rep.toList {pool : List Factor} (hnd : pool.Nodup) {ls : LabeledSet Factor} {S : List Factor} (h : Rep pool ls S) :
    ls.toList = some (pool.filter (fun f => decide (f ∈ S))) := by
  obtain ⟨ops, h1, h2⟩ := h
  rw [((c06_labeled_set pool hnd ops).2 ls h1).1]
  congr 1
  apply List.filter_congr
  intro a ha
  exact decide_eq_decide.mpr (h2 a ha)

theorem Rep.labels {pool : List Factor} (hnd : pool.Nodup) {ls : LabeledSet Factor} {S : List Factor} (h : Rep pool ls S) {o : LOp Factor} (hf : o.label ∈ pool) :
    ∃ ops ls', lrun pool ops = some ls ∧ (∀ a ∈ pool, (held ops a ↔ a ∈ S)) ∧ lrun pool (o :: ops) = some ls' := by
  obtain ⟨ops, h1, h2⟩ := h
  have hl : ∀ o ∈ ops, o.label ∈ pool := by
    by_contra hc
    have := lrun_spec pool hnd ops
    rw [if_neg hc, h1] at this
    cases this
  have := lrun_spec pool hnd (o :: ops)
  rw [if_pos (by
    intro o' ho'
    rcases List.mem_cons.mp ho' with rfl | ho'
    · exact hf
    · exact hl o' ho')] at this
  obtain ⟨ls', h3, -⟩ := this
  exact ⟨ops, ls', h1, h2, h3⟩

theorem Rep.add {pool : List Factor} (hnd : pool.Nodup) {ls : LabeledSet Factor} {S : List Factor} (h : Rep pool ls S) {f : Factor} (hf : f ∈ pool) :
    ∃ ls', ls.add f = some ls' ∧ Rep pool ls' (insS S f) := by
  obtain ⟨ops, ls', h1, h2, h3⟩ := h.labels hnd (o := .add f) hf
  refine ⟨ls', ?_, LOp.add f :: ops, h3, ?_⟩
  · simpa [lrun, h1] using h3
  · intro a ha
    rw [mem_insS]
    simp only [held, h2 a ha]

theorem Rep.remove {pool : List Factor} (hnd : pool.Nodup) {ls : LabeledSet Factor} {S : List Factor} (h : Rep pool ls S) {f : Factor} (hf : f ∈ pool) :
    ∃ ls', ls.remove f = some ls' ∧ Rep pool ls' (remS S [f]) := by
  obtain ⟨ops, ls', h1, h2, h3⟩ := h.labels hnd (o := .remove f) hf
  refine ⟨ls', ?_, LOp.remove f :: ops, h3, ?_⟩
  · simpa [lrun, h1] using h3
  · intro a ha
    rw [mem_remS]
    simp only [held, h2 a ha, List.mem_singleton]
    tauto

theorem Rep.congr {pool : List Factor} {ls : LabeledSet Factor} {S S' : List Factor} (h : Rep pool ls S) (hs : ∀ x, x ∈ S ↔ x ∈ S') : Rep pool ls S' := by
  obtain ⟨ops, h1, h2⟩ := h
  exact ⟨ops, h1, fun a ha => (h2 a ha).trans (hs a)⟩

theorem Rep.addAll {pool : List Factor} (hnd : pool.Nodup) {fs : List Factor} {ls : LabeledSet Factor} {S : List Factor} (h : Rep pool ls S) (hf : ∀ f ∈ fs, f ∈ pool) :
    ∃ ls', Morse.addAll ls fs = some ls' ∧ Rep pool ls' (addS S fs) := by
  induction fs generalizing ls S with
  | nil => exact ⟨ls, rfl, h⟩
  | cons f fs ih =>
    obtain ⟨l1, a1, a2⟩ := h.add hnd (hf f (by simp))
    obtain ⟨l2, b1, b2⟩ := ih a2 (fun x hx => hf x (by simp [hx]))
    exact ⟨l2, by unfold Morse.addAll; rw [a1]; exact b1, b2⟩

theorem Rep.removeAll {pool : List Factor} (hnd : pool.Nodup) {fs : List Factor} {ls : LabeledSet Factor} {S : List Factor} (h : Rep pool ls S) (hf : ∀ f ∈ fs, f ∈ pool) :
    ∃ ls', Morse.removeAll ls fs = some ls' ∧ Rep pool ls' (remS S fs) := by
  induction fs generalizing ls S with
  | nil => exact ⟨ls, rfl, h.congr (fun x => by rw [mem_remS]; simp)⟩
  | cons f fs ih =>
    obtain ⟨l1, a1, a2⟩ := h.remove hnd (hf f (by simp))
    obtain ⟨l2, b1, b2⟩ := ih a2 (fun x hx => hf x (by simp [hx]))
    refine ⟨l2, by unfold Morse.removeAll; rw [a1]; exact b1, b2.congr (fun x => ?_)⟩
    simp only [mem_remS, List.mem_cons, List.not_mem_nil, or_false]
    tauto

/-! ### no panics -/

open Toppo.EdgePath Toppo.GraphProps Toppo.CubeProps

theorem tree_some {g : RawGraph} (hg : TreeGraph g) {x y : Nat} (h : x < y) (hy : y < g.n) : ∃ b, g.treeContains x y = some b := by
  obtain ⟨b, hb, -⟩ := treeContains_spec (built_iff.mp hg.built) hg.chosen h hy
  exact ⟨b, hb⟩

theorem inTree_eq {g : RawGraph} (hg : TreeGraph g) {f : Factor} (hf : InRange g.n f) : f.isInMaximalTree g = some (tB g f) := by
  cases f with
  | vertex v => rfl
  | edge x y =>
    obtain ⟨b, hb⟩ := tree_some hg hf.1 hf.2
    show g.treeContains x y = some (g.treeContains x y == some true)
    rw [hb]; cases b <;> rfl

theorem noneBetween_eq (x y : Nat) (l : List Factor) : noneBetween (.edge x y) l = some (l.all (fun o => !betw x y o)) := by
  induction l with
  | nil => rfl
  | cons o os ih =>
    unfold noneBetween
    cases o with
    | edge a b => simp [isVertex, isEdge, betw, ih]
    | vertex v =>
      have hv : betw x y (.vertex v) = (decide (x < v) && decide (v < y)) := rfl
      simp only [isVertex, isEdge, Bool.not_false, Bool.not_true, Bool.false_eq_true, if_false, isDisrespectedBy, edgeOf, vertexOf, List.all_cons]
      rw [← hv]
      cases hb : betw x y (.vertex v) with
      | true => simp
      | false => simp [ih]

theorem unpaid_eq {g : RawGraph} (hg : TreeGraph g) {P : List Factor} (hP : ∀ f ∈ P, InRange g.n f) : unpaid g P.reverse = some (unpaidB g P) := by
  unfold unpaid unpaidB
  rw [filterO_some (q := owes g P), List.filter_filter]
  · congr 1
    apply List.filter_congr
    intro f _
    cases f <;> simp [owes, isEdge]
  · intro f hf
    rw [List.mem_filter, List.mem_reverse] at hf
    cases f with
    | vertex v => simp [isEdge] at hf
    | edge x y =>
      rw [inTree_eq hg (hP _ hf.1)]
      simp only [Option.bind_eq_bind, Option.bind_some, noneBetween_eq, owes]
      have : (List.filter isVertex P.reverse).all (fun o => !betw x y o) = P.all (fun o => !betw x y o) := by
        rw [Bool.eq_iff_iff]
        simp only [List.all_eq_true, List.mem_filter, List.mem_reverse]
        constructor
        · intro h o ho
          cases o with
          | vertex v => exact h _ ⟨ho, rfl⟩
          | edge a b => rfl
        · intro h o ho; exact h o ho.1
      rw [this]
      cases tB g (.edge x y) <;> simp

/-- the number of vertices of a list of factors -/
def size (c : List Factor) : Nat := c.length + c.countP isEdge

/-- the number of vertices below `u` not met by `c` -/
def free (c : List Factor) (u : Nat) : Nat := (List.range u).countP (fun v => c.all (fun f => f.disjoint (.vertex v)))

theorem free_perm {c c' : List Factor} (h : c.Perm c') (u : Nat) : free c u = free c' u := by
  unfold free
  congr 1
  funext v
  exact h.all_eq

theorem free_cons (f : Factor) (c : List Factor) (u : Nat) : free c u ≤ free (f :: c) u + (List.range u).countP (fun v => !f.disjoint (.vertex v)) := by
  unfold free
  generalize List.range u = l
  induction l with
  | nil => simp
  | cons a l ih =>
    rw [List.countP_cons, List.countP_cons, List.countP_cons]
    have hall : ∀ v, (f :: c).all (fun f => f.disjoint (.vertex v)) = (f.disjoint (.vertex v) && c.all fun f => f.disjoint (.vertex v)) := fun v => rfl
    rw [hall a]
    have : (if (c.all fun f => f.disjoint (.vertex a)) = true then 1 else 0) ≤
      (if (f.disjoint (.vertex a) && c.all fun f => f.disjoint (.vertex a)) = true then 1 else 0) + (if (!f.disjoint (.vertex a)) = true then 1 else 0) := by
      cases f.disjoint (.vertex a) <;> cases (c.all fun f => f.disjoint (.vertex a)) <;> simp
    omega

theorem free_ge (c : List Factor) (u : Nat) : u ≤ free c u + size c := by
  induction c with
  | nil =>
    have : free [] u = u := by
      unfold free
      simp
    omega
  | cons f c ih =>
    have h1 : (List.range u).countP (fun v => !f.disjoint (.vertex v)) ≤ 1 + (if f.isEdge then 1 else 0) := by
      have hc : ∀ x, (List.range u).countP (fun v => decide (v = x)) ≤ 1 := by
        intro x
        have := (List.nodup_iff_count_le_one.mp (List.nodup_range (n := u))) x
        exact this
      cases f with
      | vertex x =>
        refine le_trans (le_of_eq ?_) (le_trans (hc x) (by simp))
        apply List.countP_congr
        intro v _
        have : ((!(Factor.vertex x).disjoint (.vertex v)) = true) ↔ v = x := by
          simp only [disjoint, Bool.not_eq_true', bne_eq_false_iff_eq]; exact eq_comm
        simp only [this, decide_eq_true_eq]
      | edge x y =>
        have : (List.range u).countP (fun v => !(Factor.edge x y).disjoint (.vertex v)) ≤
            (List.range u).countP (fun v => decide (v = x)) + (List.range u).countP (fun v => decide (v = y)) := by
          generalize List.range u = l
          induction l with
          | nil => simp
          | cons a l ih =>
            rw [List.countP_cons, List.countP_cons, List.countP_cons]
            have : (if (!(Factor.edge x y).disjoint (.vertex a)) = true then 1 else 0) ≤ (if decide (a = x) = true then 1 else 0) + (if decide (a = y) = true then 1 else 0) := by
              have hd : ((!(Factor.edge x y).disjoint (.vertex a)) = true) ↔ a = x ∨ a = y := by
                simp only [disjoint, Bool.not_eq_true', Bool.and_eq_false_iff, bne_eq_false_iff_eq]
                constructor
                · rintro (h | h)
                  · exact Or.inl h.symm
                  · exact Or.inr h.symm
                · rintro (h | h)
                  · exact Or.inl h.symm
                  · exact Or.inr h.symm
              simp only [hd, decide_eq_true_eq]
              by_cases e1 : a = x
              · simp [e1]
              · by_cases e2 : a = y
                · simp [e2]
                · simp [e1, e2]
            omega
        have h1 := hc x
        have h2 := hc y
        have : (if (Factor.edge x y).isEdge = true then 1 else 0) = 1 := rfl
        omega
    have h2 := free_cons f c u
    have h3 : size (f :: c) = size c + (1 + (if f.isEdge then 1 else 0)) := by
      unfold size; rw [List.length_cons, List.countP_cons]; omega
    omega

theorem down_spec (c : List Factor) (u : Nat) (h : 0 < free c u) : ∃ u', down c u = some u' ∧ free c u' + 1 = free c u ∧ u' < u := by
  induction u with
  | zero => simp [free] at h
  | succ u ih =>
    have hs : free c (u + 1) = free c u + (if c.all (fun f => f.disjoint (.vertex u)) then 1 else 0) := by
      unfold free
      rw [List.range_succ, List.countP_append, List.countP_singleton]
    have ha : c.any (fun f => !f.disjoint (.vertex u)) = !c.all (fun f => f.disjoint (.vertex u)) := by
      rw [List.any_eq_not_all_not]; simp
    unfold down
    rw [ha]
    cases hc : c.all (fun f => f.disjoint (.vertex u)) with
    | true =>
      rw [hc] at hs
      exact ⟨u, by simp, by simp at hs; omega, by omega⟩
    | false =>
      rw [hc] at hs
      simp at hs
      obtain ⟨u', h1, h2, h3⟩ := ih (by omega)
      exact ⟨u', by simpa using h1, by omega, by omega⟩

theorem upper2_spec (c : List Factor) (r u : Nat) (h : r ≤ free c u) : ∃ u', upper2 c r u = some u' ∧ free c u' + r = free c u ∧ u' ≤ u := by
  induction r generalizing u with
  | zero => exact ⟨u, rfl, rfl, le_refl _⟩
  | succ r ih =>
    obtain ⟨u1, h1, h2, h3⟩ := down_spec c u (by omega)
    obtain ⟨u2, k1, k2, k3⟩ := ih u1 (by omega)
    exact ⟨u2, by unfold upper2; rw [h1]; exact k1, by omega, by omega⟩

theorem upperBound_eq {g : RawGraph} {n : Nat} {P : List Factor} {r : Nat} (h : r ≤ free P n) :
    upperBound (unpaidB g P) P.reverse n r = some (ubB g n P r) := by
  obtain ⟨u, h1, -, -⟩ := upper2_spec P.reverse r n (by rw [free_perm (List.reverse_perm P)]; exact h)
  unfold upperBound ubB
  rw [h1]
  simp only [Option.bind_eq_bind, Option.bind_some, Option.getD_some]
  cases hu : unpaidB g P with
  | nil => rfl
  | cons f fs =>
    have : f ∈ unpaidB g P := by rw [hu]; simp
    unfold unpaidB at this
    rw [List.mem_filter] at this
    cases f with
    | vertex v => simp [owes] at this
    | edge x y => rfl

theorem hasCandidate_perm {c c' : List Factor} (h : c.Perm c') (x y : Nat) : hasCandidate c x y = hasCandidate c' x y := by
  unfold hasCandidate
  congr 1
  funext v
  exact h.all_eq

theorem lt_vertex (a b : Nat) : lt (.vertex a) (.vertex b) = decide (a < b) := by
  rw [Bool.eq_iff_iff, lt_iff, decide_eq_true_iff]
  unfold Bef
  simp [disjoint, order]
  omega

theorem branches_eq {g : RawGraph} (hg : TreeGraph g) {pool : List Factor} (hnd : pool.Nodup) (hrange : ∀ f ∈ pool, InRange g.n f) {s : Cplx} (hn : s.n = g.n)
    {idx : Nat} {P : List Factor} (hP : PathAt s.data idx P) (hPn : P ≠ []) (hPp : ∀ f ∈ P, f ∈ pool) {r : Nat} (hr : r ≤ free P g.n) {upper : Option Nat}
    {ls : LabeledSet Factor} {S : List Factor} (hS : Rep pool ls S) :
    branches g upper s idx r ls = some (mconts g g.n pool upper S P r) := by
  have hu : up s.data (idx + 1) idx = some P.reverse := hP
  obtain ⟨p, f, h1, h2⟩ := up_succ.mp hu
  obtain ⟨b, b1, b2, b3⟩ := skel_some.mp h1
  have hlast : P.getLast? = some b.val := by
    rw [b3]
    rcases h2 with ⟨-, e⟩ | ⟨q, L', -, -, e⟩
    · have := congrArg List.head? e
      rw [List.head?_reverse] at this
      simpa using this
    · have := congrArg List.head? e
      rw [List.head?_reverse] at this
      simpa using this
  have hPr : ∀ f ∈ P, InRange g.n f := fun f hf => hrange f (hPp f hf)
  have hemp : P.isEmpty = false := by cases P with
    | nil => exact absurd rfl hPn
    | cons => rfl
  unfold branches
  rw [hu, b1]
  simp only [Option.bind_eq_bind, Option.bind_some]
  rw [unpaid_eq hg hPr]
  simp only [Option.bind_some]
  rw [hn, upperBound_eq hr]
  simp only [Option.bind_some]
  rw [hS.toList hnd]
  simp only [Option.bind_some]
  obtain ⟨ub, hub⟩ : ∃ ub, ub = ubB g g.n P r := ⟨_, rfl⟩
  rw [← hub]
  rw [filterO_some (q := fun f => P.all (fun p => p.disjoint f) && P.getLast?.all (fun l => lt l f) && (lt f (.vertex ub) || (f.isEdge && decide (f.order < ub))) &&
    (match f with | .vertex _ => true | .edge x y => !tB g (.edge x y) || hasCandidate P.reverse x y))]
  · simp only [Option.bind_some]
    rw [hP.dim]
    have e3 : ∀ l : List Factor, (∀ f ∈ l, f ∈ pool) → lastOnly g r l = some (l.filter (fun f => !decide (r = 0) || f.isVertex || !tB g f)) := by
      intro l hl
      unfold lastOnly
      split
      · rename_i h0
        rw [filterO_some (q := fun f => !decide (r = 0) || f.isVertex || !tB g f)]
        intro f hf
        rw [inTree_eq hg (hrange f (hl f hf))]
        cases f.isVertex <;> simp [h0]
      · rename_i h0
        congr 1
        rw [eq_comm, List.filter_eq_self]
        intro f _
        simp [h0]
    have e2 : ∀ (c : Prop) [Decidable c] (l : List Factor), (if c then l.filter isVertex else l) = l.filter (fun f => !decide c || f.isVertex) := by
      intro c _ l
      split
      · rename_i h0; simp [h0]
      · rename_i h0
        rw [eq_comm, List.filter_eq_self]
        intro f _
        simp [h0]
    rw [e2, e3]
    · simp only [Option.bind_some]
      rw [e2]
      simp only [List.filter_filter]
      show some _ = some _
      congr 1
      unfold mconts
      apply List.filter_congr
      intro f _
      unfold admB
      rw [← hub, hemp]
      simp only [Bool.false_or]
      ac_rfl
    · intro f hf
      exact (List.mem_filter.mp (List.mem_filter.mp (List.mem_filter.mp hf).1).1).1
  · intro f hf
    have hfp := hrange f (List.mem_filter.mp hf).1
    unfold admissible
    have e1 : P.reverse.all (fun p => f.disjoint p) = P.all (fun p => p.disjoint f) := by
      rw [List.all_reverse]; congr 1; funext p; exact disjoint_comm _ _
    rw [e1, gt_eq, hlast, Option.all_some, lt_vertex]
    cases hc : (P.all (fun p => p.disjoint f) && lt b.val f && (lt f (.vertex ub) || (f.isEdge && decide (f.order < ub)))) with
    | false => simp
    | true =>
      simp only [if_true, Bool.true_and]
      cases f with
      | vertex v => rfl
      | edge x y =>
        rw [inTree_eq hg hfp]
        simp only [Option.map_some]
        cases tB g (.edge x y) <;> simp

theorem kidsB_mem {g : RawGraph} {x : Nat} {f : Factor} : f ∈ kidsB g x ↔ ∃ v, f = .vertex v ∧ v < g.n ∧ Parent g x v := by
  unfold kidsB
  rw [List.mem_filter, c53_vertex_iter, List.mem_map]
  constructor
  · rintro ⟨⟨v, hv, rfl⟩, h⟩
    rw [Bool.and_eq_true, lt_vertex, decide_eq_true_iff] at h
    refine ⟨v, rfl, List.mem_range.mp hv, h.1, ?_⟩
    simpa [tB, order] using h.2
  · rintro ⟨v, rfl, hv, hp⟩
    refine ⟨⟨v, List.mem_range.mpr hv, rfl⟩, ?_⟩
    rw [Bool.and_eq_true, lt_vertex, decide_eq_true_iff]
    exact ⟨hp.1, by simp [tB, order, hp.2]⟩

theorem childrenOf_eq {g : RawGraph} (hg : TreeGraph g) (x : Nat) : childrenOf g x = some (kidsB g x) := by
  unfold childrenOf kidsB
  apply filterO_some
  intro f hf
  rw [c53_vertex_iter, List.mem_map] at hf
  obtain ⟨v, hv, rfl⟩ := hf
  rw [List.mem_range] at hv
  rw [gt_eq, lt_vertex]
  by_cases hxv : x < v
  · rw [if_pos (by simpa using hxv)]
    obtain ⟨p, hp, hu⟩ := hg.dfs.parent v (by omega) hv
    have hfl : flow g (.vertex v) = some (.edge p v) := by
      show (if v = 0 then none else Option.map (fun t => edge t v) (findParent g v v)) = _
      rw [if_neg (by omega), (findParent_iff hg (by omega) hv).mpr hp]
      rfl
    rw [hfl]
    simp only [Option.bind_eq_bind, Option.bind_some, terminal, edgeOf, Option.map_some, order]
    show some _ = some _
    congr 1
    rw [Bool.eq_iff_iff]
    simp only [decide_eq_true_eq, Bool.and_eq_true, tB, beq_iff_eq, vertex.injEq]
    constructor
    · rintro rfl; exact ⟨hxv, hp.2⟩
    · rintro ⟨h1, h2⟩; exact (hu x ⟨h1, h2⟩).symm
  · rw [if_neg (by simpa using hxv)]
    simp [hxv]

theorem factorsAdded_eq {g : RawGraph} (hg : TreeGraph g) {f : Factor} (hf : InRange g.n f) : factorsAdded g f = some (addedB g f) := by
  cases f with
  | vertex v => rfl
  | edge x y =>
    simp only [factorsAdded, inTree_eq hg hf, Option.bind_eq_bind, Option.bind_some, childrenOf_eq hg, addedB]
    show some _ = some _
    congr 1
    cases tB g (.edge x y) <;> simp

theorem addedB_vertex {g : RawGraph} {f x : Factor} (hx : x ∈ addedB g f) : ∃ v, x = .vertex v ∧ v < g.n := by
  cases f with
  | vertex v =>
    have hx : x ∈ (if v + 1 < g.n then [Factor.vertex (v + 1)] else []) := hx
    split at hx
    · rw [List.mem_singleton] at hx; exact ⟨_, hx, by assumption⟩
    · simp at hx
  | edge a b =>
    unfold addedB at hx
    rcases List.mem_append.mp hx with hx | hx
    · obtain ⟨v, h1, h2, -⟩ := kidsB_mem.mp hx; exact ⟨v, h1, h2⟩
    · split at hx
      · rename_i h
        rw [List.mem_singleton] at hx
        rw [Bool.and_eq_true, decide_eq_true_iff] at h
        exact ⟨_, hx, h.2⟩
      · simp at hx

end Toppo.Cub.Morse
