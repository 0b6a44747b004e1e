import Verif.Proof.GraphTree
import Verif.Proof.Branches
/-! `choose_base_point`, `modify_ordering_of_the_branches` and `choose_maximal_tree`. -/
namespace Toppo.RawGraph
open Toppo Permutation Normal

theorem WF.grph {g : RawGraph} (h : WF g) : Grph (Adj g) g.n :=
  ⟨fun _ _ h => h.symm, not_adj_self g, fun _ _ h => ⟨h.lt.1, h.lt.2.1⟩⟩

/-! ### ordering of the branches -/

theorem sepTest_spec {g : RawGraph} (h : WF g) {i lo hi : Nat} (h1 : i < lo) (h2 : hi ≤ g.n) :
    ∃ b, g.sepTest i lo hi = some b ∧ (b = true ↔ ∃ k, k < i ∧ ∃ l, lo ≤ l ∧ l < hi ∧ Adj g k l) := by
  obtain ⟨b, b1, b2⟩ := anyRange_spec
    (f := fun k => anyRange (fun l => g.contains k l) (List.range' lo (hi - lo)))
    (P := fun k => ∃ l ∈ List.range' lo (hi - lo), E g k l) (List.range i) (by
      intro k hk
      apply anyRange_spec
      intro l hl
      rw [List.mem_range'_1] at hl
      have := List.mem_range.mp hk
      exact ⟨decide (E g k l), by rw [contains_eq h, if_pos ⟨by omega, by omega⟩], by simp⟩)
  refine ⟨b, b1, ?_⟩
  rw [b2]
  constructor
  · rintro ⟨k, hk, l, hl, he⟩
    rw [List.mem_range'_1] at hl
    exact ⟨k, List.mem_range.mp hk, l, by omega, by omega, Or.inl he⟩
  · rintro ⟨k, hk, l, hl1, hl2, ha⟩
    exact ⟨k, List.mem_range.mpr hk, l, List.mem_range'_1.mpr (by omega), (adj_of_lt (by omega)).mp ha⟩

theorem treeChildren_spec {g : RawGraph} (h : WF g) (ht : g.treeChosen = true) {i : Nat} : ∀ (l : List Nat),
    (∀ x ∈ l, i < x ∧ x < g.n) → ∃ js, g.treeChildren i l = some js ∧ js.Sublist l ∧ ∀ x, x ∈ js ↔ x ∈ l ∧ Par (Adj g) i x
  | [], _ => ⟨[], rfl, .slnil, by simp⟩
  | j :: js, hl => by
    obtain ⟨r, r1, r2, r3⟩ := treeChildren_spec h ht js (fun x hx => hl x (by simp [hx]))
    have hj := hl j (by simp)
    obtain ⟨t, t1, t2⟩ := treeContains_spec h ht hj.1 hj.2
    have hc : g.contains i j = some (decide (E g i j)) := by rw [contains_eq h, if_pos hj]
    have hstep : (if decide (E g i j) = true then g.treeContains i j else some false) = some t := by
      by_cases hE : E g i j
      · simp [hE, t1]
      · have : t = false := by
          cases t with
          | false => rfl
          | true => exact absurd ((adj_of_lt hj.1).mp (t2.mp rfl).2.1) hE
        simp [hE, this]
    refine ⟨if t then j :: r else r, ?_, ?_, ?_⟩
    · unfold treeChildren
      rw [hc]
      by_cases hE : E g i j
      · simp [hE, t1, r1]
      · have ht0 : t = false := by simpa [hE] using hstep.symm
        simp [hE, ht0, r1]
    · cases t with
      | true => exact r2.cons_cons _
      | false => exact r2.cons _
    · intro x
      cases t with
      | true =>
        have hp := t2.mp rfl
        simp only [if_true, List.mem_cons, r3]
        constructor
        · rintro (rfl | ⟨h1, h2⟩)
          · exact ⟨Or.inl rfl, hp⟩
          · exact ⟨Or.inr h1, h2⟩
        · rintro ⟨rfl | h1, h2⟩
          · exact Or.inl rfl
          · exact Or.inr ⟨h1, h2⟩
      | false =>
        have hp : ¬ Par (Adj g) i j := fun hp => by have := t2.mpr hp; cases this
        simp only [Bool.false_eq_true, if_false, List.mem_cons, r3]
        constructor
        · rintro ⟨h1, h2⟩; exact ⟨Or.inr h1, h2⟩
        · rintro ⟨rfl | h1, h2⟩
          · exact absurd h2 hp
          · exact ⟨h1, h2⟩

theorem branchLoop_spec {g : RawGraph} (h : WF g) {i : Nat} : ∀ (js : List Nat) (start : Nat), i < start → start < g.n →
    js.Pairwise (· < ·) → (∀ x ∈ js, start < x ∧ x < g.n) → Par (Adj g) i start →
    (∀ c, Par (Adj g) i c → start < c → c ∈ js) → (∀ c ∈ js, Par (Adj g) i c) →
    ∃ bs, g.branchLoop i start js = some bs ∧
      ∀ pre, Br (Adj g) i start pre → Br (Adj g) i g.n (bs.reverse ++ pre)
  | [], start, h1, h2, _, _, hp, hall, _ => by
    obtain ⟨s, s1, s2⟩ := sepTest_spec h h1 (Nat.le_refl g.n)
    refine ⟨[((start, g.n), s)], by simp [branchLoop, s1], ?_⟩
    intro pre hpre
    refine ⟨rfl, h2, h1, hp, ?_, s2, hpre⟩
    intro c hc hlt
    have := hall c hc hlt
    simp at this
  | j :: js, start, h1, h2, hs, hl, hp, hall, hpar => by
    have hj := hl j (by simp)
    obtain ⟨s, s1, s2⟩ := sepTest_spec h (i := i) (lo := start) (hi := j) h1 (by omega)
    rw [List.pairwise_cons] at hs
    obtain ⟨bs, b1, b2⟩ := branchLoop_spec h js j (by omega) hj.2 hs.2
      (fun x hx => ⟨hs.1 x hx, (hl x (by simp [hx])).2⟩) (hpar j (by simp))
      (fun c hc hlt => by
        have := hall c hc (by omega)
        rcases List.mem_cons.mp this with rfl | h'
        · omega
        · exact h')
      (fun c hc => hpar c (by simp [hc]))
    refine ⟨((start, j), s) :: bs, by simp [branchLoop, s1, b1], ?_⟩
    intro pre hpre
    rw [List.reverse_cons, List.append_assoc]
    apply b2
    refine ⟨rfl, hj.1, h1, hp, ?_, s2, hpre⟩
    intro c hc hlt
    have := hall c hc hlt
    rcases List.mem_cons.mp this with rfl | h'
    · exact Nat.le_refl _
    · exact Nat.le_of_lt (hs.1 c h')

theorem Done.same {A : Nat → Nat → Prop} {n i} (hu : Upto A n) (hg : Grph A n)
    (hs : ∀ c c', Par A i c → Par A i c' → c < c' → Sep A i c → Sep A i c') : Done A A n i :=
  ⟨hu, hg, hs, fun _ _ _ => Iff.rfl, fun _ _ _ _ => Iff.rfl⟩

/-- a vertex of degree at most two has at most one child, unless it is the root -/
theorem sorted_of_degree {g : RawGraph} (h : WF g) (hu : Upto (Adj g) g.n) {i d : Nat} (hi : i < g.n)
    (hd : g.degreeOf i = some d) (hd2 : d ≤ 2) :
    ∀ c c', Par (Adj g) i c → Par (Adj g) i c' → c < c' → Sep (Adj g) i c → Sep (Adj g) i c' := by
  intro c c' hc hc' hlt hs
  exfalso
  by_cases h0 : i = 0
  · subst h0
    obtain ⟨k, hk, _⟩ := hs
    omega
  · obtain ⟨z, hz⟩ := hu.par i (by omega) hi
    have hz1 := hz.1
    have hc1 := hc.1
    have hmem : ∀ x, Adj g i x → x ∈ ((List.range g.n).filter (fun x => decide (Adj g i x))) := by
      intro x hx; simpa using ⟨hx.lt.2.1, hx⟩
    have hlen : d = ((List.range g.n).filter (fun x => decide (Adj g i x))).length := by
      unfold degreeOf at hd
      rw [if_neg (by omega), adj_eq h hi] at hd
      simpa using hd.symm
    have hsub : [z, c, c'].Nodup := by
      simp only [List.nodup_cons, List.mem_cons, List.not_mem_nil, or_false, not_or, not_false_eq_true, List.nodup_nil, and_true]
      omega
    have h3 : [z, c, c'] ⊆ ((List.range g.n).filter (fun x => decide (Adj g i x))) := by
      intro x hx
      simp only [List.mem_cons, List.not_mem_nil, or_false] at hx
      rcases hx with rfl | rfl | rfl
      · exact hmem _ hz.2.1.symm
      · exact hmem _ hc.2.1
      · exact hmem _ hc'.2.1
    have := (List.subperm_of_subset hsub h3).length_le
    simp at this hlen
    omega

theorem modifyAt_spec {g0 g : RawGraph} {p : Permutation} (hr : Relab g0 g p) (ht : g.treeChosen = true)
    (hu : Upto (Adj g) g.n) {i : Nat} (hi : i + 1 < g.n) :
    ∃ g' p', g.modifyAt p i = some (g', p') ∧ Relab g0 g' p' ∧ Done (Adj g) (Adj g') g.n i ∧ (map p' 0 = map p 0 ∨ map p 0 ≠ 0) := by
  have h := hr.wf
  obtain ⟨d, hd⟩ : ∃ d, g.degreeOf i = some d := by
    unfold degreeOf; rw [if_neg (by omega), adj_eq h (by omega)]; exact ⟨_, rfl⟩
  unfold modifyAt
  rw [hd]
  simp only [Option.bind_eq_bind, Option.bind_some]
  by_cases hd2 : d ≤ 2
  · rw [if_pos hd2]
    exact ⟨g, p, rfl, hr, Done.same hu h.grph (sorted_of_degree h hu (by omega) hd hd2), Or.inl rfl⟩
  · rw [if_neg hd2]
    obtain ⟨js, j1, j2, j3⟩ := treeChildren_spec h ht (i := i) (List.range' (i + 2) (g.n - (i + 2))) (by
      intro x hx; rw [List.mem_range'_1] at hx; omega)
    rw [j1]
    simp only [Option.bind_some]
    have hjs : ∀ x, x ∈ js ↔ Par (Adj g) i x ∧ i + 1 < x := by
      intro x; rw [j3, List.mem_range'_1]
      constructor
      · rintro ⟨h1, h2⟩; exact ⟨h2, by omega⟩
      · rintro ⟨h1, h2⟩; have := h1.2.1.lt.2.1; exact ⟨by omega, h1⟩
    -- the permutations computed at this vertex
    have key : ∃ bs perms, g.branchLoop i (i + 1) js = some bs ∧
        actionLoop g.n ((bs.reverse.filter (fun b => b.2)).map (fun b => b.1)) = some perms ∧
        (∀ q ∈ perms, Valid q ∧ (∀ x, g.n ≤ x → map q x = x) ∧ (∀ x, x ≤ i → map q x = x)) ∧
        ∀ B : Nat → Nat → Prop, (∀ x y, B (perms.foldl (fun z q => map q z) x) (perms.foldl (fun z q => map q z) y) ↔ Adj g x y) →
          Done (Adj g) B g.n i := by
      cases hjs0 : js with
      | nil =>
        obtain ⟨s, s1, s2⟩ := sepTest_spec h (i := i) (lo := i + 1) (hi := g.n) (by omega) (Nat.le_refl g.n)
        refine ⟨[((i + 1, g.n), s)], if s then [identity] else [], by simp [branchLoop, s1], ?_, ?_, ?_⟩
        · cases s with
          | false => simp [actionLoop]
          | true =>
            have hc1 : csub g.n (i + 1) = some (g.n - (i + 1)) := by simp [csub]; omega
            have hc2 : csub g.n (g.n - (i + 1)) = some (i + 1) := by simp [csub]; omega
            simp [actionLoop, hc1, hc2]
        · intro q hq
          have : q = identity := by cases s <;> simp at hq; exact hq
          subst this
          exact ⟨valid_identity, fun x _ => map_identity x, fun x _ => map_identity x⟩
        · intro B hB
          have hAB : B = Adj g := by
            funext x y
            have := hB x y
            cases s <;> simp only [Bool.false_eq_true, if_false, if_true, List.foldl_cons, List.foldl_nil, map_identity] at this <;>
              exact propext this
          rw [hAB]
          apply Done.same hu h.grph
          intro c c' hc hc' hlt
          have := hc.1
          have := (hjs c').mpr ⟨hc', by omega⟩
          rw [hjs0] at this; simp at this
      | cons c0 cs =>
        have hc0 := (hjs c0).mp (by rw [hjs0]; simp)
        have hp1 : Par (Adj g) i (i + 1) := by
          have hanc := hu.between i (i + 1) c0 (by omega) hc0.2 (by omega) hc0.1.2.1
          rcases Relation.ReflTransGen.cases_tail hanc with e | ⟨z, hz, hzp⟩
          · omega
          · have := Anc.le hz
            have := hzp.1
            have : z = i := by omega
            exact this ▸ hzp
        obtain ⟨bs, b1, b2⟩ := branchLoop_spec h js (i + 1) (by omega) hi
          (List.Pairwise.sublist j2 List.pairwise_lt_range')
          (fun x hx => by have := (hjs x).mp hx; exact ⟨this.2, this.1.2.1.lt.2.1⟩) hp1
          (fun c hc hlt => (hjs c).mpr ⟨hc, hlt⟩) (fun c hc => ((hjs c).mp hc).1)
        have hbr := b2 [] rfl
        rw [List.append_nil] at hbr
        obtain ⟨perms, p1, p2, p3⟩ := actionLoop_spec bs.reverse g.n g.n hu h.grph hbr (by omega) (Nat.le_refl _)
          (Nat.le_refl _) (Or.inl rfl) (Or.inr rfl) (fun k hk l h1 h2 => by omega)
          (fun c hc hle => by have := hc.2.1.lt.2.1; omega)
        exact ⟨bs, perms, by rw [← hjs0]; exact b1, p1, p2, p3⟩
    obtain ⟨bs, perms, b1, b2, b3, b4⟩ := key
    obtain ⟨act, a1, a2, a3⟩ := product_spec perms (fun q hq => (b3 q hq).1)
    have hfix : ∀ x, (∀ q ∈ perms, map q x = x) → map act x = x := by
      intro x hx
      rw [a3]
      have : ∀ (l : List Permutation), (∀ q ∈ l, map q x = x) → l.foldl (fun y g => map g y) x = x := by
        intro l
        induction l with
        | nil => intro _; rfl
        | cons q qs ih =>
          intro hl
          rw [List.foldl_cons, hl q (by simp)]
          exact ih (fun q hq => hl q (by simp [hq]))
      exact this perms hx
    obtain ⟨g', r, k1, k2, k3, k4, k5⟩ := hr.step a2 (by
      intro x hx
      exact hfix x (fun q hq => (b3 q hq).2.1 x (by rw [hr.n]; exact hx)))
    refine ⟨g', r, ?_, k3, ?_, ?_⟩
    · simp only [b1, Option.bind_some, b2, a1, k1, k2]; rfl
    · apply b4
      intro x y
      rw [← a3, ← a3, k5]
    · by_cases hp0 : map p 0 = 0
      · left; rw [k4, hp0]; exact hfix 0 (fun q hq => (b3 q hq).2.2 0 (by omega))
      · exact Or.inr hp0

/-- the branches at `i` are in order: those with an edge to a vertex before `i` come last -/
def SortedAt (A : Nat → Nat → Prop) (i : Nat) : Prop :=
  ∀ c c', Par A i c → Par A i c' → c < c' → Sep A i c → Sep A i c'

theorem modifyLoop_spec {g0 : RawGraph} (ht0 : g0.treeChosen = true) : ∀ (len i : Nat) {g : RawGraph} {p : Permutation},
    Relab g0 g p → Upto (Adj g) g.n → i + len + 1 = g.n → map p 0 = 0 → (∀ i0, i0 < i → SortedAt (Adj g) i0) →
    ∃ g' p', modifyLoop (List.range' i len) g p = some (g', p') ∧ Relab g0 g' p' ∧ map p' 0 = 0 ∧ Upto (Adj g') g'.n ∧
      ∀ i0, SortedAt (Adj g') i0 := by
  intro len
  induction len with
  | zero =>
    intro i g p hr hu hi hp hs
    refine ⟨g, p, by simp [modifyLoop], hr, hp, hu, ?_⟩
    intro i0 c c' hc hc' hlt hsep
    by_cases hi0 : i0 < i
    · exact hs i0 hi0 c c' hc hc' hlt hsep
    · have := hc.1; have := hc.2.1.lt.2.1; have := hc'.2.1.lt.2.1; omega
  | succ len ih =>
    intro i g p hr hu hi hp hs
    obtain ⟨g1, p1, k1, k2, k3, k4⟩ := modifyAt_spec hr (hr.tree.trans ht0) hu (i := i) (by omega)
    have hn : g1.n = g.n := k2.n.trans hr.n.symm
    obtain ⟨g', p', l1, l2, l3, l4, l5⟩ := ih (i + 1) k2 (by rw [hn]; exact k3.upto) (by rw [hn]; omega)
      (by
        rcases k4 with k | k
        · rw [k, hp]
        · exact absurd hp k)
      (by
        intro i0 hi0
        by_cases e : i0 = i
        · subst e; exact k3.sorted
        · have hlt : i0 < i := by omega
          intro c c' hc hc' hcc hsep
          have hA := (k3.par i0 hlt c).mpr hc
          have hA' := (k3.par i0 hlt c').mpr hc'
          exact (k3.sep i0 hlt c' hA').mp (hs i0 hlt c c' hA hA' hcc ((k3.sep i0 hlt c hA).mpr hsep)))
    refine ⟨g', p', ?_, l2, l3, l4, l5⟩
    rw [List.range'_succ, modifyLoop]
    simp [k1, l1]

theorem modifyOrdering_spec {g : RawGraph} (h : WF g) (ht : g.treeChosen = true) (hu : Upto (Adj g) g.n) :
    ∃ g' p, g.modifyOrdering = some (g', p) ∧ Relab g g' p ∧ map p 0 = 0 ∧ Upto (Adj g') g'.n ∧
      ∀ i0, SortedAt (Adj g') i0 := by
  have hp := h.pos
  unfold modifyOrdering
  have hc : csub g.n 1 = some (g.n - 1) := by simp [csub]; omega
  rw [hc]
  simp only [Option.bind_eq_bind, Option.bind_some]
  rw [List.range_eq_range']
  exact modifyLoop_spec ht (g.n - 1) 0 (Relab.refl h) hu (by omega) (map_identity 0) (fun i0 h => by omega)

/-! ### base point -/

/-- Any two vertices other than `v` are joined by a path that avoids `v`. -/
def NonCut (g : RawGraph) (v : Nat) : Prop :=
  ∀ a b, a < g.n → b < g.n → a ≠ v → b ≠ v → Relation.ReflTransGen (fun x y => Adj g x y ∧ x ≠ v ∧ y ≠ v) a b

/-- the candidates for the base point -/
def Good (g : RawGraph) (v : Nat) : Prop := v < g.n ∧ (g.degreeOf v = some 1 ∨ (∃ d, 3 ≤ d ∧ g.degreeOf v = some d) ∧ NonCut g v)

/-- a graph in which `v` hangs on its only neighbour `j` -/
theorem pendant_conn {g g2 : RawGraph} {v j : Nat} (hn : g2.n = g.n) (hv : v < g.n) (hj : j < g.n) (hvj : v ≠ j)
    (h2 : ∀ a b, Adj g2 a b ↔ (Adj g a b ∧ a ≠ v ∧ b ≠ v) ∨ (a = v ∧ b = j) ∨ (a = j ∧ b = v)) :
    Conn g2 ↔ NonCut g v := by
  constructor
  · intro hc a b ha hb hav hbv
    have hr : Reach g2 a b := hc.all (by omega) (by omega)
    have : ∀ x, Reach g2 a x → Relation.ReflTransGen (fun x y => Adj g x y ∧ x ≠ v ∧ y ≠ v) a (if x = v then j else x) := by
      intro x hx
      induction hx with
      | refl => rw [if_neg hav]
      | @tail y z _ hyz ih =>
        rcases (h2 y z).mp hyz with ⟨h3, h4, h5⟩ | ⟨rfl, rfl⟩ | ⟨rfl, rfl⟩
        · rw [if_neg h4] at ih; rw [if_neg h5]; exact ih.tail ⟨h3, h4, h5⟩
        · rw [if_pos rfl] at ih; rw [if_neg hvj.symm]; exact ih
        · rw [if_neg hvj.symm] at ih; rw [if_pos rfl]; exact ih
    have := this b hr
    rwa [if_neg hbv] at this
  · intro hc
    have hj' : ∀ x, x < g.n → Reach g2 x j := by
      intro x hx
      by_cases hxv : x = v
      · exact .single ((h2 x j).mpr (Or.inr (Or.inl ⟨hxv, rfl⟩)))
      · have := hc x j hx hj hxv hvj.symm
        exact Relation.ReflTransGen.mono (fun a b hab => (h2 a b).mpr (Or.inl hab)) _ _ this
    intro x hx
    exact (hj' 0 (by omega)).trans (hj' x (by omega)).symm

theorem basePoint_swap {g : RawGraph} (h : WF g) {i : Nat} (hi : 0 < i) (hin : i < g.n) :
    ∃ g', g.swap 0 i = some g' ∧ Permutation.pair 0 i = some [[0, i]] ∧ Relab g g' [[0, i]] := by
  obtain ⟨g', k1, k2, k3, k4, k5⟩ := swap_spec h hi hin
  refine ⟨g', k1, pair_spec 0 i hi, k2, k3, k4, transp_valid hi, ?_, ?_⟩
  · intro x hx; rw [transp_map hi]; unfold swapFn; rw [if_neg (by omega), if_neg (by omega)]
  · intro a b; rw [k5, transp_map hi, transp_map hi, swapFn_invol, swapFn_invol]

/-- The result: the transposition of `0` and the chosen vertex (or the identity if this is `0`). -/
def IsBase (g : RawGraph) (v : Nat) (r : Option (RawGraph × Permutation)) : Prop :=
  ∃ g' p, r = some (g', p) ∧ Relab g g' p ∧ map p v = 0 ∧ p = if v = 0 then identity else [[0, v]]

theorem basePointLoop_spec {g : RawGraph} (h : WF g) (hd0 : g.degreeOf 0 ≠ some 1) : ∀ (is : List Nat), (∀ x ∈ is, x < g.n) →
    (∃ v ∈ is, Good g v ∧ IsBase g v (basePointLoop is g)) ∨ ((∀ v ∈ is, ¬ Good g v) ∧ basePointLoop is g = none)
  | [], _ => Or.inr ⟨by simp, rfl⟩
  | i :: is, hl => by
    have hi := hl i (by simp)
    have ih := basePointLoop_spec h hd0 is (fun x hx => hl x (by simp [hx]))
    have hdeg : g.degreeOf i = some ((List.range g.n).filter (fun x => decide (Adj g i x))).length := by
      unfold degreeOf; rw [if_neg (by omega), adj_eq h hi]; rfl
    have skip : ¬ Good g i → basePointLoop (i :: is) g = basePointLoop is g →
        (∃ v ∈ i :: is, Good g v ∧ IsBase g v (basePointLoop (i :: is) g)) ∨
        ((∀ v ∈ i :: is, ¬ Good g v) ∧ basePointLoop (i :: is) g = none) := by
      intro hng e
      rw [e]
      rcases ih with ⟨v, h1, h2⟩ | ⟨h1, h2⟩
      · exact Or.inl ⟨v, by simp [h1], h2⟩
      · refine Or.inr ⟨?_, h2⟩
        intro v hv
        rcases List.mem_cons.mp hv with rfl | hv
        · exact hng
        · exact h1 v hv
    set a := (List.range g.n).filter (fun x => decide (Adj g i x)) with ha
    have hmem : ∀ x, x ∈ a ↔ Adj g i x := by
      intro x; rw [ha]; simp only [List.mem_filter, List.mem_range, decide_eq_true_eq]
      exact ⟨fun h => h.2, fun h => ⟨h.lt.2.1, h⟩⟩
    by_cases hd1 : a.length = 1
    · left
      have hi0 : 0 < i := by
        by_contra hc
        have : i = 0 := by omega
        subst this
        exact hd0 (by rw [hdeg, hd1])
      obtain ⟨g', k1, k2, k3⟩ := basePoint_swap h hi0 hi
      refine ⟨i, by simp, ⟨hi, Or.inl (by rw [hdeg, hd1])⟩, g', [[0, i]], ?_, k3, ?_, by rw [if_neg (by omega)]⟩
      · unfold basePointLoop
        rw [hdeg]
        simp only [Option.bind_eq_bind, Option.bind_some]
        rw [if_pos hd1, k1, k2]; rfl
      · rw [transp_map hi0]; unfold swapFn; rw [if_neg (by omega), if_pos rfl]
    · by_cases hd3 : 3 ≤ a.length
      · -- the test with the edges at `i` removed, except one
        obtain ⟨g1, r1, r2, r3, r4, r5⟩ := removeAdjacent_spec h hi
        obtain ⟨j, hj⟩ : ∃ j, a.head? = some j := by
          cases hh : a with
          | nil => rw [hh] at hd3; simp at hd3
          | cons x xs => exact ⟨x, rfl⟩
        have hja := (hmem j).mp (List.mem_of_head? hj)
        have hjl := hja.lt
        have hhead : (a.map (fun j => ordered i j)).head? = some (ordered i j) := by rw [List.head?_map, hj]; rfl
        have hadd := addEdge_spec r2 (ordered i j).1 (ordered i j).2
        rw [if_pos (by rw [r3]; exact ⟨ordered_lt hjl.2.2, ordered_snd_lt hjl.1 hjl.2.1⟩)] at hadd
        obtain ⟨g2, s1, s2, s3, s4, s5⟩ := hadd
        have hn2 : g2.n = g.n := s3.trans r3
        have hordmem : ∀ x y, x < y → ((x = (ordered i j).1 ∧ y = (ordered i j).2) ↔ (x = i ∧ y = j) ∨ (x = j ∧ y = i)) := by
          intro x y hxy
          unfold ordered
          split
          · simp only; constructor
            · rintro ⟨rfl, rfl⟩; exact Or.inl ⟨rfl, rfl⟩
            · rintro (⟨rfl, rfl⟩ | ⟨rfl, rfl⟩)
              · exact ⟨rfl, rfl⟩
              · omega
          · simp only; constructor
            · rintro ⟨rfl, rfl⟩; exact Or.inr ⟨rfl, rfl⟩
            · rintro (⟨rfl, rfl⟩ | ⟨rfl, rfl⟩)
              · omega
              · exact ⟨rfl, rfl⟩
        have hadj2 : ∀ x y, Adj g2 x y ↔ (Adj g x y ∧ x ≠ i ∧ y ≠ i) ∨ (x = i ∧ y = j) ∨ (x = j ∧ y = i) := by
          apply adj_iff_of_E
          · intro x y hxy
            rw [s5, r5, hordmem x y hxy, adj_of_lt hxy]
          · rintro x y (⟨h1, h2, h3⟩ | ⟨h1, h2⟩ | ⟨h1, h2⟩)
            · exact Or.inl ⟨h1.symm, h3, h2⟩
            · exact Or.inr (Or.inr ⟨h2, h1⟩)
            · exact Or.inr (Or.inl ⟨h2, h1⟩)
          · rintro x (⟨h1, _⟩ | ⟨h1, h2⟩ | ⟨h1, h2⟩)
            · exact not_adj_self _ _ h1
            · exact hjl.2.2 (h1.symm.trans h2)
            · exact hjl.2.2 (h2.symm.trans h1)
        have hcn := pendant_conn hn2 hi hjl.2.1 hjl.2.2 hadj2
        have h4 : 2 ≤ g2.n := by rw [hn2]; have := hjl.1; have := hjl.2; omega
        obtain ⟨c, c1, c2⟩ := isConnected_spec s2 h4
        have c3 : c = true ↔ NonCut g i := by rw [c2, ← hcn]; exact Iff.rfl
        have hl3 : ∀ e ∈ a.map (fun j => ordered i j), e.1 < e.2 ∧ e.2 < g2.n := by
          intro e he
          obtain ⟨x, hx, rfl⟩ := List.mem_map.mp he
          have := ((hmem x).mp hx).lt
          rw [hn2]
          exact ⟨ordered_lt this.2.2, ordered_snd_lt this.1 this.2.1⟩
        obtain ⟨g3, t1, t2, t3, t4, t5⟩ := addEdges_spec _ s2 hl3
        have hg3 : g3 = g := by
          apply ext_wf t2 h (t3.trans hn2) (t4.trans (s4.trans r4))
          intro x y
          rw [t5]
          constructor
          · rintro (he | he)
            · have hxy := he.1
              have := (hadj2 x y).mp (Or.inl he)
              rcases this with ⟨h1, _⟩ | ⟨rfl, rfl⟩ | ⟨rfl, rfl⟩
              · exact (adj_of_lt hxy).mp h1
              · exact (adj_of_lt hxy).mp hja
              · exact (adj_of_lt hxy).mp hja.symm
            · have hxy := (hl3 _ he).1
              rw [mem_ordered_map hxy (fun x hx => ((hmem x).mp hx).lt.2.2.symm), hmem, hmem] at he
              rcases he with ⟨rfl, he⟩ | ⟨rfl, he⟩
              · exact (adj_of_lt hxy).mp he
              · exact (adj_of_lt hxy).mp he.symm
          · intro he
            by_cases hx : x = i ∨ y = i
            · right
              rw [mem_ordered_map he.1 (fun x hx => ((hmem x).mp hx).lt.2.2.symm), hmem, hmem]
              rcases hx with rfl | rfl
              · exact Or.inl ⟨rfl, Or.inl he⟩
              · exact Or.inr ⟨rfl, Or.inr he⟩
            · left
              rw [not_or] at hx
              exact (adj_of_lt he.1).mp ((hadj2 x y).mpr (Or.inl ⟨Or.inl he, hx.1, hx.2⟩))
        subst hg3
        have hbody : basePointLoop (i :: is) g3 = if c = true then (if i = 0 then some (g3, identity) else do
            let g' ← g3.swap 0 i
            let p ← Permutation.pair 0 i
            return (g', p)) else basePointLoop is g3 := by
          conv_lhs => unfold basePointLoop
          rw [hdeg]
          simp only [Option.bind_eq_bind, Option.bind_some]
          rw [if_neg hd1, if_pos hd3, adj_eq h hi, ← ha]
          simp only [Option.bind_some, r1, hhead, s1, c1, t1]
          rfl
        by_cases hcn' : NonCut g3 i
        · left
          have hct := c3.mpr hcn'
          rw [hbody, if_pos hct]
          have hgood : Good g3 i := ⟨hi, Or.inr ⟨⟨_, hd3, hdeg⟩, hcn'⟩⟩
          by_cases hi0 : i = 0
          · subst hi0
            exact ⟨0, by simp, hgood, g3, identity, by simp, Relab.refl h, map_identity 0, by simp⟩
          · obtain ⟨g', k1, k2, k3⟩ := basePoint_swap h (by omega : 0 < i) hi
            refine ⟨i, by simp, hgood, g', [[0, i]], ?_, k3, ?_, by rw [if_neg hi0]⟩
            · rw [if_neg hi0, k1, k2]; rfl
            · rw [transp_map (by omega)]; unfold swapFn; rw [if_neg hi0, if_pos rfl]
        · have hct : ¬ c = true := fun e => hcn' (c3.mp e)
          apply skip
          · rintro ⟨_, h1 | h1⟩
            · rw [hdeg] at h1; injection h1 with h1; omega
            · exact hcn' h1.2
          · rw [hbody, if_neg hct]
      · apply skip
        · rintro ⟨_, h1 | ⟨⟨d, h1, h2⟩, _⟩⟩
          · rw [hdeg] at h1; injection h1 with h1; omega
          · rw [hdeg] at h2; injection h2 with h2; omega
        · conv_lhs => unfold basePointLoop
          rw [hdeg]
          simp only [Option.bind_eq_bind, Option.bind_some]
          rw [if_neg hd1, if_neg hd3]

theorem chooseBasePoint_spec {g : RawGraph} (h : WF g) :
    (∃ v, Good g v ∧ IsBase g v g.chooseBasePoint) ∨ ((∀ v, ¬ Good g v) ∧ g.chooseBasePoint = none) := by
  have hp := h.pos
  obtain ⟨d, hd⟩ : ∃ d, g.degreeOf 0 = some d := by
    unfold degreeOf; rw [if_neg (by omega), adj_eq h hp]; exact ⟨_, rfl⟩
  have hb : g.chooseBasePoint = if d ≠ 1 then basePointLoop (List.range g.n) g else some (g, identity) := by
    unfold chooseBasePoint; rw [hd]; rfl
  rw [hb]
  by_cases h1 : d = 1
  · left
    subst h1
    exact ⟨0, ⟨hp, Or.inl hd⟩, g, identity, by simp, Relab.refl h, map_identity 0, by simp⟩
  · rw [if_pos h1]
    rcases basePointLoop_spec h (by rw [hd]; simpa using h1) (List.range g.n) (by simp) with ⟨v, _, h2⟩ | ⟨h2, h3⟩
    · exact Or.inl ⟨v, h2⟩
    · refine Or.inr ⟨fun v hv => h2 v (List.mem_range.mpr hv.1) hv, h3⟩

theorem Relab.trans {g0 g1 g2 : RawGraph} {p q r} (h1 : Relab g0 g1 p) (h2 : Relab g1 g2 q) (hr : mul q p = some r) : Relab g0 g2 r := by
  obtain ⟨r', l1, l2, l3⟩ := mul_spec h2.valid h1.valid
  rw [hr] at l1; injection l1 with l1; subst l1
  refine ⟨h2.wf, h2.n.trans h1.n, h2.tree.trans h1.tree, l2, ?_, ?_⟩
  · intro x hx; rw [l3, h1.bound x hx, h2.bound x (by rw [h1.n]; exact hx)]
  · intro a b; rw [l3, l3, h2.adj, h1.adj]

/-- `choose_maximal_tree` on a connected graph. -/
theorem chooseMaximalTree_spec {g : RawGraph} (h : WF g) (hc : Conn g) :
    (∃ v g' p, Good g v ∧ g.chooseMaximalTree = some (g', p) ∧ g'.treeChosen = true ∧ g'.n = g.n ∧ WF g' ∧ Valid p ∧
      (∀ x, g.n ≤ x → map p x = x) ∧ (∀ a b, Adj g' (map p a) (map p b) ↔ Adj g a b) ∧ map p v = 0 ∧
      Upto (Adj g') g'.n ∧ ∀ i, SortedAt (Adj g') i) ∨
    ((∀ v, ¬ Good g v) ∧ g.chooseMaximalTree = none) := by
  rcases chooseBasePoint_spec h with ⟨v, hv, g1, q1, e1, r1, hv0, _⟩ | ⟨hno, e⟩
  · left
    obtain ⟨p1, m1, m1v, m1m⟩ := mul_spec r1.valid valid_identity
    have hr1 : Relab g g1 p1 := (Relab.refl h).trans r1 m1
    obtain ⟨g2, q2, e2, r2, hq2, hu2⟩ := chooseDfs_spec r1.wf (r1.conn hc)
    obtain ⟨p2, m2, m2v, m2m⟩ := mul_spec r2.valid m1v
    have hr2 : Relab g g2 p2 := hr1.trans r2 m2
    have hw3 : WF { g2 with treeChosen := true } := ⟨r2.wf.inv, r2.wf.len, r2.wf.pos⟩
    have hadj3 : ∀ a b, Adj { g2 with treeChosen := true } a b ↔ Adj g2 a b := fun a b => Iff.rfl
    obtain ⟨g4, q3, e3, r3, hq3, hu4, hs4⟩ := modifyOrdering_spec hw3 rfl hu2
    obtain ⟨p3, m3, m3v, m3m⟩ := mul_spec r3.valid m2v
    refine ⟨v, g4, p3, hv, ?_, r3.tree, ?_, r3.wf, m3v, ?_, ?_, ?_, hu4, hs4⟩
    · unfold chooseMaximalTree
      simp only [e1, Option.bind_eq_bind, Option.bind_some, m1, e2, m2, e3, m3]
      rfl
    · exact r3.n.trans hr2.n
    · intro x hx
      rw [m3m, hr2.bound x hx]
      exact r3.bound x (by show g2.n ≤ x; rw [hr2.n]; exact hx)
    · intro a b
      rw [m3m, m3m, r3.adj, hadj3, hr2.adj]
    · rw [m3m, m2m, m1m, map_identity, hv0, hq2, hq3]
  · right
    refine ⟨hno, ?_⟩
    unfold chooseMaximalTree
    rw [e]; rfl

end Toppo.RawGraph
