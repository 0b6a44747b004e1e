import Verif.Model.Cube
import Verif.Proof.EdgeWalk
import Verif.Props.EdgePath
import Verif.Props.MaxTree
import Mathlib.Data.List.Perm.Subperm
set_option linter.unusedVariables false
/-! Flowing a configuration down the maximal tree. -/
namespace Toppo.EdgePath
open Toppo RawGraph GraphProps

/-- a graph with a chosen maximal tree -/
structure TreeGraph (g : RawGraph) : Prop where
  built : Built g
  chosen : g.treeChosen = true
  dfs : IsDfsTree g

theorem Parent.unique {g : RawGraph} (h : TreeGraph g) {x y z : Nat} (h1 : Parent g x z) (h2 : Parent g y z) : x = y := by
  obtain ⟨p, -, hp⟩ := h.dfs.parent z (by have := h1.1; omega) (parent_lt h.built h1)
  rw [hp x h1, hp y h2]

theorem findParent_aux {g : RawGraph} (h : TreeGraph g) {v : Nat} (hv : v < g.n) {p : Nat} (hp : Parent g p v) :
    ∀ m, m ≤ v → p < m → Factor.findParent g v m = some p := by
  intro m
  induction m with
  | zero => intro _ h0; omega
  | succ m ih =>
    intro hm hpm
    unfold Factor.findParent
    have hc : g.contains m v = some (decide (E g m v)) := by rw [contains_eq h.built.wf, if_pos (by omega)]
    obtain ⟨b, hb, -⟩ := treeContains_spec h.built.wf h.chosen (show m < v by omega) hv
    have hE : g.contains p v = some true := by
      have h2 := hp.2
      unfold treeContains at h2
      rw [h.chosen] at h2
      cases hcc : g.contains p v with
      | none => simp [hcc] at h2
      | some c => cases c <;> simp_all
    by_cases hmp : m = p
    · subst hmp
      rw [hE, hp.2]
    · have hne : b ≠ true := by
        rintro rfl
        exact hmp (Parent.unique h ⟨by omega, hb⟩ hp)
      rw [hc, hb]
      have ih := ih (by omega) (by omega)
      cases decide (E g m v) <;> cases b <;> first | exact ih | exact absurd rfl hne

theorem findParent_iff {g : RawGraph} (h : TreeGraph g) {v : Nat} (h0 : v ≠ 0) (hv : v < g.n) {p : Nat} :
    Factor.findParent g v v = some p ↔ Parent g p v := by
  obtain ⟨q, hq, hu⟩ := h.dfs.parent v (by omega) hv
  have e := findParent_aux h hv hq v le_rfl hq.1
  rw [e]
  constructor
  · intro hh; injection hh with hh; rw [← hh]; exact hq
  · intro hh; rw [hu p hh]

/-- every vertex of the configuration except `0` is followed by its parent -/
def Blocked (g : RawGraph) (c : List Nat) : Prop := ∀ v ∈ c, ∀ p, Parent g p v → p ∈ c

theorem isBlocked_iff {g : RawGraph} (h : TreeGraph g) {v : Nat} (hv : v < g.n) (c : List Nat) :
    ∃ b, Factor.isBlocked g (c.map Factor.vertex) (.vertex v) = some b ∧ (b = true ↔ ∀ p, Parent g p v → p ∈ c) := by
  by_cases h0 : v = 0
  · subst h0
    exact ⟨true, by simp [Factor.isBlocked], by simp; exact fun p hp => absurd hp.1 (by omega)⟩
  · obtain ⟨p, hp, hu⟩ := h.dfs.parent v (by omega) hv
    have e := (findParent_iff h h0 hv).mpr hp
    refine ⟨_, by simp only [Factor.isBlocked]; rw [if_neg h0, e], ?_⟩
    have : ((c.map Factor.vertex).any (Factor.meets p) = true) ↔ p ∈ c := by
      rw [List.any_map, List.any_eq_true]
      simp only [Function.comp_apply, Factor.meets, beq_iff_eq, exists_eq_right]
    rw [this]
    constructor
    · intro hm q hq; rw [hu q hq]; exact hm
    · intro hh; exact hh p hp

theorem unblockedFrom_spec {g : RawGraph} (h : TreeGraph g) (c : List Nat) : ∀ (vs : List Nat) (i : Nat), (∀ v ∈ vs, v < g.n) →
    ∃ us, unblockedFrom g (c.map Factor.vertex) i vs = some us ∧
      ∀ j v, (j, v) ∈ us ↔ i ≤ j ∧ vs[j - i]? = some v ∧ ∃ p, Parent g p v ∧ p ∉ c := by
  intro vs
  induction vs with
  | nil => intro i _; exact ⟨[], rfl, by simp⟩
  | cons v vs ih =>
    intro i hvs
    obtain ⟨b, hb, hb'⟩ := isBlocked_iff h (hvs v (List.mem_cons_self ..)) c
    obtain ⟨us, hu, hu'⟩ := ih (i + 1) (fun w hw => hvs w (List.mem_cons_of_mem _ hw))
    refine ⟨_, by unfold unblockedFrom; rw [hb, hu], ?_⟩
    intro j w
    have hb2 : (∃ p, Parent g p v ∧ p ∉ c) ↔ b = false := by
      rw [← Bool.not_eq_true, hb']; push Not; rfl
    have hrest : (j, w) ∈ us ↔ i < j ∧ (v :: vs)[j - i]? = some w ∧ ∃ p, Parent g p w ∧ p ∉ c := by
      rw [hu']
      constructor
      · rintro ⟨a1, a2, a3⟩
        refine ⟨by omega, ?_, a3⟩
        rw [show j - i = (j - (i + 1)) + 1 from by omega, List.getElem?_cons_succ]; exact a2
      · rintro ⟨a1, a2, a3⟩
        refine ⟨by omega, ?_, a3⟩
        rw [show j - i = (j - (i + 1)) + 1 from by omega, List.getElem?_cons_succ] at a2; exact a2
    have hcases : i ≤ j ↔ i < j ∨ i = j := by omega
    cases b with
    | true =>
      rw [if_pos rfl, hrest, hcases]
      constructor
      · rintro ⟨a1, a2⟩; exact ⟨Or.inl a1, a2⟩
      · rintro ⟨a1 | a1, a2, a3⟩
        · exact ⟨a1, a2, a3⟩
        · subst a1
          rw [Nat.sub_self, List.getElem?_cons_zero] at a2
          injection a2 with a2; subst a2
          exact absurd (hb2.mp a3) (by simp)
    | false =>
      rw [if_neg (by simp), List.mem_cons, hrest, hcases]
      constructor
      · rintro (a | ⟨a1, a2⟩)
        · injection a with a1 a2; subst a1; subst a2
          exact ⟨Or.inr rfl, by simp, hb2.mpr rfl⟩
        · exact ⟨Or.inl a1, a2⟩
      · rintro ⟨a1 | a1, a2, a3⟩
        · exact Or.inr ⟨a1, a2, a3⟩
        · subst a1
          rw [Nat.sub_self, List.getElem?_cons_zero] at a2
          injection a2 with a2; subst a2
          exact Or.inl rfl

theorem minFirst_spec : ∀ us : List (Nat × Nat), (minFirst us = none ↔ us = []) ∧ ∀ x, minFirst us = some x → x ∈ us ∧ ∀ y ∈ us, x.2 ≤ y.2 := by
  intro us
  induction us with
  | nil => exact ⟨by simp [minFirst], by simp [minFirst]⟩
  | cons a us ih =>
    unfold minFirst
    cases hm : minFirst us with
    | none =>
      have := ih.1.mp hm
      subst this
      refine ⟨by simp, ?_⟩
      intro x hx; injection hx with hx; subst hx; simp
    | some y =>
      obtain ⟨h1, h2⟩ := ih.2 y hm
      simp only
      split
      · rename_i hlt
        refine ⟨by simp, ?_⟩
        intro x hx; injection hx with hx; subst hx
        refine ⟨List.mem_cons_of_mem _ h1, ?_⟩
        intro z hz
        rcases List.mem_cons.mp hz with rfl | hz
        · omega
        · exact h2 z hz
      · rename_i hlt
        refine ⟨by simp, ?_⟩
        intro x hx; injection hx with hx; subst hx
        refine ⟨List.mem_cons_self .., ?_⟩
        intro z hz
        rcases List.mem_cons.mp hz with rfl | hz
        · omega
        · have := h2 z hz; omega

theorem sum_set {c : List Nat} : ∀ {i v t : Nat}, c[i]? = some v → (c.set i t).sum + v = c.sum + t := by
  induction c with
  | nil => intro i v t h; simp at h
  | cons a c ih =>
    intro i v t h
    cases i with
    | zero => simp at h; subst h; simp; omega
    | succ i => simp at h; have := ih (t := t) h; simp; omega

/-- the flow of a configuration -/
theorem recc_spec {g : RawGraph} (h : TreeGraph g) : ∀ (fuel : Nat) (c : List Nat), (∀ v ∈ c, v < g.n) → c.sum < fuel →
    ∃ c' w, (∀ path, recc g true fuel c path = some (c', path ++ w) ∧ recc g false fuel c path = some (c', revWord w ++ path)) ∧
      Walk c w c' ∧ (∀ s ∈ w, Parent g s.2 s.1) ∧ Blocked g c' ∧ (∀ v ∈ c', v < g.n) ∧
      ∀ u t v b, w = u ++ t :: v → Walk c u b → c.Nodup → ¬ Blocked g b := by
  intro fuel
  induction fuel with
  | zero => intro c _ hs; omega
  | succ fuel ih =>
    intro c hc hs
    obtain ⟨us, hu, hu'⟩ := unblockedFrom_spec h c c 0 hc
    cases hm : minFirst us with
    | none =>
      have hus := (minFirst_spec us).1.mp hm
      subst hus
      refine ⟨c, [], ?_, .nil _, by simp, ?_, hc, by simp⟩
      · intro path
        unfold recc
        rw [hu]
        simp [minFirst, revWord]
      · intro v hv p hp
        obtain ⟨i, hi⟩ := List.mem_iff_getElem?.mp hv
        by_contra hn
        have := (hu' i v).mpr ⟨Nat.zero_le _, by simpa using hi, p, hp, hn⟩
        cases this
    | some x =>
      obtain ⟨idx, v⟩ := x
      obtain ⟨m1, m2⟩ := (minFirst_spec us).2 _ hm
      obtain ⟨-, a2, p, a3, a4⟩ := (hu' idx v).mp m1
      rw [Nat.sub_zero] at a2
      have hv : v < g.n := parent_lt h.built a3
      have hv0 : v ≠ 0 := by have := a3.1; omega
      have hflow : (Factor.flow g (.vertex v)).bind Factor.terminal = some (.vertex p) := by
        simp [Factor.flow, hv0, (findParent_iff h hv0 hv).mpr a3, Factor.terminal, Factor.edgeOf]
      have hsum := sum_set (t := p) a2
      have hp := a3.1
      obtain ⟨c', w, k1, k2, k3, k4, k5, k6⟩ := ih (c.set idx p) (by
        intro x hx
        rcases List.mem_or_eq_of_mem_set hx with hx | hx
        · exact hc x hx
        · omega) (by omega)
      refine ⟨c', (v, p) :: w, ?_, .cons idx a2 a4 k2, ?_, k4, k5, ?_⟩
      · intro path
        unfold recc
        rw [hu]
        simp only [hm, hflow]
        constructor
        · rw [if_pos trivial, (k1 _).1]; simp
        · rw [if_neg (by simp), (k1 _).2, revWord_cons]; simp [rev]
      · intro s hs
        rcases List.mem_cons.mp hs with rfl | hs
        · exact a3
        · exact k3 s hs
      · intro u t z b e hw hnd hb
        cases u with
        | nil =>
          cases hw
          exact a4 (hb v (List.mem_iff_getElem?.mpr ⟨idx, a2⟩) p a3)
        | cons s u =>
          rw [List.cons_append] at e
          injection e with e1 e2
          subst e1
          cases hw with
          | cons j j1 j2 j3 =>
            have hj : j = idx := idx_unique hnd j1 a2
            subst hj
            exact k6 u t z b e2 j3 (nodup_set hnd j2) hb

/-- the sum of the heights a word descends -/
def drop (w : List Move) : Int := (w.map (fun s => (s.1 : Int) - s.2)).sum

theorem drop_eqv {u v : List Move} (h : Eqv u v) : drop u = drop v := by
  induction h with
  | refl u => rfl
  | symm _ ih => exact ih.symm
  | trans _ _ i1 i2 => exact i1.trans i2
  | swap u s t v h => simp [drop]; omega
  | cancel u s v => simp [drop, rev]; omega

theorem drop_down {w : List Move} (h : ∀ s ∈ w, s.2 < s.1) (hw : w ≠ []) : 0 < drop w := by
  cases w with
  | nil => exact absurd rfl hw
  | cons s w =>
    clear hw
    induction w generalizing s with
    | nil => have := h s (by simp); simp [drop]; omega
    | cons t w ih =>
      have h1 := ih t (fun x hx => h x (List.mem_cons_of_mem _ hx))
      have h2 := h s (by simp)
      simp only [drop, List.map_cons, List.sum_cons] at h1 ⊢
      omega

theorem drop_append (u v : List Move) : drop (u ++ v) = drop u + drop v := by simp [drop]
theorem drop_rev (w : List Move) : drop (revWord w) = - drop w := by
  induction w with
  | nil => rfl
  | cons s w ih => rw [revWord_cons, drop_append, ih]; simp [drop, rev]

/-- a word equivalent to the trivial one can be cancelled completely -/
theorem red_nil : ∀ (n : Nat) (y : List Move), y.length ≤ n → Eqv y [] → Red y [] := by
  intro n
  induction n with
  | zero => intro y h _; rw [List.length_eq_zero_iff.mp (Nat.le_zero.mp h)]; exact .refl _
  | succ n ih =>
    intro y hl he
    cases hr : reduce [y] with
    | some q =>
      have k := (reduce_eq _).2 q hr
      have k1 := k.from_
      have k2 := k.eqv
      simp only [List.flatten_cons, List.flatten_nil, List.append_nil] at k1 k2
      have k3 := k.red.shortest (k2.trans he)
      rwa [List.length_eq_zero_iff.mp (Nat.le_zero.mp k3)] at k1
    | none =>
      obtain ⟨a, b, e, ha, hb, hab⟩ := (reduce_none _).mp hr
      simp only [List.flatten_cons, List.flatten_nil, List.append_nil] at e
      subst e
      rw [List.length_append] at hl
      have la := List.length_pos_iff.mpr ha
      have lb := List.length_pos_iff.mpr hb
      have h1 := ih a (by omega) hab
      have h2 := ih b (by omega) ((hab.append_right b).symm.trans he)
      exact (h1.append_right b).trans h2

theorem walk_trivial {a b : List Nat} {y : List Move} (h : Walk a y b) (he : Eqv y []) : b = a := by
  have := h.red (red_nil _ _ le_rfl he)
  cases this
  rfl

theorem flatten_single (w : List Move) : (w.map (fun e => [e])).flatten = w := by
  induction w with
  | nil => rfl
  | cons s w ih => simp [ih]

theorem reduce_down {w : List Move} (h : ∀ s ∈ w, s.2 < s.1) : ∃ q, reduce (w.map (fun e => [e])) = some q := by
  refine Option.ne_none_iff_exists'.mp (fun hn => ?_)
  obtain ⟨y, z, e, hy, hz, he⟩ := (reduce_none _).mp hn
  rw [flatten_single] at e
  have h1 := drop_down (w := y) (fun s hs => h s (by rw [e]; exact List.mem_append_left _ hs)) hy
  rw [drop_eqv he] at h1
  simp [drop] at h1

/-- the first `k - 1` vertices have one child each: there is no branching before the `k`-th vertex -/
def Stem (g : RawGraph) (k : Nat) : Prop := ∀ x y, x + 1 < k → Parent g x y → y = x + 1

theorem blocked_anc {g : RawGraph} (h : TreeGraph g) {c : List Nat} (hb : Blocked g c) {x y : Nat} (ha : Relation.ReflTransGen (Parent g) x y) : y ∈ c → x ∈ c := by
  induction ha with
  | refl => exact id
  | tail _ hp ih => exact fun hm => ih (hb _ hm _ hp)

theorem blocked_base {g : RawGraph} (h : TreeGraph g) {c : List Nat} (hs : Stem g c.length) (hc : ∀ v ∈ c, v < g.n) (hn : c.Nodup) (hb : Blocked g c) :
    c.Perm (List.range c.length) := by
  have key : ∀ j, j < c.length → ∀ i, i ≤ j → i ∈ c := by
    intro j
    induction j with
    | zero =>
      intro hj i hi
      obtain rfl : i = 0 := by omega
      obtain ⟨v, hv⟩ := List.exists_mem_of_length_pos hj
      exact blocked_anc h hb (h.dfs.root v (hc v hv)) hv
    | succ j ih =>
      intro hj i hi
      have ih := ih (by omega)
      rcases Nat.lt_or_ge i (j + 1) with hlt | hge
      · exact ih i (by omega)
      obtain rfl : i = j + 1 := by omega
      have hex : ∃ v ∈ c, j + 1 ≤ v := by
        by_contra hcon
        push Not at hcon
        have hsub : c ⊆ List.range (j + 1) := fun v hv => List.mem_range.mpr (hcon v hv)
        have := (hn.subperm hsub).length_le
        rw [List.length_range] at this
        omega
      obtain ⟨v, hv, hjv⟩ := hex
      have hanc := h.dfs.root v (hc v hv)
      clear hi
      -- walk up from v until a vertex at most j is reached
      have climb : ∀ y, Relation.ReflTransGen (Parent g) 0 y → y ∈ c → j + 1 ≤ y → j + 1 ∈ c := by
        intro y hy
        induction hy with
        | refl => intro _ h0; omega
        | @tail b d h1 h2 ih2 =>
          intro hd hjd
          have hbm := hb d hd b h2
          rcases Nat.lt_or_ge b (j + 1) with hbl | hbl
          · have := hs b d (by omega) h2
            have : d = j + 1 := by omega
            rw [← this]; exact hd
          · exact ih2 hbm hbl
      exact climb v hanc hv hjv
  rw [List.perm_ext_iff_of_nodup hn List.nodup_range]
  intro a
  have hsub : List.range c.length ⊆ c := by
    intro i hi
    have hi := List.mem_range.mp hi
    exact key i hi i le_rfl
  have hp := (List.nodup_range.subperm hsub).perm_of_length_le (by simp)
  exact hp.mem_iff.symm

end Toppo.EdgePath
