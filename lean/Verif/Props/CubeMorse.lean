import Verif.Props.CubeCplx
import Verif.Props.EdgeFlow
import Mathlib.Data.Set.Function
set_option linter.unusedVariables false

/-
C60: the classification of cubes as critical, collapsible or redundant, the pairing, and the flow.
-/
namespace Toppo.CubeProps
open Toppo RawGraph Cub GraphProps EdgePath

/-! ### Specification -/

/-- the vertex `w` is a vertex or an end of an edge of the cube -/
def Covered (c : List Factor) (w : Nat) : Prop := ∃ f ∈ c, w ∈ vertsOf f

/-- A vertex can move if its parent in the tree is not covered; an edge is collapsing if it is a tree edge and no vertex of the cube lies strictly between
its ends. -/
def Elig (g : RawGraph) (c : List Factor) : Factor → Prop
  | .vertex v => ∃ p, Parent g p v ∧ ¬ Covered c p
  | .edge x y => Parent g x y ∧ ∀ z, Factor.vertex z ∈ c → ¬ (x < z ∧ z < y)

/-- position `i` holds the first factor that can move or is collapsing -/
def FirstElig (g : RawGraph) (c : List Factor) (i : Nat) (f : Factor) : Prop :=
  c[i]? = some f ∧ Elig g c f ∧ ∀ j : Nat, j < i → ∀ f', c[j]? = some f' → ¬ Elig g c f'

/-! ### property -/

theorem any_meets (c : List Factor) (w : Nat) : c.any (Factor.meets w) = true ↔ Covered c w := by
  rw [List.any_eq_true]
  refine exists_congr fun f => and_congr_right fun _ => ?_
  cases f with
  | vertex x => simp [Factor.meets, vertsOf]; try exact eq_comm
  | edge x y => simp [Factor.meets, vertsOf]; try (rw [eq_comm, eq_comm (a := y)])

theorem isBlocked_spec {g : RawGraph} (h : TreeGraph g) {v : Nat} (hv : v < g.n) (c : List Factor) :
    ∃ b, Factor.isBlocked g c (.vertex v) = some b ∧ (b = false ↔ Elig g c (.vertex v)) := by
  by_cases h0 : v = 0
  · subst h0
    refine ⟨true, by simp [Factor.isBlocked], ?_⟩
    simp only [Bool.true_eq_false, Elig, false_iff, not_exists, not_and]
    intro p hp; exact absurd hp.1 (by omega)
  · obtain ⟨p, hp, hu⟩ := h.dfs.parent v (by omega) hv
    have e := (findParent_iff h h0 hv).mpr hp
    refine ⟨c.any (Factor.meets p), ?_, ?_⟩
    · simp only [Factor.isBlocked, if_neg h0, e]
    · rw [← Bool.not_eq_true, any_meets]
      constructor
      · intro hn; exact ⟨p, hp, hn⟩
      · rintro ⟨q, hq, hn⟩; rw [hu q hq] at hn; exact hn

theorem noneBetween_spec (x y : Nat) (l : List Factor) :
    ∃ b, noneBetween (.edge x y) l = some b ∧ (b = true ↔ ∀ z, Factor.vertex z ∈ l → ¬ (x < z ∧ z < y)) := by
  induction l with
  | nil => exact ⟨true, rfl, by simp⟩
  | cons o os ih =>
    obtain ⟨b, h1, h2⟩ := ih
    cases o with
    | edge a d =>
      refine ⟨b, ?_, ?_⟩
      · simp only [noneBetween, Factor.isVertex, Factor.isEdge]; exact h1
      · rw [h2]; simp
    | vertex w =>
      simp only [noneBetween, Factor.isVertex, Factor.isEdge, Factor.isDisrespectedBy, Factor.edgeOf, Factor.vertexOf]
      by_cases hw : x < w ∧ w < y
      · refine ⟨false, ?_, ?_⟩
        · simp [hw.1, hw.2]
        · simp only [Bool.false_eq_true, false_iff]
          intro hall; exact hall w (by simp) hw
      · refine ⟨b, ?_, ?_⟩
        · have : (decide (x < w) && decide (w < y)) = false := by
            rw [← Bool.not_eq_true, Bool.and_eq_true, decide_eq_true_iff, decide_eq_true_iff]; exact hw
          simp only [this]; exact h1
        · rw [h2]
          constructor
          · intro hall z hz
            rcases List.mem_cons.mp hz with e | hz
            · injection e with e; subst e; exact hw
            · exact hall z hz
          · intro hall z hz; exact hall z (by simp [hz])

theorem eligible_spec {g : RawGraph} (h : TreeGraph g) (c : List Factor) {f : Factor} (hf : FactorOf g f) :
    ∃ b, eligible g c f = some b ∧ (b = true ↔ Elig g c f) := by
  cases f with
  | vertex v =>
    obtain ⟨b, h1, h2⟩ := isBlocked_spec h (v := v) hf c
    refine ⟨!b, ?_, ?_⟩
    · simp only [eligible, Factor.isVertex, Factor.isEdge]
      simp [h1]
    · rw [← h2]; simp
  | edge x y =>
    obtain ⟨hxy, he⟩ : x < y ∧ Edge g x y := hf
    obtain ⟨t, ht⟩ : ∃ t, g.treeContains x y = some t := by
      obtain ⟨b, h1, -⟩ := treeContains_spec h.built.wf h.chosen hxy ((edge_iff h.built _ _).mp he).lt.2.1
      exact ⟨b, h1⟩
    simp only [eligible, Factor.isVertex, Factor.isEdge, Factor.isInMaximalTree, ht]
    have hpar : Parent g x y ↔ t = true := by
      unfold Parent
      rw [ht]; simp [hxy]
    cases t with
    | false =>
      refine ⟨false, by simp, ?_⟩
      simp [Elig, hpar]
    | true =>
      have hc : csub y x = some (y - x) := by unfold csub; rw [if_pos (by omega)]
      simp only [Factor.isOrderRespecting, hc, Option.map_some]
      by_cases hy : y = x + 1
      · have : (y - x == 1) = true := by simp; omega
        rw [this]
        refine ⟨true, by simp, ?_⟩
        simp only [Elig, true_iff]
        exact ⟨hpar.mpr rfl, fun z _ hz => by omega⟩
      · have : (y - x == 1) = false := by simp; omega
        rw [this]
        obtain ⟨b, h1, h2⟩ := noneBetween_spec x y c
        refine ⟨b, by simpa using h1, ?_⟩
        rw [h2]
        simp [Elig, hpar]

theorem firstEligible_spec {g : RawGraph} (h : TreeGraph g) (c : List Factor) (fs : List Factor) (i : Nat) (hf : ∀ f ∈ fs, FactorOf g f) :
    (firstEligible g c i fs = some none ∧ ∀ f ∈ fs, ¬ Elig g c f) ∨
    ∃ (j : Nat) (f : Factor), firstEligible g c i fs = some (some (i + j, f)) ∧ fs[j]? = some f ∧ Elig g c f ∧ ∀ j' : Nat, j' < j → ∀ f', fs[j']? = some f' → ¬ Elig g c f' := by
  induction fs generalizing i with
  | nil => left; exact ⟨rfl, by simp⟩
  | cons f fs ih =>
    obtain ⟨b, h1, h2⟩ := eligible_spec h c (hf f (by simp))
    cases b with
    | true =>
      right
      exact ⟨0, f, by simp [firstEligible, h1], rfl, h2.mp rfl, by intro j' hj'; omega⟩
    | false =>
      have hn : ¬ Elig g c f := fun he => by have := h2.mpr he; cases this
      have e : firstEligible g c i (f :: fs) = firstEligible g c (i + 1) fs := by simp [firstEligible, h1]
      rw [e]
      rcases ih (i + 1) (fun f hf' => hf f (by simp [hf'])) with ⟨k1, k2⟩ | ⟨j, f', k1, k2, k3, k4⟩
      · left
        refine ⟨k1, ?_⟩
        intro f' hf'
        rcases List.mem_cons.mp hf' with rfl | hf'
        · exact hn
        · exact k2 f' hf'
      · right
        refine ⟨j + 1, f', by rw [k1]; congr 3; omega, by simpa using k2, k3, ?_⟩
        intro j' hj' f'' hf''
        cases j' with
        | zero => simp at hf''; subst hf''; exact hn
        | succ j' => exact k4 j' (by omega) f'' (by simpa using hf'')

theorem firstElig_unique {g : RawGraph} {c : List Factor} {i j : Nat} {f f' : Factor} (h : FirstElig g c i f) (h' : FirstElig g c j f') : i = j ∧ f = f' := by
  have : i = j := by
    rcases Nat.lt_trichotomy i j with hh | hh | hh
    · exact absurd h.2.1 (h'.2.2 i hh f h.1)
    · exact hh
    · exact absurd h'.2.1 (h.2.2 j hh f' h'.1)
  subst this
  refine ⟨rfl, ?_⟩
  have := h.1.symm.trans h'.1
  exact Option.some.inj this

theorem property_cases {g : RawGraph} (h : TreeGraph g) {c : List Factor} (hf : ∀ f ∈ c, FactorOf g f) :
    (property g c = some .critical ∧ ∀ f ∈ c, ¬ Elig g c f) ∨
    (∃ i v, property g c = some (.redundant i) ∧ FirstElig g c i (.vertex v)) ∨
    (∃ i x y, property g c = some (.collapsible i) ∧ FirstElig g c i (.edge x y)) := by
  rcases firstEligible_spec h c c 0 hf with ⟨k1, k2⟩ | ⟨j, f, k1, k2, k3, k4⟩
  · left; exact ⟨by simp [property, k1], k2⟩
  · right
    rw [Nat.zero_add] at k1
    cases f with
    | vertex v => left; exact ⟨j, v, by simp [property, k1, Factor.isVertex, Factor.isEdge], k2, k3, k4⟩
    | edge x y => right; exact ⟨j, x, y, by simp [property, k1, Factor.isVertex, Factor.isEdge], k2, k3, k4⟩

/-- **C60**, the classification: it never panics, every cube gets exactly one class, and which one is determined by the first factor that can move or is
collapsing: none - critical; a vertex - redundant; an edge - collapsible. -/
theorem c60_property {g : RawGraph} (h : TreeGraph g) {k : Nat} {c : List Factor} (hc : IsCell g k c) :
    ∃ m, property g c = some m ∧ (m = .critical ↔ ∀ f ∈ c, ¬ Elig g c f) ∧
      (∀ i, m = .redundant i ↔ ∃ v, FirstElig g c i (.vertex v)) ∧ (∀ i, m = .collapsible i ↔ ∃ x y, FirstElig g c i (.edge x y)) := by
  rcases property_cases h hc.factors with ⟨k1, k2⟩ | ⟨j, v, k1, k2⟩ | ⟨j, x, y, k1, k2⟩
  · refine ⟨_, k1, by simpa using k2, fun i => ?_, fun i => ?_⟩
    · simp only [reduceCtorEq, false_iff]
      rintro ⟨v, h1, h2, -⟩
      exact k2 _ (List.mem_of_getElem? h1) h2
    · simp only [reduceCtorEq, false_iff]
      rintro ⟨x, y, h1, h2, -⟩
      exact k2 _ (List.mem_of_getElem? h1) h2
  · refine ⟨_, k1, ?_, fun i => ?_, fun i => ?_⟩
    · simp only [reduceCtorEq, false_iff]
      intro hall
      exact hall _ (List.mem_of_getElem? k2.1) k2.2.1
    · constructor
      · rintro e; injection e with e; subst e; exact ⟨v, k2⟩
      · rintro ⟨w, hw⟩; rw [(firstElig_unique k2 hw).1]
    · simp only [reduceCtorEq, false_iff]
      rintro ⟨x, y, hxy⟩
      have := (firstElig_unique k2 hxy).2
      cases this
  · refine ⟨_, k1, ?_, fun i => ?_, fun i => ?_⟩
    · simp only [reduceCtorEq, false_iff]
      intro hall
      exact hall _ (List.mem_of_getElem? k2.1) k2.2.1
    · simp only [reduceCtorEq, false_iff]
      rintro ⟨v, hv⟩
      have := (firstElig_unique k2 hv).2
      cases this
    · constructor
      · rintro e; injection e with e; subst e; exact ⟨x, y, k2⟩
      · rintro ⟨a, b, hw⟩; rw [(firstElig_unique k2 hw).1]

/-! ### The pairing -/

/-- The pairing: `c'` arises from `c` by replacing the first factor that can move or is collapsing, a vertex, by the tree edge to its parent. -/
def Paired (g : RawGraph) (c c' : List Factor) : Prop :=
  ∃ i v p, FirstElig g c i (.vertex v) ∧ Parent g p v ∧ c'.Perm (c.set i (.edge p v))

/-- the class of a cube is `Redundant` -/
def IsRedundant (g : RawGraph) (c : List Factor) : Prop := ∃ i, property g c = some (.redundant i)

/-- the class of a cube is `Collapsible` -/
def IsCollapsible (g : RawGraph) (c : List Factor) : Prop := ∃ i, property g c = some (.collapsible i)

theorem covered_perm {c c' : List Factor} (h : c.Perm c') (w : Nat) : Covered c w ↔ Covered c' w := by
  unfold Covered; simp only [h.mem_iff]

theorem elig_perm {g : RawGraph} {c c' : List Factor} (h : c.Perm c') (f : Factor) : Elig g c f ↔ Elig g c' f := by
  cases f with
  | vertex v => simp only [Elig, covered_perm h]
  | edge x y => simp only [Elig, h.mem_iff]

/-- the eligible factor with the smallest first vertex -/
def Least (g : RawGraph) (c : List Factor) (f : Factor) : Prop :=
  f ∈ c ∧ Elig g c f ∧ ∀ f' ∈ c, firstOf f' < firstOf f → ¬ Elig g c f'

theorem least_of_first {g : RawGraph} {k : Nat} {c : List Factor} (hc : IsCell g k c) {i : Nat} {f : Factor} (h : FirstElig g c i f) : Least g c f := by
  obtain ⟨h1, h2, h3⟩ := h
  refine ⟨List.mem_of_getElem? h1, h2, ?_⟩
  intro f' hf' hlt
  obtain ⟨j, hj, e⟩ := List.mem_iff_getElem.mp hf'
  obtain ⟨hi, e1⟩ := List.getElem?_eq_some_iff.mp h1
  have hji : j < i := by
    by_contra hcon
    rcases Nat.lt_or_ge i j with hij | hij
    · have := List.pairwise_iff_getElem.mp hc.sorted i j hi hj hij
      rw [e, e1] at this; omega
    · obtain rfl : i = j := by omega
      rw [e] at e1; subst e1; omega
  exact h3 j hji f' (by rw [List.getElem?_eq_getElem hj, e])

theorem first_of_least {g : RawGraph} {k : Nat} {c : List Factor} (hc : IsCell g k c) {f : Factor} (h : Least g c f) : ∃ i, FirstElig g c i f := by
  obtain ⟨h1, h2, h3⟩ := h
  obtain ⟨i, hi, e⟩ := List.mem_iff_getElem.mp h1
  refine ⟨i, by rw [List.getElem?_eq_getElem hi, e], h2, ?_⟩
  intro j hj f' hf'
  obtain ⟨hj', e1⟩ := List.getElem?_eq_some_iff.mp hf'
  refine h3 f' (List.mem_of_getElem? hf') ?_
  have := List.pairwise_iff_getElem.mp hc.sorted j i hj' hi hj
  rwa [e, e1] at this

/-- a cube and the rest of it without one factor -/
theorem split_at {c : List Factor} {i : Nat} {f : Factor} (h : c[i]? = some f) : ∃ r, c.Perm (f :: r) ∧ ∀ f', (c.set i f').Perm (f' :: r) := by
  obtain ⟨hi, e⟩ := List.getElem?_eq_some_iff.mp h
  refine ⟨c.eraseIdx i, ?_, fun f' => ?_⟩
  · rw [← e]; exact (List.getElem_cons_eraseIdx_perm hi).symm
  · have := List.getElem_cons_eraseIdx_perm (l := c.set i f') (n := i) (by simpa using hi)
    rw [List.getElem_set_self, List.eraseIdx_set_eq] at this
    exact this.symm

theorem cell_of_perm {g : RawGraph} {k : Nat} {c : List Factor} (h1 : c.length = k) (h2 : ∀ f ∈ c, FactorOf g f)
    (h3 : c.Pairwise (fun a b => ∀ v ∈ vertsOf a, v ∉ vertsOf b)) : IsCell g k (Factor.sort c) ∧ (Factor.sort c).Perm c := by
  have hp := Cub.sort_perm c
  have hd : Cub.Disjoint c := by
    unfold Cub.Disjoint
    refine h3.imp ?_
    intro a b h; exact (disj_iff a b).mp h
  obtain ⟨h4, h5⟩ := (valid_iff _).mp (Cub.sort_valid hd)
  exact ⟨⟨by rw [hp.length_eq, h1], fun f hf => h2 f (hp.mem_iff.mp hf), h4, h5⟩, hp⟩

theorem cell_eq_of_perm {g : RawGraph} {k : Nat} {c c' : List Factor} (h : IsCell g k c) (h' : IsCell g k c') (hp : c.Perm c') : c = c' :=
  Cub.Valid.eq_of_perm ((valid_iff _).mpr ⟨h.disjoint, h.sorted⟩) ((valid_iff _).mpr ⟨h'.disjoint, h'.sorted⟩) hp

theorem pairwise_perm {c c' : List Factor} (hp : c.Perm c') (h : c.Pairwise (fun a b => ∀ v ∈ vertsOf a, v ∉ vertsOf b)) :
    c'.Pairwise (fun a b => ∀ v ∈ vertsOf a, v ∉ vertsOf b) :=
  (hp.pairwise_iff (fun {a b} h v hv hv' => h v hv' hv)).mp h

theorem factor_edge {g : RawGraph} (h : TreeGraph g) {p v : Nat} (hp : Parent g p v) : FactorOf g (.edge p v) := by
  have hv := parent_lt h.built hp
  have hpn : p < g.n := lt_trans hp.1 hv
  have h1 : (treeOf g).Adj ⟨p, hpn⟩ ⟨v, hv⟩ := Or.inl hp
  have h2 : (toSimple g).Adj ⟨p, hpn⟩ ⟨v, hv⟩ := h.dfs.sub h1
  exact ⟨hp.1, h2.2⟩

theorem desc_le {g : RawGraph} {x y : Nat} (h : Relation.ReflTransGen (Parent g) x y) : x ≤ y := by
  induction h with
  | refl => exact le_rfl
  | tail _ hp ih => exact le_trans ih hp.1.le

/-- the parent of a vertex between the ends of a tree edge is not before the edge -/
theorem parent_between {g : RawGraph} (h : TreeGraph g) {p v z q : Nat} (hp : Parent g p v) (h1 : p < z) (h2 : z < v) (hq : Parent g q z) : p ≤ q := by
  have := h.dfs.consecutive p v z (.single hp) h1.le h2.le
  cases this with
  | refl => omega
  | tail ha hb =>
    rw [Parent.unique h hq hb]
    exact desc_le ha

theorem covered_cons (f : Factor) (r : List Factor) (w : Nat) : Covered (f :: r) w ↔ w ∈ vertsOf f ∨ Covered r w := by
  simp [Covered]

/-- replacing the moving vertex by the edge -/
theorem least_up {g : RawGraph} {c c' r : List Factor} {p v : Nat} (hcr : c.Perm (.vertex v :: r)) (hcr' : c'.Perm (.edge p v :: r))
    (hl : Least g c (.vertex v)) (hpar : Parent g p v) (hbt : ∀ z, Factor.vertex z ∈ r → ¬ (p < z ∧ z < v))
    (hte : ∀ a b, Factor.edge a b ∈ r → ¬ Parent g a b) : Least g c' (.edge p v) := by
  refine ⟨hcr'.mem_iff.mpr (by simp), ⟨hpar, ?_⟩, ?_⟩
  · intro z hz
    refine hbt z ?_
    simpa using hcr'.mem_iff.mp hz
  · intro f' hf' hlt he
    have hr : f' ∈ r := by
      rcases List.mem_cons.mp (hcr'.mem_iff.mp hf') with rfl | hr
      · exact absurd hlt (lt_irrefl _)
      · exact hr
    cases f' with
    | edge a b => exact hte a b hr he.1
    | vertex w =>
      have hw : w < p := hlt
      refine hl.2.2 (.vertex w) (hcr.mem_iff.mpr (by simp [hr])) (by show w < v; have := hpar.1; omega) ?_
      obtain ⟨q, hq, hn⟩ := he
      refine ⟨q, hq, fun hcov => hn ?_⟩
      rw [covered_perm hcr, covered_cons] at hcov
      rw [covered_perm hcr', covered_cons]
      rcases hcov with hcov | hcov
      · left; simp [vertsOf] at hcov ⊢; right; exact hcov
      · right; exact hcov

/-- replacing the collapsing edge by its second end -/
theorem least_down {g : RawGraph} {c c' r : List Factor} {x y : Nat} (hcr : c.Perm (.vertex y :: r)) (hcr' : c'.Perm (.edge x y :: r))
    (hd : ∀ f ∈ r, x ∉ vertsOf f) (hl : Least g c' (.edge x y))
    (hte : ∀ a b, Factor.edge a b ∈ r → ¬ Parent g a b) : Least g c (.vertex y) := by
  obtain ⟨-, ⟨hpar, hbt⟩, hmin⟩ := hl
  refine ⟨hcr.mem_iff.mpr (by simp), ⟨x, hpar, ?_⟩, ?_⟩
  · rw [covered_perm hcr, covered_cons]
    rintro (hx | ⟨f, hf, hx⟩)
    · simp [vertsOf] at hx; have := hpar.1; omega
    · exact hd f hf hx
  · intro f' hf' hlt he
    have hr : f' ∈ r := by
      rcases List.mem_cons.mp (hcr.mem_iff.mp hf') with rfl | hr
      · exact absurd hlt (lt_irrefl _)
      · exact hr
    have hr' : f' ∈ c' := hcr'.mem_iff.mpr (by simp [hr])
    cases f' with
    | edge a b => exact hte a b hr he.1
    | vertex w =>
      have hw : w < y := hlt
      have hwx : w < x := by
        have h1 := hbt w hr'
        have h2 := hd _ hr
        simp [vertsOf] at h2
        omega
      refine hmin (.vertex w) hr' hwx ?_
      obtain ⟨q, hq, hn⟩ := he
      refine ⟨q, hq, fun hcov => hn ?_⟩
      rw [covered_perm hcr', covered_cons] at hcov
      rw [covered_perm hcr, covered_cons]
      rcases hcov with hcov | hcov
      · have := hq.1
        have := hpar.1
        simp [vertsOf] at hcov
        omega
      · right; exact hcov

/-- in a cube of vertices nothing lies between the moving vertex and its parent -/
theorem none_between {g : RawGraph} (h : TreeGraph g) {c : List Factor} (hv : ∀ a b, Factor.edge a b ∉ c) (hf : ∀ f ∈ c, FactorOf g f)
    {p v : Nat} (hl : Least g c (.vertex v)) (hpar : Parent g p v) : ∀ z, Factor.vertex z ∈ c → ¬ (p < z ∧ z < v) := by
  intro z
  induction z using Nat.strong_induction_on with
  | _ z ih =>
    rintro hz ⟨h1, h2⟩
    obtain ⟨q, hq, -⟩ := h.dfs.parent z (by omega) (hf _ hz)
    have hle := parent_between h hpar h1 h2 hq
    have hcov : Covered c q := by
      by_contra hn
      exact hl.2.2 _ hz h2 ⟨q, hq, hn⟩
    have hqc : Factor.vertex q ∈ c := by
      obtain ⟨f, hfc, hfq⟩ := hcov
      cases f with
      | edge a b => exact absurd hfc (hv a b)
      | vertex w => simp [vertsOf] at hfq; subst hfq; exact hfc
    rcases Nat.lt_or_ge p q with hlt | hge
    · exact ih q hq.1 hqc ⟨hlt, lt_trans hq.1 h2⟩
    · obtain rfl : p = q := by omega
      obtain ⟨p', hp', hn⟩ := hl.2.1
      rw [Parent.unique h hp' hpar] at hn
      exact hn ⟨_, hqc, by simp [vertsOf]⟩

/-- no edge of the cube is a tree edge, and no vertex of the cube lies between the moving vertex and its parent -/
def Plain (g : RawGraph) (c : List Factor) : Prop :=
  (∀ a b, Factor.edge a b ∈ c → ¬ Parent g a b) ∧
    ∀ i v p, FirstElig g c i (.vertex v) → Parent g p v → ∀ z, Factor.vertex z ∈ c → ¬ (p < z ∧ z < v)

/-- the cube has only one tree edge -/
def OneTreeEdge (g : RawGraph) (c : List Factor) : Prop :=
  ∀ a b a' b', Factor.edge a b ∈ c → Factor.edge a' b' ∈ c → Parent g a b → Parent g a' b' → a = a'

theorem property_redundant {g : RawGraph} (h : TreeGraph g) {k : Nat} {c : List Factor} (hc : IsCell g k c) :
    IsRedundant g c ↔ ∃ i v, FirstElig g c i (.vertex v) := by
  obtain ⟨m, h1, -, h3, -⟩ := c60_property h hc
  unfold IsRedundant
  rw [h1]
  simp only [Option.some.injEq, h3]

theorem property_collapsible {g : RawGraph} (h : TreeGraph g) {k : Nat} {c : List Factor} (hc : IsCell g k c) :
    IsCollapsible g c ↔ ∃ i x y, FirstElig g c i (.edge x y) := by
  obtain ⟨m, h1, -, -, h4⟩ := c60_property h hc
  unfold IsCollapsible
  rw [h1]
  simp only [Option.some.injEq, h4]

theorem dimC_perm {c c' : List Factor} (h : c.Perm c') : dimC c = dimC c' := h.countP_eq _

theorem dimC_cons_edge (x y : Nat) (r : List Factor) : dimC (.edge x y :: r) = dimC r + 1 := List.countP_cons_of_pos rfl

theorem dimC_cons_vertex (x : Nat) (r : List Factor) : dimC (.vertex x :: r) = dimC r := List.countP_cons_of_neg (by simp)

theorem dimC_zero {c : List Factor} (h : dimC c = 0) : ∀ a b, Factor.edge a b ∉ c := by
  intro a b hm
  unfold dimC at h
  rw [List.countP_eq_zero] at h
  exact h _ hm rfl

/-- **C60**, the pairing (partial: only for cubes without tree edges and without vertices between the moving vertex and its parent, respectively with one
tree edge; without such a condition it is false, see `c60_pairing_false`): replacing the moving vertex by the tree edge to its parent is a bijection
between these redundant cubes of dimension `d` and these collapsible cubes of dimension `d + 1`. -/
theorem c60_pairing_partial {g : RawGraph} (h : TreeGraph g) (k d : Nat) :
    (∀ c, IsCell g k c → dimC c = d → IsRedundant g c → Plain g c →
      ∃! c', (IsCell g k c' ∧ dimC c' = d + 1 ∧ IsCollapsible g c' ∧ OneTreeEdge g c') ∧ Paired g c c') ∧
    (∀ c', IsCell g k c' → dimC c' = d + 1 → IsCollapsible g c' → OneTreeEdge g c' →
      ∃! c, (IsCell g k c ∧ dimC c = d ∧ IsRedundant g c ∧ Plain g c) ∧ Paired g c c') := by
  constructor
  · intro c hc hd hr hpl
    obtain ⟨i, v, hfe⟩ := (property_redundant h hc).mp hr
    obtain ⟨r, hcr, hset⟩ := split_at hfe.1
    obtain ⟨p, hpar, hncov⟩ := hfe.2.1
    have hl := least_of_first hc hfe
    have hpw := pairwise_perm hcr hc.disjoint
    rw [List.pairwise_cons] at hpw
    have hdis : (Factor.edge p v :: r).Pairwise (fun a b => ∀ v ∈ vertsOf a, v ∉ vertsOf b) := by
      rw [List.pairwise_cons]
      refine ⟨?_, hpw.2⟩
      intro f hf w hw
      simp only [vertsOf, List.mem_cons, List.not_mem_nil, or_false] at hw
      rcases hw with rfl | rfl
      · intro hwf; exact hncov ⟨f, hcr.mem_iff.mpr (by simp [hf]), hwf⟩
      · exact hpw.1 f hf w (by simp [vertsOf])
    have hfac : ∀ f ∈ Factor.edge p v :: r, FactorOf g f := by
      intro f hf
      rcases List.mem_cons.mp hf with rfl | hf
      · exact factor_edge h hpar
      · exact hc.factors f (hcr.mem_iff.mpr (by simp [hf]))
    have hlen : (Factor.edge p v :: r).length = k := by rw [← hc.length, hcr.length_eq]; simp
    obtain ⟨hcell, hperm⟩ := cell_of_perm hlen hfac hdis
    have hte : ∀ a b, Factor.edge a b ∈ r → ¬ Parent g a b := fun a b hab => hpl.1 a b (hcr.mem_iff.mpr (by simp [hab]))
    have hbt : ∀ z, Factor.vertex z ∈ r → ¬ (p < z ∧ z < v) := fun z hz => hpl.2 i v p hfe hpar z (hcr.mem_iff.mpr (by simp [hz]))
    have hl' := least_up hcr hperm hl hpar hbt hte
    obtain ⟨j, hj⟩ := first_of_least hcell hl'
    have hone : ∀ a b, Factor.edge a b ∈ Factor.sort (.edge p v :: r) → Parent g a b → a = p := by
      intro a b hab hp
      rcases List.mem_cons.mp (hperm.mem_iff.mp hab) with e | hab
      · injection e
      · exact absurd hp (hte a b hab)
    refine ⟨Factor.sort (.edge p v :: r), ⟨⟨hcell, ?_, (property_collapsible h hcell).mpr ⟨j, p, v, hj⟩, ?_⟩, i, v, p, hfe, hpar, hperm.trans (hset _).symm⟩, ?_⟩
    · rw [dimC_perm hperm, dimC_cons_edge, ← hd, dimC_perm hcr, dimC_cons_vertex]
    · intro a b a' b' h1 h2 h3 h4; rw [hone a b h1 h3, hone a' b' h2 h4]
    · rintro c'' ⟨⟨k1, -, -⟩, i', v', p', k2, k3, k4⟩
      obtain ⟨rfl, e⟩ := firstElig_unique k2 hfe
      injection e with e; subst e
      rw [Parent.unique h k3 hpar] at k4
      exact cell_eq_of_perm k1 hcell (k4.trans ((hset _).trans hperm.symm))
  · intro c' hc' hd hr hone
    obtain ⟨i, x, y, hfe⟩ := (property_collapsible h hc').mp hr
    obtain ⟨r, hcr', hset⟩ := split_at hfe.1
    have hpar : Parent g x y := hfe.2.1.1
    have hl := least_of_first hc' hfe
    have hpw := pairwise_perm hcr' hc'.disjoint
    rw [List.pairwise_cons] at hpw
    have hdis : (Factor.vertex y :: r).Pairwise (fun a b => ∀ v ∈ vertsOf a, v ∉ vertsOf b) := by
      rw [List.pairwise_cons]
      refine ⟨?_, hpw.2⟩
      intro f hf w hw
      simp only [vertsOf, List.mem_cons, List.not_mem_nil, or_false] at hw
      subst hw
      exact hpw.1 f hf w (by simp [vertsOf])
    have hfac : ∀ f ∈ Factor.vertex y :: r, FactorOf g f := by
      intro f hf
      rcases List.mem_cons.mp hf with rfl | hf
      · exact parent_lt h.built hpar
      · exact hc'.factors f (hcr'.mem_iff.mpr (by simp [hf]))
    have hlen : (Factor.vertex y :: r).length = k := by rw [← hc'.length, hcr'.length_eq]; simp
    obtain ⟨hcell, hperm⟩ := cell_of_perm hlen hfac hdis
    have hx : ∀ f ∈ r, x ∉ vertsOf f := fun f hf => hpw.1 f hf x (by simp [vertsOf])
    have hte : ∀ a b, Factor.edge a b ∈ r → ¬ Parent g a b := by
      intro a b hab hp
      have := hone a b x y (hcr'.mem_iff.mpr (by simp [hab])) (hcr'.mem_iff.mpr (by simp)) hp hpar
      exact hx _ hab (by simp [vertsOf, this])
    have hl' := least_down hperm hcr' hx hl hte
    obtain ⟨j, hj⟩ := first_of_least hcell hl'
    obtain ⟨r', hr1, hr2⟩ := split_at hj.1
    have hrr : r'.Perm r := (List.perm_cons _).mp (hr1.symm.trans hperm)
    refine ⟨Factor.sort (.vertex y :: r), ⟨⟨hcell, ?_, (property_redundant h hcell).mpr ⟨j, y, hj⟩, ?_, ?_⟩, j, y, x, hj, hpar, ?_⟩, ?_⟩
    · rw [dimC_perm hperm, dimC_cons_vertex]
      rw [dimC_perm hcr', dimC_cons_edge] at hd
      omega
    · intro a b hab
      rcases List.mem_cons.mp (hperm.mem_iff.mp hab) with e | hab
      · cases e
      · exact hte a b hab
    · intro i' v' p' k1 k2 z hz
      obtain ⟨-, e⟩ := firstElig_unique k1 hj
      injection e with e; subst e
      rw [Parent.unique h k2 hpar]
      rcases List.mem_cons.mp (hperm.mem_iff.mp hz) with e | hz
      · injection e with e; omega
      · exact hfe.2.1.2 z (hcr'.mem_iff.mpr (by simp [hz]))
    · exact hcr'.trans ((hrr.symm.cons _).trans (hr2 _).symm)
    · rintro c'' ⟨⟨k1, -, -, k2, -⟩, i', v', p', k3, k4, k5⟩
      obtain ⟨r'', hr3, hr4⟩ := split_at k3.1
      have hp2 : (Factor.edge p' v' :: r'').Perm (.edge x y :: r) := (hr4 _).symm.trans (k5.symm.trans hcr')
      have hte'' : ∀ a b, Factor.edge a b ∈ r'' → ¬ Parent g a b := fun a b hab => k2 a b (hr3.mem_iff.mpr (by simp [hab]))
      have heq : Factor.edge x y = .edge p' v' := by
        rcases List.mem_cons.mp (hp2.mem_iff.mpr (List.mem_cons_self (a := Factor.edge x y) (l := r))) with e | e
        · exact e
        · exact absurd hpar (hte'' x y e)
      injection heq with e1 e2
      subst e1 e2
      have hp3 := (List.perm_cons _).mp hp2
      exact cell_eq_of_perm k1 hcell (hr3.trans ((hp3.cons _).trans hperm.symm))

/-- **C60**, the pairing for cubes of dimension 0 and 1, where no condition is needed: every redundant configuration of vertices is paired with exactly one
collapsible cube of dimension 1, and every collapsible cube of dimension 1 with exactly one redundant configuration. -/
theorem c60_pairing_zero {g : RawGraph} (h : TreeGraph g) (k : Nat) :
    (∀ c, IsCell g k c → dimC c = 0 → IsRedundant g c → ∃! c', (IsCell g k c' ∧ dimC c' = 1 ∧ IsCollapsible g c') ∧ Paired g c c') ∧
    (∀ c', IsCell g k c' → dimC c' = 1 → IsCollapsible g c' → ∃! c, (IsCell g k c ∧ dimC c = 0 ∧ IsRedundant g c) ∧ Paired g c c') := by
  have hplain : ∀ c, IsCell g k c → dimC c = 0 → Plain g c := by
    intro c hc hd
    refine ⟨fun a b hab => absurd hab (dimC_zero hd a b), ?_⟩
    intro i v p hfe hp
    exact none_between h (dimC_zero hd) hc.factors (least_of_first hc hfe) hp
  have hone : ∀ c, IsCell g k c → dimC c = 1 → OneTreeEdge g c := by
    intro c hc hd a b a' b' h1 h2 _ _
    obtain ⟨i, hi⟩ := List.mem_iff_getElem?.mp h1
    obtain ⟨r, hr, -⟩ := split_at hi
    rw [dimC_perm hr, dimC_cons_edge] at hd
    rcases List.mem_cons.mp (hr.mem_iff.mp h2) with e | e
    · injection e with e1 e2; exact e1.symm
    · exact absurd e (dimC_zero (by omega) a' b')
  obtain ⟨k1, k2⟩ := c60_pairing_partial h k 0
  constructor
  · intro c hc hd hr
    obtain ⟨c', ⟨⟨a1, a2, a3, a4⟩, a5⟩, a6⟩ := k1 c hc hd hr (hplain c hc hd)
    refine ⟨c', ⟨⟨a1, a2, a3⟩, a5⟩, ?_⟩
    rintro c'' ⟨⟨b1, b2, b3⟩, b4⟩
    exact a6 c'' ⟨⟨b1, b2, b3, hone c'' b1 b2⟩, b4⟩
  · intro c' hc hd hr
    obtain ⟨c, ⟨⟨a1, a2, a3, a4⟩, a5⟩, a6⟩ := k2 c' hc hd hr (hone c' hc hd)
    refine ⟨c, ⟨⟨a1, a2, a3⟩, a5⟩, ?_⟩
    rintro c'' ⟨⟨b1, b2, b3⟩, b4⟩
    exact a6 c'' ⟨⟨b1, b2, b3, hplain c'' b1 b2⟩, b4⟩

/-- a decidable form of `IsCell` -/
def cellB (g : RawGraph) (k : Nat) (c : List Factor) : Bool :=
  decide (c.length = k) && c.all (fun f => match f with
    | .vertex v => decide (v < g.n)
    | .edge x y => decide (x < y) && decide (g.contains (min x y) (max x y) = some true)) &&
  decide (c.Pairwise (fun a b => ∀ v ∈ vertsOf a, v ∉ vertsOf b)) && decide (c.Pairwise (fun a b => firstOf a < firstOf b))

theorem isCell_of_cellB {g : RawGraph} {k : Nat} {c : List Factor} (h : cellB g k c = true) : IsCell g k c := by
  unfold cellB at h
  simp only [Bool.and_eq_true, decide_eq_true_eq, List.all_eq_true] at h
  obtain ⟨⟨⟨h1, h2⟩, h3⟩, h4⟩ := h
  refine ⟨h1, ?_, h3, h4⟩
  intro f hf
  have := h2 f hf
  cases f with
  | vertex v => exact of_decide_eq_true (p := v < g.n) this
  | edge x y => simpa [FactorOf, Edge] using this

/-- the tree with the paths `0-1-2-3`, `2-4` and `1-5` (the numbers are those after the tree has been chosen) -/
def twoForks : Option RawGraph := treed 6 [.add 0 1, .add 1 2, .add 2 3, .add 2 4, .add 1 5]

/-- the tree with the paths `0-1-2-3-4-5-6`, `4-7-8` and `2-9-10`, sufficiently subdivided for three points -/
def twoLongForks : Option RawGraph :=
  treed 11 [.add 0 1, .add 1 2, .add 2 3, .add 3 4, .add 4 5, .add 5 6, .add 4 7, .add 7 8, .add 2 9, .add 9 10]

/-- **C60**, the pairing is false in general, even on a tree with three points: on a sufficiently subdivided tree with two essential vertices `2` and `4` the cube `{[4,7], 5, 9}` is redundant,
its moving vertex is `9`, but `{[2,9], [4,7], 5}`, the only cube it could be paired with, is not collapsible but critical. -/
theorem c60_pairing_false : ∃ g c, TreeGraph g ∧ IsCell g 3 c ∧ IsRedundant g c ∧
    (∃ c', IsCell g 3 c' ∧ Paired g c c') ∧ ∀ c', IsCell g 3 c' → Paired g c c' → property g c' = some .critical := by
  have h1 : twoLongForks.map (fun g => cellB g 3 [.edge 4 7, .vertex 5, .vertex 9] && cellB g 3 [.edge 2 9, .edge 4 7, .vertex 5] && (g.treeContains 2 9 == some true) &&
      (property g [.edge 4 7, .vertex 5, .vertex 9] == some (.redundant 2)) && (property g [.edge 2 9, .edge 4 7, .vertex 5] == some .critical)) = some true := by
    decide +kernel
  cases ht : twoLongForks with
  | none => rw [ht] at h1; cases h1
  | some g =>
    rw [ht] at h1
    simp only [Option.map_some, Option.some.injEq, Bool.and_eq_true, beq_iff_eq] at h1
    obtain ⟨⟨⟨⟨a1, a2⟩, a3⟩, a4⟩, a5⟩ := h1
    have hT : TreeGraph g := treeGraph_of_treed (by omega) (by decide) (by decide +kernel) ht
    have c1 := isCell_of_cellB a1
    have c2 := isCell_of_cellB a2
    have hp : Parent g 2 9 := ⟨by omega, a3⟩
    obtain ⟨m, m1, -, m3, -⟩ := c60_property hT c1
    rw [a4] at m1
    injection m1 with m1
    obtain ⟨v, hv⟩ := (m3 2).mp m1.symm
    have hv5 : v = 9 := by have := hv.1; simpa using this.symm
    subst hv5
    refine ⟨g, _, hT, c1, ⟨2, a4⟩, ⟨_, c2, 2, 9, 2, hv, hp, by decide⟩, ?_⟩
    rintro c' hc' ⟨i, v, p, k1, k2, k3⟩
    obtain ⟨rfl, e⟩ := firstElig_unique k1 hv
    injection e with e; subst e
    rw [Parent.unique hT k2 hp] at k3
    have : c' = [.edge 2 9, .edge 4 7, .vertex 5] := cell_eq_of_perm hc' c2 (k3.trans (by decide))
    rw [this]; exact a5

/-! ### The flow -/

/-- One step of the flow: the first factor that can move or is collapsing is a vertex `v`, nothing of the cube is at its parent `p` or between, and it moves
to `p`. -/
def Move (g : RawGraph) (c c2 : List Factor) : Prop :=
  ∃ i v p, FirstElig g c i (.vertex v) ∧ Parent g p v ∧ (∀ w, p ≤ w → w < v → ¬ Covered c w) ∧ c2.Perm (c.set i (.vertex p))

/-- the sum of the first vertices -/
def ordSum (c : List Factor) : Nat := (c.map firstOf).sum

theorem ordSum_perm {c c' : List Factor} (h : c.Perm c') : ordSum c = ordSum c' := (h.map _).sum_eq

theorem ordSum_cons (f : Factor) (c : List Factor) : ordSum (f :: c) = firstOf f + ordSum c := by simp [ordSum]

theorem mem_otherVertices (v : Nat) (c : List Factor) (w : Nat) : w ∈ otherVertices v c ↔ ∃ f ∈ c, f ≠ .vertex v ∧ w ∈ vertsOf f := by
  unfold otherVertices
  simp only [List.mem_flatMap, List.mem_filter, bne_iff_ne, ne_eq, and_assoc]
  refine exists_congr fun f => and_congr_right fun _ => and_congr_right fun _ => ?_
  cases f with
  | vertex x => simp [vertsOf]
  | edge x y => simp [vertsOf, or_comm]

theorem special_iff {g : RawGraph} {k : Nat} {c : List Factor} (hc : IsCell g k c) {v p : Nat} (hv : Factor.vertex v ∈ c) :
    (otherVertices v c).all (fun w => decide (w < p) || decide (v < w)) = true ↔ ∀ w, p ≤ w → w < v → ¬ Covered c w := by
  rw [List.all_eq_true]
  simp only [mem_otherVertices, Bool.or_eq_true, decide_eq_true_eq]
  constructor
  · rintro h w h1 h2 ⟨f, hf, hw⟩
    have hne : f ≠ .vertex v := by
      rintro rfl
      simp [vertsOf] at hw; omega
    have := h w ⟨f, hf, hne, hw⟩
    omega
  · rintro h w ⟨f, hf, hne, hw⟩
    by_contra hcon
    push Not at hcon
    rcases Nat.lt_or_ge w v with hlt | hge
    · exact h w hcon.1 hlt ⟨f, hf, hw⟩
    · obtain rfl : w = v := by omega
      obtain ⟨i, hi⟩ := List.mem_iff_getElem?.mp hv
      obtain ⟨r, hr, -⟩ := split_at hi
      have hpw := pairwise_perm hr hc.disjoint
      rw [List.pairwise_cons] at hpw
      rcases List.mem_cons.mp (hr.mem_iff.mp hf) with e | e
      · exact hne e
      · exact hpw.1 f e w (by simp [vertsOf]) hw

/-- replacing a vertex by something disjoint from the rest -/
theorem cell_replace {g : RawGraph} {k : Nat} {c : List Factor} (hc : IsCell g k c) {i v : Nat} (hi : c[i]? = some (.vertex v)) (f : Factor) (hf : FactorOf g f)
    (hd : ∀ w ∈ vertsOf f, w ≠ v → ¬ Covered c w) : IsCell g k (Factor.sort (c.set i f)) ∧ (Factor.sort (c.set i f)).Perm (c.set i f) := by
  obtain ⟨r, hr, hset⟩ := split_at hi
  have hpw := pairwise_perm hr hc.disjoint
  rw [List.pairwise_cons] at hpw
  refine cell_of_perm ?_ ?_ ?_
  · rw [List.length_set]; exact hc.length
  · intro f' hf'
    rcases List.mem_cons.mp ((hset f).mem_iff.mp hf') with rfl | hm
    · exact hf
    · exact hc.factors f' (hr.mem_iff.mpr (by simp [hm]))
  · refine pairwise_perm (hset f).symm ?_
    rw [List.pairwise_cons]
    refine ⟨?_, hpw.2⟩
    intro f' hf' w hw hw'
    by_cases hwv : w = v
    · subst hwv
      exact hpw.1 f' hf' w (by simp [vertsOf]) hw'
    · exact hd w hw hwv ⟨f', hr.mem_iff.mpr (by simp [hf']), hw'⟩

/-- what `flow` answers at the end of the moves -/
def FlowEnd (g : RawGraph) (e : List Factor) (r : Option Ch) : Prop :=
  (property g e = some .critical ∧ r = some [(1, e)]) ∨ (IsCollapsible g e ∧ r = some []) ∨
    (IsRedundant g e ∧ 0 < dimC e ∧ r = none)

theorem flow_step {g : RawGraph} (h : TreeGraph g) {k : Nat} {c : List Factor} (hc : IsCell g k c) {i v p : Nat} (hpr : property g c = some (.redundant i))
    (hfe : FirstElig g c i (.vertex v)) (hp : Parent g p v) (hn : ¬ Covered c p) :
    ((∀ w, p ≤ w → w < v → ¬ Covered c w) → ∀ fuel, flowC g (fuel + 1) c = flowC g fuel (Factor.sort (c.set i (.vertex p)))) ∧
    (¬ (∀ w, p ≤ w → w < v → ¬ Covered c w) → 0 < dimC c → ∀ fuel, flowC g (fuel + 1) c = none) := by
  have hfl : Factor.flow g (.vertex v) = some (.edge p v) := by
    have hv0 : v ≠ 0 := by have := hp.1; omega
    simp only [Factor.flow, if_neg hv0, (findParent_iff h hv0 (parent_lt h.built hp)).mpr hp, Option.map_some]
  have hsp := special_iff hc (p := p) (List.mem_of_getElem? hfe.1)
  constructor
  · intro hs fuel
    rw [flowC]
    simp only [hpr, hfe.1, hfl]
    rw [if_pos (hsp.mpr hs)]
  · intro hs hd fuel
    have hup : IsCell g k (Factor.sort (c.set i (.edge p v))) ∧ (Factor.sort (c.set i (.edge p v))).Perm (c.set i (.edge p v)) := by
      refine cell_replace hc hfe.1 _ (factor_edge h hp) ?_
      intro w hw hne
      simp only [vertsOf, List.mem_cons, List.not_mem_nil, or_false] at hw
      rcases hw with rfl | rfl
      · exact hn
      · exact absurd rfl hne
    have hdim : 2 ≤ dimC (Factor.sort (c.set i (.edge p v))) := by
      obtain ⟨r, hr, hset⟩ := split_at hfe.1
      rw [dimC_perm hup.2, dimC_perm (hset _), dimC_cons_edge]
      rw [dimC_perm hr, dimC_cons_vertex] at hd
      omega
    have hb := c58_get_boundary_false hup.1 hdim
    rw [flowC]
    simp only [hpr, hfe.1, hfl]
    rw [if_neg (fun hh => hs (hsp.mp hh))]
    simp only [hb]

theorem flow_spec {g : RawGraph} (h : TreeGraph g) {k : Nat} : ∀ (s : Nat) (c : List Factor), IsCell g k c → ordSum c = s →
    ∃ e r, IsCell g k e ∧ dimC e = dimC c ∧ Relation.ReflTransGen (Move g) c e ∧ (∀ e', ¬ Move g e e') ∧ (∀ fuel, s < fuel → flowC g fuel c = r) ∧ FlowEnd g e r := by
  intro s
  induction s using Nat.strong_induction_on with
  | _ s ih =>
  intro c hc hs
  have nomove : (∀ i v, ¬ FirstElig g c i (.vertex v)) → ∀ e', ¬ Move g c e' := by
    rintro hno e' ⟨i, v, p, h1, -⟩; exact hno i v h1
  rcases property_cases h hc.factors with ⟨k1, k2⟩ | ⟨i, v, k1, k2⟩ | ⟨i, x, y, k1, k2⟩
  · refine ⟨c, some [(1, c)], hc, rfl, .refl, nomove ?_, ?_, Or.inl ⟨k1, rfl⟩⟩
    · intro i v hfe; exact k2 _ (List.mem_of_getElem? hfe.1) hfe.2.1
    · intro fuel hf
      obtain ⟨fuel, rfl⟩ : ∃ n, fuel = n + 1 := ⟨fuel - 1, by omega⟩
      rw [flowC]; simp only [k1]
  · obtain ⟨p, hp, hn⟩ := k2.2.1
    obtain ⟨s1, s2⟩ := flow_step h hc k1 k2 hp hn
    by_cases hsp : ∀ w, p ≤ w → w < v → ¬ Covered c w
    · obtain ⟨hcell, hperm⟩ := cell_replace hc k2.1 (.vertex p) (show p < g.n from lt_trans hp.1 (parent_lt h.built hp)) (by
        intro w hw hne
        simp only [vertsOf, List.mem_cons, List.not_mem_nil, or_false] at hw
        subst hw; exact hn)
      obtain ⟨r, hr, hset⟩ := split_at k2.1
      have hdim : dimC (Factor.sort (c.set i (.vertex p))) = dimC c := by
        rw [dimC_perm hperm, dimC_perm (hset _), dimC_perm hr, dimC_cons_vertex, dimC_cons_vertex]
      have hlt : ordSum (Factor.sort (c.set i (.vertex p))) < s := by
        rw [← hs, ordSum_perm hperm, ordSum_perm (hset _), ordSum_perm hr, ordSum_cons, ordSum_cons]
        have := hp.1
        simp only [firstOf]; omega
      obtain ⟨e, res, a1, a2, a3, a4, a5, a6⟩ := ih _ hlt _ hcell rfl
      refine ⟨e, res, a1, a2.trans hdim, .head ⟨i, v, p, k2, hp, hsp, hperm⟩ a3, a4, ?_, a6⟩
      intro fuel hf
      obtain ⟨fuel, rfl⟩ : ∃ n, fuel = n + 1 := ⟨fuel - 1, by omega⟩
      rw [s1 hsp fuel]
      exact a5 fuel (by omega)
    · have hd : 0 < dimC c := by
        by_contra h0
        refine hsp ?_
        have hz := dimC_zero (c := c) (by omega)
        rintro w h1 h2 ⟨f, hf, hw⟩
        cases f with
        | edge a b => exact hz a b hf
        | vertex z =>
          simp only [vertsOf, List.mem_cons, List.not_mem_nil, or_false] at hw
          subst hw
          rcases Nat.lt_or_ge p w with h3 | h3
          · exact none_between h hz hc.factors (least_of_first hc k2) hp w hf ⟨h3, h2⟩
          · obtain rfl : w = p := by omega
            exact hn ⟨_, hf, by simp [vertsOf]⟩
      refine ⟨c, none, hc, rfl, .refl, ?_, ?_, Or.inr (Or.inr ⟨⟨i, k1⟩, hd, rfl⟩)⟩
      · rintro e' ⟨i', v', p', b1, b2, b3, -⟩
        obtain ⟨-, e⟩ := firstElig_unique b1 k2
        injection e with e; subst e
        rw [Parent.unique h b2 hp] at b3
        exact hsp b3
      · intro fuel hf
        obtain ⟨fuel, rfl⟩ : ∃ n, fuel = n + 1 := ⟨fuel - 1, by omega⟩
        exact s2 hsp hd fuel
  · refine ⟨c, some [], hc, rfl, .refl, nomove ?_, ?_, Or.inr (Or.inl ⟨⟨i, k1⟩, rfl⟩)⟩
    · intro i' v hfe
      have := (firstElig_unique k2 hfe).2
      cases this
    · intro fuel hf
      obtain ⟨fuel, rfl⟩ : ∃ n, fuel = n + 1 := ⟨fuel - 1, by omega⟩
      rw [flowC]; simp only [k1]

/-- **C60**, the flow (partial: it may end in a panic, see `c60_flow_false`): for every cube it ends after at most as many steps as the sum of the positions of
the factors.  Vertices move to their parents, the first that can move first, as long as nothing of the cube is at the parent or between; the cube `e` so
reached is a cube of the same dimension; the result is `e` if `e` is critical and zero if it is collapsible; if it is redundant, which does not happen in
dimension 0, the flow panics. -/
theorem c60_flow_partial {g : RawGraph} (h : TreeGraph g) {k : Nat} {c : List Factor} (hc : IsCell g k c) :
    ∃ e r, (∀ fuel, ordSum c < fuel → flowC g fuel c = r) ∧ IsCell g k e ∧ dimC e = dimC c ∧ Relation.ReflTransGen (Move g) c e ∧ (∀ e', ¬ Move g e e') ∧
      ((property g e = some .critical ∧ r = some [(1, e)]) ∨ (IsCollapsible g e ∧ r = some []) ∨ (IsRedundant g e ∧ 0 < dimC e ∧ r = none)) := by
  obtain ⟨e, r, a1, a2, a3, a4, a5, a6⟩ := flow_spec h _ c hc rfl
  exact ⟨e, r, a5, a1, a2, a3, a4, a6⟩

/-- **C60**, the flow of a configuration of vertices: it succeeds and is a single critical configuration, in which every vertex except `0` has its parent in the
configuration; if the tree does not branch before the `k`-th vertex it is the base configuration `0, …, k-1`. -/
theorem c60_flow_zero {g : RawGraph} (h : TreeGraph g) {k : Nat} {c : List Factor} (hc : IsCell g k c) (hd : dimC c = 0) :
    ∃ e : List Nat, (∀ fuel, ordSum c < fuel → flowC g fuel c = some [(1, e.map Factor.vertex)]) ∧ IsCell g k (e.map Factor.vertex) ∧
      property g (e.map Factor.vertex) = some .critical ∧ (∀ v ∈ e, ∀ p, Parent g p v → p ∈ e) ∧ (Stem g k → e = List.range k) := by
  obtain ⟨e, r, a5, a1, a2, a3, a4, a6⟩ := c60_flow_partial h hc
  obtain ⟨vs, rfl⟩ : ∃ vs : List Nat, e = vs.map Factor.vertex := by
    rw [hd, dimC_eq] at a2
    exact no_edges a2
  have hcov : ∀ w, Covered (vs.map Factor.vertex) w ↔ w ∈ vs := by
    intro w; simp [Covered, vertsOf]
  rcases a6 with ⟨b1, b2⟩ | ⟨b1, b2⟩ | ⟨b1, b2, -⟩
  · have hbl : ∀ v ∈ vs, ∀ p, Parent g p v → p ∈ vs := by
      intro v hv p hp
      obtain ⟨m, m1, m2, -⟩ := c60_property h a1
      rw [b1] at m1; injection m1 with m1
      have := m2.mp m1.symm (.vertex v) (List.mem_map.mpr ⟨v, hv, rfl⟩)
      by_contra hn
      exact this ⟨p, hp, fun hc => hn ((hcov p).mp hc)⟩
    refine ⟨vs, by rw [b2] at a5; exact a5, a1, b1, hbl, ?_⟩
    intro hs
    have hl : vs.length = k := by have := a1.length; simpa using this
    have hsorted : vs.Pairwise (· < ·) := by have := a1.sorted; rw [List.pairwise_map] at this; exact this
    have hnd : vs.Nodup := hsorted.imp (fun h => Nat.ne_of_lt h)
    have hp := blocked_base h (c := vs) (by rw [hl]; exact hs) (fun v hv => a1.factors (.vertex v) (List.mem_map.mpr ⟨v, hv, rfl⟩)) hnd hbl
    rw [hl] at hp
    exact hp.eq_of_pairwise (fun a b _ _ h1 h2 => absurd h1 (by omega)) hsorted List.pairwise_lt_range
  · obtain ⟨i, x, y, hfe⟩ := (property_collapsible h a1).mp b1
    have := List.mem_of_getElem? hfe.1
    simp at this
  · omega

/-- **C60**, the flow may panic: on the same tree the flow of `{[4,7], 5, 9}` panics. -/
theorem c60_flow_false : ∃ g c, TreeGraph g ∧ IsCell g 3 c ∧ dimC c = 1 ∧ ∀ fuel, ordSum c < fuel → flowC g fuel c = none := by
  have h1 : twoLongForks.map (fun g => cellB g 3 [.edge 4 7, .vertex 5, .vertex 9] && (flowC g 19 [.edge 4 7, .vertex 5, .vertex 9] == none)) = some true := by
    decide +kernel
  cases ht : twoLongForks with
  | none => rw [ht] at h1; cases h1
  | some g =>
    rw [ht] at h1
    simp only [Option.map_some, Option.some.injEq, Bool.and_eq_true, beq_iff_eq] at h1
    obtain ⟨a1, a2⟩ := h1
    have hT : TreeGraph g := treeGraph_of_treed (by omega) (by decide) (by decide +kernel) ht
    have c1 := isCell_of_cellB a1
    refine ⟨g, _, hT, c1, rfl, ?_⟩
    obtain ⟨e, r, k1, k2⟩ := c60_flow_partial hT c1
    have hr : r = none := (k1 19 (by decide)).symm.trans a2
    intro fuel hf
    rw [k1 fuel hf, hr]

/-! ### The ends of an edge -/

/-- **C60**, `get_ends`: for a cube with one edge the two ends are the configurations with the first and the second end of the edge in its place, all in range
and without repetitions; for every other cube it panics. -/
theorem c60_get_ends {g : RawGraph} (hg : Built g) {k : Nat} {c : List Factor} (hc : IsCell g k c) :
    (dimC c ≠ 1 → getEnds c = none) ∧
    ∀ (i x y : Nat), dimC c = 1 → c[i]? = some (.edge x y) → getEnds c = some (c.set i (.vertex x), c.set i (.vertex y)) ∧
      (c.set i (.vertex x)).Pairwise (fun a b => ∀ v ∈ vertsOf a, v ∉ vertsOf b) ∧ (c.set i (.vertex y)).Pairwise (fun a b => ∀ v ∈ vertsOf a, v ∉ vertsOf b) ∧
      IsCell g k (c.set i (.vertex x)) ∧ IsCell g k (Factor.sort (c.set i (.vertex y))) := by
  have e0 : c.countP Factor.isEdge = dimC c := (dimC_eq c).symm
  refine ⟨?_, ?_⟩
  · intro h; unfold getEnds; rw [e0, if_neg h]
  · intro i x y h hi
    obtain ⟨hil, hie⟩ := List.getElem?_eq_some_iff.mp hi
    have hsplit : c = c.take i ++ .edge x y :: c.drop (i + 1) := by
      rw [← hie]; simp
    have hz : dimC (c.take i) = 0 ∧ dimC (c.drop (i + 1)) = 0 := by
      have := h
      rw [hsplit] at this
      unfold dimC at this ⊢
      rw [List.countP_append, List.countP_cons_of_pos rfl] at this
      omega
    have hset : ∀ v, c.set i (.vertex v) = c.take i ++ .vertex v :: c.drop (i + 1) := by
      intro v; rw [List.set_eq_take_append_cons_drop, if_pos hil]
    obtain ⟨vs, hvs⟩ := no_edges (c := c.take i) (by have := hz.1; rwa [dimC_eq] at this)
    obtain ⟨ws, hws⟩ := no_edges (c := c.drop (i + 1)) (by have := hz.2; rwa [dimC_eq] at this)
    have hvalid := (valid_iff c).mpr ⟨hc.disjoint, hc.sorted⟩
    have hv2 := hvalid
    rw [hsplit] at hv2
    obtain ⟨hxy, he⟩ : x < y ∧ Edge g x y := hc.factors _ (List.mem_of_getElem? hi)
    have hlt := ((edge_iff hg _ _).mp he).lt
    have hdis : ∀ v, v = x ∨ v = y → (c.set i (.vertex v)).Pairwise (fun a b => ∀ v ∈ vertsOf a, v ∉ vertsOf b) := by
      intro v hv
      rw [hset]
      have := face_disjoint hv2.disjoint hv
      exact this.imp (fun h => (disj_iff _ _).mpr h)
    have hfac : ∀ v, v < g.n → ∀ f ∈ c.set i (.vertex v), FactorOf g f := by
      intro v hv f hf
      rcases List.mem_or_eq_of_mem_set hf with hf | rfl
      · exact hc.factors f hf
      · exact hv
    have hlow := (valid_iff _).mp (lower_valid hv2)
    refine ⟨?_, hdis x (Or.inl rfl), hdis y (Or.inr rfl), ⟨?_, hfac x hlt.1, hdis x (Or.inl rfl), ?_⟩, ?_⟩
    · unfold getEnds
      rw [e0, if_pos h]
      have hm : ∀ (φ : Factor → Factor), (∀ v, φ (.vertex v) = .vertex v) → c.map φ = c.take i ++ φ (.edge x y) :: c.drop (i + 1) := by
        intro φ hφ
        conv_lhs => rw [hsplit]
        rw [List.map_append, List.map_cons, hvs, hws, List.map_map, List.map_map]
        congr 1
        · exact List.map_congr_left (fun v _ => hφ v)
        · congr 1
          exact List.map_congr_left (fun v _ => hφ v)
      rw [hm _ (fun v => rfl), hm _ (fun v => rfl), hset, hset]
    · rw [List.length_set]; exact hc.length
    · rw [hset]; exact hlow.2
    · exact (cell_of_perm (by rw [List.length_set]; exact hc.length) (hfac y hlt.2.1) (hdis y (Or.inr rfl))).1

/-- The hypotheses of **C60** are met: on the tree `0-1-2-3`, `2-4`, `1-5` there are cubes of all three classes, the flow of `{3, 4, 5}` is the
configuration `{0, 1, 5}` and that of `{[1,5], 3, 4}` is `{[1,5], 2, 4}`. -/
example : ∃ g, TreeGraph g ∧ IsCell g 3 [.vertex 3, .vertex 4, .vertex 5] ∧ property g [.vertex 3, .vertex 4, .vertex 5] = some (.redundant 0) ∧
    flowC g 13 [.vertex 3, .vertex 4, .vertex 5] = some [(1, [.vertex 0, .vertex 1, .vertex 5])] ∧
    IsCell g 3 [.vertex 0, .edge 1 2, .vertex 5] ∧ property g [.vertex 0, .edge 1 2, .vertex 5] = some (.collapsible 1) ∧
    IsCell g 3 [.vertex 0, .edge 1 5, .vertex 2] ∧ property g [.vertex 0, .edge 1 5, .vertex 2] = some .critical ∧
    flowC g 12 [.edge 1 5, .vertex 3, .vertex 4] = some [(1, [.edge 1 5, .vertex 2, .vertex 4])] := by
  have h1 : twoForks.map (fun g => cellB g 3 [.vertex 3, .vertex 4, .vertex 5] && cellB g 3 [.vertex 0, .edge 1 2, .vertex 5] && cellB g 3 [.vertex 0, .edge 1 5, .vertex 2] &&
      (property g [.vertex 3, .vertex 4, .vertex 5] == some (.redundant 0)) && (flowC g 13 [.vertex 3, .vertex 4, .vertex 5] == some [(1, [.vertex 0, .vertex 1, .vertex 5])]) &&
      (property g [.vertex 0, .edge 1 2, .vertex 5] == some (.collapsible 1)) && (property g [.vertex 0, .edge 1 5, .vertex 2] == some .critical) &&
      (flowC g 12 [.edge 1 5, .vertex 3, .vertex 4] == some [(1, [.edge 1 5, .vertex 2, .vertex 4])])) = some true := by
    decide +kernel
  cases ht : twoForks with
  | none => rw [ht] at h1; cases h1
  | some g =>
    rw [ht] at h1
    simp only [Option.map_some, Option.some.injEq, Bool.and_eq_true, beq_iff_eq] at h1
    obtain ⟨⟨⟨⟨⟨⟨⟨a1, a2⟩, a3⟩, a4⟩, a5⟩, a6⟩, a7⟩, a8⟩ := h1
    exact ⟨g, treeGraph_of_treed (by omega) (by decide) (by decide +kernel) ht, isCell_of_cellB a1, a4, a5, isCell_of_cellB a2, a6, isCell_of_cellB a3, a7, a8⟩

end Toppo.CubeProps
