import Verif.Proof.CellSet
import Verif.Proof.TreeSub
import Verif.Props.Homology
import Mathlib.LinearAlgebra.Pi
import Mathlib.Algebra.BigOperators.Pi
import Mathlib.Algebra.Order.BigOperators.Group.Finset
set_option linter.unusedVariables false

/-! The first homology of the configuration space of a tree. -/
namespace Toppo.CubeProps
open Toppo RawGraph Cub GraphProps EdgePath

/-! ### Pairs -/

open Classical in
/-- the parent of a vertex -/
noncomputable def par (g : RawGraph) (v : Nat) : Nat := if h : ∃ p, Parent g p v then h.choose else 0

theorem par_spec {g : RawGraph} (h : TreeGraph g) {v : Nat} (h0 : 0 < v) (hv : v < g.n) : Parent g (par g v) v := by
  obtain ⟨p, hp, -⟩ := h.dfs.parent v h0 hv
  have : ∃ p, Parent g p v := ⟨p, hp⟩
  unfold par
  rw [dif_pos this]
  exact this.choose_spec

theorem par_eq {g : RawGraph} (h : TreeGraph g) {p v : Nat} (hp : Parent g p v) : par g v = p :=
  Parent.unique h (par_spec h (by have := hp.1; omega) (parent_lt h.built hp)) hp

/-- a set of `k` vertices -/
structure Conf (g : RawGraph) (k : Nat) (M : Finset Nat) : Prop where
  range : ∀ v ∈ M, v < g.n
  card : M.card = k

/-- a vertex of `M` whose parent is not in `M` -/
structure Free (g : RawGraph) (M : Finset Nat) (m : Nat) : Prop where
  mem : m ∈ M
  pos : 0 < m
  par : par g m ∉ M

/-- `M` after moving `m` to its parent -/
noncomputable def low (g : RawGraph) (M : Finset Nat) (m : Nat) : Finset Nat := insert (par g m) (M.erase m)

theorem low_conf {g : RawGraph} (h : TreeGraph g) {k : Nat} {M : Finset Nat} {m : Nat} (hM : Conf g k M) (hm : Free g M m) : Conf g k (low g M m) := by
  have hp := par_spec h hm.pos (hM.range m hm.mem)
  constructor
  · intro v hv
    rcases Finset.mem_insert.mp hv with rfl | hv
    · have := hM.range m hm.mem; have := hp.1; omega
    · exact hM.range v (Finset.mem_of_mem_erase hv)
  · unfold low
    rw [Finset.card_insert_of_notMem (fun e => hm.par (Finset.mem_of_mem_erase e)), Finset.card_erase_of_mem hm.mem, ← hM.card]
    have := Finset.card_pos.mpr ⟨m, hm.mem⟩
    omega

theorem low_sum {g : RawGraph} (h : TreeGraph g) {k : Nat} {M : Finset Nat} {m : Nat} (hM : Conf g k M) (hm : Free g M m) : (low g M m).sum id < M.sum id := by
  have hp := par_spec h hm.pos (hM.range m hm.mem)
  unfold low
  rw [Finset.sum_insert (fun e => hm.par (Finset.mem_of_mem_erase e)), ← Finset.add_sum_erase M id hm.mem]
  have := hp.1
  simp only [id]
  omega

/-- the vertices of `M` -/
def VS (M : Finset Nat) : Finset Factor := M.image Factor.vertex

/-- the vertices of `M`, with `m` replaced by the edge to its parent -/
noncomputable def PS (g : RawGraph) (M : Finset Nat) (m : Nat) : Finset Factor := insert (Factor.edge (par g m) m) (VS (M.erase m))

/-- the vertices of `M`, with `a` and `b` replaced by the edges to their parents -/
noncomputable def QS (g : RawGraph) (M : Finset Nat) (a b : Nat) : Finset Factor := insert (Factor.edge (par g a) a) (insert (Factor.edge (par g b) b) (VS ((M.erase a).erase b)))

@[simp] theorem vertex_VS {M : Finset Nat} {v : Nat} : Factor.vertex v ∈ VS M ↔ v ∈ M := by simp [VS]
@[simp] theorem edge_VS {M : Finset Nat} {x y : Nat} : Factor.edge x y ∉ VS M := by simp [VS]
@[simp] theorem vertex_PS {g : RawGraph} {M : Finset Nat} {m v : Nat} : Factor.vertex v ∈ PS g M m ↔ v ≠ m ∧ v ∈ M := by simp [PS]
@[simp] theorem edge_PS {g : RawGraph} {M : Finset Nat} {m x y : Nat} : Factor.edge x y ∈ PS g M m ↔ x = par g m ∧ y = m := by simp [PS]
@[simp] theorem vertex_QS {g : RawGraph} {M : Finset Nat} {a b v : Nat} : Factor.vertex v ∈ QS g M a b ↔ v ≠ b ∧ v ≠ a ∧ v ∈ M := by simp [QS]
@[simp] theorem edge_QS {g : RawGraph} {M : Finset Nat} {a b x y : Nat} : Factor.edge x y ∈ QS g M a b ↔ (x = par g a ∧ y = a) ∨ (x = par g b ∧ y = b) := by simp [QS]
@[simp] theorem vertex_face {S : Finset Factor} {x y v w : Nat} : Factor.vertex w ∈ faceS S x y v ↔ w = v ∨ Factor.vertex w ∈ S := by simp [faceS]
@[simp] theorem edge_face {S : Finset Factor} {x y v a b : Nat} : Factor.edge a b ∈ faceS S x y v ↔ ¬ (a = x ∧ b = y) ∧ Factor.edge a b ∈ S := by
  simp [faceS]; try tauto
@[simp] theorem mem_low {g : RawGraph} {M : Finset Nat} {m v : Nat} : v ∈ low g M m ↔ v = par g m ∨ (v ≠ m ∧ v ∈ M) := by simp [low]

theorem set_ext {S S' : Finset Factor} (h1 : ∀ v, Factor.vertex v ∈ S ↔ Factor.vertex v ∈ S') (h2 : ∀ x y, Factor.edge x y ∈ S ↔ Factor.edge x y ∈ S') : S = S' := by
  ext f; cases f <;> simp [h1, h2]

theorem VS_inj {M M' : Finset Nat} (h : VS M = VS M') : M = M' := by
  ext v; rw [← vertex_VS, h, vertex_VS]

theorem PS_inj {g : RawGraph} {M M' : Finset Nat} {m m' : Nat} (hm : m ∈ M) (hm' : m' ∈ M') (h : PS g M m = PS g M' m') : M = M' ∧ m = m' := by
  have e : m = m' := by
    have : Factor.edge (par g m) m ∈ PS g M' m' := by rw [← h]; simp
    exact (edge_PS.mp this).2
  subst e
  refine ⟨?_, rfl⟩
  ext v
  by_cases hv : v = m
  · subst hv; simp [hm, hm']
  · have : Factor.vertex v ∈ PS g M m ↔ Factor.vertex v ∈ PS g M' m := by rw [h]
    simpa [hv] using this

theorem face_high {g : RawGraph} {M : Finset Nat} {m : Nat} (hm : m ∈ M) : faceS (PS g M m) (par g m) m m = VS M := by
  apply set_ext
  · intro v; simp; by_cases hv : v = m <;> simp [hv, hm]
  · intro x y; simp; try tauto

theorem face_low {g : RawGraph} {M : Finset Nat} {m : Nat} : faceS (PS g M m) (par g m) m (par g m) = VS (low g M m) := by
  apply set_ext
  · intro v; simp
  · intro x y; simp; try tauto

theorem face_high2 {g : RawGraph} {M : Finset Nat} {a b : Nat} (ha : a ∈ M) (hab : a ≠ b) : faceS (QS g M a b) (par g a) a a = PS g M b := by
  apply set_ext
  · intro v; simp; by_cases hv : v = a <;> simp [hv, ha, hab]
  · intro x y; simp
    constructor
    · rintro ⟨h1, h2 | h2⟩
      · exact absurd h2.2 (h1 h2.1)
      · exact h2
    · rintro ⟨h1, h2⟩
      exact ⟨fun _ e => hab (by omega), Or.inr ⟨h1, h2⟩⟩

theorem face_low2 {g : RawGraph} {M : Finset Nat} {a b : Nat} (hb : b ∈ M) (hpb : par g a ≠ b) (hab : a ≠ b) : faceS (QS g M a b) (par g a) a (par g a) = PS g (low g M a) b := by
  apply set_ext
  · intro v; simp
    constructor
    · rintro (rfl | ⟨h1, h2, h3⟩)
      · exact ⟨hpb, Or.inl rfl⟩
      · exact ⟨h1, Or.inr ⟨h2, h3⟩⟩
    · rintro ⟨h1, rfl | ⟨h2, h3⟩⟩
      · exact Or.inl rfl
      · exact Or.inr ⟨h1, h2, h3⟩
  · intro x y; simp
    constructor
    · rintro ⟨h1, h2 | h2⟩
      · exact absurd h2.2 (h1 h2.1)
      · exact h2
    · rintro ⟨h1, h2⟩
      exact ⟨fun _ e => hab (by omega), Or.inr ⟨h1, h2⟩⟩

theorem QS_comm {g : RawGraph} {M : Finset Nat} {a b : Nat} : QS g M a b = QS g M b a := by
  apply set_ext
  · intro v; simp; tauto
  · intro x y; simp; tauto

/-! ### Pairs and cells -/

theorem dimC_set (c : List Factor) (hc : c.Nodup) : dimC c = (c.toFinset.filter (fun f => Factor.isEdge f = true)).card := by
  rw [dimC_eq]
  unfold dm
  rw [List.countP_eq_length_filter, ← List.toFinset_filter, List.toFinset_card_of_nodup (hc.filter _)]

theorem cell_vertices {g : RawGraph} {k : Nat} {M : Finset Nat} (hM : Conf g k M) : ∃ c, IsCell g k c ∧ dimC c = 0 ∧ c.toFinset = VS M := by
  obtain ⟨c, c1, c2⟩ := cell_of_set (g := g) (k := k) (S := VS M) (by unfold VS; rw [Finset.card_image_of_injective _ (fun a b e => by injection e), hM.card])
    (by
      intro f hf
      cases f with
      | vertex v => exact hM.range v (vertex_VS.mp hf)
      | edge x y => exact absurd hf edge_VS)
    (by
      intro a ha b hb hab v hv hv'
      cases a with
      | edge x y => exact absurd ha edge_VS
      | vertex x =>
        cases b with
        | edge x y => exact absurd hb edge_VS
        | vertex y => simp [vertsOf] at hv hv'; exact hab (by rw [← hv, ← hv']))
  refine ⟨c, c1, ?_, c2⟩
  rw [dimC_set c c1.nodup, c2, Finset.card_eq_zero, Finset.filter_eq_empty_iff]
  intro f hf
  cases f with
  | vertex v => simp [Factor.isEdge]
  | edge x y => exact absurd hf edge_VS

theorem vertices_cell {g : RawGraph} {k : Nat} {c : List Factor} (hc : IsCell g k c) (hd : dimC c = 0) : ∃ M, Conf g k M ∧ c.toFinset = VS M := by
  obtain ⟨vs, rfl⟩ := no_edges (c := c) (by rw [dimC_eq] at hd; exact hd)
  have hnd : vs.Nodup := List.Nodup.of_map _ hc.nodup
  refine ⟨vs.toFinset, ⟨fun v hv => hc.factors (.vertex v) (by simpa using hv), ?_⟩, ?_⟩
  · rw [List.toFinset_card_of_nodup hnd, ← hc.length, List.length_map]
  · apply set_ext
    · intro v; simp
    · intro x y; simp

theorem PS_card {g : RawGraph} {M : Finset Nat} {m : Nat} (hm : m ∈ M) : (PS g M m).card = M.card := by
  unfold PS VS
  rw [Finset.card_insert_of_notMem (by simp), Finset.card_image_of_injective _ (fun a b e => by injection e), Finset.card_erase_of_mem hm]
  have := Finset.card_pos.mpr ⟨m, hm⟩
  omega

theorem cell_pair {g : RawGraph} (h : TreeGraph g) {k : Nat} {M : Finset Nat} {m : Nat} (hM : Conf g k M) (hm : Free g M m) : ∃ c, IsCell g k c ∧ dimC c = 1 ∧ c.toFinset = PS g M m := by
  have hp := par_spec h hm.pos (hM.range m hm.mem)
  have hpm := hp.1
  obtain ⟨c, c1, c2⟩ := cell_of_set (g := g) (k := k) (S := PS g M m) (by rw [PS_card hm.mem, hM.card])
    (by
      intro f hf
      cases f with
      | vertex v => exact hM.range v (vertex_PS.mp hf).2
      | edge x y => obtain ⟨rfl, rfl⟩ := edge_PS.mp hf; exact factor_edge h hp)
    (by
      have hpar := hm.par
      intro a ha b hb hab v hv hv'
      cases a with
      | edge x y =>
        obtain ⟨rfl, rfl⟩ := edge_PS.mp ha
        cases b with
        | edge x' y' => obtain ⟨rfl, rfl⟩ := edge_PS.mp hb; exact hab rfl
        | vertex w =>
          obtain ⟨w1, w2⟩ := vertex_PS.mp hb
          simp [vertsOf] at hv hv'
          subst hv'
          rcases hv with rfl | rfl
          · exact hpar w2
          · exact w1 rfl
      | vertex x =>
        obtain ⟨x1, x2⟩ := vertex_PS.mp ha
        cases b with
        | edge x' y' =>
          obtain ⟨rfl, rfl⟩ := edge_PS.mp hb
          simp [vertsOf] at hv hv'
          subst hv
          rcases hv' with rfl | rfl
          · exact hpar x2
          · exact x1 rfl
        | vertex y => simp [vertsOf] at hv hv'; exact hab (by rw [← hv, ← hv']))
  refine ⟨c, c1, ?_, c2⟩
  rw [dimC_set c c1.nodup, c2, Finset.card_eq_one]
  refine ⟨.edge (par g m) m, ?_⟩
  apply set_ext
  · intro v; rw [Finset.mem_filter]; simp [Factor.isEdge]
  · intro x y; rw [Finset.mem_filter]; simp [Factor.isEdge]

theorem pair_cell {g : RawGraph} (h : TreeGraph g) (hall : ∀ x y, x < y → Edge g x y → Parent g x y) {k : Nat} {c : List Factor} (hc : IsCell g k c) (hd : dimC c = 1) :
    ∃ M m, Conf g k M ∧ Free g M m ∧ c.toFinset = PS g M m := by
  obtain ⟨x, y, hxy, huniq, -⟩ := incidence_one hc hd
  obtain ⟨hf1, hf2⟩ := hc.factors _ hxy
  have hp := hall x y hf1 hf2
  have hpar := par_eq h hp
  have hdv : ∀ v, Factor.vertex v ∈ c → v ≠ x ∧ v ≠ y := by
    intro v hv
    have := cell_disj hc hxy hv (by simp)
    simp only [vertsOf, List.mem_cons, List.not_mem_nil, or_false, forall_eq_or_imp, forall_eq] at this
    exact ⟨fun e => this.1 e.symm, fun e => this.2 e.symm⟩
  -- the vertices
  obtain ⟨V, hV⟩ : ∃ V : Finset Nat, ∀ v, v ∈ V ↔ Factor.vertex v ∈ c := by
    refine ⟨(c.filterMap Factor.vertexOf).toFinset, fun v => ?_⟩
    rw [List.mem_toFinset, List.mem_filterMap]
    constructor
    · rintro ⟨f, f1, f2⟩
      cases f with
      | vertex w => simp [Factor.vertexOf] at f2; rw [← f2]; exact f1
      | edge a b => simp [Factor.vertexOf] at f2
    · intro hv; exact ⟨_, hv, rfl⟩
  have hyV : y ∉ V := fun e => (hdv y ((hV y).mp e)).2 rfl
  have hset : c.toFinset = PS g (insert y V) y := by
    apply set_ext
    · intro v
      rw [List.mem_toFinset, vertex_PS, Finset.mem_insert, hV]
      constructor
      · intro hv; exact ⟨(hdv v hv).2, Or.inr hv⟩
      · rintro ⟨h1, h2 | h2⟩
        · exact absurd h2 h1
        · exact h2
    · intro a b
      rw [List.mem_toFinset, edge_PS, hpar]
      exact ⟨huniq a b, by rintro ⟨rfl, rfl⟩; exact hxy⟩
  refine ⟨insert y V, y, ⟨?_, ?_⟩, ⟨by simp, by have := hp.1; omega, ?_⟩, hset⟩
  · intro v hv
    rcases Finset.mem_insert.mp hv with rfl | hv
    · exact parent_lt h.built hp
    · exact hc.factors _ ((hV v).mp hv)
  · have h1 := List.toFinset_card_of_nodup hc.nodup
    rw [hset, hc.length] at h1
    rw [← h1, PS_card (Finset.mem_insert_self y V)]
  · rw [hpar, Finset.mem_insert]
    rintro (e | e)
    · have := hp.1; omega
    · exact (hdv x ((hV x).mp e)).1 rfl

theorem cell_two {g : RawGraph} (h : TreeGraph g) {k : Nat} {M : Finset Nat} {a b : Nat} (hM : Conf g k M) (ha : Free g M a) (hb : Free g M b) (hab : par g a ≠ par g b) :
    ∃ c, IsCell g k c ∧ dimC c = 2 ∧ c.toFinset = QS g M a b := by
  have hne : a ≠ b := fun e => hab (by rw [e])
  have hpa := par_spec h ha.pos (hM.range a ha.mem)
  have hpb := par_spec h hb.pos (hM.range b hb.mem)
  have hcard : (QS g M a b).card = k := by
    unfold QS VS
    rw [Finset.card_insert_of_notMem, Finset.card_insert_of_notMem (by simp), Finset.card_image_of_injective _ (fun a b e => by injection e),
      Finset.card_erase_of_mem (by simp [hb.mem, Ne.symm hne]), Finset.card_erase_of_mem ha.mem, ← hM.card]
    · have : 1 < M.card := Finset.one_lt_card.mpr ⟨a, ha.mem, b, hb.mem, hne⟩
      omega
    · simp [hne]
  obtain ⟨c, c1, c2⟩ := cell_of_set (g := g) (k := k) (S := QS g M a b) hcard
    (by
      intro f hf
      cases f with
      | vertex v => exact hM.range v (vertex_QS.mp hf).2.2
      | edge x y =>
        rcases edge_QS.mp hf with ⟨rfl, rfl⟩ | ⟨rfl, rfl⟩
        · exact factor_edge h hpa
        · exact factor_edge h hpb)
    (by
      have q1 : ∀ x y v w, Factor.edge x y ∈ QS g M a b → Factor.vertex v ∈ QS g M a b → w ∈ vertsOf (Factor.edge x y) → w ∈ vertsOf (Factor.vertex v) → False := by
        intro x y v w h1 h2 h3 h4
        obtain ⟨v1, v2, v3⟩ := vertex_QS.mp h2
        simp [vertsOf] at h3 h4
        subst h4
        rcases edge_QS.mp h1 with ⟨rfl, rfl⟩ | ⟨rfl, rfl⟩
        · rcases h3 with rfl | rfl
          · exact ha.par v3
          · exact v2 rfl
        · rcases h3 with rfl | rfl
          · exact hb.par v3
          · exact v1 rfl
      have ham := ha.mem
      have hbm := hb.mem
      have hap := ha.par
      have hbp := hb.par
      have q2 : ∀ w, w ∈ vertsOf (Factor.edge (par g a) a) → w ∈ vertsOf (Factor.edge (par g b) b) → False := by
        intro w h1 h2
        simp only [vertsOf, List.mem_cons, List.not_mem_nil, or_false] at h1 h2
        rcases h1 with rfl | rfl
        · rcases h2 with e | e
          · exact hab e
          · rw [e] at hap; exact hap hbm
        · rcases h2 with e | e
          · rw [← e] at hbp; exact hbp ham
          · exact hne e
      intro f hf f' hf' hff v hv hv'
      cases f with
      | edge x y =>
        cases f' with
        | edge x' y' =>
          rcases edge_QS.mp hf with ⟨rfl, rfl⟩ | ⟨rfl, rfl⟩
          · rcases edge_QS.mp hf' with ⟨rfl, rfl⟩ | ⟨rfl, rfl⟩
            · exact hff rfl
            · exact q2 v hv hv'
          · rcases edge_QS.mp hf' with ⟨rfl, rfl⟩ | ⟨rfl, rfl⟩
            · exact q2 v hv' hv
            · exact hff rfl
        | vertex w => exact q1 _ _ _ v hf hf' hv hv'
      | vertex x =>
        cases f' with
        | edge x' y' => exact q1 _ _ _ v hf' hf hv' hv
        | vertex y => simp [vertsOf] at hv hv'; exact hff (by rw [← hv, ← hv']))
  refine ⟨c, c1, ?_, c2⟩
  rw [dimC_set c c1.nodup, c2, Finset.card_eq_two]
  refine ⟨.edge (par g a) a, .edge (par g b) b, by simp [hne], ?_⟩
  apply set_ext
  · intro v; rw [Finset.mem_filter]; simp [Factor.isEdge]
  · intro x y; rw [Finset.mem_filter]; simp [Factor.isEdge]

theorem two_cell {g : RawGraph} (h : TreeGraph g) (hall : ∀ x y, x < y → Edge g x y → Parent g x y) {k : Nat} {c : List Factor} (hc : IsCell g k c) (hd : dimC c = 2) :
    ∃ M a b, Conf g k M ∧ Free g M a ∧ Free g M b ∧ par g a ≠ par g b ∧ c.toFinset = QS g M a b ∧
      ∀ e : List Factor, e.Nodup → incidence c e = (if e.toFinset = PS g (low g M a) b then 1 else 0) - (if e.toFinset = PS g M b then 1 else 0)
        - (if e.toFinset = PS g (low g M b) a then 1 else 0) + (if e.toFinset = PS g M a then 1 else 0) := by
  obtain ⟨x, y, x', y', hxy, hxy', hlt, huniq, hinc⟩ := incidence_two hc hd
  obtain ⟨hf1, hf2⟩ := hc.factors _ hxy
  obtain ⟨hf1', hf2'⟩ := hc.factors _ hxy'
  have hp := hall x y hf1 hf2
  have hp' := hall x' y' hf1' hf2'
  have hpar := par_eq h hp
  have hpar' := par_eq h hp'
  have hdv : ∀ v, Factor.vertex v ∈ c → v ≠ x ∧ v ≠ y ∧ v ≠ x' ∧ v ≠ y' := by
    intro v hv
    have h1 := cell_disj hc hxy hv (by simp)
    have h2 := cell_disj hc hxy' hv (by simp)
    simp only [vertsOf, List.mem_cons, List.not_mem_nil, or_false, forall_eq_or_imp, forall_eq] at h1 h2
    exact ⟨fun e => h1.1 e.symm, fun e => h1.2 e.symm, fun e => h2.1 e.symm, fun e => h2.2 e.symm⟩
  have hee : x ≠ y' ∧ y ≠ x' ∧ y ≠ y' := by
    have := cell_disj hc hxy hxy' (by simp; omega)
    simp only [vertsOf, List.mem_cons, List.not_mem_nil, or_false, forall_eq_or_imp, forall_eq] at this
    omega
  obtain ⟨V, hV⟩ : ∃ V : Finset Nat, ∀ v, v ∈ V ↔ Factor.vertex v ∈ c := by
    refine ⟨(c.filterMap Factor.vertexOf).toFinset, fun v => ?_⟩
    rw [List.mem_toFinset, List.mem_filterMap]
    constructor
    · rintro ⟨f, f1, f2⟩
      cases f with
      | vertex w => simp [Factor.vertexOf] at f2; rw [← f2]; exact f1
      | edge a b => simp [Factor.vertexOf] at f2
    · intro hv; exact ⟨_, hv, rfl⟩
  have hM0 : ∀ v, v ∈ insert y (insert y' V) ↔ v = y ∨ v = y' ∨ Factor.vertex v ∈ c := by
    intro v; rw [Finset.mem_insert, Finset.mem_insert, hV]
  obtain ⟨M, hM⟩ : ∃ M, M = insert y (insert y' V) := ⟨_, rfl⟩
  rw [← hM] at hM0
  have hy : Free g M y := by
    refine ⟨(hM0 y).mpr (Or.inl rfl), by have := hp.1; omega, ?_⟩
    rw [hpar, hM0]
    rintro (e | e | e)
    · have := hp.1; omega
    · exact hee.1 e
    · exact (hdv x e).1 rfl
  have hy' : Free g M y' := by
    refine ⟨(hM0 y').mpr (Or.inr (Or.inl rfl)), by have := hp'.1; omega, ?_⟩
    rw [hpar', hM0]
    rintro (e | e | e)
    · exact hee.2.1 e.symm
    · have := hp'.1; omega
    · exact (hdv x' e).2.2.1 rfl
  have hset : c.toFinset = QS g M y y' := by
    apply set_ext
    · intro v
      rw [List.mem_toFinset, vertex_QS, hM0]
      constructor
      · intro hv
        obtain ⟨h1, h2, h3, h4⟩ := hdv v hv
        exact ⟨h4, h2, Or.inr (Or.inr hv)⟩
      · rintro ⟨h1, h2, h3 | h3 | h3⟩
        · exact absurd h3 h2
        · exact absurd h3 h1
        · exact h3
    · intro a b
      rw [List.mem_toFinset, edge_QS, hpar, hpar']
      refine ⟨huniq a b, ?_⟩
      rintro (⟨rfl, rfl⟩ | ⟨rfl, rfl⟩)
      · exact hxy
      · exact hxy'
  have hMc : Conf g k M := by
    constructor
    · intro v hv
      rcases (hM0 v).mp hv with rfl | rfl | hv
      · exact parent_lt h.built hp
      · exact parent_lt h.built hp'
      · exact hc.factors _ hv
    · have h1 := List.toFinset_card_of_nodup hc.nodup
      rw [hset, hc.length] at h1
      rw [← h1]
      unfold QS VS
      rw [Finset.card_insert_of_notMem, Finset.card_insert_of_notMem, Finset.card_image_of_injective _ (fun a b e => by injection e),
        Finset.card_erase_of_mem, Finset.card_erase_of_mem hy.mem]
      · have : 1 < M.card := Finset.one_lt_card.mpr ⟨y, hy.mem, y', hy'.mem, hee.2.2⟩
        omega
      · rw [Finset.mem_erase]; exact ⟨hee.2.2.symm, hy'.mem⟩
      · simp
      · simp [hee.2.2]
  refine ⟨M, y, y', hMc, hy, hy', by rw [hpar, hpar']; omega, hset, ?_⟩
  intro e he
  have e1 := face_low2 (g := g) (M := M) (a := y) (b := y') hy'.mem (by rw [hpar]; exact hee.1) hee.2.2
  have e2 := face_high2 (g := g) (M := M) (a := y) (b := y') hy.mem hee.2.2
  have e3 := face_low2 (g := g) (M := M) (a := y') (b := y) hy.mem (by rw [hpar']; exact hee.2.1.symm) hee.2.2.symm
  have e4 := face_high2 (g := g) (M := M) (a := y') (b := y) hy'.mem hee.2.2.symm
  rw [QS_comm] at e3 e4
  rw [hpar, ← hset] at e1 e2
  rw [hpar', ← hset] at e3 e4
  rw [hinc e he, e1, e2, e3, e4]

/-! ### Chains -/

/-- the chain of a cell, given by its set of factors -/
def E (L : List (List Factor)) (S : Finset Factor) : Fin L.length → ℤ := fun j => if L[j].toFinset = S then 1 else 0

/-- The lists of cells of dimension 0, 1, 2 and the matrices of incidence numbers. -/
structure Cx (g : RawGraph) (k : Nat) (L0 L1 L2 : List (List Factor)) (f u : Smith.M) : Prop where
  m0 : ∀ c, c ∈ L0 ↔ IsCell g k c ∧ dimC c = 0
  m1 : ∀ c, c ∈ L1 ↔ IsCell g k c ∧ dimC c = 1
  m2 : ∀ c, c ∈ L2 ↔ IsCell g k c ∧ dimC c = 2
  n0 : L0.Nodup
  n1 : L1.Nodup
  f1 : ∀ (i : Fin L0.length) (j : Fin L1.length), f i j = incidence L1[j] L0[i]
  f2 : ∀ (i : Fin L1.length) (j : Fin L2.length), u i j = incidence L2[j] L1[i]

theorem E_single {g : RawGraph} {k : Nat} {L : List (List Factor)} (hL : ∀ c ∈ L, IsCell g k c) (hn : L.Nodup) (j : Fin L.length) : E L L[j].toFinset = Pi.single j 1 := by
  funext i
  unfold E
  by_cases hij : i = j
  · subst hij; simp
  · rw [Pi.single_eq_of_ne hij, if_neg]
    intro e
    have := cell_ext (hL _ (List.getElem_mem i.2)) (hL _ (List.getElem_mem j.2)) e
    exact hij (Fin.ext ((List.Nodup.getElem_inj_iff hn).mp this))

namespace Cx
variable {g : RawGraph} {k : Nat} {L0 L1 L2 : List (List Factor)} {f u : Smith.M}

/-- the boundary of chains -/
abbrev bd (L0 L1 : List (List Factor)) (f : Smith.M) : (Fin L1.length → ℤ) →ₗ[ℤ] (Fin L0.length → ℤ) := (Smith.mat L0.length L1.length f).mulVecLin

theorem bd_single (x : Cx g k L0 L1 L2 f u) (j : Fin L1.length) : bd L0 L1 f (Pi.single j 1) = fun i => incidence L1[j] L0[i] := by
  funext i
  rw [Matrix.mulVecLin_apply, Matrix.mulVec_single_one]
  simp only [Smith.mat, Matrix.col_apply, Matrix.of_apply]
  exact x.f1 i j

theorem bd_two (x : Cx g k L0 L1 L2 f u) (j : Fin L2.length) : bd L1 L2 u (Pi.single j 1) = fun i => incidence L2[j] L1[i] := by
  funext i
  rw [Matrix.mulVecLin_apply, Matrix.mulVec_single_one]
  simp only [Smith.mat, Matrix.col_apply, Matrix.of_apply]
  exact x.f2 i j

theorem c0 (x : Cx g k L0 L1 L2 f u) (i : Fin L0.length) : IsCell g k L0[i] ∧ dimC L0[i] = 0 := (x.m0 _).mp (List.getElem_mem i.2)
theorem c1 (x : Cx g k L0 L1 L2 f u) (i : Fin L1.length) : IsCell g k L1[i] ∧ dimC L1[i] = 1 := (x.m1 _).mp (List.getElem_mem i.2)
theorem c2 (x : Cx g k L0 L1 L2 f u) (i : Fin L2.length) : IsCell g k L2[i] ∧ dimC L2[i] = 2 := (x.m2 _).mp (List.getElem_mem i.2)

theorem index1 (x : Cx g k L0 L1 L2 f u) {c : List Factor} (hc : IsCell g k c) (hd : dimC c = 1) : ∃ j : Fin L1.length, L1[j] = c := by
  obtain ⟨j, hj, e⟩ := List.getElem_of_mem ((x.m1 c).mpr ⟨hc, hd⟩)
  exact ⟨⟨j, hj⟩, e⟩

theorem single1 (x : Cx g k L0 L1 L2 f u) (j : Fin L1.length) : E L1 L1[j].toFinset = Pi.single j 1 := E_single (fun c hc => ((x.m1 c).mp hc).1) x.n1 j

/-- the boundary of the cell of a pair -/
theorem bd_pair (x : Cx g k L0 L1 L2 f u) (h : TreeGraph g) {M : Finset Nat} {m : Nat} (hM : Conf g k M) (hm : Free g M m) :
    bd L0 L1 f (E L1 (PS g M m)) = E L0 (VS (low g M m)) - E L0 (VS M) := by
  obtain ⟨c, c1, c2, c3⟩ := cell_pair h hM hm
  obtain ⟨j, hj⟩ := x.index1 c1 c2
  have e0 : L1[j].toFinset = PS g M m := by rw [← c3]; exact congrArg List.toFinset hj
  rw [← e0, x.single1, x.bd_single]
  obtain ⟨a, b, h1, h2, h3⟩ := incidence_one c1 c2
  have : a = par g m ∧ b = m := by
    rw [← List.mem_toFinset, c3] at h1
    exact edge_PS.mp h1
  obtain ⟨rfl, rfl⟩ := this
  funext i
  have := h3 _ (x.c0 i).1.nodup
  rw [c3, face_low, face_high hm.mem] at this
  show incidence L1[j] L0[i] = _
  rw [show L1[j] = c from hj, this]
  rfl

/-- the boundary of a cell with two edges -/
theorem bd_pairs (x : Cx g k L0 L1 L2 f u) (h : TreeGraph g) (hall : ∀ x y, x < y → Edge g x y → Parent g x y) (j : Fin L2.length) :
    ∃ M a b, Conf g k M ∧ Free g M a ∧ Free g M b ∧ par g a ≠ par g b ∧ L2[j].toFinset = QS g M a b ∧
      bd L1 L2 u (Pi.single j 1) = E L1 (PS g (low g M a) b) - E L1 (PS g M b) - E L1 (PS g (low g M b) a) + E L1 (PS g M a) := by
  obtain ⟨M, a, b, h1, h2, h3, h4, h5, h6⟩ := two_cell h hall (x.c2 j).1 (x.c2 j).2
  refine ⟨M, a, b, h1, h2, h3, h4, h5, ?_⟩
  rw [x.bd_two]
  funext i
  rw [h6 _ (x.c1 i).1.nodup]
  rfl

end Cx

end Toppo.CubeProps
