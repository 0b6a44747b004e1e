import Verif.Proof.TreeHom
set_option linter.unusedVariables false

/-! Critical and collapsible pairs; generation of the chains. -/
namespace Toppo.CubeProps
open Toppo RawGraph Cub GraphProps EdgePath

/-- `m` is the first vertex of `M` that can move -/
structure Coll (g : RawGraph) (M : Finset Nat) (m : Nat) : Prop where
  free : Free g M m
  least : ∀ v, Free g M v → m ≤ v

/-- all vertices that can move have the same parent, and one of them comes before `m` -/
structure Crit (g : RawGraph) (M : Finset Nat) (m : Nat) : Prop where
  free : Free g M m
  blocked : ∀ v ∈ M, v ≠ m → 0 < v → par g v ∈ M ∨ par g v = par g m
  between : ∃ v ∈ M, par g m < v ∧ v < m

theorem coll_unique {g : RawGraph} {M : Finset Nat} {m m' : Nat} (h : Coll g M m) (h' : Coll g M m') : m = m' :=
  le_antisymm (h.least _ h'.free) (h'.least _ h.free)

theorem coll_exists {g : RawGraph} {M : Finset Nat} {m : Nat} (h : Free g M m) : ∃ m0, Coll g M m0 := by
  classical
  have hex : ∃ v, Free g M v := ⟨m, h⟩
  exact ⟨Nat.find hex, Nat.find_spec hex, fun v hv => Nat.find_min' hex hv⟩

/-- a configuration in which nothing can move is the base configuration -/
theorem base_of_blocked {g : RawGraph} (h : TreeGraph g) {k : Nat} (hs : Stem g k) {M : Finset Nat} (hM : Conf g k M) (hb : ∀ v, ¬ Free g M v) : M = Finset.range k := by
  have hl : M.toList.length = k := by rw [Finset.length_toList, hM.card]
  have := blocked_base h (c := M.toList) (by rw [hl]; exact hs) (fun v hv => hM.range v (Finset.mem_toList.mp hv)) (Finset.nodup_toList M) (by
    intro v hv p hp
    rw [Finset.mem_toList] at hv ⊢
    by_contra hpm
    exact hb v ⟨hv, by have := hp.1; omega, by rw [par_eq h hp]; exact hpm⟩)
  rw [hl] at this
  ext v
  rw [← Finset.mem_toList, this.mem_iff, List.mem_range, Finset.mem_range]

/-- the collapsible pair of a configuration has no vertex between the ends of its edge -/
theorem coll_between {g : RawGraph} (h : TreeGraph g) {k : Nat} {M : Finset Nat} {m : Nat} (hM : Conf g k M) (hm : Coll g M m) : ∀ v ∈ M, ¬ (par g m < v ∧ v < m) := by
  intro v
  induction v using Nat.strong_induction_on with
  | _ v ih =>
    rintro hv ⟨h1, h2⟩
    have hp := par_spec h hm.free.pos (hM.range m hm.free.mem)
    have hpv := par_spec h (show 0 < v by omega) (hM.range v hv)
    have hle := parent_between h hp h1 h2 hpv
    by_cases hin : par g v ∈ M
    · refine ih _ hpv.1 hin ⟨?_, ?_⟩
      · rcases Nat.lt_or_eq_of_le hle with h3 | h3
        · exact h3
        · rw [← h3] at hin; exact absurd hin hm.free.par
      · have := hpv.1; omega
    · have := hm.least v ⟨hv, by omega, hin⟩
      omega

/-- critical pairs are the critical cells -/
theorem crit_iff {g : RawGraph} (h : TreeGraph g) {k : Nat} {c : List Factor} (hc : IsCell g k c) {M : Finset Nat} {m : Nat} (hM : Conf g k M) (hm : Free g M m) (e : c.toFinset = PS g M m) :
    property g c = some .critical ↔ Crit g M m := by
  have hmem : ∀ f, f ∈ c ↔ f ∈ PS g M m := by intro f; rw [← e, List.mem_toFinset]
  have hp := par_spec h hm.pos (hM.range m hm.mem)
  have hcov : ∀ w, Covered c w ↔ w ∈ M ∨ w = par g m := by
    intro w
    constructor
    · rintro ⟨f, f1, f2⟩
      rw [hmem] at f1
      cases f with
      | vertex v =>
        simp [vertsOf] at f2
        left; rw [f2]; exact (vertex_PS.mp f1).2
      | edge x y =>
        obtain ⟨rfl, rfl⟩ := edge_PS.mp f1
        simp [vertsOf] at f2
        rcases f2 with rfl | rfl
        · exact Or.inr rfl
        · exact Or.inl hm.mem
    · intro hw
      by_cases hwm : w = m ∨ w = par g m
      · refine ⟨.edge (par g m) m, (hmem _).mpr (edge_PS.mpr ⟨rfl, rfl⟩), ?_⟩
        rcases hwm with rfl | rfl <;> simp [vertsOf]
      · push Not at hwm
        refine ⟨.vertex w, (hmem _).mpr (vertex_PS.mpr ⟨hwm.1, ?_⟩), by simp [vertsOf]⟩
        rcases hw with hw | hw
        · exact hw
        · exact absurd hw hwm.2
  obtain ⟨mt, m1, m2, -⟩ := c60_property h hc
  have hcr : property g c = some .critical ↔ ∀ f ∈ c, ¬ Elig g c f := by
    rw [m1, ← m2]
    exact ⟨fun e => Option.some.inj e, fun e => by rw [e]⟩
  rw [hcr]
  constructor
  · intro hne
    refine ⟨hm, ?_, ?_⟩
    · intro v hv hvm hv0
      have := hne (.vertex v) ((hmem _).mpr (vertex_PS.mpr ⟨hvm, hv⟩))
      by_contra hcon
      exact this ⟨par g v, par_spec h hv0 (hM.range v hv), by rw [hcov]; exact hcon⟩
    · have := hne (.edge (par g m) m) ((hmem _).mpr (edge_PS.mpr ⟨rfl, rfl⟩))
      by_contra hcon
      refine this ⟨hp, fun z hz hlt => hcon ⟨z, (vertex_PS.mp ((hmem _).mp hz)).2, hlt⟩⟩
  · rintro ⟨-, hb, v, v1, v2⟩ f hf
    rw [hmem] at hf
    cases f with
    | vertex w =>
      obtain ⟨w1, w2⟩ := vertex_PS.mp hf
      rintro ⟨p, p1, p2⟩
      rw [hcov, ← par_eq h p1] at p2
      exact p2 (hb w w2 w1 (by have := p1.1; omega))
    | edge x y =>
      obtain ⟨rfl, rfl⟩ := edge_PS.mp hf
      rintro ⟨-, hz⟩
      exact hz v ((hmem _).mpr (vertex_PS.mpr ⟨by omega, v1⟩)) v2

theorem QS_inj {g : RawGraph} {M M' : Finset Nat} {a b a' b' : Nat} (ha : a ∈ M) (hb : b ∈ M) (ha' : a' ∈ M') (hb' : b' ∈ M') (hne : a' ≠ b') (h : QS g M a b = QS g M' a' b') :
    M = M' ∧ ((a' = a ∧ b' = b) ∨ (a' = b ∧ b' = a)) := by
  have key : ∀ y, (y = a ∨ y = b) ↔ (y = a' ∨ y = b') := by
    intro y
    constructor
    · intro hy
      have : Factor.edge (par g y) y ∈ QS g M' a' b' := by rw [← h]; rw [edge_QS]; rcases hy with rfl | rfl <;> simp
      rw [edge_QS] at this
      rcases this with e | e
      · exact Or.inl e.2
      · exact Or.inr e.2
    · intro hy
      have : Factor.edge (par g y) y ∈ QS g M a b := by rw [h]; rw [edge_QS]; rcases hy with rfl | rfl <;> simp
      rw [edge_QS] at this
      rcases this with e | e
      · exact Or.inl e.2
      · exact Or.inr e.2
  refine ⟨?_, ?_⟩
  · ext v
    by_cases hv : v = a ∨ v = b
    · have h1 : v ∈ M := by rcases hv with rfl | rfl <;> assumption
      have h2 : v ∈ M' := by rcases (key v).mp hv with rfl | rfl <;> assumption
      simp [h1, h2]
    · have h1 : Factor.vertex v ∈ QS g M a b ↔ Factor.vertex v ∈ QS g M' a' b' := by rw [h]
      have hv2 : ¬ (v = a' ∨ v = b') := fun e => hv ((key v).mpr e)
      push Not at hv hv2
      simpa [hv.1, hv.2, hv2.1, hv2.2] using h1
  · have h1 := (key a').mpr (Or.inl rfl)
    have h2 := (key b').mpr (Or.inr rfl)
    have h3 := (key a).mp (Or.inl rfl)
    have h4 := (key b).mp (Or.inr rfl)
    omega

namespace Cx
variable {g : RawGraph} {k : Nat} {L0 L1 L2 : List (List Factor)} {f u : Smith.M}

/-- collapsible chains -/
def CollS (g : RawGraph) (k : Nat) (L1 : List (List Factor)) : Submodule ℤ (Fin L1.length → ℤ) :=
  Submodule.span ℤ {z | ∃ M m, Conf g k M ∧ Coll g M m ∧ z = E L1 (PS g M m)}

/-- critical chains -/
def CritS (g : RawGraph) (k : Nat) (L1 : List (List Factor)) : Submodule ℤ (Fin L1.length → ℤ) :=
  Submodule.span ℤ {z | ∃ M m, Conf g k M ∧ Crit g M m ∧ z = E L1 (PS g M m)}

/-- the relation of a cell with two edges -/
theorem relation (x : Cx g k L0 L1 L2 f u) (h : TreeGraph g) (hall : ∀ x y, x < y → Edge g x y → Parent g x y) {M : Finset Nat} {a b : Nat} (hM : Conf g k M) (ha : Free g M a)
    (hb : Free g M b) (hab : par g a ≠ par g b) :
    E L1 (PS g (low g M a) b) - E L1 (PS g M b) - E L1 (PS g (low g M b) a) + E L1 (PS g M a) ∈ LinearMap.range (bd L1 L2 u) := by
  obtain ⟨c, c1, c2, c3⟩ := cell_two h hM ha hb hab
  obtain ⟨j, hj, e⟩ := List.getElem_of_mem ((x.m2 c).mpr ⟨c1, c2⟩)
  obtain ⟨M', a', b', h1, h2, h3, h4, h5, h6⟩ := x.bd_pairs h hall ⟨j, hj⟩
  have h5' : QS g M a b = QS g M' a' b' := by rw [← c3, ← h5, ← e]; rfl
  obtain ⟨rfl, h7⟩ := QS_inj ha.mem hb.mem h2.mem h3.mem (fun e => h4 (by rw [e])) h5'
  rcases h7 with ⟨rfl, rfl⟩ | ⟨rfl, rfl⟩
  · exact ⟨_, h6⟩
  · refine ⟨- Pi.single ⟨j, hj⟩ 1, ?_⟩
    rw [map_neg, h6]
    abel

theorem low_free {g : RawGraph} (h : TreeGraph g) {k : Nat} {M : Finset Nat} {a b : Nat} (hM : Conf g k M) (ha : Free g M a) (hb : Free g M b) (hab : par g a ≠ par g b) : Free g (low g M a) b := by
  refine ⟨mem_low.mpr (Or.inr ⟨fun e => hab (by rw [e]), hb.mem⟩), hb.pos, ?_⟩
  rw [mem_low]
  rintro (e | e)
  · exact hab e.symm
  · exact hb.par e.2

/-- every chain is, up to boundaries, critical and collapsible -/
theorem generate (x : Cx g k L0 L1 L2 f u) (h : TreeGraph g) (hall : ∀ x y, x < y → Edge g x y → Parent g x y) : ∀ (w : Nat) (M : Finset Nat) (m : Nat), M.sum id = w → Conf g k M →
    Free g M m → E L1 (PS g M m) ∈ CritS g k L1 ⊔ CollS g k L1 ⊔ LinearMap.range (bd L1 L2 u) := by
  intro w
  induction w using Nat.strong_induction_on with
  | _ w ih =>
    intro M m hw hM hm
    -- pairs with different parents have the same class, up to smaller weight
    have swap : ∀ a b, Free g M a → Free g M b → par g a ≠ par g b → E L1 (PS g M b) ∈ CritS g k L1 ⊔ CollS g k L1 ⊔ LinearMap.range (bd L1 L2 u) →
        E L1 (PS g M a) ∈ CritS g k L1 ⊔ CollS g k L1 ⊔ LinearMap.range (bd L1 L2 u) := by
      intro a b ha hb hab hE
      have h1 := Submodule.mem_sup_right (S := CritS g k L1 ⊔ CollS g k L1) (x.relation h hall hM ha hb hab)
      have h2 := ih _ (by rw [← hw]; exact low_sum h hM ha) (low g M a) b rfl (low_conf h hM ha) (low_free h hM ha hb hab)
      have h3 := ih _ (by rw [← hw]; exact low_sum h hM hb) (low g M b) a rfl (low_conf h hM hb) (low_free h hM hb ha hab.symm)
      have h4 := Submodule.add_mem _ (Submodule.sub_mem _ h1 h2) (Submodule.add_mem _ h3 hE)
      have : E L1 (PS g M a) = E L1 (PS g (low g M a) b) - E L1 (PS g M b) - E L1 (PS g (low g M b) a) + E L1 (PS g M a) - E L1 (PS g (low g M a) b)
          + (E L1 (PS g (low g M b) a) + E L1 (PS g M b)) := by abel
      rw [this]
      exact h4
    obtain ⟨m0, h0⟩ := coll_exists hm
    have hc0 : E L1 (PS g M m0) ∈ CritS g k L1 ⊔ CollS g k L1 ⊔ LinearMap.range (bd L1 L2 u) :=
      Submodule.mem_sup_left (Submodule.mem_sup_right (Submodule.subset_span ⟨M, m0, hM, h0, rfl⟩))
    by_cases hmm : m = m0
    · rw [hmm]; exact hc0
    by_cases hpp : par g m = par g m0
    · by_cases hex : ∃ m1, Free g M m1 ∧ par g m1 ≠ par g m
      · obtain ⟨m1, f1, f2⟩ := hex
        exact swap m m1 hm f1 f2.symm (swap m1 m0 f1 h0.free (by rw [← hpp]; exact f2) hc0)
      · push Not at hex
        refine Submodule.mem_sup_left (Submodule.mem_sup_left (Submodule.subset_span ⟨M, m, hM, ⟨hm, ?_, ?_⟩, rfl⟩))
        · intro v hv hvm hv0
          by_contra hcon
          push Not at hcon
          exact hcon.2 (hex v ⟨hv, hv0, hcon.1⟩)
        · have hp := par_spec h h0.free.pos (hM.range m0 h0.free.mem)
          have := h0.least m hm
          exact ⟨m0, h0.free.mem, by rw [hpp]; exact hp.1, by omega⟩
    · exact swap m m0 hm h0.free hpp hc0

/-- every configuration is joined to the base configuration by collapsible cells -/
theorem connect (x : Cx g k L0 L1 L2 f u) (h : TreeGraph g) (hs : Stem g k) : ∀ (w : Nat) (M : Finset Nat), M.sum id = w → Conf g k M →
    ∃ z ∈ CollS g k L1, bd L0 L1 f z = E L0 (VS M) - E L0 (VS (Finset.range k)) := by
  intro w
  induction w using Nat.strong_induction_on with
  | _ w ih =>
    intro M hw hM
    by_cases hex : ∃ v, Free g M v
    · obtain ⟨v, hv⟩ := hex
      obtain ⟨m, hm⟩ := coll_exists hv
      obtain ⟨z, z1, z2⟩ := ih _ (by rw [← hw]; exact low_sum h hM hm.free) (low g M m) rfl (low_conf h hM hm.free)
      refine ⟨z - E L1 (PS g M m), Submodule.sub_mem _ z1 (Submodule.subset_span ⟨M, m, hM, hm, rfl⟩), ?_⟩
      rw [map_sub, z2, x.bd_pair h hM hm.free]
      abel
    · push Not at hex
      refine ⟨0, Submodule.zero_mem _, ?_⟩
      rw [← base_of_blocked h hs hM hex, map_zero, sub_self]

/-- a collapsible chain has no entries at other cells -/
theorem coll_support (x : Cx g k L0 L1 L2 f u) {z : Fin L1.length → ℤ} (hz : z ∈ CollS g k L1) (j : Fin L1.length) (hj : z j ≠ 0) :
    ∃ M m, Conf g k M ∧ Coll g M m ∧ L1[j].toFinset = PS g M m := by
  by_contra hcon
  apply hj
  refine Submodule.span_induction (p := fun z _ => z j = 0) ?_ rfl ?_ ?_ hz
  · rintro z ⟨M, m, h1, h2, rfl⟩
    unfold E
    rw [if_neg]
    intro e
    exact hcon ⟨M, m, h1, h2, e⟩
  · intro a b _ _ ha hb
    rw [Pi.add_apply, ha, hb, add_zero]
  · intro r a _ ha
    rw [Pi.smul_apply, ha, smul_zero]

/-- a collapsible cycle is zero -/
theorem coll_cycle (x : Cx g k L0 L1 L2 f u) (h : TreeGraph g) {z : Fin L1.length → ℤ} (hz : z ∈ CollS g k L1) (hb : bd L0 L1 f z = 0) : z = 0 := by
  classical
  by_contra hne
  -- a cell of largest weight
  have hex : ∃ j, z j ≠ 0 := by
    by_contra hcon
    push Not at hcon
    exact hne (funext hcon)
  obtain ⟨j0, hj0⟩ := hex
  let wt : Fin L1.length → Nat := fun j => (L1[j].toFinset.sum (fun f => match f with | .vertex v => v | .edge _ y => y))
  have hwt : ∀ (j : Fin L1.length) M m, m ∈ M → L1[j].toFinset = PS g M m → wt j = M.sum id := by
    intro j M m hm e
    show L1[j].toFinset.sum _ = _
    rw [e]
    unfold PS VS
    rw [Finset.sum_insert (by simp), Finset.sum_image (by intro a _ b _ e; injection e), ← Finset.add_sum_erase M id hm]
    rfl
  obtain ⟨j, hj, hmax⟩ := Finset.exists_max_image (Finset.univ.filter (fun j => z j ≠ 0)) wt ⟨j0, by simp [hj0]⟩
  rw [Finset.mem_filter] at hj
  obtain ⟨M, m, q1, q2, q3⟩ := x.coll_support hz j hj.2
  obtain ⟨c, c1, c2, c3⟩ := cell_vertices q1
  obtain ⟨i, hi, ei⟩ := List.getElem_of_mem ((x.m0 c).mpr ⟨c1, c2⟩)
  have hv := congrFun hb ⟨i, hi⟩
  rw [Matrix.mulVecLin_apply, Pi.zero_apply] at hv
  have hsum : ∀ j', f i (j' : Fin L1.length) * z j' = if j' = j then - z j else 0 := by
    intro j'
    by_cases hz' : z j' = 0
    · rw [hz', mul_zero]
      split
      · rename_i e; rw [← e, hz', neg_zero]
      · rfl
    · obtain ⟨M', m', r1, r2, r3⟩ := x.coll_support hz j' hz'
      have hf := x.f1 ⟨i, hi⟩ j'
      have hinc : incidence L1[j'] c = (if VS M = VS (low g M' m') then 1 else 0) - (if VS M = VS M' then 1 else 0) := by
        obtain ⟨a, b, h1, h2, h3⟩ := incidence_one (x.c1 j').1 (x.c1 j').2
        have : a = par g m' ∧ b = m' := by
          rw [← List.mem_toFinset, r3] at h1
          exact edge_PS.mp h1
        obtain ⟨rfl, rfl⟩ := this
        rw [h3 c c1.nodup, r3, face_low, face_high r2.free.mem, c3]
      have hf' : f i j' = incidence L1[j'] c := by rw [← ei]; exact hf
      have hle := hmax j' (by simp [hz'])
      rw [hwt j M m q2.free.mem q3, hwt j' M' m' r2.free.mem r3] at hle
      have hlow : ¬ VS M = VS (low g M' m') := by
        intro e
        have := VS_inj e
        have h2 := low_sum h r1 r2.free
        rw [← this] at h2
        omega
      rw [hf', hinc, if_neg hlow]
      by_cases hMM : VS M = VS M'
      · have e1 := VS_inj hMM
        subst e1
        have e2 := coll_unique q2 r2
        subst e2
        have e3 : j' = j := by
          have := cell_ext (x.c1 j').1 (x.c1 j).1 (by rw [r3, q3])
          exact Fin.ext ((List.Nodup.getElem_inj_iff x.n1).mp this)
        rw [if_pos rfl, if_pos e3, e3]
        ring
      · rw [if_neg hMM, if_neg]
        · ring
        · rintro rfl
          rw [r3] at q3
          exact hMM (by rw [(PS_inj r2.free.mem q2.free.mem q3).1])
  have : (Smith.mat L0.length L1.length f).mulVec z ⟨i, hi⟩ = - z j := by
    simp only [Matrix.mulVec, dotProduct, Smith.mat, Matrix.of_apply]
    rw [Finset.sum_congr rfl (fun j' _ => hsum j'), Finset.sum_ite_eq' Finset.univ j]
    simp
  rw [this] at hv
  exact hj.2 (by omega)

end Cx
end Toppo.CubeProps
