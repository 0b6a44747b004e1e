import Verif.Proof.TreeGen
import Verif.Proof.MorseTree
set_option linter.unusedVariables false

/-! An invariant of the cells with one edge that takes different values at critical cells. -/
namespace Toppo.CubeProps
open Toppo RawGraph Cub GraphProps EdgePath

/-- `v` is a descendant of `z` -/
abbrev Desc (g : RawGraph) (z v : Nat) : Prop := Relation.ReflTransGen (Parent g) z v

open Classical in
/-- the edge, and how many vertices there are behind each child of its smaller end -/
noncomputable def Phi (g : RawGraph) (M : Finset Nat) (m : Nat) : Nat × (Nat → Nat) :=
  (m, fun z => if Parent g (par g m) z then ((M.erase m).filter (fun v => Desc g z v)).card else 0)

theorem desc_up {g : RawGraph} (h : TreeGraph g) {z v : Nat} (hd : Desc g z v) (hne : v ≠ z) : Desc g z (par g v) ∧ Parent g (par g v) v := by
  rcases Relation.ReflTransGen.cases_tail hd with e | ⟨p, h1, h2⟩
  · exact absurd e hne
  · rw [par_eq h h2]; exact ⟨h1, h2⟩

/-- moving another vertex along an edge that does not meet the edge of the pair does not change the invariant -/
theorem phi_low {g : RawGraph} (h : TreeGraph g) {k : Nat} {M : Finset Nat} {a b : Nat} (hM : Conf g k M) (ha : Free g M a) (hb : Free g M b) (hab : par g a ≠ par g b) :
    Phi g (low g M a) b = Phi g M b := by
  classical
  have hne : a ≠ b := fun e => hab (by rw [e])
  have hpb : par g a ≠ b := fun e => ha.par (by rw [e]; exact hb.mem)
  have hpa := par_spec h ha.pos (hM.range a ha.mem)
  unfold Phi
  refine Prod.ext rfl (funext fun z => ?_)
  show (if _ then _ else _) = (if _ then _ else _)
  split
  · rename_i hz
    have e1 : M.erase b = insert a ((M.erase b).erase a) := (Finset.insert_erase (by simp [hne, ha.mem])).symm
    have e2 : (low g M a).erase b = insert (par g a) ((M.erase b).erase a) := by
      ext v
      simp
      constructor
      · rintro ⟨h1, h2 | h2⟩
        · exact Or.inl h2
        · exact Or.inr ⟨h2.1, h1, h2.2⟩
      · rintro (rfl | ⟨h1, h2, h3⟩)
        · exact ⟨hpb, Or.inl rfl⟩
        · exact ⟨h2, Or.inr ⟨h1, h3⟩⟩
    have hiff : Desc g z (par g a) ↔ Desc g z a := by
      constructor
      · intro hd; exact hd.tail hpa
      · intro hd
        refine (desc_up h hd ?_).1
        rintro rfl
        exact hab (par_eq h hz)
    rw [e2]
    conv_rhs => rw [e1]
    rw [Finset.filter_insert, Finset.filter_insert]
    by_cases hd : Desc g z a
    · rw [if_pos hd, if_pos (hiff.mpr hd), Finset.card_insert_of_notMem, Finset.card_insert_of_notMem]
      · simp
      · intro hm
        have := (Finset.mem_filter.mp hm).1
        simp at this
        exact ha.par this.2.2
    · rw [if_neg hd, if_neg (fun e => hd (hiff.mp e))]
  · rfl

/-- the children of a vertex have disjoint sets of descendants -/
theorem desc_child {g : RawGraph} (h : TreeGraph g) {x z z' : Nat} (hz : Parent g x z) (hz' : Parent g x z') (hd : Desc g z z') : z' = z := by
  by_contra hne
  have := (desc_up h hd hne).1
  rw [par_eq h hz'] at this
  have h1 := desc_le this
  have := hz.1
  omega

/-- a critical and a collapsible cell have different invariants -/
theorem phi_coll {g : RawGraph} (h : TreeGraph g) {k : Nat} {M M' : Finset Nat} {m m' : Nat} (hM : Conf g k M) (hM' : Conf g k M') (hc : Crit g M m) (hc' : Coll g M' m') : Phi g M m ≠ Phi g M' m' := by
  classical
  intro e
  have em : m = m' := congrArg Prod.fst e
  subst em
  have e2 : ∀ z, _ = _ := congrFun (congrArg Prod.snd e)
  obtain ⟨v, v1, v2, v3⟩ := hc.between
  have hp := par_spec h hc.free.pos (hM.range m hc.free.mem)
  have hd := h.dfs.consecutive _ _ v (.single hp) v2.le v3.le
  rcases Relation.ReflTransGen.cases_head hd with e' | ⟨z, z1, z2⟩
  · omega
  have hz := e2 z
  simp only [Phi, if_pos z1] at hz
  have hpos : 0 < ((M.erase m).filter (fun v => Desc g z v)).card := Finset.card_pos.mpr ⟨v, by simp [v1, z2]; omega⟩
  rw [hz] at hpos
  obtain ⟨v', hv'⟩ := Finset.card_pos.mp hpos
  simp only [Finset.mem_filter, Finset.mem_erase] at hv'
  obtain ⟨⟨w1, w2⟩, w3⟩ := hv'
  have hzv := desc_le z2
  have hzv' := desc_le w3
  have hxz := z1.1
  refine coll_between h hM' hc' v' w2 ⟨by omega, ?_⟩
  by_contra hlt
  have := h.dfs.consecutive z v' m w3 (by omega) (by omega)
  have := desc_child h z1 hp this
  omega

/-- a set closed under parents, in a part of the tree without branching -/
theorem closed_interval {g : RawGraph} {S : Finset Nat} {z : Nat} (hcl : ∀ v ∈ S, v = z ∨ (par g v ∈ S ∧ Parent g (par g v) v))
    (hst : ∀ i, i + 1 < S.card → ∀ w, Parent g (z + i) w → w = z + i + 1) : S = (Finset.range S.card).image (fun i => z + i) := by
  have key : ∀ j, j ≤ S.card → ∀ i, i < j → z + i ∈ S := by
    intro j
    induction j with
    | zero => intro _ i hi; omega
    | succ j ih =>
      intro hj i hi
      have ih := ih (by omega)
      by_cases hij : i < j
      · exact ih i hij
      obtain rfl : i = j := by omega
      have hex : ∃ v, v ∈ S ∧ ¬ (z ≤ v ∧ v < z + i) := by
        by_contra hcon
        push Not at hcon
        have hsub : S ⊆ (Finset.range i).image (fun t => z + t) := by
          intro v hv
          have := hcon v hv
          rw [Finset.mem_image]
          by_cases h1 : z ≤ v
          · exact ⟨v - z, by rw [Finset.mem_range]; omega, by omega⟩
          · omega
        have := Finset.card_le_card hsub
        have h2 := Finset.card_image_le (s := Finset.range i) (f := fun t => z + t)
        rw [Finset.card_range] at h2
        omega
      classical
      obtain ⟨v, hv, hmin⟩ : ∃ v, (v ∈ S ∧ ¬ (z ≤ v ∧ v < z + i)) ∧ ∀ w, w < v → ¬ (w ∈ S ∧ ¬ (z ≤ w ∧ w < z + i)) := ⟨Nat.find hex, Nat.find_spec hex, fun w hw => Nat.find_min hex hw⟩
      rcases hcl v hv.1 with rfl | ⟨h1, h2⟩
      · have : i = 0 := by
          have := hv.2
          omega
        subst this
        exact hv.1
      · have h3 := hmin _ h2.1
        push Not at h3
        have h4 := h3 h1
        obtain ⟨t, ht⟩ : ∃ t, par g v = z + t := ⟨par g v - z, by omega⟩
        rw [ht] at h2
        have := hst t (by omega) v h2
        have hv2 := hv.2
        have : v = z + i := by omega
        rw [← this]; exact hv.1
  symm
  apply Finset.eq_of_subset_of_card_le
  · intro v hv
    obtain ⟨i, hi, rfl⟩ := Finset.mem_image.mp hv
    exact key _ le_rfl i (Finset.mem_range.mp hi)
  · rw [Finset.card_image_of_injective _ (fun a b e => by simpa using e), Finset.card_range]

/-- the invariant of a critical cell of a subdivided tree determines it -/
theorem phi_crit {g : RawGraph} {k : Nat} (h : Morse.SubTree g k) {M M' : Finset Nat} {m m' : Nat} (hM : Conf g k M) (hM' : Conf g k M') (hc : Crit g M m) (hc' : Crit g M' m')
    (e : Phi g M m = Phi g M' m') : M = M' ∧ m = m' := by
  classical
  have em : m = m' := congrArg Prod.fst e
  subst em
  refine ⟨?_, rfl⟩
  have ht := h.tree
  have hp := par_spec ht hc.free.pos (hM.range m hc.free.mem)
  have e2 : ∀ z, Parent g (par g m) z → ((M.erase m).filter (fun v => Desc g z v)).card = ((M'.erase m).filter (fun v => Desc g z v)).card := by
    intro z hz
    have := congrFun (congrArg Prod.snd e) z
    simpa only [Phi, if_pos hz] using this
  have hlong : m ≠ par g m + 1 := by
    obtain ⟨v, -, v2, v3⟩ := hc.between
    omega
  have hcardV : ∀ {M}, Conf g k M → Crit g M m → (M.erase m).card = k - 1 := by
    intro M hM hc
    rw [Finset.card_erase_of_mem hc.free.mem, hM.card]
  -- parents of members
  have hpar : ∀ {M}, Conf g k M → Crit g M m → ∀ v ∈ M.erase m, 0 < v → Parent g (par g v) v ∧ (par g v ∈ M.erase m ∨ par g v = m ∨ par g v = par g m) := by
    intro M hM hc v hv h0
    obtain ⟨v1, v2⟩ := Finset.mem_erase.mp hv
    refine ⟨par_spec ht h0 (hM.range v v2), ?_⟩
    rcases hc.blocked v v2 v1 h0 with h1 | h1
    · by_cases h2 : par g v = m
      · exact Or.inr (Or.inl h2)
      · exact Or.inl (Finset.mem_erase.mpr ⟨h2, h1⟩)
    · exact Or.inr (Or.inr h1)
  have hxz : ∀ {z}, Parent g (par g m) z → ¬ Desc g z (par g m) := by
    intro z hz hd
    have := desc_le hd
    have := hz.1
    omega
  -- behind the other children
  have other : ∀ {M}, Conf g k M → Crit g M m → ∀ z, Parent g (par g m) z → z ≠ m →
      (M.erase m).filter (fun v => Desc g z v) = (Finset.range ((M.erase m).filter (fun v => Desc g z v)).card).image (fun i => z + i) := by
    intro M hM hc z hz hzm
    have hle : ((M.erase m).filter (fun v => Desc g z v)).card ≤ k - 1 := by
      rw [← hcardV hM hc]; exact Finset.card_filter_le _ _
    apply closed_interval (g := g)
    · intro v hv
      obtain ⟨v1, v2⟩ := Finset.mem_filter.mp hv
      by_cases hvz : v = z
      · exact Or.inl hvz
      right
      obtain ⟨d1, d2⟩ := desc_up ht v2 hvz
      have h0 : 0 < v := by have := d2.1; omega
      refine ⟨Finset.mem_filter.mpr ⟨?_, d1⟩, d2⟩
      rcases (hpar hM hc v v1 h0).2 with h1 | h1 | h1
      · exact h1
      · rw [h1] at d1
        exact absurd (desc_child ht hz hp d1).symm hzm
      · rw [h1] at d1
        exact absurd d1 (hxz hz)
    · intro i hi w hw
      exact (h.spaced _ z m hz hp (Ne.symm hzm) i (by omega) w).mp hw
  -- behind the far end of the edge
  have far : ∀ {M}, Conf g k M → Crit g M m →
      insert m ((M.erase m).filter (fun v => Desc g m v)) = (Finset.range (((M.erase m).filter (fun v => Desc g m v)).card + 1)).image (fun i => m + i) := by
    intro M hM hc
    have hnot : m ∉ (M.erase m).filter (fun v => Desc g m v) := by simp
    have hle : ((M.erase m).filter (fun v => Desc g m v)).card + 1 ≤ k - 1 := by
      obtain ⟨v, v1, v2, v3⟩ := hc.between
      have : (M.erase m).filter (fun v => Desc g m v) ⊂ M.erase m := by
        rw [Finset.ssubset_iff_of_subset (Finset.filter_subset _ _)]
        refine ⟨v, Finset.mem_erase.mpr ⟨by omega, v1⟩, ?_⟩
        intro hv
        have := desc_le (Finset.mem_filter.mp hv).2
        omega
      have := Finset.card_lt_card this
      rw [hcardV hM hc] at this
      omega
    have hci := closed_interval (g := g) (S := insert m ((M.erase m).filter (fun v => Desc g m v))) (z := m)
    rw [Finset.card_insert_of_notMem hnot] at hci
    apply hci
    · intro v hv
      rcases Finset.mem_insert.mp hv with rfl | hv
      · exact Or.inl rfl
      obtain ⟨v1, v2⟩ := Finset.mem_filter.mp hv
      by_cases hvz : v = m
      · exact Or.inl hvz
      right
      obtain ⟨d1, d2⟩ := desc_up ht v2 hvz
      have h0 : 0 < v := by have := d2.1; omega
      refine ⟨Finset.mem_insert.mpr ?_, d2⟩
      rcases (hpar hM hc v v1 h0).2 with h1 | h1 | h1
      · exact Or.inr (Finset.mem_filter.mpr ⟨h1, d1⟩)
      · exact Or.inl h1
      · rw [h1] at d1
        exact absurd d1 (hxz hp)
    · intro i hi w hw
      exact (h.far hp hlong i (by omega) w).mp hw
  -- not behind the edge
  have up : ∀ {M}, Conf g k M → Crit g M m →
      (M.erase m).filter (fun v => ¬ Desc g (par g m) v) = (Finset.range ((M.erase m).filter (fun v => ¬ Desc g (par g m) v)).card).image (fun i => 0 + i) := by
    intro M hM hc
    have hle : ((M.erase m).filter (fun v => ¬ Desc g (par g m) v)).card ≤ k - 1 := by
      rw [← hcardV hM hc]; exact Finset.card_filter_le _ _
    apply closed_interval (g := g)
    · intro v hv
      obtain ⟨v1, v2⟩ := Finset.mem_filter.mp hv
      by_cases h0 : v = 0
      · exact Or.inl h0
      right
      obtain ⟨d2, d3⟩ := hpar hM hc v v1 (by omega)
      refine ⟨Finset.mem_filter.mpr ⟨?_, fun hd => v2 (hd.tail d2)⟩, d2⟩
      rcases d3 with h1 | h1 | h1
      · exact h1
      · exact absurd (((Relation.ReflTransGen.single hp).tail (by rw [← h1]; exact d2))) v2
      · exact absurd (Relation.ReflTransGen.single (by rw [← h1]; exact d2)) v2
    · intro i hi w hw
      rw [Nat.zero_add] at hw ⊢
      exact h.stem i w (by omega) hw
  -- the sets agree behind the edge
  have hdesc : ∀ v, Desc g (par g m) v → (v ∈ M.erase m ↔ v ∈ M'.erase m) := by
    intro v hv
    rcases Relation.ReflTransGen.cases_head hv with e' | ⟨z, z1, z2⟩
    · rw [← e']
      simp [hc.free.par, hc'.free.par]
    · by_cases hzm : z = m
      · subst hzm
        have h1 := far hM hc
        have h2 := far hM' hc'
        rw [e2 z z1, ← h2] at h1
        have h3 : v ∈ insert z ((M.erase z).filter (fun v => Desc g z v)) ↔ v ∈ insert z ((M'.erase z).filter (fun v => Desc g z v)) := by rw [h1]
        by_cases hvz : v = z
        · simp [hvz]
        · simpa [hvz, z2] using h3
      · have h1 := other hM hc z z1 hzm
        have h2 := other hM' hc' z z1 hzm
        rw [e2 z z1, ← h2] at h1
        have h3 : v ∈ (M.erase m).filter (fun v => Desc g z v) ↔ v ∈ (M'.erase m).filter (fun v => Desc g z v) := by rw [h1]
        simpa [z2] using h3
  have hcard : ((M.erase m).filter (fun v => ¬ Desc g (par g m) v)).card = ((M'.erase m).filter (fun v => ¬ Desc g (par g m) v)).card := by
    have h1 := Finset.card_filter_add_card_filter_not (s := M.erase m) (fun v => Desc g (par g m) v)
    have h2 := Finset.card_filter_add_card_filter_not (s := M'.erase m) (fun v => Desc g (par g m) v)
    have h3 : (M.erase m).filter (fun v => Desc g (par g m) v) = (M'.erase m).filter (fun v => Desc g (par g m) v) := by
      ext v
      rw [Finset.mem_filter, Finset.mem_filter]
      exact ⟨fun ⟨a, b⟩ => ⟨(hdesc v b).mp a, b⟩, fun ⟨a, b⟩ => ⟨(hdesc v b).mpr a, b⟩⟩
    rw [hcardV hM hc] at h1
    rw [hcardV hM' hc'] at h2
    rw [h3] at h1
    omega
  have hup : (M.erase m).filter (fun v => ¬ Desc g (par g m) v) = (M'.erase m).filter (fun v => ¬ Desc g (par g m) v) := by
    rw [up hM hc, up hM' hc', hcard]
  ext v
  by_cases hvm : v = m
  · rw [hvm]; exact iff_of_true hc.free.mem hc'.free.mem
  · have : v ∈ M.erase m ↔ v ∈ M'.erase m := by
      by_cases hd : Desc g (par g m) v
      · exact hdesc v hd
      · have h3 : v ∈ (M.erase m).filter (fun v => ¬ Desc g (par g m) v) ↔ v ∈ (M'.erase m).filter (fun v => ¬ Desc g (par g m) v) := by rw [hup]
        simpa [hd] using h3
    simpa [hvm] using this

end Toppo.CubeProps
