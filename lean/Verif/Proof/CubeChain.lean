import Verif.Model.CubeFlow
import Verif.Proof.CubeBd
set_option linter.unusedVariables false

/-! `Cube::get_boundary` on valid cubes. -/
namespace Toppo.Cub
open RawGraph RawGraph.Factor

theorem pcmp_self (a : Factor) : pcmp a a = some .eq := by simp [pcmp]

theorem ccmp_append (p a b : List Factor) : ccmp (p ++ a) (p ++ b) = ccmp a b := by
  induction p with
  | nil => rfl
  | cons x p ih => rw [List.cons_append, List.cons_append]; simp only [ccmp, pcmp_self]; exact ih

/-- the lower face, which is already sorted -/
theorem lower_valid {p q : List Factor} {x y : Nat} (h : Valid (p ++ .edge x y :: q)) : Valid (p ++ .vertex x :: q) := by
  unfold Valid at h ⊢
  rw [List.pairwise_append, List.pairwise_cons] at h ⊢
  obtain ⟨h1, ⟨h2, h3⟩, h4⟩ := h
  refine ⟨h1, ⟨?_, h3⟩, ?_⟩
  · intro f hf
    obtain ⟨a, b⟩ := h2 f hf
    exact ⟨by rw [disjoint_comm]; exact disjoint_end (Or.inl rfl) (by rw [disjoint_comm]; exact a), b⟩
  · intro a ha b hb
    rcases List.mem_cons.mp hb with rfl | hb
    · obtain ⟨k1, k2⟩ := h4 a ha (.edge x y) (by simp)
      exact ⟨disjoint_end (Or.inl rfl) k1, k2⟩
    · exact h4 a ha b (by simp [hb])

theorem upper_eq {p q : List Factor} {x y : Nat} (h : Valid (p ++ .edge x y :: q)) (hxy : x < y) :
    sort (p ++ .vertex y :: q) = p ++ sort (.vertex y :: q) ∧ Valid (p ++ sort (.vertex y :: q)) := by
  have hd : Disjoint (p ++ .vertex y :: q) := face_disjoint h.disjoint (Or.inr rfl)
  have hd2 : Disjoint (Factor.vertex y :: q) := (List.pairwise_append.mp hd).2.1
  have hv : Valid (p ++ sort (.vertex y :: q)) := by
    unfold Valid at h ⊢
    rw [List.pairwise_append] at h ⊢
    refine ⟨h.1, sort_valid hd2, ?_⟩
    intro a ha b hb
    rw [(sort_perm _).mem_iff] at hb
    rcases List.mem_cons.mp hb with rfl | hb
    · obtain ⟨k1, k2⟩ := h.2.2 a ha (.edge x y) (by simp)
      refine ⟨disjoint_end (Or.inr rfl) k1, ?_⟩
      have : a.order < x := k2
      show a.order < y
      omega
    · exact h.2.2 a ha b (by simp [hb])
  exact ⟨(sort_eq_iff hd hv).mpr ((sort_perm _).symm.append_left p), hv⟩

/-- the lower face comes before the upper face -/
theorem ccmp_faces {p q : List Factor} {x y : Nat} (h : Valid (p ++ .edge x y :: q)) (hxy : x < y) :
    ccmp (sort (p ++ .vertex x :: q)) (sort (p ++ .vertex y :: q)) = some .lt := by
  rw [sort_valid_eq (lower_valid h), (upper_eq h hxy).1, ccmp_append]
  cases e : sort (.vertex y :: q) with
  | nil =>
    have := (sort_perm (.vertex y :: q)).length_eq
    rw [e] at this; simp at this
  | cons f fs =>
    have hf : f ∈ Factor.vertex y :: q := by rw [← (sort_perm _).mem_iff, e]; simp
    have hb : Bef (.vertex x) f := by
      rcases List.mem_cons.mp hf with rfl | hf
      · exact ⟨by simp [disjoint]; omega, hxy⟩
      · exact (List.pairwise_cons.mp (List.pairwise_append.mp (lower_valid h)).2.1).1 f hf
    simp only [ccmp, pcmp_disjoint hb.1]
    have : compare (Factor.vertex x).order f.order = .lt := Nat.compare_eq_lt.mpr hb.2
    rw [this]

theorem ccmp_ne {a b : List Factor} (h : ccmp a b = some .lt) : a ≠ b := by
  rintro rfl
  have : ∀ a, ccmp a a = some .eq := by
    intro a
    induction a with
    | nil => rfl
    | cons x a ih => simp only [ccmp, pcmp_self]; exact ih
  rw [this] at h; cases h

theorem addC_pair {b1 b2 : List Factor} (h : ccmp b1 b2 = some .lt) : addC [(1, b2)] (negC [(1, b1)]) = some [(-1, b1), (1, b2)] := by
  have hne := ccmp_ne h
  have hne' : ¬ b2 = b1 := fun e => hne e.symm
  simp [addC, sumC, advanceC, sortC, insRevC, h, sumLoopC, hne', negC, mergeByC, mergeFromC]

theorem addC_nil {b1 b2 : List Factor} (h : b1 ≠ b2) {k1 k2 : Int} (h1 : k1 ≠ 0) (h2 : k2 ≠ 0) : addC [] [(k1, b1), (k2, b2)] = some [(k1, b1), (k2, b2)] := by
  have hne' : ¬ b2 = b1 := fun e => h e.symm
  simp [addC, sumC, advanceC, sortC, insRevC, sumLoopC, mergeByC, mergeFromC, h1, h2]

theorem addC_none {v w : Ch} {k k' : Int} {b b' : List Factor} (h : ccmp b' b = none) : addC ((k, b) :: v) ((k', b') :: w) = none := by
  simp [addC, sumC, advanceC, sortC, insRevC, h]

theorem bdLoop_vertices (c : List Factor) (vs : List Nat) (i : Nat) (sign : Int) (acc : Ch) (fs : List Factor) :
    bdLoop c i sign acc (vs.map Factor.vertex ++ fs) = bdLoop c (i + vs.length) sign acc fs := by
  induction vs generalizing i with
  | nil => simp
  | cons v vs ih =>
    simp only [List.map_cons, List.cons_append, bdLoop, List.length_cons]
    rw [ih]
    congr 1
    omega

theorem no_edges {c : List Factor} (h : c.countP isEdge = 0) : ∃ vs : List Nat, c = vs.map Factor.vertex := by
  induction c with
  | nil => exact ⟨[], rfl⟩
  | cons f c ih =>
    cases f with
    | edge x y => simp [isEdge] at h
    | vertex v =>
      obtain ⟨vs, e⟩ := ih (by simpa [isEdge] using h)
      exact ⟨v :: vs, by rw [e]; rfl⟩

theorem first_edge {c : List Factor} (h : c.countP isEdge ≠ 0) : ∃ (vs : List Nat) (x y : Nat) (q : List Factor), c = vs.map Factor.vertex ++ .edge x y :: q ∧ q.countP isEdge + 1 = c.countP isEdge := by
  induction c with
  | nil => simp at h
  | cons f c ih =>
    cases f with
    | edge x y => exact ⟨[], x, y, c, rfl, (List.countP_cons_of_pos (p := isEdge) (a := Factor.edge x y) (l := c) rfl).symm⟩
    | vertex v =>
      obtain ⟨vs, x, y, q, e, e2⟩ := ih (by simpa [isEdge] using h)
      exact ⟨v :: vs, x, y, q, by rw [e]; rfl, by rw [e2]; simp [isEdge]⟩

theorem getBoundary_zero {c : List Factor} (h : c.countP isEdge = 0) : getBoundary c = some [] := by
  obtain ⟨vs, rfl⟩ := no_edges h
  unfold getBoundary
  have := bdLoop_vertices (vs.map Factor.vertex) vs 0 (-1) [] []
  rw [List.append_nil] at this
  rw [this]; rfl

theorem bdLoop_edge {c p q : List Factor} {x y : Nat} (hc : c = p ++ .edge x y :: q) (h : Valid c) (hxy : x < y) (sign : Int) (acc : Ch) :
    bdLoop c p.length sign acc (.edge x y :: q) = (addC acc (smulC [(-1, sort (p ++ .vertex x :: q)), (1, sort (p ++ .vertex y :: q))] sign)).bind
      (fun acc => bdLoop c (p.length + 1) (sign * -1) acc q) := by
  have hset : ∀ v, c.set p.length (.vertex v) = p ++ .vertex v :: q := by intro v; rw [hc]; simp
  simp only [bdLoop, hset]
  rw [addC_pair (ccmp_faces (hc ▸ h) hxy)]
  simp only
  cases addC acc (smulC [(-1, sort (p ++ .vertex x :: q)), (1, sort (p ++ .vertex y :: q))] sign) <;> rfl

theorem getBoundary_first {vs : List Nat} {x y : Nat} {q : List Factor} (h : Valid (vs.map Factor.vertex ++ .edge x y :: q)) (hxy : x < y) :
    getBoundary (vs.map Factor.vertex ++ .edge x y :: q) = bdLoop (vs.map Factor.vertex ++ .edge x y :: q) (vs.length + 1) 1
      [(1, sort (vs.map Factor.vertex ++ .vertex x :: q)), (-1, sort (vs.map Factor.vertex ++ .vertex y :: q))] q := by
  unfold getBoundary
  rw [bdLoop_vertices]
  have := bdLoop_edge (p := vs.map Factor.vertex) rfl h hxy (-1) []
  rw [List.length_map] at this
  rw [Nat.zero_add, this]
  have e : smulC [(-1, sort (vs.map Factor.vertex ++ .vertex x :: q)), (1, sort (vs.map Factor.vertex ++ .vertex y :: q))] (-1) =
      [(1, sort (vs.map Factor.vertex ++ .vertex x :: q)), (-1, sort (vs.map Factor.vertex ++ .vertex y :: q))] := by
    simp [smulC]
  rw [e, addC_nil (ccmp_ne (ccmp_faces h hxy)) (by decide) (by decide)]
  rfl

theorem getBoundary_one {vs ws : List Nat} {x y : Nat} (h : Valid (vs.map Factor.vertex ++ .edge x y :: ws.map Factor.vertex)) (hxy : x < y) :
    getBoundary (vs.map Factor.vertex ++ .edge x y :: ws.map Factor.vertex) =
      some [(1, sort (vs.map Factor.vertex ++ .vertex x :: ws.map Factor.vertex)), (-1, sort (vs.map Factor.vertex ++ .vertex y :: ws.map Factor.vertex))] := by
  rw [getBoundary_first h hxy]
  have := fun acc => bdLoop_vertices (vs.map Factor.vertex ++ .edge x y :: ws.map Factor.vertex) ws (vs.length + 1) 1 acc []
  simp only [List.append_nil] at this
  rw [this]; rfl

theorem getBoundary_two {c : List Factor} (h : Valid c) (hr : ∀ x y, Factor.edge x y ∈ c → x < y) (h2 : 2 ≤ c.countP isEdge) : getBoundary c = none := by
  obtain ⟨vs, x, y, q, rfl, e1⟩ := first_edge (c := c) (by omega)
  obtain ⟨ws, x', y', q', rfl, e2⟩ := first_edge (c := q) (by omega)
  rw [getBoundary_first h (hr x y (by simp)), bdLoop_vertices]
  have hxy' := hr x' y' (by simp)
  have hc : vs.map Factor.vertex ++ .edge x y :: (ws.map Factor.vertex ++ .edge x' y' :: q') = (vs.map Factor.vertex ++ .edge x y :: ws.map Factor.vertex) ++ .edge x' y' :: q' := by simp
  have := bdLoop_edge hc h hxy' 1 [(1, sort (vs.map Factor.vertex ++ .vertex x :: (ws.map Factor.vertex ++ .edge x' y' :: q'))),
    (-1, sort (vs.map Factor.vertex ++ .vertex y :: (ws.map Factor.vertex ++ .edge x' y' :: q')))]
  have hl : (vs.map Factor.vertex ++ .edge x y :: ws.map Factor.vertex).length = vs.length + 1 + ws.length := by simp; omega
  rw [hl] at this
  rw [this]
  have hs : smulC [(-1, sort ((vs.map Factor.vertex ++ .edge x y :: ws.map Factor.vertex) ++ .vertex x' :: q')), (1, sort ((vs.map Factor.vertex ++ .edge x y :: ws.map Factor.vertex) ++ .vertex y' :: q'))] 1 =
      [(-1, sort ((vs.map Factor.vertex ++ .edge x y :: ws.map Factor.vertex) ++ .vertex x' :: q')), (1, sort ((vs.map Factor.vertex ++ .edge x y :: ws.map Factor.vertex) ++ .vertex y' :: q'))] := by
    simp [smulC]
  rw [hs, addC_none]
  · rfl
  · rw [sort_valid_eq (lower_valid h), sort_valid_eq (lower_valid (hc ▸ h)), List.append_assoc, ccmp_append]
    simp only [List.cons_append, ccmp]
    rw [pcmp_not (by simp) (by simp [disjoint])]

end Toppo.Cub
