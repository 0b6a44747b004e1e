import Verif.Model.Geom
import Mathlib.Data.List.Nodup
import Mathlib.Data.List.Sort
import Mathlib.Data.List.Pairwise
set_option linter.unusedVariables false
/-! The combinatorial part of the triangulation loop, for an arbitrary in-circle test. -/
namespace Toppo.Geom

/-- the edges of a triangle -/
def ed (t : Triple) : List (Nat × Nat) := [(t.1, t.2.1), (t.1, t.2.2), (t.2.1, t.2.2)]
def Mem (v : Nat) (t : Triple) : Prop := v = t.1 ∨ v = t.2.1 ∨ v = t.2.2
instance (v : Nat) (t : Triple) : Decidable (Mem v t) := by unfold Mem; infer_instance
def Sorted (t : Triple) : Prop := t.1 < t.2.1 ∧ t.2.1 < t.2.2

def toL (e : Nat × Nat) : List Nat := [e.1, e.2]
theorem toL_inj {e e' : Nat × Nat} : toL e = toL e' ↔ e = e' := by
  constructor
  · intro h; simp [toL] at h; exact Prod.ext h.1 h.2
  · rintro rfl; rfl

theorem edgesOf_eq (t : Triple) : edgesOf t = some ((ed t).map toL) := rfl

theorem allEdges_eq (ts : List Triple) : allEdges ts = some ((ts.flatMap ed).map toL) := by
  induction ts with
  | nil => rfl
  | cons t ts ih =>
    unfold allEdges
    rw [edgesOf_eq, ih]
    simp

/-- the edges of `t` that no other triangle of `bad` has -/
def bd (bad : List Triple) (t : Triple) : List (Nat × Nat) := (ed t).filter (fun e => decide (∀ s ∈ bad, s ≠ t → e ∉ ed s))

theorem mapM_toPair (l : List (Nat × Nat)) : (l.map toL).mapM toPair = some l := by
  induction l with
  | nil => rfl
  | cons e l ih => rw [List.map_cons, List.mapM_cons, ih]; rfl

theorem boundaryOf_eq (bad : List Triple) (t : Triple) : boundaryOf bad t = some (bd bad t) := by
  unfold boundaryOf
  rw [edgesOf_eq, allEdges_eq]
  simp only [Option.bind_eq_bind, Option.bind_some]
  rw [List.filter_map, mapM_toPair]
  congr 1
  unfold bd
  apply List.filter_congr
  intro e _
  simp only [Function.comp]
  rw [Bool.eq_iff_iff, List.all_eq_true, decide_eq_true_eq]
  simp only [List.mem_map, List.mem_flatMap, List.mem_filter, decide_eq_true_eq]
  constructor
  · intro h s hs hst hes
    exact h (toL e) ⟨e, ⟨s, ⟨hs, hst⟩, hes⟩, rfl⟩ rfl
  · rintro h x ⟨e', ⟨s, ⟨hs, hst⟩, hes⟩, rfl⟩ heq
    rw [toL_inj] at heq
    subst heq
    exact h s hs hst hes

theorem polygonOf_eq (bad ts : List Triple) : polygonOf bad ts = some (ts.flatMap (bd bad)) := by
  induction ts with
  | nil => rfl
  | cons t ts ih =>
    unfold polygonOf
    rw [boundaryOf_eq, ih]
    simp

def poly (bad : List Triple) : List (Nat × Nat) := bad.flatMap (bd bad)

/-- putting a third number into a sorted pair -/
def srt (e : Nat × Nat) (i : Nat) : Triple := if i < e.1 then (i, e.1, e.2) else if i < e.2 then (e.1, i, e.2) else (e.1, e.2, i)

theorem sort3_eq (e : Nat × Nat) (i : Nat) (h : e.1 < e.2) (h1 : i ≠ e.1) (h2 : i ≠ e.2) : sort3 e.1 e.2 i = some (srt e i) := by
  have key : [e.1, e.2, i].insertionSort (fun x y => x ≤ y) = [(srt e i).1, (srt e i).2.1, (srt e i).2.2] := by
    have hp := List.perm_insertionSort (fun x y : Nat => x ≤ y) [e.1, e.2, i]
    have hs := List.pairwise_insertionSort (fun x y : Nat => x ≤ y) [e.1, e.2, i]
    apply List.Perm.eq_of_pairwise' (r := fun x y : Nat => x ≤ y)
    · exact hs
    · unfold srt
      split
      · simp; omega
      · split
        · simp; omega
        · simp; omega
    · refine hp.trans ?_
      unfold srt
      split
      · exact (List.perm_append_comm (l₁ := [e.1, e.2]) (l₂ := [i]))
      · split
        · exact List.Perm.cons _ (List.Perm.swap _ _ _)
        · exact List.Perm.refl _
  unfold sort3
  rw [key]

theorem srt_sorted {e : Nat × Nat} {i : Nat} (h : e.1 < e.2) (h1 : i ≠ e.1) (h2 : i ≠ e.2) : Sorted (srt e i) := by
  unfold Sorted srt
  split
  · exact ⟨by assumption, h⟩
  · split
    · simp only; omega
    · simp only; omega

theorem mem_srt {e : Nat × Nat} {i v : Nat} : Mem v (srt e i) ↔ v = e.1 ∨ v = e.2 ∨ v = i := by
  unfold Mem srt
  split
  · simp only; omega
  · split
    · simp only; omega
    · simp only

/-- a sorted triple is determined by its members -/
theorem triple_ext {s t : Triple} (hs : Sorted s) (ht : Sorted t) (h : ∀ v, Mem v s → Mem v t) : s = t := by
  obtain ⟨a, b, c⟩ := s
  obtain ⟨x, y, z⟩ := t
  have h1 := h a (Or.inl rfl)
  have h2 := h b (Or.inr (Or.inl rfl))
  have h3 := h c (Or.inr (Or.inr rfl))
  simp only [Sorted, Mem, Prod.mk.injEq] at *
  omega

theorem mem_ed {e : Nat × Nat} {t : Triple} (ht : Sorted t) : e ∈ ed t ↔ e.1 < e.2 ∧ Mem e.1 t ∧ Mem e.2 t := by
  obtain ⟨a, b⟩ := e
  obtain ⟨x, y, z⟩ := t
  simp only [ed, Sorted, Mem, List.mem_cons, List.not_mem_nil, or_false, Prod.mk.injEq] at *
  omega

theorem ed_nodup {t : Triple} (ht : Sorted t) : (ed t).Nodup := by
  obtain ⟨x, y, z⟩ := t
  simp only [ed, Sorted] at *
  simp
  omega

theorem poly_nodup {bad : List Triple} (hn : bad.Nodup) (hs : ∀ t ∈ bad, Sorted t) : (poly bad).Nodup := by
  unfold poly
  rw [List.nodup_flatMap]
  refine ⟨fun t ht => (ed_nodup (hs t ht)).filter _, ?_⟩
  refine hn.imp_of_mem ?_
  intro s t hs' ht hst
  rw [Function.onFun, List.disjoint_left]
  intro e he he'
  unfold bd at he he'
  rw [List.mem_filter, decide_eq_true_eq] at he he'
  exact he'.2 s hs' hst he.1

theorem mem_poly {bad : List Triple} {e : Nat × Nat} : e ∈ poly bad ↔ ∃ t ∈ bad, e ∈ ed t ∧ ∀ s ∈ bad, s ≠ t → e ∉ ed s := by
  unfold poly bd
  simp only [List.mem_flatMap, List.mem_filter, decide_eq_true_eq]

/-- what the list of triangles is after inserting the points below `m` -/
structure Comb (n m : Nat) (tri : List Triple) : Prop where
  sorted : ∀ t ∈ tri, Sorted t
  live : ∀ t ∈ tri, ∀ v, Mem v t → v < m ∨ (n ≤ v ∧ v < n + 3)
  nodup : tri.Nodup

section
variable {P : Type} (inC : P → P → P → P → Bool) (points sup : List P)

/-- the answers of the test, for triangles given by indices -/
def test (pos : Nat → P) (t : Triple) (i : Nat) : Bool := inC (pos t.1) (pos t.2.1) (pos t.2.2) (pos i)

theorem badTriangles_eq (pos : Nat → P) (hpos : ∀ i, i < points.length + 3 → index points sup i = some (pos i)) (i : Nat) (hi : i < points.length)
    (tri : List Triple) (h : ∀ t ∈ tri, ∀ v, Mem v t → v < points.length + 3) :
    badTriangles inC points sup i tri = some (tri.filter (fun t => test inC pos t i)) := by
  have hp : points[i]? = some (pos i) := by
    have := hpos i (by omega)
    unfold index at this
    rw [if_pos hi] at this
    exact this
  induction tri with
  | nil => rfl
  | cons t ts ih =>
    have ht := h t (List.mem_cons_self ..)
    unfold badTriangles
    rw [hpos _ (ht _ (Or.inl rfl)), hpos _ (ht _ (Or.inr (Or.inl rfl))), hpos _ (ht _ (Or.inr (Or.inr rfl))), hp,
      ih (fun t' ht' => h t' (List.mem_cons_of_mem _ ht'))]
    simp only [Option.bind_eq_bind, Option.bind_some, List.filter_cons, test]
    rfl

/-- the list after inserting `i` -/
def after (pos : Nat → P) (tri : List Triple) (i : Nat) : List Triple :=
  tri.filter (fun t => !test inC pos t i) ++ (poly (tri.filter (fun t => test inC pos t i))).map (fun e => srt e i)

theorem insertPoint_eq (pos : Nat → P) (hpos : ∀ i, i < points.length + 3 → index points sup i = some (pos i)) (i : Nat) (hi : i < points.length)
    (tri : List Triple) (h : Comb points.length i tri) :
    insertPoint inC points sup tri i = some (after inC pos tri i) ∧ Comb points.length (i + 1) (after inC pos tri i) := by
  have hbad := badTriangles_eq inC points sup pos hpos i hi tri (fun t ht v hv => by have := h.live t ht v hv; omega)
  set bad := tri.filter (fun t => test inC pos t i) with hb
  have hbs : ∀ t ∈ bad, Sorted t := fun t ht => h.sorted t (List.mem_of_mem_filter ht)
  have hpe : ∀ e ∈ poly bad, e.1 < e.2 ∧ i ≠ e.1 ∧ i ≠ e.2 ∧ (e.1 < i ∨ (points.length ≤ e.1 ∧ e.1 < points.length + 3)) ∧
      (e.2 < i ∨ (points.length ≤ e.2 ∧ e.2 < points.length + 3)) := by
    intro e he
    obtain ⟨t, ht, hte, _⟩ := mem_poly.mp he
    rw [mem_ed (hbs t ht)] at hte
    have l1 := h.live t (List.mem_of_mem_filter ht) _ hte.2.1
    have l2 := h.live t (List.mem_of_mem_filter ht) _ hte.2.2
    exact ⟨hte.1, by omega, by omega, l1, l2⟩
  constructor
  · unfold insertPoint
    rw [hbad]
    simp only [Option.bind_eq_bind, Option.bind_some, polygonOf_eq]
    have hm : ∀ l : List (Nat × Nat), (∀ e ∈ l, e.1 < e.2 ∧ i ≠ e.1 ∧ i ≠ e.2) → l.mapM (fun e => sort3 e.1 e.2 i) = some (l.map (fun e => srt e i)) := by
      intro l
      induction l with
      | nil => intro _; rfl
      | cons e l ih =>
        intro hl
        have he := hl e (List.mem_cons_self ..)
        rw [List.mapM_cons, sort3_eq e i he.1 he.2.1 he.2.2, ih (fun x hx => hl x (List.mem_cons_of_mem _ hx))]
        rfl
    rw [show bad.flatMap (bd bad) = poly bad from rfl, hm _ (fun e he => ⟨(hpe e he).1, (hpe e he).2.1, (hpe e he).2.2.1⟩)]
    simp only [Option.bind_some, Option.pure_def, after, ← hb]
    congr 2
    apply List.filter_congr
    intro t ht
    congr 1
    rw [Bool.eq_iff_iff, List.contains_iff_mem, hb, List.mem_filter]
    exact ⟨fun hh => hh.2, fun hh => ⟨ht, hh⟩⟩
  · unfold after
    rw [← hb]
    refine ⟨?_, ?_, ?_⟩
    · intro t ht
      rcases List.mem_append.mp ht with ht | ht
      · exact h.sorted t (List.mem_of_mem_filter ht)
      · rw [List.mem_map] at ht
        obtain ⟨e, he, rfl⟩ := ht
        exact srt_sorted (hpe e he).1 (hpe e he).2.1 (hpe e he).2.2.1
    · intro t ht v hv
      rcases List.mem_append.mp ht with ht | ht
      · have := h.live t (List.mem_of_mem_filter ht) v hv
        omega
      · rw [List.mem_map] at ht
        obtain ⟨e, he, rfl⟩ := ht
        have := hpe e he
        rw [mem_srt] at hv
        omega
    · rw [List.nodup_append]
      refine ⟨h.nodup.filter _, ?_, ?_⟩
      · rw [List.nodup_map_iff_inj_on (poly_nodup (h.nodup.filter _) hbs)]
        intro e he e' he' heq
        have h1 := hpe e he
        have h2 := hpe e' he'
        have m1 : ∀ v, Mem v (srt e i) ↔ Mem v (srt e' i) := by intro v; rw [heq]
        simp only [mem_srt] at m1
        have a1 := m1 e.1
        have a2 := m1 e.2
        have a3 := m1 e'.1
        apply Prod.ext <;> omega
      · intro t ht t' ht' heq
        subst heq
        rw [List.mem_map] at ht'
        obtain ⟨e, he, rfl⟩ := ht'
        have := h.live _ (List.mem_of_mem_filter ht) i (mem_srt.mpr (Or.inr (Or.inr rfl)))
        omega

/-- the lists after each insertion -/
theorem insertAll (pos : Nat → P) (hpos : ∀ i, i < points.length + 3 → index points sup i = some (pos i))
    (Q : Nat → List Triple → Prop) (h0 : Q 0 [(points.length, points.length + 1, points.length + 2)])
    (hstep : ∀ i tri, i < points.length → Comb points.length i tri → Q i tri → Q (i + 1) (after inC pos tri i)) :
    ∃ tri, (List.range points.length).foldlM (insertPoint inC points sup) [(points.length, points.length + 1, points.length + 2)] = some tri ∧
      Comb points.length points.length tri ∧ Q points.length tri := by
  have : ∀ k, k ≤ points.length → ∃ tri, (List.range k).foldlM (insertPoint inC points sup) [(points.length, points.length + 1, points.length + 2)] = some tri ∧
      Comb points.length k tri ∧ Q k tri := by
    intro k
    induction k with
    | zero =>
      intro _
      refine ⟨_, rfl, ⟨?_, ?_, List.nodup_singleton _⟩, h0⟩
      · intro t ht
        rw [List.mem_singleton] at ht
        subst ht
        exact ⟨by simp, by simp⟩
      · intro t ht v hv
        rw [List.mem_singleton] at ht
        subst ht
        simp only [Mem] at hv
        omega
    | succ k ih =>
      intro hk
      obtain ⟨tri, h1, h2, h3⟩ := ih (by omega)
      obtain ⟨e1, e2⟩ := insertPoint_eq inC points sup pos hpos k (by omega) tri h2
      refine ⟨_, ?_, e2, hstep k tri (by omega) h2 h3⟩
      rw [List.range_succ, List.foldlM_append, h1]
      simp only [Option.bind_eq_bind, Option.bind_some, List.foldlM_cons, List.foldlM_nil, e1]
      rfl
  exact this _ (le_refl _)

theorem collect_eq {n : Nat} : ∀ (l : List Triple), (∀ t ∈ l, Sorted t ∧ t.2.2 < points.length) →
    ∃ out, l.mapM (collectTriangle points) = some out ∧
      out.map (fun t => (some t.1, some t.2.1, some t.2.2)) = l.map (fun t => (points[t.1]?, points[t.2.1]?, points[t.2.2]?)) := by
  intro l
  induction l with
  | nil => intro _; exact ⟨[], rfl, rfl⟩
  | cons t l ih =>
    intro hl
    obtain ⟨out, h1, h2⟩ := ih (fun x hx => hl x (List.mem_cons_of_mem _ hx))
    obtain ⟨⟨s1, s2⟩, s3⟩ := hl t (List.mem_cons_self ..)
    have g1 : points[t.1]? = some points[t.1] := List.getElem?_eq_getElem (by omega)
    have g2 : points[t.2.1]? = some points[t.2.1] := List.getElem?_eq_getElem (by omega)
    have g3 : points[t.2.2]? = some points[t.2.2] := List.getElem?_eq_getElem (by omega)
    refine ⟨(points[t.1], points[t.2.1], points[t.2.2]) :: out, ?_, ?_⟩
    · rw [List.mapM_cons, h1]
      unfold collectTriangle
      rw [if_pos ⟨by omega, by omega, by omega⟩, g1, g2, g3]
      rfl
    · rw [List.map_cons, List.map_cons, h2, g1, g2, g3]

end
end Toppo.Geom
