import Verif.Props.Delaunay
set_option linter.unusedVariables false
/-! The triangulation loop with two in-circle tests that agree on triangles that are not degenerate. -/
namespace Toppo.GeomProps
open Toppo.Geom

variable {P : Type}

/-- a map applied to the corners -/
def map3 (f : P → Pt) (t : P × P × P) : Tri := (f t.1, f t.2.1, f t.2.2)

theorem collect_map (f : P → Pt) (points : List P) (t : Triple) :
    collectTriangle (points.map f) t = (collectTriangle points t).map (map3 f) := by
  unfold collectTriangle
  split_ifs
  · simp only [List.getElem?_map, Option.bind_eq_bind]
    cases points[t.1]? <;> simp
    cases points[t.2.1]? <;> simp
    cases points[t.2.2]? <;> simp [map3]
  · rfl

theorem mapM_map (f : P → Pt) (points : List P) : ∀ (l : List Triple) (out : List (P × P × P)), l.mapM (collectTriangle points) = some out →
    l.mapM (collectTriangle (points.map f)) = some (out.map (map3 f)) := by
  intro l
  induction l with
  | nil => intro out h; simp at h; subst h; simp
  | cons t l ih =>
    intro out h
    rw [List.mapM_cons] at h
    simp only [Option.bind_eq_bind, Option.bind_eq_some_iff] at h
    obtain ⟨a, h1, b, h2, h3⟩ := h
    simp only [Option.pure_def, Option.some.injEq] at h3
    subst h3
    rw [List.mapM_cons, collect_map, h1, ih b h2]
    rfl

theorem index_map (f : P → Pt) (points sup : List P) (i : Nat) : index (points.map f) (sup.map f) i = (index points sup i).map f := by
  unfold index
  rw [List.length_map]
  split_ifs <;> simp

theorem after_congr {inC : P → P → P → P → Bool} {inC' : Pt → Pt → Pt → Pt → Bool} {pos : Nat → P} {pos' : Nat → Pt} {tri : List Triple} {i : Nat}
    (h : ∀ t ∈ tri, test inC pos t i = test inC' pos' t i) : after inC pos tri i = after inC' pos' tri i := by
  have e1 : tri.filter (fun t => !test inC pos t i) = tri.filter (fun t => !test inC' pos' t i) :=
    List.filter_congr (fun t ht => by rw [h t ht])
  have e2 : tri.filter (fun t => test inC pos t i) = tri.filter (fun t => test inC' pos' t i) :=
    List.filter_congr (fun t ht => by rw [h t ht])
  unfold after
  rw [e1, e2]

/-- two tests that agree on every triangle with non-zero area and every point that is not one of its corners give the same triangulation -/
theorem triangulate_agree (inC : P → P → P → P → Bool) (f : P → Pt) (points sup : List P) (hs : sup.length = 3)
    (hull : ∀ pos : Nat → Pt, (∀ i, i < points.length + 3 → index (points.map f) (sup.map f) i = some (pos i)) → Hull points.length pos)
    (hag : ∀ (a b c i : Nat) (x y z p : P), a < b → b < c → i ≠ a → i ≠ b → i ≠ c → index points sup a = some x → index points sup b = some y →
      index points sup c = some z → points[i]? = some p → area2 (f x) (f y) (f z) ≠ 0 → (inC x y z p = true ↔ circumContains (f x) (f y) (f z) (f p))) :
    ∃ out idx, triangulate inC points sup = some (out, idx) ∧ triangulate exactC (points.map f) (sup.map f) = some (out.map (map3 f), idx) := by
  have hex : ∀ i, i < points.length + 3 → ∃ x, index points sup i = some x := by
    intro i hi
    unfold index
    split
    · exact ⟨_, List.getElem?_eq_getElem (by assumption)⟩
    · exact ⟨_, List.getElem?_eq_getElem (by omega)⟩
  obtain ⟨x0, -⟩ := hex (points.length + 2) (by omega)
  generalize hp : (fun i => (index points sup i).getD x0) = pos
  have hpos : ∀ i, i < points.length + 3 → index points sup i = some (pos i) := by
    intro i hi
    obtain ⟨x, hx⟩ := hex i hi
    rw [← hp]
    simp [hx]
  have hpos' : ∀ i, i < (points.map f).length + 3 → index (points.map f) (sup.map f) i = some ((f ∘ pos) i) := by
    intro i hi
    rw [List.length_map] at hi
    rw [index_map, hpos i hi]; rfl
  have hhull := hull (f ∘ pos) (by simpa using hpos')
  obtain ⟨Z, hlift, -, -⟩ := exists_lift points.length (f ∘ pos) exactC exactC_iff
  have hsame : ∀ i tri, i < points.length → Comb points.length i tri → Inv points.length (f ∘ pos) Z i tri → after inC pos tri i = after exactC (f ∘ pos) tri i := by
    intro i tri hi hc hinv
    refine after_congr (fun t ht => ?_)
    have hl := hc.live t ht
    have h1 := hl t.1 (Or.inl rfl)
    have h2 := hl t.2.1 (Or.inr (Or.inl rfl))
    have h3 := hl t.2.2 (Or.inr (Or.inr rfl))
    have hso := hc.sorted t ht
    have hnd := hinv.nondeg t ht
    have hpi : points[i]? = some (pos i) := by
      have := hpos i (by omega)
      unfold index at this
      rwa [if_pos hi] at this
    have := hag t.1 t.2.1 t.2.2 i _ _ _ _ hso.1 hso.2 (by omega) (by omega) (by omega) (hpos _ (by omega)) (hpos _ (by omega)) (hpos _ (by omega)) hpi hnd
    rw [Bool.eq_iff_iff]
    show inC _ _ _ _ = true ↔ exactC _ _ _ _ = true
    rw [this, exactC_iff]; rfl
  obtain ⟨tri, h1, h2, h3, h4⟩ := insertAll inC points sup pos hpos
    (fun m tri => Inv points.length (f ∘ pos) Z m tri ∧
      (List.range m).foldlM (insertPoint exactC (points.map f) (sup.map f)) [(points.length, points.length + 1, points.length + 2)] = some tri)
    ⟨inv_init hhull, by simp⟩
    (fun i tri hi hc hq => by
      rw [hsame i tri hi hc hq.1]
      refine ⟨inv_step hlift hhull hi hc hq.1, ?_⟩
      have e := (insertPoint_eq exactC (points.map f) (sup.map f) (f ∘ pos) hpos' i (by rw [List.length_map]; exact hi) tri (by rw [List.length_map]; exact hc)).1
      rw [List.range_succ, List.foldlM_append, hq.2]
      simp only [Option.bind_eq_bind, Option.bind_some, List.foldlM_cons, List.foldlM_nil, e]
      rfl)
  set l := tri.filter (fun t => decide (t.1 < points.length) && decide (t.2.1 < points.length) && decide (t.2.2 < points.length)) with hl
  have hsl : ∀ t ∈ l, Sorted t ∧ t.2.2 < points.length := by
    intro t ht
    rw [hl, List.mem_filter] at ht
    simp only [Bool.and_eq_true, decide_eq_true_eq] at ht
    exact ⟨h2.sorted t ht.1, ht.2.2⟩
  obtain ⟨out, h5, -⟩ := collect_eq points (n := 0) l hsl
  refine ⟨out, l, ?_, ?_⟩
  · unfold triangulate
    simp only [Option.bind_eq_bind, h1, Option.bind_some, ← hl, h5]
    rfl
  · unfold triangulate
    simp only [List.length_map, Option.bind_eq_bind, h4, Option.bind_some, ← hl, mapM_map f points l out h5]
    rfl

end Toppo.GeomProps
