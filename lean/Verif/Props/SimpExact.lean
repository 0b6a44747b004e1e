import Verif.Props.Simplicial
set_option linter.unusedVariables false
/-!
# C46 for any number of labels: exactly which simplices are kept
-/
namespace Toppo.Simp
open Toppo
variable {T : Type} [DecidableEq T]

/-! ### specification -/

/-- the labels known so far in the order of their first use, and the kept simplices, each with the number of labels known when it was attached -/
structure Kept (T : Type) where
  labels : List T
  kept : List (Finset T × Nat)

/-- a new label is kept as a vertex -/
def Kept.know (k : Kept T) (v : T) : Kept T :=
  if v ∈ k.labels then k else ⟨k.labels ++ [v], k.kept ++ [({v}, k.labels.length + 1)]⟩

/-- the labels that a simplex attached when `n` labels were known can see: the first `64 * (n / 64 + 1)` -/
def Sees (labels : List T) (n : Nat) (x : T) : Prop := labels.idxOf x < 64 * (n / 64 + 1)

instance (labels : List T) (n : Nat) (x : T) : Decidable (Sees labels n x) := inferInstanceAs (Decidable (_ < _))

/-- attaching: after the new labels, the simplex is ignored if some kept simplex contains those of its labels that the kept simplex can see; otherwise it replaces the
kept simplices that it contains -/
def Kept.attach (k : Kept T) (s : List T) : Kept T :=
  let k := s.foldl Kept.know k
  if k.kept.any (fun m => decide (∀ x ∈ s, Sees k.labels m.2 x → x ∈ m.1)) then k
  else ⟨k.labels, k.kept.filter (fun m => decide (¬ m.1 ⊆ s.toFinset)) ++ [(s.toFinset, k.labels.length)]⟩

/-- all calls -/
def Kept.all (history : List (List T)) : Kept T := history.foldl Kept.attach ⟨[], []⟩

/-! ### the complex and its description -/

/-- the description of a complex -/
def Cplx.kept (c : Cplx T) : Kept T := ⟨c.labels, c.cells.map (fun m => (lset c.labels (vs m), m.size))⟩

theorem know_eq {c c' : Cplx T} (h : CInv c) {v : T} (e : c.addVertex v = some c') : c'.kept = c.kept.know v := by
  unfold Cplx.addVertex at e
  unfold Kept.know
  by_cases hv : v ∈ c.labels
  · rw [if_pos hv] at e
    cases e
    rw [if_pos (show v ∈ c.kept.labels from hv)]
  · rw [if_neg hv] at e
    rw [if_neg (show ¬ v ∈ c.kept.labels from hv)]
    obtain ⟨cell, e1, e2, e3, e5, e4⟩ := new_spec (s := c.size + 1) (raw := [c.size]) (by simp) (by simp) (by simp)
    rw [e1] at e
    cases e
    simp only [Cplx.kept, List.map_append, List.map_cons, List.map_nil, Kept.mk.injEq, true_and]
    congr 1
    · refine List.map_congr_left (fun m hm => ?_)
      rw [lset_append (h.lt hm)]
    · have : lset (c.labels ++ [v]) (vs cell) = {v} := by
        ext x
        rw [mem_lset, e4]
        have : (c.labels ++ [v])[c.size]? = some v := by rw [h.size]; simp
        simp [this, eq_comm]
      rw [this, e3, h.size]

theorem knows_eq : ∀ (l : List T) {c c' : Cplx T}, CInv c → l.foldlM Cplx.addVertex c = some c' → c'.kept = l.foldl Kept.know c.kept
  | [], c, c', _, e => by simp only [List.foldlM_nil, pure, Option.some.injEq] at e; rw [e]; rfl
  | v :: l, c, c', h, e => by
    obtain ⟨c1, l1, e1, e2, -⟩ := addVertex_spec h v
    rw [List.foldlM_cons, e1] at e
    rw [List.foldl_cons, ← know_eq h e1]
    exact knows_eq l e2 e

theorem attach_eq {c c' : Cplx T} (h : CInv c) {l : List T} (h0 : l ≠ []) (hn : l.Nodup) {d : Nat} (e : c.attach ⟨d, l⟩ = some c') :
    c'.kept = c.kept.attach l := by
  obtain ⟨c1, ls, e1, e2, e3, e4, e5, e6⟩ := addVertices_spec l h
  have hl : ∀ x ∈ l, x ∈ c1.labels := by
    intro x hx
    have : x ∈ c1.labels.toFinset := by rw [e4]; simp [hx]
    simpa using this
  obtain ⟨idx, f1, f2, f3, f4, f5⟩ := findIdxs_spec e2.nodup l hl hn
  obtain ⟨cell, g1, g2, g3, g5, g4⟩ := new_spec (s := c1.size) (raw := idx) (by
    intro e; rw [e] at f2
    exact h0 (List.length_eq_zero_iff.mp f2.symm)) f3 (by rw [e2.size]; exact f4)
  have hat : ∀ i ∈ vs cell, ∃ x ∈ l, c1.labels[i]? = some x := by
    intro i hi
    rw [g4] at hi
    exact (f5 i).mp (by simpa using hi)
  have hpos : ∀ x ∈ l, c1.labels.idxOf x ∈ vs cell ∧ c1.labels[c1.labels.idxOf x]? = some x := by
    intro x hx
    have h1 := List.getElem?_idxOf (hl x hx)
    refine ⟨?_, h1⟩
    rw [g4]
    simpa using (f5 _).mpr ⟨x, hx, h1⟩
  have hidx : ∀ i x, c1.labels[i]? = some x → c1.labels.idxOf x = i := by
    intro i x hx
    obtain ⟨h1, h2⟩ := List.getElem?_eq_some_iff.mp hx
    rw [← h2]
    exact e2.nodup.idxOf_getElem i h1
  have hlset : lset c1.labels (vs cell) = l.toFinset := by
    ext x
    rw [mem_lset, List.mem_toFinset]
    constructor
    · rintro ⟨i, hi, e⟩
      obtain ⟨y, hy, e'⟩ := hat i hi
      rw [e] at e'; cases e'
      exact hy
    · intro hx
      exact ⟨_, hpos x hx⟩
  have hcell : ∀ i ∈ vs cell, i < c1.labels.length := by
    intro i hi
    obtain ⟨x, -, hx⟩ := hat i hi
    exact (List.getElem?_eq_some_iff.mp hx).1
  have hseen : ∀ m ∈ c1.cells, m.contains cell = decide (∀ x ∈ l, Sees c1.labels m.size x → x ∈ lset c1.labels (vs m)) := by
    intro m hm
    rw [Bool.eq_iff_iff, decide_eq_true_iff, contains_iff_common, (e2.ok m hm).words]
    constructor
    · intro hc x hx hs
      obtain ⟨p1, p2⟩ := hpos x hx
      rw [mem_lset]
      exact ⟨_, hc _ p1 hs, p2⟩
    · intro hc i hi hlt
      obtain ⟨x, hx, hix⟩ := hat i hi
      have := hc x hx (by unfold Sees; rw [hidx i x hix]; exact hlt)
      obtain ⟨j, hj, hjx⟩ := mem_lset.mp this
      rw [← hidx i x hix, hidx j x hjx]
      exact hj
  have hnew : ∀ m ∈ c1.cells, cell.contains m = decide (lset c1.labels (vs m) ⊆ l.toFinset) := by
    intro m hm
    rw [Bool.eq_iff_iff, decide_eq_true_iff, contains_iff (by
      rw [g5, (e2.ok m hm).words]
      have := (e2.ok m hm).size_le
      omega), ← hlset]
    exact ⟨lset_mono, fun hs => lset_subset e2.nodup (e2.lt hm) hs⟩
  have hk := knows_eq l h e1
  have hany : c1.cells.any (fun m => m.contains cell) = c1.kept.kept.any (fun m => decide (∀ x ∈ l, Sees c1.kept.labels m.2 x → x ∈ m.1)) := by
    unfold Cplx.kept
    rw [List.any_map]
    have : ∀ L : List Cell, (∀ m ∈ L, m ∈ c1.cells) → L.any (fun m => m.contains cell) = L.any ((fun m : Finset T × Nat => decide (∀ x ∈ l, Sees c1.labels m.2 x → x ∈ m.1)) ∘ fun m => (lset c1.labels (vs m), m.size)) := by
      intro L
      induction L with
      | nil => intro _; rfl
      | cons a L ih =>
        intro hL
        rw [List.any_cons, List.any_cons, ih (fun m hm => hL m (by simp [hm])), hseen a (hL a (by simp))]
        rfl
    exact this _ (fun m hm => hm)
  unfold Kept.attach
  simp only
  rw [← hk, ← hany]
  simp only [Cplx.attach, e1, f1, g1, Option.bind_eq_bind, Option.bind_some] at e
  by_cases hc : c1.cells.any (fun m => m.contains cell) = true
  · rw [if_pos hc] at e
    rw [if_pos hc]
    cases e; rfl
  · rw [if_neg hc] at e
    rw [if_neg hc]
    cases e
    simp only [Cplx.kept, List.map_append, List.map_cons, List.map_nil, Kept.mk.injEq, true_and]
    rw [hlset, g3, e2.size]
    congr 1
    rw [List.filter_map]
    congr 1
    refine List.filter_congr (fun m hm => ?_)
    rw [hnew m hm]
    simp [Function.comp]

theorem build_eq : ∀ (history : List (List T)), (∀ s ∈ history, s ≠ [] ∧ s.Nodup) → ∀ c, Cplx.build history = some c → c.kept = Kept.all history := by
  intro history
  induction history using List.reverseRecOn with
  | nil => intro _ c e; cases e; rfl
  | append_singleton hs l ih =>
    intro h1 c e
    obtain ⟨hl0, hln⟩ := h1 l (by simp)
    obtain ⟨c0, a1, a2⟩ := build_hist hs (fun s hs => h1 s (by simp [hs]))
    have ih := ih (fun s hs => h1 s (by simp [hs])) c0 a1
    rw [Cplx.build, List.foldlM_append] at e
    rw [Cplx.build] at a1
    have hcs : csub l.length 1 = some (l.length - 1) := by
      rw [csub, if_pos (Nat.succ_le_of_lt (List.length_pos_of_ne_nil hl0))]
    rw [a1] at e
    simp only [Option.bind_eq_bind, Option.bind_some, List.foldlM_cons, List.foldlM_nil, Simplex.ofLabels, hcs, pure] at e
    unfold Kept.all
    rw [List.foldl_append, List.foldl_cons, List.foldl_nil]
    show c.kept = Kept.attach (Kept.all hs) l
    rw [← ih]
    refine attach_eq a2.inv hl0 hln (d := l.length - 1) ?_
    simpa using e

/-- **C46, exactly, for any number of labels**: the listed simplices are the non-empty subsets of the kept simplices. -/
theorem c46_exact {history : List (List T)} (hh : GoodHistory history) :
    ∃ c bm, Cplx.build history = some c ∧ c.boundaryMap = some bm ∧
      ∀ A, Listed bm A ↔ A.Nonempty ∧ ∃ m ∈ (Kept.all history).kept, A ⊆ m.1 := by
  obtain ⟨c, e1, e2⟩ := build_hist history hh.simplices
  obtain ⟨d, bm, Ls, f1, f2, f3, f4, f5⟩ := boundaryMap_spec e2.inv (cells_ne e2 hh)
  have hlist := listed_iff e2 f1 f3 f4 f5
  refine ⟨c, bm, e1, f2, fun A => ?_⟩
  rw [hlist, ← build_eq history hh.simplices c e1]
  constructor
  · rintro ⟨F, g1, ⟨m, hm, hsub⟩, rfl⟩
    have hF := face_lt e2.inv ⟨m, hm, hsub⟩
    refine ⟨?_, _, List.mem_map.mpr ⟨m, hm, rfl⟩, lset_mono hsub⟩
    rw [← Finset.card_pos, lset_card e2.inv.nodup hF, Finset.card_pos]
    exact g1
  · rintro ⟨hne, m', hm', hsub⟩
    obtain ⟨m, hm, rfl⟩ := List.mem_map.mp hm'
    have hl : A ⊆ c.labels.toFinset := by
      intro x hx
      obtain ⟨i, -, e⟩ := mem_lset.mp (hsub hx)
      simpa using List.mem_of_getElem? e
    obtain ⟨B, hB, rfl⟩ := exists_idx hl
    refine ⟨B, ?_, ⟨m, hm, lset_subset e2.inv.nodup hB hsub⟩, rfl⟩
    rw [← Finset.card_pos, ← lset_card e2.inv.nodup hB, Finset.card_pos]
    exact hne

/-- **C46**: the complex is the one generated by the attached simplices exactly when every attached simplex lies in a kept one. -/
theorem c46_faithful {history : List (List T)} (hh : GoodHistory history) :
    ∃ c bm, Cplx.build history = some c ∧ c.boundaryMap = some bm ∧
      ((∀ A, Listed bm A ↔ IsFace history A) ↔ ∀ s ∈ history, ∃ m ∈ (Kept.all history).kept, s.toFinset ⊆ m.1) := by
  obtain ⟨c, bm, e1, e2, h⟩ := c46_exact hh
  obtain ⟨c', bm', g1, g2, -, g3, -⟩ := c46_complex hh
  rw [e1] at g1; cases g1
  rw [e2] at g2; cases g2
  refine ⟨c, bm, e1, e2, fun hA s hs => ?_, fun hs A => ⟨g3 A, ?_⟩⟩
  · have hne : s.toFinset.Nonempty := by
      obtain ⟨x, hx⟩ := List.exists_mem_of_ne_nil _ (hh.simplices s hs).1
      exact ⟨x, by simpa using hx⟩
    exact ((h _).mp ((hA _).mpr ⟨hne, s, hs, subset_rfl⟩)).2
  · rintro ⟨hne, s, hs', hsub⟩
    obtain ⟨m, hm, hm'⟩ := hs s hs'
    exact (h A).mpr ⟨hne, m, hm, hsub.trans hm'⟩

/-- with three labels: the triangle replaces its edges, and the repeated edge is ignored -/
example : (Kept.all [[1, 2], [2, 3], [1, 2, 3], [3, 2]]).kept = [({1, 2, 3}, 3)] := by decide +kernel

/-- with 66 vertices: the edge `{64, 65}` is ignored, because the vertex `0` does not see its labels; the edge `{0, 65}` is ignored, because the vertex `0` sees
only its label `0`; the triangle `{0, 1, 65}` is kept -/
example : ((Kept.all ((List.range 66).map (fun i => [i]) ++ [[64, 65], [0, 65], [0, 1, 65]])).kept.filter (fun m => decide (m.1.card ≠ 1))) = [({0, 1, 65}, 66)] := by
  decide +kernel

end Toppo.Simp
