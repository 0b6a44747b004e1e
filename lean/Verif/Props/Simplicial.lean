import Verif.Proof.SimplicialBd
import Verif.Props.Homology
import Mathlib.Data.Prod.Lex
set_option linter.unusedVariables false
set_option linter.unusedSectionVars false
/-!
# C45, C46: simplicial complexes, their cells and boundary maps

The complexes are the ones built by a history of `attach` calls; each attached simplex is non-empty and lists no label twice
(otherwise the code panics).  What is said about the boundary maps and about the cells being a simplicial complex inside the attached
simplices holds for any number of labels; that no simplex is lost holds for at most 64 labels, and fails for 65 (`c46_false`).
-/
namespace Toppo.Simp
open Toppo Toppo.Smith
variable {T : Type} [DecidableEq T]

/-- the histories considered: non-empty simplices without repeated labels, at least one of them -/
structure GoodHistory (history : List (List T)) : Prop where
  nonempty : history ≠ []
  simplices : ∀ s ∈ history, s ≠ [] ∧ s.Nodup

/-- Specification: `A` is (the vertex set of) a simplex of the complex generated by the history -/
def IsFace (history : List (List T)) (A : Finset T) : Prop := A.Nonempty ∧ ∃ s ∈ history, A ⊆ s.toFinset

theorem size_pos {c : Cplx T} {history : List (List T)} (h : Hist c history) (hh : GoodHistory history) : 0 < c.size := by
  obtain ⟨s, hs⟩ := List.exists_mem_of_ne_nil _ hh.nonempty
  obtain ⟨x, hx⟩ := List.exists_mem_of_ne_nil _ (hh.simplices s hs).1
  have : x ∈ c.labels.toFinset := by
    rw [h.labels]
    simp only [List.mem_toFinset, List.mem_flatten]
    exact ⟨s, hs, hx⟩
  rw [h.inv.size]
  exact List.length_pos_of_mem (by simpa using this)

theorem cells_ne {c : Cplx T} {history : List (List T)} (h : Hist c history) (hh : GoodHistory history) : c.cells ≠ [] := by
  obtain ⟨m, hm, -⟩ := h.inv.cover 0 (size_pos h hh)
  exact List.ne_nil_of_mem hm

/-- the faces of the index complex are faces of the history -/
theorem face_sound {c : Cplx T} {history : List (List T)} (h : Hist c history) {A : Finset Nat} (hf : Face c A) :
    ∃ s ∈ history, lset c.labels A ⊆ s.toFinset := by
  obtain ⟨m, hm, hsub⟩ := hf
  obtain ⟨s, hs, h1⟩ := h.inside m hm
  exact ⟨s, hs, (lset_mono hsub).trans h1⟩

/-- with at most 64 labels the faces of the index complex are all faces of the history -/
theorem face_iff {c : Cplx T} {history : List (List T)} (h : Hist c history) (hb : history.flatten.toFinset.card ≤ 64)
    {A : Finset Nat} (hA : ∀ i ∈ A, i < c.labels.length) :
    Face c A ↔ ∃ s ∈ history, lset c.labels A ⊆ s.toFinset := by
  refine ⟨face_sound h, ?_⟩
  rintro ⟨s, hs, h1⟩
  obtain ⟨m, hm, h2⟩ := h.cover hb s hs
  exact ⟨m, hm, lset_subset h.inv.nodup hA (h1.trans h2)⟩

/-- every set of labels of the complex comes from a set of positions -/
theorem exists_idx {labels : List T} {A : Finset T} (hA : A ⊆ labels.toFinset) :
    ∃ B : Finset Nat, (∀ i ∈ B, i < labels.length) ∧ lset labels B = A := by
  classical
  refine ⟨(Finset.range labels.length).filter (fun i => ∃ x ∈ A, labels[i]? = some x), fun i hi => by
    rw [Finset.mem_filter, Finset.mem_range] at hi; exact hi.1, ?_⟩
  ext x
  rw [mem_lset]
  constructor
  · rintro ⟨i, hi, e⟩
    rw [Finset.mem_filter] at hi
    obtain ⟨-, y, hy, e'⟩ := hi
    rw [e] at e'
    cases e'
    exact hy
  · intro hx
    have : x ∈ labels := by simpa using hA hx
    obtain ⟨i, hi, e⟩ := List.getElem_of_mem this
    have e : labels[i]? = some x := by rw [List.getElem?_eq_getElem hi, e]
    exact ⟨i, by rw [Finset.mem_filter, Finset.mem_range]; exact ⟨hi, x, hx, e⟩, e⟩

theorem face_sub_labels {c : Cplx T} {history : List (List T)} (h : Hist c history) {A : Finset T} {s : List T} (hs : s ∈ history)
    (hA : A ⊆ s.toFinset) : A ⊆ c.labels.toFinset := by
  rw [h.labels]
  intro x hx
  have := hA hx
  simp only [List.mem_toFinset, List.mem_flatten] at *
  exact ⟨s, hs, this⟩

theorem CellOk.lt_labels {c : Cplx T} (h : CInv c) {a : Cell} (ha : CellOk c.size a) : ∀ i ∈ vs a, i < c.labels.length := by
  intro i hi
  have := ha.lt i hi
  have := ha.size_le
  have := h.size
  omega

/-- the basis of each dimension lists the cells of that dimension -/
theorem basis_spec {c : Cplx T} {history : List (List T)} (h : Hist c history) {L : List Cell} {i : Nat} {B : List (Simplex T)}
    (hL : Level c i L) (hB : List.Forall₂ (fun a s => IsSimplex c.labels (vs a) s) L B) :
    (B.map (fun s => s.labels.toFinset)).Nodup ∧ (∀ s ∈ B, s.dim = i ∧ s.labels.Nodup) ∧
      ∀ A : Finset T, (∃ s ∈ B, s.labels.toFinset = A) ↔ ∃ F : Finset Nat, F.card = i + 1 ∧ Face c F ∧ lset c.labels F = A := by
  have hidx : ∀ s ∈ B, ∃ a ∈ L, IsSimplex c.labels (vs a) s := by
    intro s hs
    obtain ⟨k, hk⟩ := List.mem_iff_getElem?.mp hs
    obtain ⟨hlt, e⟩ := List.getElem?_eq_some_iff.mp hk
    have := List.Forall₂.get hB (i := k) (by rw [hB.length_eq]; exact hlt) hlt
    exact ⟨_, List.get_mem _ _, by rw [← e]; exact this⟩
  have hidx' : ∀ a ∈ L, ∃ s ∈ B, IsSimplex c.labels (vs a) s := by
    intro a ha
    obtain ⟨k, hk⟩ := List.mem_iff_getElem?.mp ha
    obtain ⟨hlt, e⟩ := List.getElem?_eq_some_iff.mp hk
    have := List.Forall₂.get hB (i := k) hlt (by rw [← hB.length_eq]; exact hlt)
    exact ⟨_, List.get_mem _ _, by rw [← e]; exact this⟩
  refine ⟨?_, ?_, ?_⟩
  · have : B.map (fun s => s.labels.toFinset) = (L.map vs).map (lset c.labels) := by
      rw [List.map_map]
      have h2 := hB
      clear hidx hidx' hL hB
      induction h2 with
      | nil => rfl
      | cons h1 _ ih => simp only [List.map_cons, ih, mem_isSimplex h1]; rfl
    rw [this]
    refine List.Nodup.map_on ?_ hL.nodup
    intro A hA B hB e
    obtain ⟨a, ha, rfl⟩ := List.mem_map.mp hA
    obtain ⟨a', ha', rfl⟩ := List.mem_map.mp hB
    exact lset_inj h.inv.nodup (CellOk.lt_labels h.inv (hL.ok a ha).1) (CellOk.lt_labels h.inv (hL.ok a' ha').1) e
  · intro s hs
    obtain ⟨a, ha, h1⟩ := hidx s hs
    have := h1.dim
    have := (hL.ok a ha).2
    exact ⟨by omega, isSimplex_nodup h.inv.nodup (CellOk.lt_labels h.inv (hL.ok a ha).1) h1⟩
  · intro A
    constructor
    · rintro ⟨s, hs, rfl⟩
      obtain ⟨a, ha, h1⟩ := hidx s hs
      exact ⟨vs a, (hL.ok a ha).2, ((hL.mem (vs a)).mp ⟨a, ha, rfl⟩).2, (mem_isSimplex h1).symm⟩
    · rintro ⟨F, hF, hface, rfl⟩
      obtain ⟨a, ha, rfl⟩ := (hL.mem F).mpr ⟨hF, hface⟩
      obtain ⟨s', hs', h1⟩ := hidx' a ha
      exact ⟨s', hs', mem_isSimplex h1⟩

theorem face_lt {c : Cplx T} (h : CInv c) {F : Finset Nat} (hF : Face c F) : ∀ i ∈ F, i < c.labels.length := by
  obtain ⟨m, hm, hsub⟩ := hF
  intro i hi
  exact h.lt hm i (hsub hi)

theorem face_card_le {c : Cplx T} (h : CInv c) {d : Nat} (hd : c.dim = some d) {F : Finset Nat} (hF : Face c F) : F.card ≤ d + 1 := by
  obtain ⟨m, hm, hsub⟩ := hF
  refine (Finset.card_le_card hsub).trans ?_
  rw [Cplx.dim, List.max?_eq_some_iff] at hd
  have := hd.2 _ (List.mem_map_of_mem hm)
  have hpos := Finset.card_pos.mpr (h.ok m hm).ne
  rw [(h.ok m hm).wf.dim_some.mpr (by omega : (vs m).card = ((vs m).card - 1) + 1)] at this
  simp only [Option.getD_some] at this
  omega

/-- Specification: the vertex set `A` is one of the simplices listed in the bases of the boundary maps -/
def Listed (bm : List (Hom.BMap (Simplex T))) (A : Finset T) : Prop := ∃ b ∈ bm, ∃ s ∈ b.basis, s.labels.toFinset = A

/-- the listed simplices are the faces of the index complex -/
theorem listed_iff {c : Cplx T} {history : List (List T)} (h : Hist c history) {d : Nat} (hd : c.dim = some d)
    {bm : List (Hom.BMap (Simplex T))} {Ls : Nat → List Cell} (hlen : bm.length = d + 1) (hLs : ∀ i, i ≤ d → Level c i (Ls i) ∧ Ls i ≠ [])
    (hbm : ∀ i b, bm[i]? = some b → BmOk c Ls i b) (A : Finset T) :
    Listed bm A ↔ ∃ F : Finset Nat, F.Nonempty ∧ Face c F ∧ lset c.labels F = A := by
  constructor
  · rintro ⟨b, hb, s, hs, rfl⟩
    obtain ⟨i, hi⟩ := List.mem_iff_getElem?.mp hb
    have hlt := (List.getElem?_eq_some_iff.mp hi).1
    obtain ⟨F, h1, h2, h3⟩ := ((basis_spec h (hLs i (by omega)).1 (hbm i b hi).basis).2.2 _).mp ⟨s, hs, rfl⟩
    exact ⟨F, Finset.card_pos.mp (by omega), h2, h3⟩
  · rintro ⟨F, h1, h2, rfl⟩
    have hp := Finset.card_pos.mpr h1
    have hle := face_card_le h.inv hd h2
    have hi : F.card - 1 < bm.length := by omega
    have hbe := List.getElem?_eq_getElem hi
    obtain ⟨s, hs, e⟩ := ((basis_spec h (hLs (F.card - 1) (by omega)).1 (hbm _ _ hbe).basis).2.2 (lset c.labels F)).mpr ⟨F, by omega, h2, rfl⟩
    exact ⟨_, List.getElem_mem hi, s, hs, e⟩

/-- **C46** (any number of labels). After a good history the complex exists and `boundary_map` succeeds; the basis of dimension `i`
is not empty, lists simplices with `i + 1` different labels, each once; every listed simplex lies in one attached simplex; every
non-empty subset of a listed simplex is listed; and every label is listed as a vertex.  (What can be missing with more than 64
labels are attached simplices, see `c46_false`.) -/
theorem c46_complex {history : List (List T)} (hh : GoodHistory history) :
    ∃ c bm, Cplx.build history = some c ∧ c.boundaryMap = some bm ∧
      (∀ i b, bm[i]? = some b → b.basis ≠ [] ∧ (b.basis.map (fun s => s.labels.toFinset)).Nodup ∧
        ∀ s ∈ b.basis, s.dim = i ∧ s.labels.length = i + 1 ∧ s.labels.Nodup) ∧
      (∀ A, Listed bm A → IsFace history A) ∧
      (∀ A B : Finset T, Listed bm A → B ⊆ A → B.Nonempty → Listed bm B) ∧
      ∀ x ∈ history.flatten, Listed bm {x} := by
  obtain ⟨c, e1, e2⟩ := build_hist history hh.simplices
  obtain ⟨d, bm, Ls, f1, f2, f3, f4, f5⟩ := boundaryMap_spec e2.inv (cells_ne e2 hh)
  have hlist := listed_iff e2 f1 f3 f4 f5
  refine ⟨c, bm, e1, f2, ?_, ?_, ?_, ?_⟩
  · intro i b hb
    have hi : i ≤ d := by
      have := (List.getElem?_eq_some_iff.mp hb).1
      omega
    obtain ⟨hL, hne⟩ := f4 i hi
    have hbm := f5 i b hb
    obtain ⟨h1, h2, h3⟩ := basis_spec e2 hL hbm.basis
    refine ⟨?_, h1, ?_⟩
    · intro e
      have := hbm.basis.length_eq
      rw [e] at this
      exact hne (List.length_eq_zero_iff.mp this)
    · intro s hs
      obtain ⟨F, g1, g2, g3⟩ := (h3 _).mp ⟨s, hs, rfl⟩
      refine ⟨(h2 s hs).1, ?_, (h2 s hs).2⟩
      rw [← List.toFinset_card_of_nodup (h2 s hs).2, ← g3, lset_card e2.inv.nodup (face_lt e2.inv g2), g1]
  · intro A hA
    obtain ⟨F, g1, g2, rfl⟩ := (hlist A).mp hA
    refine ⟨?_, face_sound e2 g2⟩
    rw [← Finset.card_pos, lset_card e2.inv.nodup (face_lt e2.inv g2), Finset.card_pos]
    exact g1
  · intro A B hA hBA hB
    obtain ⟨F, g1, g2, rfl⟩ := (hlist A).mp hA
    have hBl : B ⊆ c.labels.toFinset := by
      intro x hx
      obtain ⟨i, hi, e⟩ := mem_lset.mp (hBA hx)
      simpa using List.mem_of_getElem? e
    obtain ⟨G, hG, rfl⟩ := exists_idx hBl
    refine (hlist _).mpr ⟨G, ?_, ?_, rfl⟩
    · rw [← Finset.card_pos, ← lset_card e2.inv.nodup hG, Finset.card_pos]
      exact hB
    · obtain ⟨m, hm, hsub⟩ := g2
      exact ⟨m, hm, (lset_subset e2.inv.nodup hG hBA).trans hsub⟩
  · intro x hx
    have hxl : x ∈ c.labels := by
      have : x ∈ c.labels.toFinset := by rw [e2.labels]; simpa using hx
      simpa using this
    obtain ⟨i, hi, e⟩ := List.getElem_of_mem hxl
    obtain ⟨m, hm, him⟩ := e2.inv.cover i (by rw [e2.inv.size]; exact hi)
    refine (hlist _).mpr ⟨{i}, by simp, ⟨m, hm, by simpa using him⟩, ?_⟩
    ext y
    rw [mem_lset]
    simp [hi, e, eq_comm]

/-- **C46**. After a good history with at most 64 labels the complex exists, `boundary_map` succeeds, its bases list for every dimension `i` exactly the
simplices with `i + 1` vertices all in one attached simplex, each once, with its dimension; and there are bases for all dimensions
that occur. -/
theorem c46_cells_partial {history : List (List T)} (hh : GoodHistory history) (hb : history.flatten.toFinset.card ≤ 64) :
    ∃ c bm, Cplx.build history = some c ∧ c.boundaryMap = some bm ∧
      (∀ i b, bm[i]? = some b → b.basis ≠ [] ∧ (b.basis.map (fun s => s.labels.toFinset)).Nodup ∧
        (∀ s ∈ b.basis, s.dim = i ∧ s.labels.Nodup) ∧
        ∀ A : Finset T, (∃ s ∈ b.basis, s.labels.toFinset = A) ↔ A.card = i + 1 ∧ IsFace history A) ∧
      ∀ A : Finset T, IsFace history A → A.card ≤ bm.length := by
  obtain ⟨c, e1, e2⟩ := build_hist history hh.simplices
  obtain ⟨d, bm, Ls, f1, f2, f3, f4, f5⟩ := boundaryMap_spec e2.inv (cells_ne e2 hh)
  refine ⟨c, bm, e1, f2, ?_, ?_⟩
  · intro i b hbi
    have hi : i ≤ d := by
      have := (List.getElem?_eq_some_iff.mp hbi).1
      omega
    obtain ⟨hL, hne⟩ := f4 i hi
    have hbm := f5 i b hbi
    obtain ⟨h1, h2, h3⟩ := basis_spec e2 hL hbm.basis
    refine ⟨?_, h1, h2, ?_⟩
    · intro e
      have := hbm.basis.length_eq
      rw [e] at this
      exact hne (List.length_eq_zero_iff.mp this)
    · intro A
      rw [h3]
      constructor
      · rintro ⟨F, g1, g2, rfl⟩
        have hcard : (lset c.labels F).card = i + 1 := by rw [lset_card e2.inv.nodup (face_lt e2.inv g2), g1]
        exact ⟨hcard, Finset.card_pos.mp (by omega), face_sound e2 g2⟩
      · rintro ⟨hA, -, s, hs, hsub⟩
        obtain ⟨B, hB, rfl⟩ := exists_idx (face_sub_labels e2 hs hsub)
        rw [lset_card e2.inv.nodup hB] at hA
        exact ⟨B, hA, (face_iff e2 hb hB).mpr ⟨s, hs, hsub⟩, rfl⟩
  · rintro A ⟨hne, s, hs, hsub⟩
    obtain ⟨B, hB, rfl⟩ := exists_idx (face_sub_labels e2 hs hsub)
    rw [lset_card e2.inv.nodup hB, f3]
    exact face_card_le e2.inv f1 ((face_iff e2 hb hB).mpr ⟨s, hs, hsub⟩)

/-- **C45** (shape and sign of the boundary, any number of labels). There is a ranking of the labels, without ties, such that in the
matrix of dimension `k + 1` the column of a basis simplex has, in the row of the simplex without the label `x`, which is a row, the
entry `(-1)^m`, where `m` is the number of labels of the simplex ranked above `x`, and zeros in all rows that are not of this kind.
The matrix of dimension 0 is one row of zeros. -/
theorem c45_entries {history : List (List T)} (hh : GoodHistory history) :
    ∃ c bm, Cplx.build history = some c ∧ c.boundaryMap = some bm ∧
      (∀ b, bm[0]? = some b → b.n = 1 ∧ b.m = b.basis.length ∧ ∀ i j, b.a i j = 0) ∧
      ∃ r : T → Int, (∀ x ∈ history.flatten, ∀ y ∈ history.flatten, r x = r y → x = y) ∧
        ∀ k b b', bm[k]? = some b → bm[k + 1]? = some b' → b'.n = b.basis.length ∧ b'.m = b'.basis.length ∧
          ∀ j s, b'.basis[j]? = some s →
            (∀ x ∈ s.labels, ∃ i t, b.basis[i]? = some t ∧ t.labels.toFinset = s.labels.toFinset.erase x ∧
              b'.a i j = (-1) ^ ((s.labels.toFinset.filter (fun y => r x < r y)).card)) ∧
            ∀ i t, b.basis[i]? = some t → (∀ x ∈ s.labels, t.labels.toFinset ≠ s.labels.toFinset.erase x) → b'.a i j = 0 := by
  obtain ⟨c, e1, e2⟩ := build_hist history hh.simplices
  obtain ⟨d, bm, Ls, f1, f2, f3, f4, f5⟩ := boundaryMap_spec e2.inv (cells_ne e2 hh)
  have hidx : ∀ i x, c.labels[i]? = some x → c.labels.idxOf x = i := by
    intro i x hx
    obtain ⟨h1, h2⟩ := List.getElem?_eq_some_iff.mp hx
    rw [← h2]
    exact e2.inv.nodup.idxOf_getElem i h1
  refine ⟨c, bm, e1, f2, ?_, fun x => rk (c.labels.idxOf x), ?_, ?_⟩
  · intro b hb
    have hbm := f5 0 b hb
    obtain ⟨h1, h2⟩ := hbm.zero rfl
    exact ⟨h1, by rw [hbm.m, hbm.basis.length_eq], by simp [h2]⟩
  · intro x hx y hy e
    have hl : ∀ z ∈ history.flatten, z ∈ c.labels := by
      intro z hz
      have : z ∈ c.labels.toFinset := by rw [e2.labels]; simpa using hz
      simpa using this
    exact (List.idxOf_inj (hl x hx)).mp (rk_inj e)
  · intro k b b' hb hb'
    have hk : k + 1 ≤ d := by
      have := (List.getElem?_eq_some_iff.mp hb').1
      omega
    obtain ⟨hL, -⟩ := f4 k (by omega)
    obtain ⟨hL', -⟩ := f4 (k + 1) hk
    have hbm := f5 k b hb
    have hbm' := f5 (k + 1) b' hb'
    obtain ⟨hn, hent⟩ := hbm'.succ k rfl
    refine ⟨by rw [hn, hbm.basis.length_eq], by rw [hbm'.m, hbm'.basis.length_eq], ?_⟩
    intro j s hj
    obtain ⟨hjlt, hje⟩ := List.getElem?_eq_some_iff.mp hj
    have hjlt' : j < (Ls (k + 1)).length := by rw [hbm'.basis.length_eq]; exact hjlt
    have hy : (Ls (k + 1))[j]? = some (Ls (k + 1))[j] := List.getElem?_eq_getElem hjlt'
    have hsy := List.Forall₂.get hbm'.basis (i := j) hjlt' hjlt
    simp only [List.get_eq_getElem, hje] at hsy
    obtain ⟨hyok, hycard⟩ := hL'.ok _ (List.getElem_mem hjlt')
    generalize hyy : (Ls (k + 1))[j] = y at hy hsy hyok hycard
    have hvy := hL'.mem (vs y)
    have hyface : Face c (vs y) := (hvy.mp ⟨y, List.mem_of_getElem? hy, rfl⟩).2
    have hylt := face_lt e2.inv hyface
    have hsl := mem_isSimplex hsy
    -- removing a label is removing its position
    have herase : ∀ v x, v ∈ vs y → c.labels[v]? = some x → lset c.labels ((vs y).erase v) = (lset c.labels (vs y)).erase x := by
      intro v x hv hx
      ext z
      rw [mem_lset, Finset.mem_erase, mem_lset]
      constructor
      · rintro ⟨i, hi, e⟩
        rw [Finset.mem_erase] at hi
        refine ⟨?_, i, hi.2, e⟩
        rintro rfl
        exact hi.1 ((hidx i z e).symm.trans (hidx v z hx))
      · rintro ⟨hne, i, hi, e⟩
        refine ⟨i, Finset.mem_erase.mpr ⟨?_, hi⟩, e⟩
        rintro rfl
        rw [hx] at e
        exact hne (Option.some.inj e).symm
    constructor
    · intro x hx
      obtain ⟨v, hvm, hvx⟩ : ∃ v ∈ vs y, c.labels[v]? = some x := by
        rw [← mem_lset, ← hsl]; simpa using hx
      obtain ⟨m, hm, hsub⟩ := hyface
      obtain ⟨x', hx', hxe⟩ := (hL.mem ((vs y).erase v)).mpr ⟨by rw [Finset.card_erase_of_mem hvm]; omega, m, hm, (Finset.erase_subset _ _).trans hsub⟩
      obtain ⟨i, hi⟩ := List.mem_iff_getElem?.mp hx'
      obtain ⟨hilt, hie⟩ := List.getElem?_eq_some_iff.mp hi
      have hilt' : i < b.basis.length := by rw [← hbm.basis.length_eq]; exact hilt
      have hsx := List.Forall₂.get hbm.basis (i := i) hilt hilt'
      simp only [List.get_eq_getElem, hie, hxe] at hsx
      refine ⟨i, b.basis[i], List.getElem?_eq_getElem hilt', ?_, ?_⟩
      · rw [mem_isSimplex hsx, hsl, herase v x hvm hvx]
      · rw [(hent i j x' y hi hy).1 v hvm hxe, sgn]
        congr 1
        rw [hsl]
        refine Finset.card_bij (fun u hu => c.labels[u]'(hylt u (Finset.mem_of_mem_filter u hu))) ?_ ?_ ?_
        · intro u hu
          have hul := hylt u (Finset.mem_of_mem_filter u hu)
          rw [Finset.mem_filter] at hu ⊢
          refine ⟨mem_lset.mpr ⟨u, hu.1, List.getElem?_eq_getElem _⟩, ?_⟩
          simp only [hidx v x hvx, hidx u _ (List.getElem?_eq_getElem hul)]
          exact hu.2
        · intro u hu u' hu' e
          exact (List.Nodup.getElem_inj_iff e2.inv.nodup).mp e
        · intro z hz
          rw [Finset.mem_filter, mem_lset] at hz
          obtain ⟨⟨u, hu, hue⟩, hr⟩ := hz
          obtain ⟨hul, hue'⟩ := List.getElem?_eq_some_iff.mp hue
          refine ⟨u, Finset.mem_filter.mpr ⟨hu, ?_⟩, hue'⟩
          simpa only [hidx v x hvx, hidx u z hue] using hr
    · intro i t hi hno
      obtain ⟨hilt, hie⟩ := List.getElem?_eq_some_iff.mp hi
      have hilt' : i < (Ls k).length := by rw [hbm.basis.length_eq]; exact hilt
      have hsx := List.Forall₂.get hbm.basis (i := i) hilt' hilt
      simp only [List.get_eq_getElem, hie] at hsx
      refine (hent i j _ y (List.getElem?_eq_getElem hilt') hy).2 ?_
      intro v hvm hxe
      have hvl := List.getElem?_eq_getElem (hylt v hvm)
      have hvlt := hylt v hvm
      refine hno c.labels[v] ?_ ?_
      · have : c.labels[v] ∈ s.labels.toFinset := by rw [hsl]; exact mem_lset.mpr ⟨v, hvm, hvl⟩
        simpa using this
      · rw [mem_isSimplex hsx, hxe, hsl, herase v _ hvm hvl]

/-- **C45** (shape and sign of the boundary, explicitly, for at most 64 labels). In the matrix of dimension `k + 1` the column of a basis simplex with the labels
`v_0, …, v_{k+1}` has the entry `(-1)^(k+1-p)` in the row of the simplex without `v_p`, which is a row, and zeros in all rows that are not
of this kind.  The matrix of dimension 0 is one row of zeros. -/
theorem c45_entries_small {history : List (List T)} (hh : GoodHistory history) (hb : history.flatten.toFinset.card ≤ 64) :
    ∃ c bm, Cplx.build history = some c ∧ c.boundaryMap = some bm ∧
      (∀ b, bm[0]? = some b → b.n = 1 ∧ b.m = b.basis.length ∧ ∀ i j, b.a i j = 0) ∧
      ∀ k b b', bm[k]? = some b → bm[k + 1]? = some b' → b'.n = b.basis.length ∧ b'.m = b'.basis.length ∧
        ∀ j s, b'.basis[j]? = some s →
          (∀ p, p ≤ k + 1 → ∃ i t, b.basis[i]? = some t ∧ t.labels = s.labels.eraseIdx p ∧ b'.a i j = (-1) ^ (k + 1 - p)) ∧
          ∀ i t, b.basis[i]? = some t → (∀ p, p ≤ k + 1 → t.labels ≠ s.labels.eraseIdx p) → b'.a i j = 0 := by
  obtain ⟨c, e1, e2⟩ := build_hist history hh.simplices
  obtain ⟨d, bm, Ls, f1, f2, f3, f4, f5⟩ := boundaryMap_spec e2.inv (cells_ne e2 hh)
  refine ⟨c, bm, e1, f2, ?_, ?_⟩
  · intro b hb0
    have hbm := f5 0 b hb0
    obtain ⟨h1, h2⟩ := hbm.zero rfl
    exact ⟨h1, by rw [hbm.m, hbm.basis.length_eq], by simp [h2]⟩
  · intro k b b' hbk hb'
    have hk : k + 1 ≤ d := by
      have := (List.getElem?_eq_some_iff.mp hb').1
      omega
    obtain ⟨hL, -⟩ := f4 k (by omega)
    obtain ⟨hL', -⟩ := f4 (k + 1) hk
    have hbm := f5 k b hbk
    have hbm' := f5 (k + 1) b' hb'
    obtain ⟨hn, hent⟩ := hbm'.succ k rfl
    refine ⟨by rw [hn, hbm.basis.length_eq], by rw [hbm'.m, hbm'.basis.length_eq], ?_⟩
    intro j s hj
    obtain ⟨hjlt, hje⟩ := List.getElem?_eq_some_iff.mp hj
    have hjlt' : j < (Ls (k + 1)).length := by rw [hbm'.basis.length_eq]; exact hjlt
    have hy : (Ls (k + 1))[j]? = some (Ls (k + 1))[j] := List.getElem?_eq_getElem hjlt'
    have hsy := List.Forall₂.get hbm'.basis (i := j) hjlt' hjlt
    simp only [List.get_eq_getElem, hje] at hsy
    obtain ⟨hyok, hycard⟩ := hL'.ok _ (List.getElem_mem hjlt')
    generalize hyy : (Ls (k + 1))[j] = y at hy hsy hyok hycard
    have hvy := hL'.mem (vs y)
    have hyface : Face c (vs y) := (hvy.mp ⟨y, List.mem_of_getElem? hy, rfl⟩).2
    have hlt64 : ∀ u ∈ vs y, u < 64 := by
      intro u hu
      have h1 := face_lt e2.inv hyface u hu
      have h2 : c.labels.length ≤ 64 := by rw [← List.toFinset_card_of_nodup e2.inv.nodup, e2.labels]; exact hb
      omega
    have hpos : ∀ p, p ≤ k + 1 → ∃ v, (sl (vs y))[p]? = some v := by
      intro p hp
      exact ⟨_, List.getElem?_eq_getElem (by rw [sl_length]; omega)⟩
    constructor
    · intro p hp
      obtain ⟨v, hv⟩ := hpos p hp
      have hvm : v ∈ vs y := mem_sl.mp (List.mem_of_getElem? hv)
      obtain ⟨m, hm, hsub⟩ := hyface
      obtain ⟨x, hx, hxe⟩ := (hL.mem ((vs y).erase v)).mpr ⟨by rw [Finset.card_erase_of_mem hvm]; omega, m, hm, (Finset.erase_subset _ _).trans hsub⟩
      obtain ⟨i, hi⟩ := List.mem_iff_getElem?.mp hx
      obtain ⟨hilt, hie⟩ := List.getElem?_eq_some_iff.mp hi
      have hilt' : i < b.basis.length := by rw [← hbm.basis.length_eq]; exact hilt
      have hsx := List.Forall₂.get hbm.basis (i := i) hilt hilt'
      simp only [List.get_eq_getElem, hie, hxe] at hsx
      refine ⟨i, b.basis[i], List.getElem?_eq_getElem hilt', isSimplex_erase hsy hv hsx, ?_⟩
      have hrk : (vs y).filter (fun u => rk v < rk u) = (vs y).filter (fun u => v < u) := by
        apply Finset.filter_congr
        intro u hu
        rw [rk_of_lt (hlt64 v hvm), rk_of_lt (hlt64 u hu)]
        exact Int.ofNat_lt
      rw [(hent i j x y hi hy).1 v hvm hxe, sgn, hrk, sl_above hv]
      congr 1
      omega
    · intro i t hi hno
      obtain ⟨hilt, hie⟩ := List.getElem?_eq_some_iff.mp hi
      have hilt' : i < (Ls k).length := by rw [hbm.basis.length_eq]; exact hilt
      have hsx := List.Forall₂.get hbm.basis (i := i) hilt' hilt
      simp only [List.get_eq_getElem, hie] at hsx
      refine (hent i j _ y (List.getElem?_eq_getElem hilt') hy).2 ?_
      intro v hvm hxe
      obtain ⟨p, hp⟩ := List.mem_iff_getElem?.mp (mem_sl.mpr hvm)
      have hpl := (List.getElem?_eq_some_iff.mp hp).1
      rw [sl_length] at hpl
      refine hno p (by omega) ?_
      exact isSimplex_erase hsy hp (by rw [← hxe]; exact hsx)

/-- **C45**. The boundary maps fit together, and the product of consecutive ones is zero. -/
theorem c45_boundary_boundary {history : List (List T)} (hh : GoodHistory history) :
    ∃ c bm, Cplx.build history = some c ∧ c.boundaryMap = some bm ∧ Hom.ChainCplx bm := by
  obtain ⟨c, e1, e2⟩ := build_hist history hh.simplices
  obtain ⟨d, bm, Ls, f1, f2, f3, f4, f5⟩ := boundaryMap_spec e2.inv (cells_ne e2 hh)
  obtain ⟨c', bm', g1, g2, g3, -⟩ := c46_complex hh
  rw [e1] at g1
  cases g1
  rw [f2] at g2
  cases g2
  have hle : ∀ i b, bm[i]? = some b → i ≤ d := by
    intro i b hb
    have := (List.getElem?_eq_some_iff.mp hb).1
    omega
  refine ⟨c, bm, e1, f2, ⟨?_, ?_, ?_, ?_⟩⟩
  · intro e; rw [e] at f3; simp at f3
  · intro b hb
    obtain ⟨i, hi⟩ := List.mem_iff_getElem?.mp hb
    have hbm := f5 i b hi
    obtain ⟨hL, hne⟩ := f4 i (hle i b hi)
    have hm : 0 < b.m := by rw [hbm.m]; exact List.length_pos_of_ne_nil hne
    refine ⟨?_, hm, by rw [hbm.m, hbm.basis.length_eq], List.Nodup.of_map _ (g3 i b hi).2.1⟩
    match i with
    | 0 => rw [(hbm.zero rfl).1]; exact Nat.one_pos
    | k + 1 =>
      rw [(hbm.succ k rfl).1]
      exact List.length_pos_of_ne_nil (f4 k (by have := hle _ b hi; omega)).2
  · intro i b b' hb hb'
    rw [((f5 (i + 1) b' hb').succ i rfl).1, (f5 i b hb).m]
  · intro i b b' hb hb'
    match i with
    | 0 =>
      ext r j
      simp [Matrix.mul_apply, mat, ((f5 0 b hb).zero rfl).2]
    | k + 1 =>
      have hbm := f5 (k + 1) b hb
      have hbm' := f5 (k + 2) b' hb'
      have hk2 := hle _ b' hb'
      obtain ⟨hL0, -⟩ := f4 k (by omega)
      obtain ⟨hL1, -⟩ := f4 (k + 1) (by omega)
      obtain ⟨hL2, -⟩ := f4 (k + 2) (by omega)
      obtain ⟨hn1, hent1⟩ := hbm.succ k rfl
      obtain ⟨hn2, hent2⟩ := hbm'.succ (k + 1) rfl
      ext r j
      rw [Matrix.mul_apply]
      simp only [mat, Matrix.of_apply, Matrix.zero_apply]
      have hr : r.1 < (Ls k).length := by rw [← hn1]; exact r.2
      have hj : j.1 < (Ls (k + 2)).length := by rw [← hbm'.m]; exact j.2
      have hx : (Ls k)[r.1]? = some (Ls k)[r.1] := List.getElem?_eq_getElem hr
      have hz : (Ls (k + 2))[j.1]? = some (Ls (k + 2))[j.1] := List.getElem?_eq_getElem hj
      generalize hxx : (Ls k)[r.1] = x at hx
      generalize hzz : (Ls (k + 2))[j.1] = z at hz
      have hxc := (hL0.ok x (List.mem_of_getElem? hx)).2
      have hzc := (hL2.ok z (List.mem_of_getElem? hz)).2
      have hmid : ∀ q : Fin b.m, ∃ y, (Ls (k + 1))[q.1]? = some y := by
        intro q
        exact ⟨_, List.getElem?_eq_getElem (by rw [← hbm.m]; exact q.2)⟩
      choose y hy using hmid
      have hyinj : ∀ q q' : Fin b.m, vs (y q) = vs (y q') → q = q' := by
        intro q q' e
        have hq : q.1 < ((Ls (k + 1)).map vs).length := by rw [List.length_map, ← hbm.m]; exact q.2
        have hq' : q'.1 < ((Ls (k + 1)).map vs).length := by rw [List.length_map, ← hbm.m]; exact q'.2
        have e1 := (List.getElem?_eq_some_iff.mp (hy q))
        have e2 := (List.getElem?_eq_some_iff.mp (hy q'))
        obtain ⟨w1, e1⟩ := e1
        obtain ⟨w2, e2⟩ := e2
        apply Fin.ext
        refine (List.Nodup.getElem_inj_iff hL1.nodup (hi := hq) (hj := hq')).mp ?_
        rw [List.getElem_map, List.getElem_map, e1, e2, e]
      -- a nonzero term removes two vertices
      have hterm : ∀ q : Fin b.m, b.a r.1 q.1 * b'.a q.1 j.1 ≠ 0 → ∃ v ∈ vs z, ∃ u ∈ (vs z).erase v, vs (y q) = (vs z).erase v ∧ vs x = ((vs z).erase v).erase u := by
        intro q hq
        have h1 := left_ne_zero_of_mul hq
        have h2 := right_ne_zero_of_mul hq
        have h3 := (hent2 q.1 j.1 (y q) z (hy q) hz).2
        have h4 := (hent1 r.1 q.1 x (y q) hx (hy q)).2
        by_contra hcon
        apply h2
        apply h3
        intro v hv e
        apply h1
        apply h4
        intro u hu e'
        exact hcon ⟨v, hv, u, by rw [← e]; exact hu, e, by rw [e', e]⟩
      by_cases hsub : vs x ⊆ vs z
      · have hdiff : (vs z \ vs x).card = 2 := by
          rw [Finset.card_sdiff_of_subset hsub]; omega
        obtain ⟨u, v, huv, hd⟩ := Finset.card_eq_two.mp hdiff
        wlog hlt : rk u < rk v generalizing u v with H
        · refine H v u huv.symm (by rw [hd, Finset.pair_comm]) ?_
          have : rk u ≠ rk v := fun e => huv (rk_inj e)
          omega
        have huz : u ∈ vs z ∧ u ∉ vs x := by rw [← Finset.mem_sdiff, hd]; simp
        have hvz : v ∈ vs z ∧ v ∉ vs x := by rw [← Finset.mem_sdiff, hd]; simp
        have hmem : ∀ w, w ∈ vs z → w ∉ vs x → w = u ∨ w = v := by
          intro w h1 h2
          have : w ∈ vs z \ vs x := Finset.mem_sdiff.mpr ⟨h1, h2⟩
          rw [hd] at this
          simpa using this
        have hxe : vs x = ((vs z).erase v).erase u := by
          ext w
          simp only [Finset.mem_erase]
          constructor
          · intro h
            exact ⟨fun e => huz.2 (e ▸ h), fun e => hvz.2 (e ▸ h), hsub h⟩
          · rintro ⟨h1, h2, h3⟩
            by_contra h4
            rcases hmem w h3 h4 with h | h
            · exact h1 h
            · exact h2 h
        have hxe' : vs x = ((vs z).erase u).erase v := by rw [hxe, Finset.erase_right_comm]
        obtain ⟨m, hm, hzm⟩ : Face c (vs z) := ((hL2.mem (vs z)).mp ⟨z, List.mem_of_getElem? hz, rfl⟩).2
        have hq : ∀ w ∈ vs z, ∃ q : Fin b.m, vs (y q) = (vs z).erase w := by
          intro w hw
          obtain ⟨a, ha, hae⟩ := (hL1.mem ((vs z).erase w)).mpr ⟨by rw [Finset.card_erase_of_mem hw]; omega, m, hm, (Finset.erase_subset _ _).trans hzm⟩
          obtain ⟨q, hq⟩ := List.mem_iff_getElem?.mp ha
          have hql := (List.getElem?_eq_some_iff.mp hq).1
          refine ⟨⟨q, by rw [hbm.m]; exact hql⟩, ?_⟩
          have := hy ⟨q, by rw [hbm.m]; exact hql⟩
          rw [hq] at this
          rw [← hae, Option.some.inj this]
        obtain ⟨qu, hqu⟩ := hq u huz.1
        obtain ⟨qv, hqv⟩ := hq v hvz.1
        have hne : qv ≠ qu := by
          intro e
          rw [e, hqu] at hqv
          exact huv (erase_inj_on huz.1 hqv)
        rw [Finset.sum_eq_add qv qu hne]
        · rw [(hent2 qv.1 j.1 _ z (hy qv) hz).1 v hvz.1 hqv, (hent2 qu.1 j.1 _ z (hy qu) hz).1 u huz.1 hqu,
            (hent1 r.1 qv.1 x _ hx (hy qv)).1 u (by rw [hqv]; exact Finset.mem_erase.mpr ⟨huv, huz.1⟩) (by rw [hqv]; exact hxe),
            (hent1 r.1 qu.1 x _ hx (hy qu)).1 v (by rw [hqu]; exact Finset.mem_erase.mpr ⟨huv.symm, hvz.1⟩) (by rw [hqu]; exact hxe')]
          rw [hqv, hqu]
          have := sgn_cancel huz.1 hvz.1 hlt
          linarith
        · rintro q - ⟨h1, h2⟩
          by_contra h3
          obtain ⟨v', hv', u', hu', h4, h5⟩ := hterm q h3
          have : v' ∉ vs x := by rw [h5]; simp
          rcases hmem v' hv' this with rfl | rfl
          · exact h2 (hyinj q qu (h4.trans hqu.symm))
          · exact h1 (hyinj q qv (h4.trans hqv.symm))
        · intro h; exact absurd (Finset.mem_univ _) h
        · intro h; exact absurd (Finset.mem_univ _) h
      · apply Finset.sum_eq_zero
        intro q _
        by_contra h3
        obtain ⟨v', hv', u', hu', h4, h5⟩ := hterm q h3
        exact hsub (by rw [h5]; exact (Finset.erase_subset _ _).trans (Finset.erase_subset _ _))

/-- **C45 with C44**. `IntegralHomology::new` of such a complex terminates, and what it reports in each dimension is the homology of
the boundary maps (see `Hom.Correct`); the dimensions left out at the end have trivial homology. -/
theorem c45_homology [LinearOrder (Simplex T)] {history : List (List T)} (hh : GoodHistory history) (maxDim : Option Nat) :
    ∃ c bm f0 res, Cplx.build history = some c ∧ c.boundaryMap = some bm ∧ (∀ fuel, f0 ≤ fuel → Hom.new fuel bm maxDim = some res) ∧
      (∀ i b o, bm[i]? = some b → res[i]? = some o → Hom.Correct b (Hom.upper bm i).1 (Hom.upper bm i).2 o) ∧
      (∀ i b, bm[i]? = some b → res.length ≤ i → (∀ d, maxDim = some d → i ≤ d) →
        Subsingleton (Hom.HGrp b.n b.m (Hom.upper bm i).1 b.a (Hom.upper bm i).2)) := by
  obtain ⟨c, bm, e1, e2, e3⟩ := c45_boundary_boundary hh
  obtain ⟨f0, res, h1, h2, h3, -⟩ := Hom.c44_homology e3 maxDim
  exact ⟨c, bm, f0, res, e1, e2, h1, h2, h3⟩

/-- a hollow triangle with a tail meets the hypotheses -/
theorem exHistory_good : GoodHistory [[0, 1], [1, 2], [2, 0], [2, 3]] :=
  ⟨by simp, by decide⟩

example : ((Cplx.build [[0, 1], [1, 2], [2, 0], [2, 3]]).bind (fun c => c.boundaryMap)).map (fun bm => bm.map (fun b => (b.n, b.m, b.basis.map (fun s => s.labels))))
    = some [(1, 4, [[0], [1], [2], [3]]), (4, 4, [[0, 1], [1, 2], [0, 2], [2, 3]])] := by decide +kernel

/-- a history with 70 labels: a path through them and a triangle across the words -/
theorem exBig_good : GoodHistory ((List.range 69).map (fun i => [i, i + 1]) ++ [[63, 67, 69]]) :=
  ⟨by simp, by decide +kernel⟩

/-- its complex has edges across the words, and the triangle (edges of the path inside the second word are lost, `c46_false`) -/
example : ((Cplx.build ((List.range 69).map (fun i => [i, i + 1]) ++ [[63, 67, 69]])).bind (fun c => c.boundaryMap)).map
    (fun bm => bm.map (fun b => (b.m, b.basis.length))) = some [(70, 70), (67, 67), (1, 1)] := by decide +kernel

/-- **C46 fails beyond 64 vertices**: after attaching 65 vertices and then the edge `{0, 64}`, the complex has no edge. -/
theorem c46_false : ((Cplx.build ((List.range 65).map (fun i => [i]) ++ [[0, 64]])).bind (fun c => c.boundaryMap)).map
    (fun bm => bm.map (fun b => b.m)) = some [65] := by decide +kernel

/-- `new_from_zero_skeleton` panics for three or more vertices. -/
theorem c46_zero_skeleton_false (labels : List T) (h : 3 ≤ labels.length) : Cplx.ofZeroSkeleton labels = none := by
  obtain ⟨n, hn⟩ : ∃ n, labels.length = n + 3 := ⟨labels.length - 3, by omega⟩
  have h2 : Cell.new 1 [2] = none := rfl
  rw [Cplx.ofZeroSkeleton, hn, List.range_eq_range', List.range'_succ, List.range'_succ, List.range'_succ]
  simp only [List.mapM_cons, h2]
  simp

/-- **C46** (rejected input). A simplex without labels panics. -/
theorem c46_no_labels : Simplex.ofLabels ([] : List T) = none := rfl

theorem hasAdjDup_true : ∀ (l : List Nat), l.Pairwise (· ≤ ·) → ¬ l.Nodup → Cell.hasAdjDup l = true
  | [], _, h => absurd List.nodup_nil h
  | [x], _, h => absurd (List.nodup_singleton x) h
  | x :: y :: l, hs, h => by
    rw [Cell.hasAdjDup, Bool.or_eq_true]
    by_cases e : x = y
    · left; simp [e]
    · right
      refine hasAdjDup_true (y :: l) (List.pairwise_cons.mp hs).2 (fun hn => h (List.nodup_cons.mpr ⟨?_, hn⟩))
      intro hx
      obtain ⟨h1, h2⟩ := List.pairwise_cons.mp hs
      have h3 := h1 y (by simp)
      have h4 : y ≤ x := by
        rcases List.mem_cons.mp hx with h5 | h5
        · omega
        · exact (List.pairwise_cons.mp h2).1 x h5
      omega

theorem new_dup {s : Nat} {raw : List Nat} (h : ¬ raw.Nodup) : Cell.new s raw = none := by
  have hp := List.perm_insertionSort (· ≤ ·) raw
  have hd := hasAdjDup_true _ (List.pairwise_insertionSort (· ≤ ·) raw) (fun hn => h (hp.nodup_iff.mp hn))
  rw [Cell.new]
  simp only [hd, if_true]
  split
  · rfl
  · cases (raw.insertionSort (· ≤ ·)).head? with
    | none => rfl
    | some a => simp

theorem mapM_nodup {α β : Type} {f : α → Option β} : ∀ {l : List α} {r : List β}, l.mapM f = some r → r.Nodup → l.Nodup
  | [], _, _, _ => List.nodup_nil
  | a :: l, r, h, hr => by
    rw [List.mapM_cons] at h
    obtain ⟨b, h1, h'⟩ := Option.bind_eq_some_iff.mp h
    obtain ⟨bs, h2, h''⟩ := Option.bind_eq_some_iff.mp h'
    obtain rfl : b :: bs = r := by simpa using h''
    obtain ⟨h3, h4⟩ := List.nodup_cons.mp hr
    refine List.nodup_cons.mpr ⟨fun ha => h3 ?_, mapM_nodup h2 h4⟩
    clear h h' h'' h3 h4 hr
    induction l generalizing bs with
    | nil => simp at ha
    | cons c l ih =>
      rw [List.mapM_cons] at h2
      obtain ⟨d, g1, h2⟩ := Option.bind_eq_some_iff.mp h2
      obtain ⟨ds, g2, h2⟩ := Option.bind_eq_some_iff.mp h2
      obtain rfl : d :: ds = bs := by simpa using h2
      rcases List.mem_cons.mp ha with rfl | ha
      · rw [h1] at g1; cases g1; simp
      · exact List.mem_cons_of_mem _ (ih ds g2 ha)

/-- **C46** (which histories are accepted). A history of `attach` calls runs to the end, without a panic, if and only if every attached simplex has at least one label and no label twice. -/
theorem c46_accepts (history : List (List T)) : (∃ c, Cplx.build history = some c) ↔ ∀ s ∈ history, s ≠ [] ∧ s.Nodup := by
  constructor
  · rintro ⟨c, hc⟩
    unfold Cplx.build at hc
    generalize Cplx.empty = c0 at hc
    induction history generalizing c0 with
    | nil => simp
    | cons s l ih =>
      rw [List.foldlM_cons] at hc
      obtain ⟨c1, h1, h2⟩ := Option.bind_eq_some_iff.mp hc
      intro t ht
      rcases List.mem_cons.mp ht with rfl | ht
      · obtain ⟨sx, h3, h4⟩ := Option.bind_eq_some_iff.mp h1
        have hne : t ≠ [] := by rintro rfl; cases h3
        obtain rfl : sx = ⟨t.length - 1, t⟩ := by
          have : csub t.length 1 = some (t.length - 1) := by
            have := List.length_pos_iff.mpr hne
            simp [csub]; omega
          rw [Simplex.ofLabels, this] at h3
          exact (Option.some.inj h3).symm
        refine ⟨hne, ?_⟩
        by_contra hd
        rw [Cplx.attach] at h4
        obtain ⟨c2, g1, h4⟩ := Option.bind_eq_some_iff.mp h4
        obtain ⟨idx, g2, h4⟩ := Option.bind_eq_some_iff.mp h4
        obtain ⟨cell, g3, h4⟩ := Option.bind_eq_some_iff.mp h4
        rw [new_dup (fun hn => hd (mapM_nodup g2 hn))] at g3
        cases g3
      · exact ih c1 h2 t ht
  · intro h
    obtain ⟨c, hc, -⟩ := build_hist history h
    exact ⟨c, hc⟩

example : ∃ c, Cplx.build [[3, 1, 4], [1, 5]] = some c := (c46_accepts _).mpr (by decide)
example : ¬ ∃ c, Cplx.build [[3, 1], [1, 5, 1]] = some c := fun h => absurd ((c46_accepts _).mp h) (by decide)

end Toppo.Simp
