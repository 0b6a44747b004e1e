import Verif.Proof.Simplicial
import Mathlib.Data.Finset.Sort
import Mathlib.Algebra.Ring.Parity
import Mathlib.Tactic.Ring
/-! The boundary matrices of simplicial complexes with any number of vertices. -/
set_option linter.unusedVariables false
set_option linter.unusedSimpArgs false
namespace Toppo.Simp
open Toppo
variable {T : Type} [DecidableEq T]

theorem colLoop_spec (j : Nat) : ∀ (is : List Nat) (s : Int) (a : Nat → Nat → Int), is.Pairwise (· < ·) → ∀ i' j',
    Cplx.colLoop j is s a i' j' = if j' = j ∧ i' ∈ is then s * (-1) ^ ((is.filter (fun x => x < i')).length) else a i' j'
  | [], s, a, _, i', j' => by simp [Cplx.colLoop]
  | i :: is, s, a, h, i', j' => by
    rw [List.pairwise_cons] at h
    rw [Cplx.colLoop, colLoop_spec j is (-s) _ h.2]
    by_cases hj : j' = j
    · by_cases hi : i' = i
      · subst hi
        have hn : i' ∉ is := fun hm => by have := h.1 i' hm; omega
        have hf : is.filter (fun x => x < i') = [] := by
          rw [List.filter_eq_nil_iff]
          intro x hx
          have := h.1 x hx
          simp; omega
        simp [hj, hn, hf]
      · by_cases hm : i' ∈ is
        · have := h.1 i' hm
          simp [hj, hm, hi, this, List.filter_cons, pow_succ]
        · simp [hj, hm, hi]
    · simp [hj]

/-- the rows written in the column of a cell with the given faces -/
def rowsOf (lower faces : List Cell) : List Nat :=
  (lower.zipIdx.filter (fun xi => faces.any (fun f => Cell.eq f xi.1))).map (fun xi => xi.2)

theorem zipIdx_snd_pairwise {α : Type} : ∀ (l : List α) (k : Nat), ((l.zipIdx k)).Pairwise (fun x y => x.2 < y.2)
  | [], k => by simp
  | a :: l, k => by
    rw [List.zipIdx_cons, List.pairwise_cons]
    refine ⟨?_, zipIdx_snd_pairwise l (k + 1)⟩
    rintro ⟨b, i⟩ hb
    have := (List.mem_zipIdx hb).1
    simp only
    omega

theorem rowsOf_pairwise (lower faces : List Cell) : (rowsOf lower faces).Pairwise (· < ·) := by
  rw [rowsOf, List.pairwise_map]
  exact (zipIdx_snd_pairwise lower 0).sublist List.filter_sublist

theorem mem_rowsOf {lower faces : List Cell} {i : Nat} : i ∈ rowsOf lower faces ↔ ∃ x, lower[i]? = some x ∧ ∃ f ∈ faces, Cell.eq f x = true := by
  rw [rowsOf, List.mem_map]
  constructor
  · rintro ⟨⟨x, k⟩, h1, rfl⟩
    rw [List.mem_filter, List.any_eq_true] at h1
    exact ⟨x, List.mem_zipIdx_iff_getElem?.mp h1.1, h1.2⟩
  · rintro ⟨x, h1, h2⟩
    exact ⟨(x, i), by rw [List.mem_filter, List.any_eq_true]; exact ⟨List.mem_zipIdx_iff_getElem?.mpr h1, h2⟩, rfl⟩

theorem fillCols_spec (lower : List Cell) : ∀ (cells : List Cell) (j : Nat) (a : Nat → Nat → Int),
    (∀ c ∈ cells, ∃ F, c.getFace = some F) →
    ∃ b, Cplx.fillCols lower j cells a = some b ∧ (∀ i j', j' < j → b i j' = a i j') ∧
      ∀ k c F, cells[k]? = some c → c.getFace = some F → ∀ i,
        b i (j + k) = if i ∈ rowsOf lower F then (-1) ^ (((rowsOf lower F).filter (fun x => x < i)).length) else a i (j + k)
  | [], j, a, _ => ⟨a, rfl, fun _ _ _ => rfl, by simp⟩
  | c :: cells, j, a, h => by
    obtain ⟨F, hF⟩ := h c (by simp)
    obtain ⟨b, e1, e2, e3⟩ := fillCols_spec lower cells (j + 1) (Cplx.colLoop j (rowsOf lower F) 1 a) (fun x hx => h x (by simp [hx]))
    have hcol := colLoop_spec j (rowsOf lower F) 1 a (rowsOf_pairwise _ _)
    refine ⟨b, ?_, ?_, ?_⟩
    · rw [Cplx.fillCols, hF]
      exact e1
    · intro i j' hj
      rw [e2 i j' (by omega), hcol, if_neg (by omega)]
    · intro k c' F' hc hF' i
      match k with
      | 0 =>
        simp at hc
        subst hc
        rw [hF] at hF'
        cases hF'
        rw [Nat.add_zero, e2 i j (by omega), hcol]
        simp
      | k + 1 =>
        rw [List.getElem?_cons_succ] at hc
        have := e3 k c' F' hc hF' i
        rw [show j + (k + 1) = j + 1 + k by omega, this, hcol, if_neg (c := _ ∧ _) (by omega)]

/-- the sign of the face of `A` without `v` -/
def sgn (A : Finset Nat) (v : Nat) : Int := (-1) ^ ((A.filter (fun u => rk v < rk u)).card)

theorem getElem?_lt_of_val {N : Nat} {L : List Cell} (hs : L.Pairwise (fun a b => skey N (vs a) < skey N (vs b))) {i k : Nat} {a b : Cell}
    (hi : L[i]? = some a) (hk : L[k]? = some b) (h : skey N (vs a) < skey N (vs b)) : i < k := by
  obtain ⟨hi', ei⟩ := List.getElem?_eq_some_iff.mp hi
  obtain ⟨hk', ek⟩ := List.getElem?_eq_some_iff.mp hk
  rw [List.pairwise_iff_getElem] at hs
  rcases Nat.lt_trichotomy i k with h1 | h1 | h1
  · exact h1
  · subst h1
    rw [ei] at ek
    subst ek
    omega
  · have := hs k i hk' hi' h1
    rw [ei, ek] at this
    omega

theorem val_lt_of_getElem? {N : Nat} {L : List Cell} (hs : L.Pairwise (fun a b => skey N (vs a) < skey N (vs b))) {i k : Nat} {a b : Cell}
    (hi : L[i]? = some a) (hk : L[k]? = some b) (h : i < k) : skey N (vs a) < skey N (vs b) := by
  obtain ⟨hi', ei⟩ := List.getElem?_eq_some_iff.mp hi
  obtain ⟨hk', ek⟩ := List.getElem?_eq_some_iff.mp hk
  rw [List.pairwise_iff_getElem] at hs
  have := hs i k hi' hk' h
  rwa [ei, ek] at this

theorem erase_inj_on {A : Finset Nat} {u v : Nat} (hu : u ∈ A) (h : A.erase u = A.erase v) : u = v := by
  by_contra hne
  have : u ∈ A.erase v := Finset.mem_erase.mpr ⟨hne, hu⟩
  rw [← h] at this
  simp at this

/-- the entries of a boundary matrix -/
theorem entries_spec {c : Cplx T} {n : Nat} {L L' : List Cell} (hL : Level c (n + 1) L) (hL' : Level c n L')
    (hs : L'.Pairwise (fun a b => skey c.nw (vs a) < skey c.nw (vs b))) :
    ∃ a, Cplx.fillCols L' 0 L (fun _ _ => 0) = some a ∧ ∀ i j x y, L'[i]? = some x → L[j]? = some y →
      (∀ v ∈ vs y, vs x = (vs y).erase v → a i j = sgn (vs y) v) ∧ ((∀ v ∈ vs y, vs x ≠ (vs y).erase v) → a i j = 0) := by
  have hF : ∀ y ∈ L, ∃ l : List Nat, y.getFace = some (l.map (faceOf y)) ∧ l.Pairwise (· < ·) ∧ ∀ v, v ∈ l ↔ v ∈ vs y := by
    intro y hy
    obtain ⟨h1, h2⟩ := hL.ok y hy
    exact getFace_spec h1.wf (by omega)
  obtain ⟨a, e1, -, e3⟩ := fillCols_spec L' L 0 (fun _ _ => 0) (fun y hy => by obtain ⟨l, h, -⟩ := hF y hy; exact ⟨_, h⟩)
  refine ⟨a, e1, ?_⟩
  intro i j x y hx hy
  have hyL := List.mem_of_getElem? hy
  have hxL := List.mem_of_getElem? hx
  obtain ⟨l, f1, f2, f3⟩ := hF y hyL
  obtain ⟨hyok, hycard⟩ := hL.ok y hyL
  have hent := e3 j y _ hy f1 i
  rw [Nat.zero_add] at hent
  have hrow : ∀ k z, L'[k]? = some z → (k ∈ rowsOf L' (l.map (faceOf y)) ↔ ∃ v ∈ vs y, vs z = (vs y).erase v) := by
    intro k z hz
    have hzc := (hL'.ok z (List.mem_of_getElem? hz)).2
    rw [mem_rowsOf]
    constructor
    · rintro ⟨z', h1, f, hf, h2⟩
      rw [hz] at h1
      cases h1
      obtain ⟨v, hv, rfl⟩ := List.mem_map.mp hf
      have hv := (f3 v).mp hv
      obtain ⟨g1, g2, -⟩ := faceOf_wf hv (by omega)
      exact ⟨v, hv, by rw [← g2, (eq_iff (by rw [g2, Finset.card_erase_of_mem hv]; omega)).mp h2]⟩
    · rintro ⟨v, hv, e⟩
      obtain ⟨g1, g2, -⟩ := faceOf_wf hv (by omega)
      exact ⟨z, hz, faceOf y v, List.mem_map_of_mem ((f3 v).mpr hv), (eq_iff (by rw [g2, e])).mpr (by rw [g2, e])⟩
  constructor
  · intro v hv hvx
    rw [if_pos ((hrow i x hx).mpr ⟨v, hv, hvx⟩)] at hent
    rw [hent, sgn]
    congr 1
    -- the index of each face
    have hidx : ∀ u : Nat, ∃ k : Nat, u ∈ vs y → ∃ z, L'[k]? = some z ∧ vs z = (vs y).erase u := by
      intro u
      by_cases hu : u ∈ vs y
      · obtain ⟨-, m, hm, hsub⟩ := (hL.mem (vs y)).mp ⟨y, hyL, rfl⟩
        obtain ⟨z, hz, e⟩ := (hL'.mem ((vs y).erase u)).mpr ⟨by rw [Finset.card_erase_of_mem hu]; omega, m, hm, (Finset.erase_subset _ _).trans hsub⟩
        obtain ⟨k, hk⟩ := List.mem_iff_getElem?.mp hz
        exact ⟨k, fun _ => ⟨z, hk, e⟩⟩
      · exact ⟨0, fun h => absurd h hu⟩
    choose idx hidx using hidx
    have hnd : (rowsOf L' (l.map (faceOf y))).Nodup := (rowsOf_pairwise _ _).imp (fun h => ne_of_lt h)
    rw [← List.toFinset_card_of_nodup (hnd.sublist List.filter_sublist)]
    symm
    refine Finset.card_bij (fun u _ => idx u) ?_ ?_ ?_
    · intro u hu
      rw [Finset.mem_filter] at hu
      obtain ⟨z, hz, e⟩ := hidx u hu.1
      rw [List.mem_toFinset, List.mem_filter]
      refine ⟨(hrow _ z hz).mpr ⟨u, hu.1, e⟩, ?_⟩
      have hlt : skey c.nw (vs z) < skey c.nw (vs x) := by
        rw [e, hvx]; exact skey_erase_lt hyok.lt_nw hv hu.1 hu.2
      exact decide_eq_true (getElem?_lt_of_val hs hz hx hlt)
    · intro u hu u' hu' e
      rw [Finset.mem_filter] at hu hu'
      obtain ⟨z, hz, ez⟩ := hidx u hu.1
      obtain ⟨z', hz', ez'⟩ := hidx u' hu'.1
      rw [e, hz'] at hz
      cases hz
      exact erase_inj_on hu.1 (ez.symm.trans ez')
    · intro k hk
      rw [List.mem_toFinset, List.mem_filter, decide_eq_true_eq] at hk
      obtain ⟨hk1, hk2⟩ := hk
      obtain ⟨z, hz, -⟩ := mem_rowsOf.mp hk1
      obtain ⟨u, hu, e⟩ := (hrow k z hz).mp hk1
      have hlt := val_lt_of_getElem? hs hz hx hk2
      have huv : rk v < rk u := by
        rcases lt_trichotomy (rk u) (rk v) with h | h | h
        · have := skey_erase_lt hyok.lt_nw hu hv h
          rw [← e, ← hvx] at this
          omega
        · rw [rk_inj h, ← hvx] at e
          rw [e] at hlt
          omega
        · exact h
      refine ⟨u, Finset.mem_filter.mpr ⟨hu, huv⟩, ?_⟩
      obtain ⟨z', hz', e'⟩ := hidx u hu
      by_contra hne
      have hv' : vs z = vs z' := e.trans e'.symm
      rcases Nat.lt_or_gt_of_ne hne with h | h
      · have := val_lt_of_getElem? hs hz' hz h
        rw [hv'] at this; omega
      · have := val_lt_of_getElem? hs hz hz' h
        rw [hv'] at this; omega
  · intro hno
    rw [if_neg (fun h => by
      obtain ⟨v, hv, e⟩ := (hrow i x hx).mp h
      exact hno v hv e)] at hent
    exact hent

/-- the two ways of removing two vertices cancel -/
theorem sgn_cancel {A : Finset Nat} {u v : Nat} (hu : u ∈ A) (hv : v ∈ A) (h : rk u < rk v) :
    sgn A v * sgn (A.erase v) u + sgn A u * sgn (A.erase u) v = 0 := by
  simp only [sgn]
  have h1 : ((A.erase v).filter (fun w => rk u < rk w)).card + 1 = (A.filter (fun w => rk u < rk w)).card := by
    rw [Finset.filter_erase]
    exact Finset.card_erase_add_one (by simp [hv, h])
  have h2 : ((A.erase u).filter (fun w => rk v < rk w)) = (A.filter (fun w => rk v < rk w)) := by
    rw [Finset.filter_erase]
    apply Finset.erase_eq_of_notMem
    rw [Finset.mem_filter]; rintro ⟨-, h'⟩; omega
  rw [h2, ← h1, pow_succ]
  ring

/-! ### labels of cells -/

/-- the elements of a finite set in increasing order -/
def sl (A : Finset Nat) : List Nat := A.sort (· ≤ ·)

theorem sl_pairwise (A : Finset Nat) : (sl A).Pairwise (· < ·) := A.sortedLT_sort.pairwise

theorem mem_sl {A : Finset Nat} {v : Nat} : v ∈ sl A ↔ v ∈ A := by simp [sl]

theorem sl_length (A : Finset Nat) : (sl A).length = A.card := by simp [sl]

/-- increasing lists with the same members are equal -/
theorem pairwise_lt_ext {l l' : List Nat} (h : l.Pairwise (· < ·)) (h' : l'.Pairwise (· < ·)) (hm : ∀ v, v ∈ l ↔ v ∈ l') : l = l' := by
  apply List.Perm.eq_of_pairwise (le := (· < ·)) _ h h'
  · exact (List.perm_ext_iff_of_nodup (h.imp (fun h => ne_of_lt h)) (h'.imp (fun h => ne_of_lt h))).mpr hm
  · intro a b _ _ h1 h2
    omega

theorem range_filter_eq_sl {A : Finset Nat} {N : Nat} (h : ∀ i ∈ A, i < N) (p : Nat → Bool) (hp : ∀ i, i < N → (p i = true ↔ i ∈ A)) :
    (List.range N).filter p = sl A := by
  apply pairwise_lt_ext _ (sl_pairwise A)
  · intro v
    rw [List.mem_filter, List.mem_range, mem_sl]
    exact ⟨fun ⟨h1, h2⟩ => (hp v h1).mp h2, fun h1 => ⟨h v h1, (hp v (h v h1)).mpr h1⟩⟩
  · exact (List.pairwise_lt_range (n := N)).sublist List.filter_sublist

theorem sl_eraseIdx {A : Finset Nat} {k v : Nat} (hk : (sl A)[k]? = some v) : (sl A).eraseIdx k = sl (A.erase v) := by
  have hnd : (sl A).Nodup := (sl_pairwise A).imp (fun h => ne_of_lt h)
  apply pairwise_lt_ext ((sl_pairwise A).sublist (List.eraseIdx_sublist _ _)) (sl_pairwise _)
  intro u
  rw [mem_sl, Finset.mem_erase, ← mem_sl (A := A), List.mem_eraseIdx_iff_getElem?]
  constructor
  · rintro ⟨i, hi, e⟩
    refine ⟨?_, List.mem_of_getElem? e⟩
    rintro rfl
    obtain ⟨h1, e1⟩ := List.getElem?_eq_some_iff.mp e
    obtain ⟨h2, e2⟩ := List.getElem?_eq_some_iff.mp hk
    exact hi ((List.Nodup.getElem_inj_iff hnd).mp (e1.trans e2.symm))
  · rintro ⟨h1, h2⟩
    obtain ⟨i, e⟩ := List.mem_iff_getElem?.mp h2
    refine ⟨i, ?_, e⟩
    rintro rfl
    rw [hk] at e
    exact h1 (Option.some.inj e).symm

theorem sl_above {A : Finset Nat} {k v : Nat} (hk : (sl A)[k]? = some v) : (A.filter (fun u => v < u)).card = A.card - 1 - k := by
  obtain ⟨hlt, e⟩ := List.getElem?_eq_some_iff.mp hk
  have hp := sl_pairwise A
  rw [List.pairwise_iff_getElem] at hp
  have hd : ((sl A).drop (k + 1)).Nodup := ((sl_pairwise A).imp (fun h => ne_of_lt h)).sublist (List.drop_sublist _ _)
  have : A.filter (fun u => v < u) = ((sl A).drop (k + 1)).toFinset := by
    ext u
    rw [Finset.mem_filter, ← mem_sl (A := A), List.mem_toFinset, List.mem_drop_iff_getElem]
    constructor
    · rintro ⟨h1, h2⟩
      obtain ⟨i, hi, e'⟩ := List.getElem_of_mem h1
      have : k < i := by
        rcases Nat.lt_trichotomy k i with h | h | h
        · exact h
        · subst h; omega
        · have := hp i k hi hlt h; omega
      exact ⟨i - (k + 1), by omega, by rw [← e']; congr 1; omega⟩
    · rintro ⟨i, hi, e'⟩
      refine ⟨by rw [← e']; exact List.getElem_mem _, ?_⟩
      have := hp k (k + 1 + i) hlt (by omega) (by omega)
      omega
  rw [this, List.toFinset_card_of_nodup hd, List.length_drop, sl_length]
  omega

theorem mapM_new {c : Cell} : ∀ (l : List Nat), (∀ i ∈ l, (i + 1) / 64 + 1 ≤ c.words.length) →
    ∃ r, l.mapM (fun i => do let v ← Cell.new (i + 1) [i]; return (i, c.contains v)) = some r ∧
      (r.filter (fun ib => ib.2)).map (fun ib => ib.1) = l.filter (fun i => decide (i ∈ vs c))
  | [], _ => ⟨[], by simp, rfl⟩
  | i :: l, h => by
    obtain ⟨r, e1, e2⟩ := mapM_new l (fun j hj => h j (by simp [hj]))
    obtain ⟨v, f1, f2, f3, f5, f4⟩ := new_spec (s := i + 1) (raw := [i]) (by simp) (by simp) (by simp)
    refine ⟨(i, c.contains v) :: r, ?_, ?_⟩
    · rw [List.mapM_cons, f1, e1]; rfl
    · have : c.contains v = decide (i ∈ vs c) := by
        rw [Bool.eq_iff_iff, contains_iff (by rw [f5]; exact h i (by simp)), f4]
        simp
      rw [List.filter_cons, List.filter_cons]
      simp only [this]
      by_cases hi : i ∈ vs c <;> simp [hi, e2]

theorem mapM_labels {labels : List T} : ∀ (r : List (Nat × Bool)), (∀ ib ∈ r, ib.1 < labels.length) →
    ∃ ls, r.mapM (fun ib => labels[ib.1]?) = some ls ∧ ls.map some = (r.map (fun ib => ib.1)).map (fun i => labels[i]?)
  | [], _ => ⟨[], by simp, rfl⟩
  | ib :: r, h => by
    obtain ⟨ls, e1, e2⟩ := mapM_labels r (fun j hj => h j (by simp [hj]))
    have hi := h ib (by simp)
    refine ⟨labels[ib.1] :: ls, ?_, ?_⟩
    · rw [List.mapM_cons, List.getElem?_eq_getElem hi, e1]; rfl
    · simp [e2, hi]

/-- what `get_simplex` returns for a cell with the vertices `A` -/
structure IsSimplex (labels : List T) (A : Finset Nat) (s : Simplex T) : Prop where
  dim : s.dim + 1 = A.card
  labels : s.labels.map some = (sl A).map (fun i => labels[i]?)

theorem getSimplex_spec {c : Cplx T} (h : CInv c) {a : Cell} (ha : CellOk c.size a) : ∃ s, c.getSimplex a = some s ∧ IsSimplex c.labels (vs a) s := by
  obtain ⟨r, e1, e2⟩ := mapM_new (c := a) (List.range a.size) (fun i hi => by have := List.mem_range.mp hi; rw [ha.words]; omega)
  rw [range_filter_eq_sl ha.lt _ (fun i _ => by simp)] at e2
  obtain ⟨ls, f1, f2⟩ := mapM_labels (labels := c.labels) (r.filter (fun ib => ib.2)) (by
    intro ib hib
    have : ib.1 ∈ sl (vs a) := by rw [← e2]; exact List.mem_map_of_mem hib
    have := ha.lt _ (mem_sl.mp this)
    have := ha.size_le
    have := h.size
    omega)
  have hpos := Finset.card_pos.mpr ha.ne
  have hd : a.dim = some ((vs a).card - 1) := ha.wf.dim_some.mpr (by omega)
  refine ⟨⟨(vs a).card - 1, ls⟩, ?_, ⟨by simp only; omega, by rw [← e2, f2]⟩⟩
  rw [Cplx.getSimplex, e1]
  simp only [Option.bind_eq_bind, Option.bind_some, f1, hd, pure]

theorem mem_isSimplex {labels : List T} {A : Finset Nat} {s : Simplex T} (h : IsSimplex labels A s) : s.labels.toFinset = lset labels A := by
  ext x
  rw [List.mem_toFinset, mem_lset]
  have : x ∈ s.labels ↔ some x ∈ s.labels.map some := by simp
  rw [this, h.labels, List.mem_map]
  simp [mem_sl]

theorem isSimplex_length {labels : List T} {A : Finset Nat} {s : Simplex T} (h : IsSimplex labels A s) : s.labels.length = A.card := by
  have := congrArg List.length h.labels
  simpa [sl_length] using this

theorem isSimplex_unique {labels : List T} {A : Finset Nat} {s s' : Simplex T} (h : IsSimplex labels A s) (h' : IsSimplex labels A s') : s = s' := by
  cases s with
  | mk d l =>
    cases s' with
    | mk d' l' =>
      have h1 := h.dim
      have h2 := h'.dim
      simp only at h1 h2
      have h3 := h.labels.trans h'.labels.symm
      simp only at h3
      have : d = d' := by omega
      subst this
      have : l = l' := (List.map_injective_iff.mpr (Option.some_injective T)) h3
      rw [this]

theorem isSimplex_nodup {labels : List T} (hn : labels.Nodup) {A : Finset Nat} (hA : ∀ i ∈ A, i < labels.length) {s : Simplex T}
    (h : IsSimplex labels A s) : s.labels.Nodup := by
  rw [← Multiset.coe_nodup, ← Multiset.toFinset_card_eq_card_iff_nodup]
  change s.labels.toFinset.card = s.labels.length
  rw [mem_isSimplex h, lset_card hn hA, isSimplex_length h]

theorem isSimplex_erase {labels : List T} {A : Finset Nat} {s s' : Simplex T} (h : IsSimplex labels A s) {k v : Nat} (hk : (sl A)[k]? = some v)
    (h' : IsSimplex labels (A.erase v) s') : s'.labels = s.labels.eraseIdx k := by
  have : s'.labels.map some = (s.labels.eraseIdx k).map some := by
    rw [h'.labels, ← sl_eraseIdx hk, ← List.eraseIdx_map, ← List.eraseIdx_map, h.labels]
  exact (List.map_injective_iff.mpr (Option.some_injective T)) this

theorem mapM_getSimplex {c : Cplx T} (h : CInv c) : ∀ (L : List Cell), (∀ a ∈ L, CellOk c.size a) →
    ∃ B, L.mapM c.getSimplex = some B ∧ List.Forall₂ (fun a s => IsSimplex c.labels (vs a) s) L B
  | [], _ => ⟨[], by simp, List.Forall₂.nil⟩
  | a :: L, hL => by
    obtain ⟨B, e1, e2⟩ := mapM_getSimplex h L (fun x hx => hL x (by simp [hx]))
    obtain ⟨s, f1, f2⟩ := getSimplex_spec h (hL a (by simp))
    exact ⟨s :: B, by rw [List.mapM_cons, f1, e1]; rfl, List.Forall₂.cons f2 e2⟩

/-! ### the whole chain complex -/

/-- one boundary map in terms of the cells -/
structure BmOk (c : Cplx T) (Ls : Nat → List Cell) (i : Nat) (b : Hom.BMap (Simplex T)) : Prop where
  m : b.m = (Ls i).length
  basis : List.Forall₂ (fun a s => IsSimplex c.labels (vs a) s) (Ls i) b.basis
  zero : i = 0 → b.n = 1 ∧ b.a = fun _ _ => 0
  succ : ∀ k, i = k + 1 → b.n = (Ls k).length ∧ ∀ r j x y, (Ls k)[r]? = some x → (Ls i)[j]? = some y →
    (∀ v ∈ vs y, vs x = (vs y).erase v → b.a r j = sgn (vs y) v) ∧ ((∀ v ∈ vs y, vs x ≠ (vs y).erase v) → b.a r j = 0)

theorem bmLoop_spec {c : Cplx T} (h : CInv c) : ∀ (n : Nat) (L : List Cell), Level c n L → L ≠ [] →
    ∃ out Ls, c.bmLoop n L = some out ∧ out.length = n + 1 ∧ Ls n = L ∧ (∀ i, i ≤ n → Level c i (Ls i) ∧ Ls i ≠ []) ∧
      ∀ i b, out[i]? = some b → BmOk c Ls i b
  | 0, L, hL, hne => by
    obtain ⟨B, e1, e2⟩ := mapM_getSimplex h L (fun a ha => (hL.ok a ha).1)
    refine ⟨[⟨1, L.length, fun _ _ => 0, B⟩], fun _ => L, ?_, rfl, rfl, ?_, ?_⟩
    · rw [Cplx.bmLoop, e1]; rfl
    · intro i hi
      have : i = 0 := by omega
      subst this
      exact ⟨hL, hne⟩
    · intro i b hb
      match i with
      | 0 =>
        simp at hb
        subst hb
        exact ⟨rfl, e2, fun _ => ⟨rfl, rfl⟩, by omega⟩
      | i + 1 => simp at hb
  | n + 1, L, hL, hne => by
    obtain ⟨B, e1, e2⟩ := mapM_getSimplex h L (fun a ha => (hL.ok a ha).1)
    obtain ⟨L', f1, f2, f3, f4⟩ := lower_level h hL hne
    obtain ⟨a, g1, g2⟩ := entries_spec hL f2 f4
    obtain ⟨out, Ls, i1, i2, i3, i4, i5⟩ := bmLoop_spec h n L' f2 f3
    have hLs : ∀ i, i ≤ n → (if i = n + 1 then L else Ls i) = Ls i := by
      intro i hi
      rw [if_neg (by omega)]
    refine ⟨out ++ [⟨L'.length, L.length, a, B⟩], fun i => if i = n + 1 then L else Ls i, ?_, by simp [i2], by simp, ?_, ?_⟩
    · rw [Cplx.bmLoop, e1]
      simp only [Option.bind_eq_bind, Option.bind_some, f1, g1, i1]
      rfl
    · intro i hi
      by_cases e : i = n + 1
      · simp only [e, if_true]; exact ⟨hL, hne⟩
      · simp only [hLs i (by omega : i ≤ n)]; exact i4 i (by omega)
    · intro i b hb
      by_cases hi : i < n + 1
      · rw [List.getElem?_append_left (by omega)] at hb
        have := i5 i b hb
        refine ⟨by rw [hLs i (by omega)]; exact this.m, by rw [hLs i (by omega)]; exact this.basis, this.zero, ?_⟩
        intro k hk
        rw [hLs i (by omega), hLs k (by omega)]
        exact this.succ k hk
      · rw [List.getElem?_append_right (by omega), i2] at hb
        have hi' : i = n + 1 := by
          by_contra hne'
          rw [List.getElem?_eq_none (by simp; omega)] at hb
          simp at hb
        subst hi'
        simp at hb
        subst hb
        refine ⟨by simp, by simpa using e2, by simp, ?_⟩
        intro k hk
        have : k = n := by omega
        subst this
        rw [hLs k (le_refl k), i3]
        simp only [if_true]
        exact ⟨trivial, g2⟩

/-- all boundary maps of a complex with at least one cell -/
theorem boundaryMap_spec {c : Cplx T} (h : CInv c) (hne : c.cells ≠ []) :
    ∃ d out Ls, c.dim = some d ∧ c.boundaryMap = some out ∧ out.length = d + 1 ∧ (∀ i, i ≤ d → Level c i (Ls i) ∧ Ls i ≠ []) ∧
      ∀ i b, out[i]? = some b → BmOk c Ls i b := by
  obtain ⟨d, hd⟩ : ∃ d, c.dim = some d := by
    rw [Cplx.dim, ← Option.isSome_iff_exists, List.isSome_max?_iff]
    simpa using hne
  obtain ⟨L, e1, e2, e3⟩ := top_level h hd
  obtain ⟨out, Ls, f1, f2, -, f4, f5⟩ := bmLoop_spec h d L e2 e3
  refine ⟨d, out, Ls, hd, ?_, f2, f4, f5⟩
  rw [Cplx.boundaryMap, hd]
  simp only [Option.bind_eq_bind, Option.bind_some, e1, f1]

end Toppo.Simp
