import Verif.Proof.CubeCells
import Mathlib.Data.List.Induction
set_option linter.unusedVariables false

/-! The arena of branches represents the paths of the pure enumeration. -/
namespace Toppo.Cub
open RawGraph RawGraph.Factor

/-- parents and values of the branches -/
def skel (data : List Branch) : List (Option Nat × Factor) := data.map (fun b => (b.parent, b.val))

theorem skel_length (data : List Branch) : (skel data).length = data.length := List.length_map _

theorem skel_get (data : List Branch) (i : Nat) : (skel data)[i]? = data[i]?.map (fun b => (b.parent, b.val)) := List.getElem?_map

theorem skel_some {data : List Branch} {i : Nat} {p : Option Nat} {f : Factor} : (skel data)[i]? = some (p, f) ↔ ∃ b, data[i]? = some b ∧ b.parent = p ∧ b.val = f := by
  rw [skel_get]
  simp [Option.map_eq_some_iff, Prod.ext_iff]

theorem up_succ {data : List Branch} {fuel i : Nat} {L : List Factor} : up data (fuel + 1) i = some L ↔
    ∃ p f, (skel data)[i]? = some (p, f) ∧ ((p = none ∧ L = [f]) ∨ ∃ q L', p = some q ∧ up data fuel q = some L' ∧ L = f :: L') := by
  show (match data[i]? with
    | none => none
    | some b => match b.parent with
      | none => some [b.val]
      | some p => (up data fuel p).map (b.val :: ·)) = some L ↔ _
  cases h : data[i]? with
  | none => simp [skel_get, h]
  | some b =>
    simp only [skel_get, h, Option.map_some, Option.some.injEq, Prod.mk.injEq]
    cases hp : b.parent with
    | none =>
      simp only [Option.some.injEq]
      constructor
      · intro e; exact ⟨none, b.val, ⟨rfl, rfl⟩, Or.inl ⟨rfl, e.symm⟩⟩
      · rintro ⟨p, f, ⟨rfl, rfl⟩, ⟨-, e⟩ | ⟨q, L', e, -⟩⟩
        · exact e.symm
        · cases e
    | some q =>
      simp only [Option.map_eq_some_iff]
      constructor
      · rintro ⟨L', h1, h2⟩; exact ⟨some q, b.val, ⟨rfl, rfl⟩, Or.inr ⟨q, L', rfl, h1, h2.symm⟩⟩
      · rintro ⟨p, f, ⟨rfl, rfl⟩, ⟨e, -⟩ | ⟨q', L', e, h1, h2⟩⟩
        · cases e
        · cases e; exact ⟨L', h1, h2.symm⟩

theorem up_congr {data data' : List Branch} (h : skel data <+: skel data') {fuel i : Nat} {L : List Factor} (hu : up data fuel i = some L) :
    up data' fuel i = some L := by
  induction fuel generalizing i L with
  | zero => cases hu
  | succ fuel ih =>
    rw [up_succ] at hu ⊢
    obtain ⟨p, f, h1, h2⟩ := hu
    refine ⟨p, f, ?_, ?_⟩
    · obtain ⟨t, ht⟩ := h
      rw [← ht]
      have hi := (List.getElem?_eq_some_iff.mp h1).1
      rw [List.getElem?_append_left hi]; exact h1
    · rcases h2 with h2 | ⟨q, L', e1, e2, e3⟩
      · exact Or.inl h2
      · exact Or.inr ⟨q, L', e1, ih e2, e3⟩

theorem up_mono {data : List Branch} {fuel fuel' i : Nat} {L : List Factor} (hf : fuel ≤ fuel') (hu : up data fuel i = some L) :
    up data fuel' i = some L := by
  induction fuel generalizing i L fuel' with
  | zero => cases hu
  | succ fuel ih =>
    obtain ⟨fuel', rfl⟩ : ∃ m, fuel' = m + 1 := ⟨fuel' - 1, by omega⟩
    rw [up_succ] at hu ⊢
    obtain ⟨p, f, h1, h2⟩ := hu
    refine ⟨p, f, h1, ?_⟩
    rcases h2 with h2 | ⟨q, L', e1, e2, e3⟩
    · exact Or.inl h2
    · exact Or.inr ⟨q, L', e1, ih (by omega) e2, e3⟩

theorem up_unique {data : List Branch} {fuel fuel' i : Nat} {L L' : List Factor} (h : up data fuel i = some L) (h' : up data fuel' i = some L') : L = L' := by
  have h1 := up_mono (le_max_left fuel fuel') h
  have h2 := up_mono (le_max_right fuel fuel') h'
  rw [h1] at h2
  exact Option.some.inj h2

theorem dimOf_eq (data : List Branch) (fuel i : Nat) : dimOf data fuel i = (up data fuel i).map (fun L => L.countP isEdge) := by
  induction fuel generalizing i with
  | zero => rfl
  | succ fuel ih =>
    show (match data[i]? with
      | none => none
      | some b => match b.parent with
        | none => some (if b.val.isEdge then 1 else 0)
        | some p => (dimOf data fuel p).map ((if b.val.isEdge then 1 else 0) + ·)) =
      Option.map (fun L => L.countP isEdge) (match data[i]? with
        | none => none
        | some b => match b.parent with
          | none => some [b.val]
          | some p => (up data fuel p).map (b.val :: ·))
    cases data[i]? with
    | none => rfl
    | some b =>
      cases hp : b.parent with
      | none => simp [hp, List.countP_cons]
      | some p =>
        simp only [hp, ih, Option.map_map]
        congr 1
        funext L
        simp only [Function.comp, List.countP_cons]
        omega

/-- the branch `i` ends the path `P` -/
def PathAt (data : List Branch) (i : Nat) (P : List Factor) : Prop := up data (i + 1) i = some P.reverse

theorem PathAt.congr {data data' : List Branch} (h : skel data <+: skel data') {i : Nat} {P : List Factor} (hp : PathAt data i P) : PathAt data' i P :=
  up_congr h hp

theorem PathAt.unique {data : List Branch} {i : Nat} {P P' : List Factor} (h : PathAt data i P) (h' : PathAt data i P') : P = P' :=
  List.reverse_injective (up_unique h h')

theorem PathAt.lt {data : List Branch} {i : Nat} {P : List Factor} (h : PathAt data i P) : i < data.length := by
  obtain ⟨p, f, h1, -⟩ := up_succ.mp h
  rw [← skel_length]
  exact (List.getElem?_eq_some_iff.mp h1).1

theorem PathAt.dim {data : List Branch} {i : Nat} {P : List Factor} (h : PathAt data i P) : dimOf data (i + 1) i = some (P.countP isEdge) := by
  rw [dimOf_eq, h]
  simp

/-- the parent of a branch, if there is such a branch -/
def parentAt (data : List Branch) (i : Nat) : Option (Option Nat) := (skel data)[i]?.map Prod.fst

structure AInv (s : Cplx) : Prop where
  nodup : (skel s.data).Nodup
  plt : ∀ (i p : Nat) (f : Factor), (skel s.data)[i]? = some (some p, f) → p < i
  kids : ∀ p b, s.data[p]? = some b → b.children = (List.range s.data.length).filter (fun i => decide (parentAt s.data i = some (some p)))
  first : s.first = (List.range s.data.length).filter (fun i => decide (parentAt s.data i = some none))
  valid : ∀ i P, PathAt s.data i P → Valid P ∧ ∀ f ∈ P, f ∈ s.pool

theorem AInv.path {s : Cplx} (h : AInv s) {i : Nat} (hi : i < s.data.length) : ∃ P, PathAt s.data i P := by
  induction i using Nat.strong_induction_on with
  | _ i ih =>
    rw [← skel_length] at hi
    cases e : (skel s.data)[i] with
    | mk p f =>
      have e' : (skel s.data)[i]? = some (p, f) := by rw [List.getElem?_eq_getElem hi, e]
      cases p with
      | none => exact ⟨[f], up_succ.mpr ⟨none, f, e', Or.inl ⟨rfl, rfl⟩⟩⟩
      | some p =>
        have hp := h.plt i p f e'
        obtain ⟨P, hP⟩ := ih p hp (by rw [skel_length] at hi; omega)
        refine ⟨P ++ [f], up_succ.mpr ⟨some p, f, e', Or.inr ⟨p, P.reverse, rfl, up_mono (by omega) hP, by simp⟩⟩⟩

/-! ### looking up cells -/

theorem findVal_some {data : List Branch} {f : Factor} {l : List Nat} {i : Nat} (hl : ∀ j ∈ l, j < data.length)
    (hi : i ∈ l) (hv : ∃ p, (skel data)[i]? = some (p, f)) (hu : ∀ j ∈ l, ∀ p, (skel data)[j]? = some (p, f) → j = i) : Cplx.findVal data f l = some i := by
  induction l with
  | nil => simp at hi
  | cons j js ih =>
    unfold Cplx.findVal
    have hj := hl j (by simp)
    rw [List.getElem?_eq_getElem hj]
    simp only
    by_cases hf : data[j].val = f
    · rw [if_pos hf]
      have := hu j (by simp) data[j].parent (by rw [skel_some]; exact ⟨data[j], List.getElem?_eq_getElem hj, rfl, hf⟩)
      rw [this]
    · rw [if_neg hf]
      refine ih (fun k hk => hl k (by simp [hk])) ?_ (fun k hk => hu k (by simp [hk]))
      rcases List.mem_cons.mp hi with rfl | h
      · obtain ⟨p, hp⟩ := hv
        obtain ⟨b, b1, -, b3⟩ := skel_some.mp hp
        rw [List.getElem?_eq_getElem hj] at b1
        injection b1 with b1
        rw [b1] at hf; exact absurd b3 hf
      · exact h

theorem findVal_mem {data : List Branch} {f : Factor} {l : List Nat} {i : Nat} (h : Cplx.findVal data f l = some i) :
    i ∈ l ∧ ∃ p, (skel data)[i]? = some (p, f) := by
  induction l with
  | nil => cases h
  | cons j js ih =>
    unfold Cplx.findVal at h
    cases hj : data[j]? with
    | none => rw [hj] at h; cases h
    | some b =>
      rw [hj] at h
      simp only at h
      split at h
      · rename_i hf
        cases h
        exact ⟨by simp, b.parent, skel_some.mpr ⟨b, hj, rfl, hf⟩⟩
      · obtain ⟨h1, h2⟩ := ih h
        exact ⟨by simp [h1], h2⟩

theorem follow_append (data : List Branch) (i : Nat) (l l' : List Factor) :
    Cplx.follow data i (l ++ l') = (Cplx.follow data i l).bind (fun j => Cplx.follow data j l') := by
  induction l generalizing i with
  | nil => rfl
  | cons f l ih =>
    rw [List.cons_append]
    simp only [Cplx.follow]
    cases data[i]? with
    | none => rfl
    | some b =>
      simp only
      cases Cplx.findVal data f b.children with
      | none => rfl
      | some j => exact ih j

theorem indexOf_append (s : Cplx) {l : List Factor} (hl : l ≠ []) (l' : List Factor) :
    s.indexOf (l ++ l') = (s.indexOf l).bind (fun j => Cplx.follow s.data j l') := by
  cases l with
  | nil => exact absurd rfl hl
  | cons f l =>
    rw [List.cons_append]
    simp only [Cplx.indexOf]
    cases Cplx.findVal s.data f s.first with
    | none => rfl
    | some j => exact follow_append s.data j l l'

theorem skel_inj {data : List Branch} (h : (skel data).Nodup) {i j : Nat} {x : Option Nat × Factor} (hi : (skel data)[i]? = some x) (hj : (skel data)[j]? = some x) : i = j := by
  obtain ⟨h1, e1⟩ := List.getElem?_eq_some_iff.mp hi
  obtain ⟨h2, e2⟩ := List.getElem?_eq_some_iff.mp hj
  exact (List.Nodup.getElem_inj_iff h).mp (e1.trans e2.symm)

theorem AInv.child {s : Cplx} (h : AInv s) {p i : Nat} {f : Factor} : Cplx.follow s.data p [f] = some i ↔ (skel s.data)[i]? = some (some p, f) := by
  have key : ∀ {b}, s.data[p]? = some b → ((skel s.data)[i]? = some (some p, f) ↔ Cplx.findVal s.data f b.children = some i) := by
    intro b hb
    have hk := h.kids p b hb
    constructor
    · intro hi
      have hil := (List.getElem?_eq_some_iff.mp hi).1
      rw [skel_length] at hil
      refine findVal_some ?_ ?_ ⟨_, hi⟩ ?_
      · intro j hj; rw [hk, List.mem_filter, List.mem_range] at hj; exact hj.1
      · rw [hk, List.mem_filter, List.mem_range]
        refine ⟨hil, ?_⟩
        simp [parentAt, hi]
      · intro j hj q hq
        rw [hk, List.mem_filter, decide_eq_true_iff] at hj
        have := hj.2
        rw [parentAt, hq] at this
        simp only [Option.map_some, Option.some.injEq] at this
        subst this
        exact skel_inj h.nodup hq hi
    · intro hf
      obtain ⟨h1, q, h2⟩ := findVal_mem hf
      rw [hk, List.mem_filter, decide_eq_true_iff] at h1
      have := h1.2
      rw [parentAt, h2] at this
      simp only [Option.map_some, Option.some.injEq] at this
      subst this
      exact h2
  unfold Cplx.follow
  cases hb : s.data[p]? with
  | none =>
    simp only
    constructor
    · intro e; cases e
    · intro e
      have h1 := h.plt _ _ _ e
      have h2 := (List.getElem?_eq_some_iff.mp e).1
      rw [skel_length] at h2
      rw [List.getElem?_eq_none_iff] at hb
      omega
  | some b =>
    simp only
    rw [key hb]
    cases Cplx.findVal s.data f b.children with
    | none => simp
    | some j => simp [Cplx.follow]

theorem AInv.root {s : Cplx} (h : AInv s) {i : Nat} {f : Factor} : s.indexOf [f] = some i ↔ (skel s.data)[i]? = some (none, f) := by
  have hk := h.first
  have key : Cplx.findVal s.data f s.first = some i ↔ (skel s.data)[i]? = some (none, f) := by
    constructor
    · intro hf
      obtain ⟨h1, q, h2⟩ := findVal_mem hf
      rw [hk, List.mem_filter, decide_eq_true_iff] at h1
      have := h1.2
      rw [parentAt, h2] at this
      simp only [Option.map_some, Option.some.injEq] at this
      subst this
      exact h2
    · intro hi
      have hil := (List.getElem?_eq_some_iff.mp hi).1
      rw [skel_length] at hil
      refine findVal_some ?_ ?_ ⟨_, hi⟩ ?_
      · intro j hj; rw [hk, List.mem_filter, List.mem_range] at hj; exact hj.1
      · rw [hk, List.mem_filter, List.mem_range]
        exact ⟨hil, by simp [parentAt, hi]⟩
      · intro j hj q hq
        rw [hk, List.mem_filter, decide_eq_true_iff] at hj
        have := hj.2
        rw [parentAt, hq] at this
        simp only [Option.map_some, Option.some.injEq] at this
        subst this
        exact skel_inj h.nodup hq hi
  rw [← key]
  simp only [Cplx.indexOf]
  cases Cplx.findVal s.data f s.first with
  | none => simp
  | some j => simp [Cplx.follow]

/-- looking up a path gives the branch ending it -/
theorem AInv.indexOf {s : Cplx} (h : AInv s) (P : List Factor) (i : Nat) : s.indexOf P = some i ↔ PathAt s.data i P := by
  induction P using List.reverseRecOn generalizing i with
  | nil =>
    constructor
    · intro e; cases e
    · intro e
      obtain ⟨p, f, h1, h2⟩ := up_succ.mp e
      rcases h2 with ⟨-, e⟩ | ⟨q, L', -, -, e⟩ <;> simp at e
  | append_singleton P f ih =>
    by_cases hP : P = []
    · subst hP
      rw [List.nil_append, h.root]
      unfold PathAt
      rw [up_succ]
      constructor
      · intro e; exact ⟨none, f, e, Or.inl ⟨rfl, rfl⟩⟩
      · rintro ⟨p, f', h1, ⟨rfl, h3⟩ | ⟨q, L', -, h3, h4⟩⟩
        · simp at h3; subst h3; exact h1
        · simp at h4
          obtain ⟨rfl, rfl⟩ := h4
          exfalso
          cases i with
          | zero => cases h3
          | succ i =>
            obtain ⟨p, f, h1, h2⟩ := up_succ.mp h3
            rcases h2 with ⟨-, e⟩ | ⟨q, L', -, -, e⟩ <;> simp at e
    · rw [indexOf_append s hP, Option.bind_eq_some_iff]
      unfold PathAt
      rw [up_succ]
      constructor
      · rintro ⟨j, h1, h2⟩
        rw [h.child] at h2
        have hj := h.plt _ _ _ h2
        exact ⟨some j, f, h2, Or.inr ⟨j, P.reverse, rfl, up_mono (by omega) ((ih j).mp h1), by simp⟩⟩
      · rintro ⟨p, f', h1, ⟨rfl, h3⟩ | ⟨q, L', rfl, h3, h4⟩⟩
        · simp at h3; exact absurd h3.2 hP
        · simp at h4
          obtain ⟨rfl, rfl⟩ := h4
          refine ⟨q, ?_, h.child.mpr h1⟩
          rw [ih]
          obtain ⟨P', hP'⟩ := h.path (i := q) (by
            have := h.plt _ _ _ h1
            have := (List.getElem?_eq_some_iff.mp h1).1
            rw [skel_length] at this; omega)
          have := up_unique hP' h3
          unfold PathAt
          rw [← this]; exact hP'

/-! ### attaching a branch -/

theorem attach_spec {s : Cplx} (h : AInv s) {idx : Nat} {P : List Factor} (hP : PathAt s.data idx P) {f : Factor}
    (hf : f ∈ s.pool) (hb : ∀ x ∈ P, Bef x f) (hn : (some idx, f) ∉ skel s.data) :
    ∃ s', attach idx s f = some s' ∧ AInv s' ∧ skel s'.data = skel s.data ++ [(some idx, f)] ∧ s'.n = s.n ∧ s'.pool = s.pool ∧ s'.first = s.first ∧
      s'.final = s.final ∧ s'.dim = s.dim ∧ s'.ranks = s.ranks ∧ PathAt s'.data s.data.length (P ++ [f]) := by
  have hi := hP.lt
  unfold attach
  rw [List.getElem?_eq_getElem hi]
  simp only [Option.bind_eq_bind, Option.bind_some]
  refine ⟨_, rfl, ?_⟩
  obtain ⟨d, hd⟩ : ∃ d, d = s.data.set idx { s.data[idx] with children := s.data[idx].children ++ [s.data.length] } ++ [⟨some idx, [], f⟩] := ⟨_, rfl⟩
  simp only [← hd]
  have hlen : d.length = s.data.length + 1 := by rw [hd]; simp
  have hsk : skel d = skel s.data ++ [(some idx, f)] := by
    rw [hd]
    unfold skel
    rw [List.map_append, List.map_set]
    congr 1
    apply List.ext_getElem?
    intro i
    rw [List.getElem?_set]
    split
    · rename_i e
      subst e
      simp [hi]
    · rfl
  have hpre : skel s.data <+: skel d := by rw [hsk]; exact List.prefix_append _ _
  have hget : ∀ i, i < s.data.length → (skel d)[i]? = (skel s.data)[i]? := by
    intro i hi
    rw [hsk, List.getElem?_append_left (by rw [skel_length]; exact hi)]
  have hlast : (skel d)[s.data.length]? = some (some idx, f) := by
    rw [hsk, List.getElem?_append_right (by rw [skel_length]), skel_length]; simp
  have hpar : ∀ q, (List.range d.length).filter (fun i => decide (parentAt d i = some q)) =
      (List.range s.data.length).filter (fun i => decide (parentAt s.data i = some q)) ++ (if q = some idx then [s.data.length] else []) := by
    intro q
    rw [hlen, List.range_succ, List.filter_append]
    congr 1
    · apply List.filter_congr
      intro i hi
      rw [List.mem_range] at hi
      unfold parentAt
      rw [hget i hi]
    · rw [List.filter_singleton]
      have : parentAt d s.data.length = some (some idx) := by unfold parentAt; rw [hlast]; rfl
      rw [this]
      by_cases hq : q = some idx
      · subst hq; simp
      · have : ¬ (some idx = q) := fun e => hq e.symm
        simp [hq, this]
  have hnew : PathAt d s.data.length (P ++ [f]) :=
    up_succ.mpr ⟨some idx, f, hlast, Or.inr ⟨idx, P.reverse, rfl, up_mono (by omega) (hP.congr hpre), by simp⟩⟩
  refine ⟨⟨?_, ?_, ?_, ?_, ?_⟩, hsk, trivial, trivial, trivial, trivial, trivial, trivial, hnew⟩
  · show (skel d).Nodup
    rw [hsk, List.nodup_append]
    refine ⟨h.nodup, by simp, ?_⟩
    intro a ha b hb e
    rw [List.mem_singleton] at hb
    rw [e, hb] at ha; exact hn ha
  · intro i p f' e
    rcases Nat.lt_or_ge i s.data.length with hh | hh
    · rw [show (skel d)[i]? = _ from hget i hh] at e
      exact h.plt i p f' e
    · have e : (skel d)[i]? = some (some p, f') := e
      have hil := (List.getElem?_eq_some_iff.mp e).1
      rw [skel_length, hlen] at hil
      obtain rfl : i = s.data.length := by omega
      rw [hlast] at e
      injection e with e
      injection e with e1 e2
      injection e1 with e1
      omega
  · intro p b hb
    show b.children = (List.range d.length).filter (fun i => decide (parentAt d i = some (some p)))
    have hb : d[p]? = some b := hb
    rw [hpar]
    rw [hd] at hb
    rcases Nat.lt_trichotomy p s.data.length with hh | hh | hh
    · rw [List.getElem?_append_left (by simpa using hh), List.getElem?_set] at hb
      by_cases hp : idx = p
      · subst hp
        rw [if_pos rfl, if_pos hh] at hb
        injection hb with hb
        rw [← hb, if_pos rfl]
        simp only
        rw [h.kids idx s.data[idx] (List.getElem?_eq_getElem hi)]
      · rw [if_neg hp] at hb
        rw [if_neg (by intro e; injection e with e; exact hp e.symm), List.append_nil]
        exact h.kids p b hb
    · subst hh
      rw [List.getElem?_append_right (by simp)] at hb
      simp at hb
      rw [← hb, if_neg (by intro e; injection e with e; omega), List.append_nil, eq_comm, List.filter_eq_nil_iff]
      intro i hi'
      rw [List.mem_range] at hi'
      rw [decide_eq_true_iff]
      intro e
      unfold parentAt at e
      rw [Option.map_eq_some_iff] at e
      obtain ⟨⟨q, f'⟩, e1, e2⟩ := e
      simp only at e2
      subst e2
      have := h.plt _ _ _ e1
      omega
    · have := (List.getElem?_eq_some_iff.mp hb).1
      simp at this; omega
  · show s.first = (List.range d.length).filter (fun i => decide (parentAt d i = some none))
    rw [hpar, if_neg (by simp), List.append_nil, h.first]
  · intro i Q hQ
    have hQ : PathAt d i Q := hQ
    have hil := hQ.lt
    rcases Nat.lt_or_ge i s.data.length with hh | hh
    · obtain ⟨Q', hQ'⟩ := h.path hh
      rw [hQ.unique (hQ'.congr hpre)]
      exact h.valid i Q' hQ'
    · obtain rfl : i = s.data.length := by omega
      rw [hQ.unique hnew]
      obtain ⟨h1, h2⟩ := h.valid idx P hP
      refine ⟨valid_snoc.mpr ⟨h1, hb⟩, ?_⟩
      intro x hx
      rcases List.mem_append.mp hx with hx | hx
      · exact h2 x hx
      · rw [List.mem_singleton] at hx; rw [hx]; exact hf

/-! ### expanding -/

/-- what the enumeration of `cells` below the branch `idx` does to the state -/
structure Post (idx : Nat) (s s' : Cplx) (cells : List (List Factor)) : Prop where
  inv : AInv s'
  n : s'.n = s.n
  pool : s'.pool = s.pool
  first : s'.first = s.first
  pre : skel s.data <+: skel s'.data
  new : ∀ (i : Nat) (p : Option Nat) (f : Factor), s.data.length ≤ i → (skel s'.data)[i]? = some (p, f) → ∃ q, p = some q ∧ (q = idx ∨ s.data.length ≤ q)
  final : ∃ F, s'.final = s.final ++ F ∧ List.Forall₂ (PathAt s'.data) F cells
  rlen : s'.ranks.length = s.ranks.length
  ranks : ∀ d, s'.ranks.getD d 0 = s.ranks.getD d 0 + cells.countP (fun c => decide (c.countP isEdge = d))
  dim : s'.dim = cells.foldl (fun m c => max m (c.countP isEdge)) s.dim

theorem Post.len {idx : Nat} {s s' : Cplx} {cells : List (List Factor)} (h : Post idx s s' cells) : s.data.length ≤ s'.data.length := by
  have := h.pre.length_le
  rwa [skel_length, skel_length] at this

theorem Post.refl {idx : Nat} {s : Cplx} (h : AInv s) : Post idx s s [] := by
  refine ⟨h, rfl, rfl, rfl, List.prefix_rfl, ?_, ⟨[], by simp, .nil⟩, rfl, by simp, rfl⟩
  intro i p f hi e
  have := (List.getElem?_eq_some_iff.mp e).1
  rw [skel_length] at this; omega

theorem Post.trans {idx idx' : Nat} {s s' s'' : Cplx} {cells cells' : List (List Factor)} (h : Post idx s s' cells) (h' : Post idx' s' s'' cells')
    (hi : idx' = idx ∨ s.data.length ≤ idx') : Post idx s s'' (cells ++ cells') := by
  refine ⟨h'.inv, h'.n.trans h.n, h'.pool.trans h.pool, h'.first.trans h.first, h.pre.trans h'.pre, ?_, ?_, h'.rlen.trans h.rlen, ?_, ?_⟩
  · intro i p f hil e
    rcases Nat.lt_or_ge i s'.data.length with hh | hh
    · refine h.new i p f hil ?_
      obtain ⟨t, ht⟩ := h'.pre
      rw [← ht, List.getElem?_append_left (by rw [skel_length]; exact hh)] at e
      exact e
    · obtain ⟨q, e1, e2⟩ := h'.new i p f hh e
      have := h.len
      refine ⟨q, e1, ?_⟩
      rcases e2 with e2 | e2
      · rcases hi with hi | hi
        · left; omega
        · right; omega
      · right; omega
  · obtain ⟨F, f1, f2⟩ := h.final
    obtain ⟨F', f3, f4⟩ := h'.final
    refine ⟨F ++ F', by rw [f3, f1, List.append_assoc], ?_⟩
    exact List.rel_append (f2.imp (fun _ _ hp => hp.congr h'.pre)) f4
  · intro d
    rw [h'.ranks, h.ranks, List.countP_append]; omega
  · rw [h'.dim, h.dim, List.foldl_append]

theorem finish_spec {s : Cplx} (h : AInv s) {idx : Nat} {P : List Factor} (hP : PathAt s.data idx P) (hr : P.length < s.ranks.length) :
    ∃ s', finish idx s = some s' ∧ Post idx s s' [P] := by
  have hd := hP.dim
  have hle : P.countP isEdge < s.ranks.length := lt_of_le_of_lt List.countP_le_length hr
  unfold finish
  rw [hd]
  simp only [Option.bind_eq_bind, Option.bind_some, List.getElem?_eq_getElem hle]
  refine ⟨_, rfl, ⟨h.1, h.2, h.3, h.4, h.5⟩, rfl, rfl, rfl, List.prefix_rfl, ?_, ⟨[idx], rfl, .cons hP .nil⟩, by simp, ?_, ?_⟩
  · intro i p f hi e
    have := (List.getElem?_eq_some_iff.mp e).1
    rw [skel_length] at this
    have : i < s.data.length := this
    omega
  · intro d
    simp only [List.getD_eq_getElem?_getD, List.getElem?_set]
    by_cases e : P.countP isEdge = d
    · subst e
      simp [hle]
    · rw [if_neg e]; simp [e]
  · simp only [List.foldl_cons, List.foldl_nil]
    split <;> omega

theorem newFactors_spec {s : Cplx} (h : AInv s) (hrange : ∀ f ∈ s.pool, InRange s.n f) {idx : Nat} {P : List Factor} (hP : PathAt s.data idx P) (r : Nat) :
    newFactors s idx (s.n - r) = some (conts s.n s.pool P r) := by
  have hu : up s.data (idx + 1) idx = some P.reverse := hP
  obtain ⟨p, f, h1, h2⟩ := up_succ.mp hu
  obtain ⟨b, b1, b2, b3⟩ := skel_some.mp h1
  have hlast : P.getLast? = some b.val := by
    rw [b3]
    rcases h2 with ⟨-, e⟩ | ⟨q, L', -, -, e⟩
    · have := congrArg List.head? e
      rw [List.head?_reverse] at this
      simpa using this
    · have := congrArg List.head? e
      rw [List.head?_reverse] at this
      simpa using this
  unfold newFactors
  rw [hu, b1]
  simp only [Option.bind_eq_bind, Option.bind_some]
  rw [filterO_some (q := keepB (s.n - r)) (fun f hf => keep_eq (hrange f hf))]
  simp only [Option.bind_some]
  unfold conts
  rw [List.filter_filter]
  congr 1
  apply List.filter_congr
  intro f _
  rw [hlast, Option.all_some, List.all_reverse, gt_eq]
  exact Bool.and_comm _ _

theorem expand_spec (r : Nat) {s : Cplx} (h : AInv s) (hrange : ∀ f ∈ s.pool, InRange s.n f) (hnd : s.pool.Nodup) {idx : Nat} {P : List Factor} (hP : PathAt s.data idx P)
    (hr : P.length + r < s.ranks.length) (hn : r ≤ s.n + 1) (hno : ∀ f, (some idx, f) ∉ skel s.data) :
    ∃ s', expand r idx s = some s' ∧ Post idx s s' (ext s.n s.pool r P) := by
  induction r generalizing s idx P with
  | zero => exact finish_spec h hP (by omega)
  | succ r ih =>
    unfold expand
    have hc : csub s.n r = some (s.n - r) := by unfold csub; rw [if_pos (by omega)]
    rw [hc]
    simp only [Option.bind_eq_bind, Option.bind_some]
    rw [newFactors_spec h hrange hP r]
    simp only [Option.bind_some]
    -- the loop
    have loop : ∀ (fs : List Factor) (t : Cplx) (done : List (List Factor)), Post idx s t done → fs.Nodup → (∀ f ∈ fs, f ∈ conts s.n s.pool P r) →
        (∀ f ∈ fs, (some idx, f) ∉ skel t.data) →
        ∃ s', fs.foldlM (fun s f => (attach idx s f).bind fun s' => expand r s.data.length s') t = some s' ∧
          Post idx s s' (done ++ fs.flatMap (fun f => ext s.n s.pool r (P ++ [f]))) := by
      intro fs
      induction fs with
      | nil => intro t done ht _ _ _; exact ⟨t, rfl, by simpa using ht⟩
      | cons f fs ihf =>
        intro t done ht hnd' hm hno'
        rw [List.nodup_cons] at hnd'
        have hPt : PathAt t.data idx P := hP.congr ht.pre
        have hv := h.valid idx P hP
        obtain ⟨k1, k2, k3⟩ := (mem_conts hv.1).mp (hm f (by simp))
        obtain ⟨t1, a1, a2, a3, a4, a5, a6, a7, a8, a9, a10⟩ := attach_spec ht.inv hPt (by rw [ht.pool]; exact k1) k3 (hno' f (by simp))
        have hlen1 : t1.data.length = t.data.length + 1 := by
          rw [← skel_length, a3, List.length_append, skel_length]; rfl
        have hpost1 : Post idx t t1 [] := by
          refine ⟨a2, a4, a5, a6, by rw [a3]; exact List.prefix_append _ _, ?_, ⟨[], by rw [a7]; simp, .nil⟩, by rw [a9], by rw [a9]; simp, a8⟩
          intro i p f' hi e
          have hil := (List.getElem?_eq_some_iff.mp e).1
          rw [skel_length, hlen1] at hil
          obtain rfl : i = t.data.length := by omega
          rw [a3, List.getElem?_append_right (by rw [skel_length]), skel_length] at e
          simp at e
          exact ⟨idx, e.1.symm, Or.inl rfl⟩
        obtain ⟨t2, b1, b2⟩ := ih (s := t1) (idx := t.data.length) (P := P ++ [f]) a2 (by rw [a5, ht.pool, a4, ht.n]; exact hrange)
          (by rw [a5, ht.pool]; exact hnd) a10 (by rw [a9, ht.rlen]; simp; omega) (by rw [a4, ht.n]; omega) (by
            intro f' hf'
            rw [List.mem_iff_getElem?] at hf'
            obtain ⟨i, hi⟩ := hf'
            have := a2.plt _ _ _ hi
            have := (List.getElem?_eq_some_iff.mp hi).1
            rw [skel_length, hlen1] at this
            omega)
        rw [a4, ht.n, a5, ht.pool] at b2
        have hlent := ht.len
        have hpost := (ht.trans hpost1 (Or.inl rfl)).trans b2 (Or.inr (by omega))
        rw [List.append_nil] at hpost
        have hno2 : ∀ f' ∈ fs, (some idx, f') ∉ skel t2.data := by
          intro f' hf' hmem
          rw [List.mem_iff_getElem?] at hmem
          obtain ⟨i, hi⟩ := hmem
          have hidx := hP.lt
          rcases Nat.lt_or_ge i t1.data.length with hh | hh
          · obtain ⟨tl, htl⟩ := b2.pre
            rw [← htl, List.getElem?_append_left (by rw [skel_length]; exact hh), a3] at hi
            rcases List.mem_append.mp (List.mem_of_getElem? hi) with hi | hi
            · exact hno' f' (by simp [hf']) hi
            · rw [List.mem_singleton] at hi
              injection hi with _ hi
              rw [hi] at hf'
              exact hnd'.1 hf'
          · obtain ⟨q, e1, e2⟩ := b2.new i _ _ hh hi
            injection e1 with e1
            omega
        obtain ⟨s', c1, c2⟩ := ihf t2 _ hpost hnd'.2 (fun x hx => hm x (by simp [hx])) hno2
        refine ⟨s', ?_, by rw [List.flatMap_cons, ← List.append_assoc]; exact c2⟩
        rw [List.foldlM_cons, a1]
        show (expand r t.data.length t1).bind _ = some s'
        rw [b1]
        exact c1
    obtain ⟨s', c1, c2⟩ := loop (conts s.n s.pool P r) s [] (Post.refl h) (hnd.filter _) (fun f hf => hf) (fun f _ => hno f)
    refine ⟨s', c1, ?_⟩
    unfold ext
    simpa using c2

end Toppo.Cub
