import Verif.Props.Text
import Verif.Props.CubeCplx
import Verif.Proof.MatrixView
set_option linter.unusedVariables false

/-
C96: the text of a subdivided graph.
-/
namespace Toppo.Text
open Toppo RawGraph CubeProps GraphProps EdgePath MGraphProps SubdivideProps

/-! ### Specification -/

/-- the parts of a text between the commas that are in no bracket; `k` brackets are open -/
def topFields : Nat → Text → List Text
  | _, [] => [ [] ]
  | k, x :: t =>
    if x = ',' ∧ k = 0 then [] :: topFields k t
    else match topFields (if x = '(' ∨ x = '[' then k + 1 else if x = ')' ∨ x = ']' then k - 1 else k) t with
      | [] => [ [x] ]
      | f :: fs => (x :: f) :: fs

/-- what the text of a vertex says: a vertex of the given graph, or a point inside the edge number `direction` from one vertex to another -/
inductive VText where
  | essential (a : Text)
  | redundant (start stop : Text) (direction : Nat) (pos : ℚ)
deriving DecidableEq

/-- `label` or `(pos)(start, stop)direction` where no direction means the direction 0 -/
def readVertex : Text → Option VText
  | '(' :: t =>
    match fields ')' t with
    | [q, '(' :: ab, d] =>
      match fields ',' ab with
      | [a, ' ' :: b] => do return .redundant a b (← if d = [] then some 0 else readNat d) (← readRat q)
      | _ => none
    | _ => none
  | t => some (.essential t)

/-- `[v, w]` -/
def readEdge : Text → Option (VText × VText)
  | '[' :: t =>
    match topFields 0 t.dropLast with
    | [v, ' ' :: w] => do return (← readVertex v, ← readVertex w)
    | _ => none
  | _ => none

/-- after a title, a blank, then things with a comma and a blank between them -/
def readListing {β : Type} (title : Text) (rd : Text → Option β) (t : Text) : Option (List β) :=
  if t.take title.length = title then (topFields 0 (t.drop title.length)).mapM (fun x => rd (x.drop 1)) else none

/-- the lines `vertices: ..` and `edges: ..` -/
def readGraph (t : Text) : Option (List VText × List (VText × VText)) :=
  match fields '\n' t with
  | [v, e, []] => do return (← readListing "vertices:".toList readVertex v, ← readListing "edges:".toList readEdge e)
  | _ => none

/-- a label that can be told from the rest of the text -/
def Plain (a : Text) : Prop := ∀ c ∈ a, c ∉ ['(', ')', '[', ']', ',', '\n']
instance (a : Text) : Decidable (Plain a) := by unfold Plain; infer_instance

/-- `v` is the point number `l` of the strand number `k` from `a` to `b` (compare `IsPoint`) -/
def PointText (n : Nat) (a b : Text) (k l : Nat) (v : VText) : Prop :=
  (l = 0 ∧ v = .essential a) ∨ (l = innerCount n a b + 1 ∧ v = .essential b) ∨
  (1 ≤ l ∧ l ≤ innerCount n a b ∧ v = .redundant a b k ((l : ℚ) / (if a = b then (n : ℚ) + 1 else (n : ℚ) - 1)))

/-- `u` and `v` are consecutive points of one strand -/
def ConsecutiveText (edges : List (Text × Text)) (n : Nat) (u v : VText) : Prop :=
  ∃ a b k l, IsStrand edges a b k ∧ l ≤ innerCount n a b ∧ PointText n a b k l u ∧ PointText n a b k (l + 1) v

/-! ### proofs -/

/-- the text in front of the first part -/
def prep (a : Text) : List Text → List Text
  | [] => [a]
  | f :: fs => (a ++ f) :: fs

theorem topFields_ne (k : Nat) (t : Text) : topFields k t ≠ [] := by
  cases t with
  | nil => simp [topFields]
  | cons x t => rw [topFields]; split_ifs <;> simp; all_goals split <;> simp

theorem topFields_cons {k : Nat} {x : Char} {t : Text} (h : ¬ (x = ',' ∧ k = 0)) :
    topFields k (x :: t) = prep [x] (topFields (if x = '(' ∨ x = '[' then k + 1 else if x = ')' ∨ x = ']' then k - 1 else k) t) := by
  rw [topFields, if_neg h]
  rcases topFields (if x = '(' ∨ x = '[' then k + 1 else if x = ')' ∨ x = ']' then k - 1 else k) t with _ | ⟨f, fs⟩ <;> rfl

theorem prep_prep (a b : Text) (l : List Text) (h : l ≠ []) : prep a (prep b l) = prep (a ++ b) l := by
  cases l with
  | nil => exact absurd rfl h
  | cons f fs => simp [prep]

def Closed (a : Text) : Prop := ∀ k t, topFields k (a ++ t) = prep a (topFields k t)
def Inner (a : Text) : Prop := ∀ k t, topFields (k + 1) (a ++ t) = prep a (topFields (k + 1) t)

theorem Closed.inner {a : Text} (h : Closed a) : Inner a := fun k t => h (k + 1) t

theorem closed_nil : Closed [] := fun k t => by
  rcases h : topFields k t with _ | ⟨f, fs⟩
  · exact absurd h (topFields_ne k t)
  · simp [h, prep]

theorem Closed.append {a b : Text} (ha : Closed a) (hb : Closed b) : Closed (a ++ b) := fun k t => by
  rw [List.append_assoc, ha, hb, prep_prep _ _ _ (topFields_ne k t)]

theorem Inner.append {a b : Text} (ha : Inner a) (hb : Inner b) : Inner (a ++ b) := fun k t => by
  rw [List.append_assoc, ha, hb, prep_prep _ _ _ (topFields_ne _ t)]

theorem closed_char {x : Char} (h : x ∉ ['(', ')', '[', ']', ',']) : Closed [x] := fun k t => by
  simp only [List.mem_cons, List.not_mem_nil, or_false, not_or] at h
  rw [List.singleton_append, topFields_cons (by tauto), if_neg (by tauto), if_neg (by tauto)]

theorem closed_plain : ∀ {a : Text}, (∀ x ∈ a, x ∉ ['(', ')', '[', ']', ',']) → Closed a
  | [], _ => closed_nil
  | x :: a, h => by
    have := (closed_char (h x (by simp))).append (closed_plain (a := a) (fun y hy => h y (List.mem_cons_of_mem _ hy)))
    exact this

theorem inner_comma : Inner [','] := fun k t => by
  rw [List.singleton_append, topFields_cons (by omega), if_neg (by decide), if_neg (by decide)]

theorem Inner.bracket {a : Text} (h : Inner a) {l r : Char} (hl : l = '(' ∨ l = '[') (hr : r = ')' ∨ r = ']') : Closed (l :: a ++ [r]) := fun k t => by
  have h1 : l ≠ ',' := by rcases hl with rfl | rfl <;> decide
  have h2 : r ≠ ',' := by rcases hr with rfl | rfl <;> decide
  have h3 : ¬ (r = '(' ∨ r = '[') := by rcases hr with rfl | rfl <;> decide
  rw [List.cons_append, List.cons_append, List.append_assoc, topFields_cons (by tauto), if_pos hl, h, List.singleton_append, topFields_cons (by tauto), if_neg h3, if_pos hr, Nat.add_sub_cancel,
    prep_prep _ _ _ (topFields_ne _ _), prep_prep _ _ _ (topFields_ne _ _)]
  simp

theorem Plain.closed {a : Text} (h : Plain a) : Closed a := closed_plain (fun x hx hm => h x hx (by
  simp only [List.mem_cons, List.not_mem_nil, or_false] at hm ⊢; tauto))

theorem Plain.not_mem {a : Text} (h : Plain a) {c : Char} (hc : c ∈ ['(', ')', '[', ']', ',', '\n']) : c ∉ a := fun hm => h c hm hc

theorem rational_char {q : Rational} {c : Char} (h1 : c.isDigit = false) (h2 : c ≠ '-') (h3 : c ≠ '/') : c ∉ rational q := by
  unfold rational
  split_ifs <;> simp [not_mem_dec h1, h2, h3]

theorem dec_closed (n : Nat) : Closed (dec n) := closed_plain (fun x hx hm => by
  have := dec_digit hx
  simp only [List.mem_cons, List.not_mem_nil, or_false] at hm
  rcases hm with rfl | rfl | rfl | rfl | rfl <;> exact absurd this (by decide))

theorem rational_closed (q : Rational) : Closed (rational q) := closed_plain (fun x hx hm => by
  simp only [List.mem_cons, List.not_mem_nil, or_false] at hm
  rcases hm with rfl | rfl | rfl | rfl | rfl <;> exact rational_char (by decide) (by decide) (by decide) hx)

/-- the labels of a vertex -/
def labelsOf : SVertex Text → List Text
  | .essential a => [a]
  | .redundant a b _ _ => [a, b]

/-- a vertex as it is read -/
def view : SVertex Text → VText
  | .essential a => .essential a
  | .redundant a b d q => .redundant a b d (RationalProps.val q)

theorem vertex_closed {v : SVertex Text} (h : ∀ a ∈ labelsOf v, Plain a) : Closed (simpleVertex v) := by
  cases v with
  | essential a => exact (h a (by simp [labelsOf])).closed
  | redundant a b d q =>
    have ha := (h a (by simp [labelsOf])).closed
    have hb := (h b (by simp [labelsOf])).closed
    have h1 := (rational_closed q).inner.bracket (l := '(') (r := ')') (Or.inl rfl) (Or.inl rfl)
    have h2 := ((ha.inner.append (inner_comma.append (closed_char (x := ' ') (by decide)).inner)).append hb.inner).bracket (l := '(') (r := ')') (Or.inl rfl) (Or.inl rfl)
    have h3 : Closed (if d ≠ 0 then dec d else []) := by
      split_ifs
      · exact dec_closed d
      · exact closed_nil
    have := (h1.append h2).append h3
    simpa [simpleVertex] using this

theorem vertex_nl {v : SVertex Text} (h : ∀ a ∈ labelsOf v, Plain a) : '\n' ∉ simpleVertex v := by
  cases v with
  | essential a => exact (h a (by simp [labelsOf])).not_mem (by decide)
  | redundant a b d q =>
    have ha := (h a (by simp [labelsOf])).not_mem (c := '\n') (by decide)
    have hb := (h b (by simp [labelsOf])).not_mem (c := '\n') (by decide)
    have hq : '\n' ∉ rational q := rational_char (by decide) (by decide) (by decide)
    have hd : '\n' ∉ dec d := not_mem_dec (by decide)
    simp only [simpleVertex]
    split_ifs <;> simp [ha, hb, hq, hd]

/-- **C96**: the text of a vertex tells the vertex. -/
theorem c96_vertex {v : SVertex Text} (h : ∀ a ∈ labelsOf v, Plain a) : readVertex (simpleVertex v) = some (view v) := by
  cases v with
  | essential a =>
    have ha := (h a (by simp [labelsOf])).not_mem (c := '(') (by decide)
    show readVertex a = some (.essential a)
    unfold readVertex
    split
    · simp at ha
    · rfl
  | redundant a b d q =>
    have ha := (h a (by simp [labelsOf]))
    have hb := (h b (by simp [labelsOf]))
    have e : simpleVertex (.redundant a b d q) = '(' :: (rational q ++ ')' :: (('(' :: (a ++ ',' :: ' ' :: b)) ++ ')' :: (if d ≠ 0 then dec d else []))) := by simp [simpleVertex]
    rw [e]
    unfold readVertex
    simp only
    rw [fields_cut (rational_char (by decide) (by decide) (by decide)), fields_cut (by
      simp only [List.mem_cons, List.mem_append, not_or]
      exact ⟨by decide, ha.not_mem (by decide), by decide, by decide, hb.not_mem (by decide)⟩), fields_none (by
      split_ifs
      · exact not_mem_dec (by decide)
      · simp)]
    simp only
    rw [fields_cut (ha.not_mem (by decide)), fields_none (by
      simp only [List.mem_cons, not_or]
      exact ⟨by decide, hb.not_mem (by decide)⟩)]
    simp only [c90_reads]
    by_cases hd : d = 0
    · simp [hd, view]
    · simp [hd, dec_ne_nil, readNat_dec, view]

def edgeText (e : SVertex Text × SVertex Text) : Text := ['['] ++ simpleVertex e.1 ++ [',', ' '] ++ simpleVertex e.2 ++ [']']

theorem topFields_closed {a t : Text} (h : Closed a) : topFields 0 (a ++ ',' :: t) = a :: topFields 0 t := by
  rw [h, topFields, if_pos ⟨rfl, rfl⟩]; simp [prep]

theorem topFields_last {a : Text} (h : Closed a) : topFields 0 a = [a] := by
  have := h 0 []
  rw [List.append_nil] at this
  rw [this]; simp [topFields, prep]

theorem readEdge_text {u v : SVertex Text} (hu : ∀ a ∈ labelsOf u, Plain a) (hv : ∀ a ∈ labelsOf v, Plain a) : readEdge (edgeText (u, v)) = some (view u, view v) := by
  have e : edgeText (u, v) = '[' :: ((simpleVertex u ++ ',' :: ([' '] ++ simpleVertex v)) ++ [']']) := by simp [edgeText]
  rw [e]
  unfold readEdge
  simp only [List.dropLast_concat]
  rw [topFields_closed (vertex_closed hu), topFields_last ((closed_char (x := ' ') (by decide)).append (vertex_closed hv))]
  simp only [List.singleton_append]
  rw [c96_vertex hu, c96_vertex hv]; rfl

theorem edge_closed {u v : SVertex Text} (hu : ∀ a ∈ labelsOf u, Plain a) (hv : ∀ a ∈ labelsOf v, Plain a) : Closed (edgeText (u, v)) := by
  have := (((vertex_closed hu).inner.append (inner_comma.append (closed_char (x := ' ') (by decide)).inner)).append (vertex_closed hv).inner).bracket (l := '[') (r := ']')
    (Or.inr rfl) (Or.inr rfl)
  simpa [edgeText] using this

theorem topFields_join : ∀ {l : List Text}, l ≠ [] → (∀ x ∈ l, Closed x) → topFields 0 (' ' :: joinT [',', ' '] l) = l.map (' ' :: ·)
  | [], h, _ => absurd rfl h
  | [x], _, h => by
    have := topFields_last ((closed_char (x := ' ') (by decide)).append (h x (by simp)))
    simpa [joinT] using this
  | x :: y :: l, _, h => by
    have e : ' ' :: joinT [',', ' '] (x :: y :: l) = ([' '] ++ x) ++ ',' :: (' ' :: joinT [',', ' '] (y :: l)) := by simp [joinT]
    rw [e, topFields_closed ((closed_char (x := ' ') (by decide)).append (h x (by simp))), topFields_join (by simp) (fun z hz => h z (List.mem_cons_of_mem _ hz))]
    rfl

theorem readListing_join {α β : Type} {title : Text} {rd : Text → Option β} {f : α → Text} {w : α → β} {l : List α} (hl : l ≠ [])
    (h : ∀ x ∈ l, Closed (f x) ∧ rd (f x) = some (w x)) : readListing title rd (title ++ ' ' :: joinT [',', ' '] (l.map f)) = some (l.map w) := by
  unfold readListing
  rw [if_pos (by simp), List.drop_left, topFields_join (by simpa using hl) (by
    intro x hx
    obtain ⟨y, hy, rfl⟩ := List.mem_map.mp hx
    exact (h y hy).1)]
  clear hl
  induction l with
  | nil => rfl
  | cons x l ih =>
    rw [List.map_cons, List.map_cons, List.mapM_cons, ih (fun y hy => h y (List.mem_cons_of_mem _ hy))]
    simp [(h x (by simp)).2]

/-- a comma after all but the last -/
theorem commas_eq {α : Type} (f : α → Text) (top : Nat) : ∀ (l : List α) (i : Nat), i + l.length = top + 1 →
    ((l.zipIdx i).map (fun xi => f xi.1 ++ (if xi.2 ≠ top then [',', ' '] else []))).flatten = joinT [',', ' '] (l.map f)
  | [], _, _ => rfl
  | [x], i, h => by
    have : i = top := by simp at h; omega
    simp [joinT, this]
  | x :: y :: l, i, h => by
    have : i ≠ top := by simp at h; omega
    have ih := commas_eq f top (y :: l) (i + 1) (by simp at h ⊢; omega)
    rw [List.zipIdx_cons, List.map_cons, List.flatten_cons, ih]
    simp [joinT, this]

/-- the edges of a graph as pairs -/
theorem edge_pairs {g : RawGraph} (h : Built g) (h01 : 2 ≤ g.n → Edge g 0 1) :
    ∃ l : List (Nat × Nat), g.edgeIter = some (l.map (fun e => Factor.edge e.1 e.2)) ∧ l.Nodup ∧ (∀ x y, (x, y) ∈ l ↔ x < y ∧ Edge g x y) ∧ g.nEdges = l.length := by
  obtain ⟨l, h1, h2, h3, h4⟩ := c53_edge_iter_partial h h01
  have hl : ∀ l : List Factor, (∀ v, Factor.vertex v ∉ l) → ∃ p : List (Nat × Nat), l = p.map (fun e => Factor.edge e.1 e.2) := by
    intro l
    induction l with
    | nil => intro _; exact ⟨[], rfl⟩
    | cons f l ih =>
      intro h
      obtain ⟨p, hp⟩ := ih (fun v hv => h v (List.mem_cons_of_mem _ hv))
      cases f with
      | vertex v => exact absurd (by simp) (h v)
      | edge x y => exact ⟨(x, y) :: p, by simp [hp]⟩
  obtain ⟨p, rfl⟩ := hl l h4
  have hp : ∀ x y, (x, y) ∈ p ↔ x < y ∧ Edge g x y := by
    intro x y
    rw [← h3, List.mem_map]
    constructor
    · intro hm; exact ⟨_, hm, rfl⟩
    · rintro ⟨⟨a, b⟩, hm, e⟩
      injection e with e1 e2
      simp only at e1 e2
      rw [← e1, ← e2]; exact hm
  have hn : p.Nodup := List.Nodup.of_map _ h2
  refine ⟨p, h1, hn, hp, ?_⟩
  rw [card_edges h.wf, ← List.toFinset_card_of_nodup hn]
  congr 1
  ext ⟨x, y⟩
  simp only [Finset.mem_filter, Finset.mem_product, Finset.mem_range, List.mem_toFinset, hp]
  constructor
  · rintro ⟨-, hE⟩
    exact ⟨hE.1, (edge_iff h x y).mpr (Or.inl hE)⟩
  · rintro ⟨hlt, hE⟩
    have : E g x y := (adj_of_lt hlt).mp ((edge_iff h x y).mp hE)
    exact ⟨⟨by have := this.2.1; omega, this.2.1⟩, this⟩

theorem mapM_some_of {α β : Type} {f : α → Option β} {w : α → β} : ∀ {l : List α}, (∀ x ∈ l, f x = some (w x)) → l.mapM f = some (l.map w)
  | [], _ => rfl
  | x :: l, h => by rw [List.mapM_cons, h x (by simp), mapM_some_of (fun y hy => h y (List.mem_cons_of_mem _ hy))]; rfl

theorem zipIdx_mem_left {α : Type} {l : List α} {i : Nat} {x : α × Nat} (h : x ∈ l.zipIdx i) : x.1 ∈ l := by
  have := List.mem_map_of_mem (f := Prod.fst) h
  rwa [List.zipIdx_map_fst] at this

/-- **C96** for any graph whose labels are plain: its vertices and its edges can be read off its text. -/
theorem c96_text (g : SGraph Text) (hb : Built g.data) (h01 : Edge g.data 0 1) (hn : g.data.n = g.verts.length) (h2 : 2 ≤ g.data.n)
    (hl : ∀ v ∈ g.verts, ∀ a ∈ labelsOf v, Plain a) :
    ∃ t, simpleGraph g = some t ∧ ∃ es, readGraph t = some (g.verts.map view, es) ∧
      ∃ l : List (Nat × Nat), l.Nodup ∧ (∀ x y, (x, y) ∈ l ↔ x < y ∧ Edge g.data x y) ∧
        es.map some = l.map (fun e => do return (← (g.verts.map view)[e.1]?, ← (g.verts.map view)[e.2]?)) := by
  obtain ⟨l, l1, l2, l3, l4⟩ := edge_pairs hb (fun _ => h01)
  have hlt : ∀ e ∈ l, e.1 < g.verts.length ∧ e.2 < g.verts.length := by
    rintro ⟨x, y⟩ he
    obtain ⟨h1, h2⟩ := (l3 x y).mp he
    have : E g.data x y := (adj_of_lt h1).mp ((edge_iff hb x y).mp h2)
    have := this.2.1
    simp only; omega
  have hpos : l ≠ [] := by
    rintro rfl
    exact absurd ((l3 0 1).mpr ⟨by omega, h01⟩) (by simp)
  let d : SVertex Text := .essential []
  let pr : Nat × Nat → SVertex Text × SVertex Text := fun e => (g.verts.getD e.1 d, g.verts.getD e.2 d)
  have hpr : ∀ e ∈ l, (∀ a ∈ labelsOf (pr e).1, Plain a) ∧ (∀ a ∈ labelsOf (pr e).2, Plain a) := by
    intro e he
    obtain ⟨h1, h2⟩ := hlt e he
    constructor
    · apply hl
      show g.verts.getD e.1 d ∈ g.verts
      rw [List.getD_eq_getElem _ _ h1]; exact List.getElem_mem h1
    · apply hl
      show g.verts.getD e.2 d ∈ g.verts
      rw [List.getD_eq_getElem _ _ h2]; exact List.getElem_mem h2
  have hc : csub g.data.nEdges 1 = some (l.length - 1) := by
    have := List.length_pos_of_ne_nil hpos
    unfold csub
    rw [l4, if_pos (by omega)]
  have hparts : ((l.map (fun e => Factor.edge e.1 e.2)).zipIdx.mapM (fun ei => do
      let vw ← ei.1.edgeOf
      let v ← g.verts[vw.1]?
      let w ← g.verts[vw.2]?
      let top ← csub g.data.nEdges 1
      return ['['] ++ simpleVertex v ++ [',', ' '] ++ simpleVertex w ++ [']'] ++ (if ei.2 ≠ top then [',', ' '] else []))) =
      some (l.zipIdx.map (fun xi => edgeText (pr xi.1) ++ (if xi.2 ≠ l.length - 1 then [',', ' '] else []))) := by
    rw [List.zipIdx_map, List.mapM_map]
    apply mapM_some_of
    rintro ⟨e, i⟩ he
    obtain ⟨h1, h2⟩ := hlt e (zipIdx_mem_left he)
    have e1 : (Factor.edge e.1 e.2).edgeOf = some (e.1, e.2) := rfl
    simp only [Function.comp_apply, Prod.map, id, e1, hc, Option.bind_eq_bind, Option.bind_some, List.getElem?_eq_getElem h1, List.getElem?_eq_getElem h2,
      edgeText, pr, List.getD_eq_getElem _ _ h1, List.getD_eq_getElem _ _ h2]
    rfl
  refine ⟨_, by unfold simpleGraph; rw [l1, Option.bind_eq_bind, Option.bind_some, hparts]; rfl, ?_⟩
  rw [commas_eq (fun e => edgeText (pr e)) (l.length - 1) l 0 (by have := List.length_pos_of_ne_nil hpos; omega)]
  refine ⟨l.map (fun e => (view (pr e).1, view (pr e).2)), ?_, l, l2, l3, ?_⟩
  · have n1 : '\n' ∉ ['v', 'e', 'r', 't', 'i', 'c', 'e', 's', ':', ' '] ++ joinT [',', ' '] (g.verts.map simpleVertex) := by
      simp only [List.mem_append, not_or]
      exact ⟨by decide, not_mem_joinT (by decide) (fun x hx => by
        obtain ⟨v, hv, rfl⟩ := List.mem_map.mp hx
        exact vertex_nl (hl v hv))⟩
    have n2 : '\n' ∉ ['e', 'd', 'g', 'e', 's', ':', ' '] ++ joinT [',', ' '] (l.map (fun e => edgeText (pr e))) := by
      simp only [List.mem_append, not_or]
      refine ⟨by decide, not_mem_joinT (by decide) (fun x hx => ?_)⟩
      obtain ⟨e, he, rfl⟩ := List.mem_map.mp hx
      have h1 := vertex_nl (hpr e he).1
      have h2 := vertex_nl (hpr e he).2
      simp [edgeText, h1, h2]
    have e : ['v', 'e', 'r', 't', 'i', 'c', 'e', 's', ':', ' '] ++ joinT [',', ' '] (g.verts.map simpleVertex) ++ ['\n'] ++
        ['e', 'd', 'g', 'e', 's', ':', ' '] ++ joinT [',', ' '] (l.map (fun e => edgeText (pr e))) ++ ['\n'] =
        (['v', 'e', 'r', 't', 'i', 'c', 'e', 's', ':', ' '] ++ joinT [',', ' '] (g.verts.map simpleVertex)) ++ '\n' ::
          ((['e', 'd', 'g', 'e', 's', ':', ' '] ++ joinT [',', ' '] (l.map (fun e => edgeText (pr e)))) ++ '\n' :: []) := by simp
    unfold readGraph
    rw [e, fields_cut n1, fields_cut n2, fields_none (by simp)]
    simp only
    have r1 : readListing "vertices:".toList readVertex (['v', 'e', 'r', 't', 'i', 'c', 'e', 's', ':', ' '] ++ joinT [',', ' '] (g.verts.map simpleVertex)) = some (g.verts.map view) :=
      readListing_join (title := "vertices:".toList) (by rintro hv; rw [hv] at hn; simp at hn; omega) (fun v hv => ⟨vertex_closed (hl v hv), c96_vertex (hl v hv)⟩)
    have r2 : readListing "edges:".toList readEdge (['e', 'd', 'g', 'e', 's', ':', ' '] ++ joinT [',', ' '] (l.map (fun e => edgeText (pr e)))) =
        some (l.map (fun e => (view (pr e).1, view (pr e).2))) :=
      readListing_join (title := "edges:".toList) hpos (fun e he => ⟨edge_closed (hpr e he).1 (hpr e he).2, readEdge_text (hpr e he).1 (hpr e he).2⟩)
    rw [r1, r2]; rfl
  · rw [List.map_map]
    apply List.map_congr_left
    intro e he
    obtain ⟨h1, h2⟩ := hlt e he
    simp [pr, h1, h2]

/-! ### subdivided graphs -/

theorem view_inj {u v : SVertex Text} (hu : ∀ a b k q, u = .redundant a b k q → RationalProps.Canonical q) (hv : ∀ a b k q, v = .redundant a b k q → RationalProps.Canonical q)
    (h : view u = view v) : u = v := by
  cases u with
  | essential a =>
    cases v with
    | essential b => injection h with h; rw [h]
    | redundant => cases h
  | redundant a b d q =>
    cases v with
    | essential b => cases h
    | redundant a' b' d' q' =>
      injection h with h1 h2 h3 h4
      rw [h1, h2, h3, RationalProps.canonical_ext (hu _ _ _ _ rfl) (hv _ _ _ _ rfl) h4]

theorem exists_canonical {x : ℚ} (hx : 0 ≤ x) : ∃ q : Rational, RationalProps.Canonical q ∧ RationalProps.val q = x := by
  refine ⟨⟨x.num.natAbs, x.den, true⟩, ⟨⟨x.den_pos, x.reduced⟩, fun _ => rfl⟩, ?_⟩
  have h1 : ((x.num.natAbs : Nat) : ℚ) = (x.num : ℚ) := by
    have : ((x.num.natAbs : Nat) : ℤ) = x.num := Int.natAbs_of_nonneg (Rat.num_nonneg.mpr hx)
    calc ((x.num.natAbs : Nat) : ℚ) = (((x.num.natAbs : Nat) : ℤ) : ℚ) := by rw [Int.cast_natCast]
      _ = _ := by rw [this]
  simp only [RationalProps.val, if_true, one_mul]
  rw [h1]
  exact Rat.num_div_den x

/-- the points of a strand and their texts -/
theorem point_view {n : Nat} {a b : Text} {k l : Nat} {v : SVertex Text} (h : IsPoint n a b k l v) : PointText n a b k l (view v) := by
  rcases h with ⟨h1, rfl⟩ | ⟨h1, rfl⟩ | ⟨h1, h2, q, rfl, h3, h4⟩
  · exact Or.inl ⟨h1, rfl⟩
  · exact Or.inr (Or.inl ⟨h1, rfl⟩)
  · refine Or.inr (Or.inr ⟨h1, h2, ?_⟩)
    rw [view, h4]

theorem point_of_view {n : Nat} (hn : 2 ≤ n) {a b : Text} {k l : Nat} {v : VText} (h : PointText n a b k l v) : ∃ u, IsPoint n a b k l u ∧ view u = v := by
  rcases h with ⟨h1, rfl⟩ | ⟨h1, rfl⟩ | ⟨h1, h2, rfl⟩
  · exact ⟨.essential a, Or.inl ⟨h1, rfl⟩, rfl⟩
  · exact ⟨.essential b, Or.inr (Or.inl ⟨h1, rfl⟩), rfl⟩
  · obtain ⟨q, q1, q2⟩ := exists_canonical (x := (l : ℚ) / (if a = b then (n : ℚ) + 1 else (n : ℚ) - 1)) (by
      apply div_nonneg (by positivity)
      split_ifs
      · positivity
      · have : (2 : ℚ) ≤ n := by exact_mod_cast hn
        linarith)
    exact ⟨.redundant a b k q, Or.inr (Or.inr ⟨h1, h2, q, rfl, q1, q2⟩), by rw [view, q2]⟩

/-- **C96**: the text of the graph made by subdividing the edges of a connected graph tells all its vertices, each once, and all pairs of
neighbouring vertices, each once. -/
theorem c96_subdivided (edges : List (Text × Text)) (hc : ConnectedInput edges) (hlab : ∀ e ∈ edges, Plain e.1 ∧ Plain e.2) (m : MGraph Text)
    (hm : MGraph.ofEdges edges = some m) (points : Nat) (hp : points + 1 < 2 ^ 63) (g : SGraph Text) (hg : SGraph.subdivide m points = some g) :
    ∃ t vs es, simpleGraph g = some t ∧ readGraph t = some (vs, es) ∧ vs.Nodup ∧ es.Nodup ∧
      (∀ v, v ∈ vs ↔ ∃ a b k l, IsStrand edges a b k ∧ l ≤ innerCount (max points 2) a b + 1 ∧ PointText (max points 2) a b k l v) ∧
      (∀ u v, (u, v) ∈ es ∨ (v, u) ∈ es ↔ ConsecutiveText edges (max points 2) u v ∨ ConsecutiveText edges (max points 2) v u) ∧
      ∀ u v, (u, v) ∈ es → (v, u) ∉ es := by
  obtain ⟨k1, k2, -, -, k5, k6, k7, k8, k9, k10⟩ := c57_subdivision edges hc m hm points hp g hg
  have hT := (subdivide_tree edges hc m hm points hp g hg).1
  have hn := subdivided_size edges hc m hm points hp g hg
  have hN : 2 ≤ max points 2 := le_max_right _ _
  have hE : ∀ a b k, IsStrand edges a b k → Plain a ∧ Plain b := by
    intro a b k h
    have h2 := h.2
    have h3 : 0 < joining edges a b := by omega
    unfold joining at h3
    obtain ⟨e, he, h4⟩ := List.countP_pos_iff.mp h3
    have := hlab e he
    simp only [decide_eq_true_eq] at h4
    rcases h4 with h4 | h4
    · rw [h4.1, h4.2] at this; exact this
    · rw [h4.1, h4.2] at this; exact ⟨this.2, this.1⟩
  have hpt : ∀ v ∈ g.verts, ∃ a b k l, IsStrand edges a b k ∧ l ≤ innerCount (max points 2) a b + 1 ∧ IsPoint (max points 2) a b k l v := fun v hv => (k5 v).mp hv
  have hl : ∀ v ∈ g.verts, ∀ a ∈ labelsOf v, Plain a := by
    intro v hv c hcv
    obtain ⟨a, b, k, l, h1, h2, h3⟩ := hpt v hv
    obtain ⟨p1, p2⟩ := hE a b k h1
    rcases h3 with ⟨-, rfl⟩ | ⟨-, rfl⟩ | ⟨-, -, q, rfl, -⟩
    · simp only [labelsOf, List.mem_singleton] at hcv; rwa [hcv]
    · simp only [labelsOf, List.mem_singleton] at hcv; rwa [hcv]
    · simp only [labelsOf, List.mem_cons, List.not_mem_nil, or_false] at hcv
      rcases hcv with rfl | rfl
      · exact p1
      · exact p2
  have hcan : ∀ v ∈ g.verts, ∀ a b k q, v = .redundant a b k q → RationalProps.Canonical q := by
    intro v hv a b k q e
    obtain ⟨a', b', k', l, h1, h2, h3⟩ := hpt v hv
    subst e
    rcases h3 with ⟨-, h⟩ | ⟨-, h⟩ | ⟨-, -, q', h, hq, -⟩
    · cases h
    · cases h
    · injection h with _ _ _ h; rw [h]; exact hq
  have hinj : ∀ u ∈ g.verts, ∀ v ∈ g.verts, view u = view v → u = v := fun u hu v hv h => view_inj (hcan u hu) (hcan v hv) h
  have hvn : (g.verts.map view).Nodup := (List.nodup_map_iff_inj_on k1).mpr hinj
  obtain ⟨t, t1, es, t2, l, l1, l2, l3⟩ := c96_text g k7 (edge01 hT (by omega)) k2 (by omega) hl
  have hes : ∀ u v, (u, v) ∈ es ↔ ∃ x y, x < y ∧ Edge g.data x y ∧ (g.verts.map view)[x]? = some u ∧ (g.verts.map view)[y]? = some v := by
    intro u v
    have h1 : (u, v) ∈ es ↔ some (u, v) ∈ es.map some := by simp
    rw [h1, l3, List.mem_map]
    constructor
    · rintro ⟨⟨x, y⟩, hxy, e⟩
      obtain ⟨h2, h3⟩ := (l2 x y).mp hxy
      refine ⟨x, y, h2, h3, ?_⟩
      simp only [Option.bind_eq_bind, Option.bind_eq_some_iff] at e
      obtain ⟨u', hu, v', hv, e⟩ := e
      injection e with e
      injection e with e1 e2
      subst e1; subst e2
      exact ⟨hu, hv⟩
    · rintro ⟨x, y, h2, h3, h4, h5⟩
      exact ⟨(x, y), (l2 x y).mpr ⟨h2, h3⟩, by simp only [h4, h5]; rfl⟩
  have huniq : ∀ {x x' : Nat} {u : VText}, (g.verts.map view)[x]? = some u → (g.verts.map view)[x']? = some u → x = x' := fun h h' => Subdiv.getElem?_inj_of_nodup hvn h h'
  refine ⟨t, g.verts.map view, es, t1, t2, hvn, ?_, ?_, ?_, ?_⟩
  · apply List.Nodup.of_map some
    rw [l3]
    apply (List.nodup_map_iff_inj_on l1).mpr
    rintro ⟨x, y⟩ h ⟨x', y'⟩ h' e
    obtain ⟨⟨u, v⟩, hu⟩ : ∃ p, (do return (← (g.verts.map view)[x]?, ← (g.verts.map view)[y]?) : Option (VText × VText)) = some p := by
      have := (l3 ▸ List.mem_map_of_mem (f := fun e : Nat × Nat => (do return (← (g.verts.map view)[e.1]?, ← (g.verts.map view)[e.2]?) : Option (VText × VText))) h :
        (do return (← (g.verts.map view)[x]?, ← (g.verts.map view)[y]?) : Option (VText × VText)) ∈ es.map some)
      obtain ⟨p, -, hp⟩ := List.mem_map.mp this
      exact ⟨p, hp.symm⟩
    have hu' := hu
    rw [show (do return (← (g.verts.map view)[x]?, ← (g.verts.map view)[y]?) : Option (VText × VText)) = (do return (← (g.verts.map view)[x']?, ← (g.verts.map view)[y']?)) from e] at hu'
    simp only [Option.bind_eq_bind, Option.bind_eq_some_iff] at hu hu'
    obtain ⟨a, ha, b, hb, e1⟩ := hu
    obtain ⟨a', ha', b', hb', e2⟩ := hu'
    injection e1 with e1; injection e1 with e1 e1'
    injection e2 with e2; injection e2 with e2 e2'
    subst e1; subst e1'; subst e2; subst e2'
    rw [huniq ha ha', huniq hb hb']
  · intro v
    rw [List.mem_map]
    constructor
    · rintro ⟨u, hu, rfl⟩
      obtain ⟨a, b, k, l, h1, h2, h3⟩ := hpt u hu
      exact ⟨a, b, k, l, h1, h2, point_view h3⟩
    · rintro ⟨a, b, k, l, h1, h2, h3⟩
      obtain ⟨u, hu, rfl⟩ := point_of_view hN h3
      exact ⟨u, (k5 u).mpr ⟨a, b, k, l, h1, h2, hu⟩, rfl⟩
  · have hsymm : ∀ x y, Edge g.data x y → Edge g.data y x := by
      intro x y h; unfold Edge at h ⊢; rwa [min_comm, max_comm]
    have hcons : ∀ u v, ConsecutiveText edges (max points 2) u v → ∃ x y, Edge g.data x y ∧ (g.verts.map view)[x]? = some u ∧ (g.verts.map view)[y]? = some v := by
      rintro u v ⟨a, b, k, l, h1, h2, h3, h4⟩
      obtain ⟨u', hu, rfl⟩ := point_of_view hN h3
      obtain ⟨v', hv, rfl⟩ := point_of_view hN h4
      have mu : u' ∈ g.verts := (k5 u').mpr ⟨a, b, k, l, h1, by omega, hu⟩
      have mv : v' ∈ g.verts := (k5 v').mpr ⟨a, b, k, l + 1, h1, by omega, hv⟩
      obtain ⟨x, hx⟩ := List.getElem?_of_mem mu
      obtain ⟨y, hy⟩ := List.getElem?_of_mem mv
      exact ⟨x, y, (k6 x y).mpr ⟨u', v', hx, hy, Or.inl ⟨a, b, k, l, h1, h2, hu, hv⟩⟩, by simp [hx], by simp [hy]⟩
    have hne : ∀ x y, Edge g.data x y → x ≠ y := by
      rintro x y h rfl
      rcases (edge_iff k7 x x).mp h with h | h <;> exact absurd h.1 (lt_irrefl _)
    intro u v
    constructor
    · have one : ∀ u v, (u, v) ∈ es → ConsecutiveText edges (max points 2) u v ∨ ConsecutiveText edges (max points 2) v u := by
        intro u v h
        obtain ⟨x, y, h1, h2, h3, h4⟩ := (hes u v).mp h
        obtain ⟨u', v', hu, hv, hh⟩ := (k6 x y).mp h2
        rw [List.getElem?_map, hu] at h3
        rw [List.getElem?_map, hv] at h4
        obtain rfl := Option.some.inj h3
        obtain rfl := Option.some.inj h4
        rcases hh with ⟨a, b, k, l, h1, h2, hu, hv⟩ | ⟨a, b, k, l, h1, h2, hu, hv⟩
        · exact Or.inl ⟨a, b, k, l, h1, h2, point_view hu, point_view hv⟩
        · exact Or.inr ⟨a, b, k, l, h1, h2, point_view hu, point_view hv⟩
      rintro (h | h)
      · exact one u v h
      · exact (one v u h).symm
    · have one : ∀ u v, ConsecutiveText edges (max points 2) u v → (u, v) ∈ es ∨ (v, u) ∈ es := by
        intro u v h
        obtain ⟨x, y, h1, h2, h3⟩ := hcons u v h
        rcases Nat.lt_or_gt_of_ne (hne x y h1) with hxy | hxy
        · exact Or.inl ((hes u v).mpr ⟨x, y, hxy, h1, h2, h3⟩)
        · exact Or.inr ((hes v u).mpr ⟨y, x, hxy, hsymm _ _ h1, h3, h2⟩)
      rintro (h | h)
      · exact one u v h
      · exact (one v u h).symm
  · intro u v h h'
    obtain ⟨x, y, h1, -, h3, h4⟩ := (hes u v).mp h
    obtain ⟨x', y', h1', -, h3', h4'⟩ := (hes v u).mp h'
    have := huniq h3 h4'
    have := huniq h4 h3'
    omega

/-- **C96**, outside the domain: a label with brackets can be taken for a point of an edge. -/
theorem c96_other_labels : ∃ u v : SVertex Text, u ≠ v ∧ simpleVertex u = simpleVertex v :=
  ⟨.essential "(1/2)(a, b)".toList, .redundant ['a'] ['b'] 0 ⟨1, 2, true⟩, by decide +kernel, by decide +kernel⟩

/-- Example: the text of an edge with a loop at its end, subdivided for two points, and what is read in it.  (`ConnectedInput` for such a graph is the
example in Props/Subdivide.lean.) -/
example : readGraph "vertices: a, (1)(a, b), b, (1/3)(b, b), (2/3)(b, b)\nedges: [a, (1)(a, b)], [b, (1/3)(b, b)2]\n".toList =
    some ([.essential ['a'], .redundant ['a'] ['b'] 0 1, .essential ['b'], .redundant ['b'] ['b'] 0 (1 / 3), .redundant ['b'] ['b'] 0 (2 / 3)],
      [(.essential ['a'], .redundant ['a'] ['b'] 0 1), (.essential ['b'], .redundant ['b'] ['b'] 2 (1 / 3))]) := by decide +kernel
example : Plain "a1".toList := by decide

end Toppo.Text
