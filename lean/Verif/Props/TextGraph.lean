import Verif.Props.TextRead
import Verif.Props.Graph
import Verif.Props.Pool
import Verif.Proof.MatrixView
set_option linter.unusedVariables false

/-
C93, C94: the texts of graphs, pools and labeled sets.
-/
namespace Toppo.Text
open Toppo GraphProps

/-! ### graphs -/

theorem contains_bit {g : RawGraph} (h : ∀ i j, (∃ b, g.contains i j = some b) ↔ i < j ∧ j < g.n) {i j : Nat} (hi : i < j) (hj : j < g.n) :
    g.contains i j = some (decide (g.contains i j = some true)) := by
  obtain ⟨b, hb⟩ := (h i j).mpr ⟨hi, hj⟩
  rw [hb]; cases b <;> simp

/-- the row of vertex `j` in the text of a graph -/
def bitRow (g : RawGraph) (j : Nat) : Text := (List.range j).map (fun i => if decide (g.contains i j = some true) then '1' else '0')

theorem rawGraph_eq {g : RawGraph} (h : ∀ i j, (∃ b, g.contains i j = some b) ↔ i < j ∧ j < g.n) :
    rawGraph g = some (((List.range' 1 (g.n - 1)).map (bitRow g)).map (· ++ ['\n'])).flatten := by
  unfold rawGraph
  rw [View.mapM_some _ _ (fun j => bitRow g j ++ ['\n'])]
  · simp [Function.comp_def]
  · intro j hj
    have hj' := List.mem_range'_1.mp hj
    rw [View.mapM_range j _ (fun i => decide (g.contains i j = some true)) (fun i hi => contains_bit h hi (by omega))]
    simp [bitRow, Function.comp_def]

theorem bitRow_char {g : RawGraph} {j : Nat} : '\n' ∉ bitRow g j := by
  intro h
  obtain ⟨i, -, hi⟩ := List.mem_map.mp h
  split_ifs at hi <;> exact absurd hi (by decide)

/-- **C93**: printing a graph never panics; the text has a line for every vertex `j ≥ 1`, in order, with one digit for every smaller vertex `i`, which is `1` if `i` and `j` are joined by an edge and
`0` if not. -/
theorem c93_display (n : Nat) (ops : List Op) (g : RawGraph) (hg : run n ops = some g) :
    ∃ t lines, rawGraph g = some t ∧ fields '\n' t = lines ++ [ [] ] ∧ lines.length = n - 1 ∧
      ∀ j, 1 ≤ j → j < n → ∃ row, lines[j - 1]? = some row ∧ row.length = j ∧
        ∀ i < j, (LastAdded ops i j → row[i]? = some '1') ∧ (¬ LastAdded ops i j → row[i]? = some '0') := by
  obtain ⟨h1, h2, h3, -⟩ := (c49_graph_refines_edge_set n ops).2 g hg
  rw [← h1] at h2
  refine ⟨_, _, rawGraph_eq h2, fields_lines (fun x hx => ?_), by simp [h1], ?_⟩
  · obtain ⟨j, -, rfl⟩ := List.mem_map.mp hx
    exact bitRow_char
  · intro j hj hjn
    refine ⟨bitRow g j, ?_, by simp [bitRow], ?_⟩
    · rw [List.getElem?_map, List.getElem?_range' (by omega)]
      simp only [Option.map_some, Option.some.injEq]
      congr 1; omega
    · intro i hi
      have : (bitRow g j)[i]? = some (if decide (g.contains i j = some true) then '1' else '0') := by
        simp [bitRow, hi]
      rw [this]
      constructor
      · intro h; rw [if_pos (by simpa using (h3 i j).mpr h)]
      · intro h; rw [if_neg (by simpa using fun hh => h ((h3 i j).mp hh))]

/-- **C93**: two graphs have the same text if and only if they have the same vertices and the same edges. -/
theorem c93_text_eq (n n' : Nat) (ops ops' : List Op) (g g' : RawGraph) (hg : run n ops = some g) (hg' : run n' ops' = some g') :
    rawGraph g = rawGraph g' ↔ n = n' ∧ ∀ i j, LastAdded ops i j ↔ LastAdded ops' i j := by
  have hn : 0 < n := ((c49_graph_refines_edge_set n ops).1.mp ⟨g, hg⟩).1
  have hn' : 0 < n' := ((c49_graph_refines_edge_set n' ops').1.mp ⟨g', hg'⟩).1
  obtain ⟨a1, a2, a3, -⟩ := (c49_graph_refines_edge_set n ops).2 g hg
  obtain ⟨b1, b2, b3, -⟩ := (c49_graph_refines_edge_set n' ops').2 g' hg'
  have out : ∀ {m : Nat} {o : List Op} {k : RawGraph}, (∀ i j, (∃ b, k.contains i j = some b) ↔ i < j ∧ j < m) → (∀ i j, k.contains i j = some true ↔ LastAdded o i j) →
      ∀ i j, LastAdded o i j → i < j ∧ j < m := fun h1 h2 i j h => (h1 i j).mp ⟨true, (h2 i j).mpr h⟩
  constructor
  · intro h
    obtain ⟨t, L, h1, h2, h3, h4⟩ := c93_display n ops g hg
    obtain ⟨t', L', h1', h2', h3', h4'⟩ := c93_display n' ops' g' hg'
    rw [h, h1'] at h1
    obtain rfl := Option.some.inj h1
    rw [h2] at h2'
    obtain rfl := List.append_cancel_right h2'
    obtain rfl : n = n' := by omega
    refine ⟨rfl, fun i j => ?_⟩
    by_cases hij : i < j ∧ j < n
    · obtain ⟨l, c1, c2, c3⟩ := h4 j (by omega) hij.2
      obtain ⟨l', d1, d2, d3⟩ := h4' j (by omega) hij.2
      rw [c1] at d1
      obtain rfl := Option.some.inj d1
      by_cases x : LastAdded ops i j <;> by_cases y : LastAdded ops' i j
      · simp [x, y]
      · have := ((c3 i hij.1).1 x).symm.trans ((d3 i hij.1).2 y); exact absurd this (by decide)
      · have := ((c3 i hij.1).2 x).symm.trans ((d3 i hij.1).1 y); exact absurd this (by decide)
      · simp [x, y]
    · exact ⟨fun hh => absurd (out a2 a3 i j hh) hij, fun hh => absurd (out b2 b3 i j hh) hij⟩
  · rintro ⟨rfl, h⟩
    rw [← a1] at a2
    rw [← b1] at b2
    rw [rawGraph_eq a2, rawGraph_eq b2, a1, b1]
    congr 4
    funext j
    unfold bitRow
    congr 1
    funext i
    have : (g.contains i j = some true) = (g'.contains i j = some true) := propext ((a3 i j).trans ((h i j).trans (b3 i j).symm))
    simp only [this]

/-- the part of a row in front of the marks -/
def debugHead (i : Nat) : Text := (List.replicate i [' ', ' ']).flatten ++ (if i < 10 then [' '] else []) ++ dec i

/-- a row of the `Debug` text -/
def debugRow (g : RawGraph) (i : Nat) : Text :=
  debugHead i ++ ((List.range' (i + 1) (g.n - (i + 1))).map (fun j => decide (g.contains i j = some true))).flatMap (fun b => [' ', if b then '+' else ' '])

theorem rawGraphDebug_eq {g : RawGraph} (h : ∀ i j, (∃ b, g.contains i j = some b) ↔ i < j ∧ j < g.n) :
    rawGraphDebug g = some (((List.range g.n).map (debugRow g)).map (· ++ ['\n'])).flatten := by
  unfold rawGraphDebug
  rw [View.mapM_range _ _ (fun i => debugRow g i ++ ['\n'])]
  · simp [Function.comp_def]
  · intro i hi
    rw [View.mapM_some _ _ (fun j => decide (g.contains i j = some true)) (fun j hj => by
      have := List.mem_range'_1.mp hj
      exact contains_bit h (by omega) (by omega))]
    simp [debugRow, debugHead, Function.comp_def]

theorem marks_get (l : List Bool) : ∀ k b, l[k]? = some b → (l.flatMap (fun b => [' ', if b then '+' else ' ']))[2 * k]? = some ' ' ∧
    (l.flatMap (fun b => [' ', if b then '+' else ' ']))[2 * k + 1]? = some (if b then '+' else ' ') := by
  induction l with
  | nil => intro k b h; simp at h
  | cons x l ih =>
    intro k b h
    cases k with
    | zero => obtain rfl : x = b := by simpa using h
              simp
    | succ k =>
      obtain ⟨h1, h2⟩ := ih k b (by simpa using h)
      rw [List.flatMap_cons]
      exact ⟨by rw [show 2 * (k + 1) = 2 * k + 1 + 1 by ring]; simpa using h1, by rw [show 2 * (k + 1) + 1 = 2 * k + 1 + 1 + 1 by ring]; simpa using h2⟩

theorem debugHead_length (i : Nat) : (debugHead i).length = 2 * i + (if i < 10 then 1 else 0) + (dec i).length := by
  simp only [debugHead, List.length_append, List.length_flatten, List.map_replicate, List.sum_replicate]
  split_ifs <;> simp <;> ring

theorem dec_length {i : Nat} (h : i < 100) : (if i < 10 then 1 else 0) + (dec i).length = 2 := by
  have : ∀ i < 100, (if i < 10 then 1 else 0) + (dec i).length = 2 := by decide
  exact this i h

theorem debugHead_char (i : Nat) : '\n' ∉ debugHead i := by
  simp only [debugHead, List.mem_append, not_or]
  refine ⟨⟨?_, by split_ifs <;> decide⟩, not_mem_dec (by decide)⟩
  intro h
  obtain ⟨l, h1, h2⟩ := List.mem_flatten.mp h
  obtain ⟨-, rfl⟩ := List.mem_replicate.mp h1
  exact absurd h2 (by decide)

theorem debugRow_char {g : RawGraph} {i : Nat} : '\n' ∉ debugRow g i := by
  simp only [debugRow, List.mem_append, not_or]
  refine ⟨debugHead_char i, ?_⟩
  intro h
  obtain ⟨b, -, hb⟩ := List.mem_flatMap.mp h
  cases b <;> exact absurd hb (by decide)

/-- **C93**: the `Debug` text has a line for every vertex `i`, starting with its number; behind the number there are two characters for every larger vertex `j`, in order: a blank and then `+` if
`i` and `j` are joined by an edge and a blank if not. -/
theorem c93_debug (n : Nat) (ops : List Op) (g : RawGraph) (hg : run n ops = some g) :
    ∃ t lines, rawGraphDebug g = some t ∧ fields '\n' t = lines ++ [ [] ] ∧ lines.length = n ∧
      ∀ i, i < n → ∃ row body, lines[i]? = some row ∧ row = debugHead i ++ body ∧ body.length = 2 * (n - (i + 1)) ∧
        ∀ j, i < j → j < n → body[2 * (j - (i + 1))]? = some ' ' ∧
          (LastAdded ops i j → body[2 * (j - (i + 1)) + 1]? = some '+') ∧ (¬ LastAdded ops i j → body[2 * (j - (i + 1)) + 1]? = some ' ') := by
  obtain ⟨h1, h2, h3, -⟩ := (c49_graph_refines_edge_set n ops).2 g hg
  rw [← h1] at h2
  refine ⟨_, _, rawGraphDebug_eq h2, fields_lines (fun x hx => ?_), by simp [h1], ?_⟩
  · obtain ⟨j, -, rfl⟩ := List.mem_map.mp hx
    exact debugRow_char
  · intro i hi
    refine ⟨debugRow g i, _, by simp [h1, hi], rfl, ?_, ?_⟩
    · simp [List.length_flatMap, h1, Function.comp_def, mul_comm]
    · intro j hij hj
      have hb : ((List.range' (i + 1) (g.n - (i + 1))).map (fun j => decide (g.contains i j = some true)))[j - (i + 1)]? = some (decide (g.contains i j = some true)) := by
        rw [List.getElem?_map, List.getElem?_range' (by omega)]
        simp only [Option.map_some, Option.some.injEq]
        rw [show i + 1 + 1 * (j - (i + 1)) = j by omega]
      obtain ⟨c1, c2⟩ := marks_get _ _ _ hb
      refine ⟨c1, ?_, ?_⟩
      · intro h; rw [c2, if_pos (by simpa using (h3 i j).mpr h)]
      · intro h; rw [c2, if_neg (by simpa using fun hh => h ((h3 i j).mp hh))]

/-- **C93** (part that holds: the first hundred lines). In the `Debug` text the mark of the pair `i < j` is in line `i` and column `2 * j + 1` (counted from zero), where `j` is the number written at
the end of its own row, so that the marks of one vertex stand below each other. -/
theorem c93_debug_columns_partial (n : Nat) (ops : List Op) (g : RawGraph) (hg : run n ops = some g) :
    ∃ t lines, rawGraphDebug g = some t ∧ fields '\n' t = lines ++ [ [] ] ∧ lines.length = n ∧
      ∀ i, i < n → i < 100 → ∃ row, lines[i]? = some row ∧ row.length = 2 * n ∧
        ∀ j, i < j → j < n → (LastAdded ops i j → row[2 * j + 1]? = some '+') ∧ (¬ LastAdded ops i j → row[2 * j + 1]? = some ' ') := by
  obtain ⟨t, L, h1, h2, h3, h4⟩ := c93_debug n ops g hg
  refine ⟨t, L, h1, h2, h3, ?_⟩
  intro i hi hi2
  obtain ⟨row, body, e1, rfl, e3, e4⟩ := h4 i hi
  have hl : (debugHead i).length = 2 * i + 2 := by rw [debugHead_length]; have := dec_length hi2; omega
  refine ⟨_, e1, by rw [List.length_append, hl, e3]; omega, ?_⟩
  intro j hij hj
  obtain ⟨-, f1, f2⟩ := e4 j hij hj
  rw [List.getElem?_append_right (by omega), hl, show 2 * j + 1 - (2 * i + 2) = 2 * (j - (i + 1)) + 1 by omega]
  exact ⟨f1, f2⟩

/-- **C93 fails** for the columns of later lines: in line 100 of a graph with at least 102 vertices, column 203, where the mark of the pair `100, 101` should be, is blank even if there is an edge. -/
theorem c93_debug_columns_false (n : Nat) (hn : 102 ≤ n) (ops : List Op) (g : RawGraph) (hg : run n ops = some g) :
    ∃ t lines row, rawGraphDebug g = some t ∧ fields '\n' t = lines ++ [ [] ] ∧ lines[100]? = some row ∧ row[2 * 101 + 1]? = some ' ' := by
  obtain ⟨t, L, h1, h2, h3, h4⟩ := c93_debug n ops g hg
  obtain ⟨row, body, e1, rfl, e3, e4⟩ := h4 100 (by omega)
  refine ⟨t, L, _, h1, h2, e1, ?_⟩
  obtain ⟨f0, -, -⟩ := e4 101 (by omega) (by omega)
  have hl : (debugHead 100).length = 203 := by rw [debugHead_length]; decide
  rw [List.getElem?_append_right (by omega), hl]
  exact f0

example : (run 4 [.add 0 1, .add 1 2, .add 1 3, .remove 1 2]).bind rawGraph = some "1\n00\n010\n".toList := by decide +kernel
example : (run 3 [.add 0 2]).bind rawGraphDebug = some " 0   +\n   1  \n     2\n".toList := by decide +kernel

/-! ### pools and labeled sets -/

/-- the digits between `[` and `]` -/
def readBits (t : Text) : Option (List Bool) :=
  if t = [] then some []
  else (fields ',' t).mapM (fun d => if d = ['1'] then some true else if d = ['0'] then some false else none)

/-- a text `len = n, n_elements = k, data = [b, .., b]` -/
def readPool (t : Text) : Option (Nat × Nat × List Bool) :=
  match fields '=' (dense t) with
  | [_, a, b, '[' :: c] =>
    match fields ',' a, fields ',' b, fields ']' c with
    | [a, _], [b, _], [c, []] => do return (← readNat a, ← readNat b, ← readBits c)
    | _, _, _ => none
  | _ => none

theorem readBits_join (l : List Bool) : readBits (joinT [','] (l.map (fun b => if b then ['1'] else ['0']))) = some l := by
  unfold readBits
  cases l with
  | nil => rfl
  | cons x l =>
    rw [if_neg, fields_join (by simp)]
    · exact mapM_read (x :: l) (by intro b _; cases b <;> rfl)
    · intro y hy
      obtain ⟨b, -, rfl⟩ := List.mem_map.mp hy
      cases b <;> decide
    · refine joinT_ne_nil (by simp) ?_
      intro y hy
      obtain ⟨b, -, rfl⟩ := List.mem_map.mp hy
      cases b <;> decide

/-- **C94**: printing a pool never panics, and the text says how long the pool is, how many indices it holds, and for every index whether it is a member. -/
theorem c94_pool (h : PoolProps.Hist) (p : BinaryPool) (n : Nat) (S : Finset Nat) (hp : PoolProps.run h = some p) (hs : PoolProps.spec h = some (n, S)) :
    ∃ t bits, pool p = some t ∧ readPool t = some (n, S.card, bits) ∧ bits.length = n ∧ ∀ i < n, (bits[i]? = some true ↔ i ∈ S) := by
  obtain ⟨h1, h2, h3, h4, -⟩ := (PoolProps.c01_pool_refines_set h).2 p n S hp hs
  have hb : (List.range p.len).mapM p.contains = some ((List.range n).map (fun i => decide (i ∈ S))) := by
    rw [h1]; exact View.mapM_range n _ _ h2
  have hpool : pool p = some (['l', 'e', 'n', ' ', '=', ' '] ++ dec p.len ++ [',', ' '] ++
        ['n', '_', 'e', 'l', 'e', 'm', 'e', 'n', 't', 's', ' ', '=', ' '] ++ dec p.nElements ++ [',', ' '] ++
        ['d', 'a', 't', 'a', ' ', '=', ' ', '['] ++ joinT [',', ' '] (((List.range n).map (fun i => decide (i ∈ S))).map (fun b => if b then ['1'] else ['0'])) ++ [']']) := by
    unfold pool
    rw [hb]
    rfl
  refine ⟨_, (List.range n).map (fun i => decide (i ∈ S)), hpool, ?_, by simp, ?_⟩
  · have hd : dense (['l', 'e', 'n', ' ', '=', ' '] ++ dec p.len ++ [',', ' '] ++
        ['n', '_', 'e', 'l', 'e', 'm', 'e', 'n', 't', 's', ' ', '=', ' '] ++ dec p.nElements ++ [',', ' '] ++
        ['d', 'a', 't', 'a', ' ', '=', ' ', '['] ++ joinT [',', ' '] (((List.range n).map (fun i => decide (i ∈ S))).map (fun b => if b then ['1'] else ['0'])) ++ [']']) =
        ['l', 'e', 'n'] ++ '=' :: ((dec n ++ ',' :: ['n', '_', 'e', 'l', 'e', 'm', 'e', 'n', 't', 's']) ++ '=' :: ((dec S.card ++ ',' :: ['d', 'a', 't', 'a']) ++
          '=' :: ('[' :: (joinT [','] (((List.range n).map (fun i => decide (i ∈ S))).map (fun b => if b then ['1'] else ['0'])) ++ ']' :: [])))) := by
      simp only [dense_append, dense_joinT, dense_dec, h1, h4]
      have : (((List.range n).map (fun i => decide (i ∈ S))).map (fun b => if b then ['1'] else ['0'])).map dense =
          ((List.range n).map (fun i => decide (i ∈ S))).map (fun b => if b then ['1'] else ['0']) := by
        rw [List.map_map]
        refine List.map_congr_left (fun b _ => ?_)
        cases b <;> rfl
      rw [this]
      simp only [List.append_assoc, List.cons_append]
      rfl
    have hbits : ∀ c : Char, c ∉ ['0', '1', ','] → c ∉ joinT [','] (((List.range n).map (fun i => decide (i ∈ S))).map (fun b => if b then ['1'] else ['0'])) := by
      intro c hc
      simp only [List.mem_cons, List.not_mem_nil, or_false, not_or] at hc
      refine not_mem_joinT (by simpa using hc.2.2) ?_
      intro y hy
      obtain ⟨b, -, rfl⟩ := List.mem_map.mp hy
      cases b
      · simpa using hc.1
      · simpa using hc.2.1
    unfold readPool
    rw [hd, fields_cut (by decide), fields_cut (by
      simp only [List.mem_append, List.mem_cons, List.not_mem_nil, or_false, not_or]
      exact ⟨not_mem_dec (by decide), by decide⟩), fields_cut (by
      simp only [List.mem_append, List.mem_cons, List.not_mem_nil, or_false, not_or]
      exact ⟨not_mem_dec (by decide), by decide⟩), fields_none (by
      simp only [List.mem_append, List.mem_cons, List.not_mem_nil, or_false, not_or]
      exact ⟨by decide, hbits _ (by decide), by decide⟩)]
    simp only
    rw [fields_cut (not_mem_dec (by decide)), fields_cut (not_mem_dec (by decide)), fields_cut (hbits _ (by decide)), fields_none (by decide), fields_none (by decide), fields_none (by decide)]
    simp only
    rw [readNat_dec, readNat_dec, readBits_join]
    rfl
  · intro i hi
    simp [hi]

/-- **C94**: two pools have the same text if and only if they have the same length and the same members. -/
theorem c94_pool_eq (h h' : PoolProps.Hist) (p p' : BinaryPool) (n n' : Nat) (S S' : Finset Nat) (hp : PoolProps.run h = some p) (hs : PoolProps.spec h = some (n, S))
    (hp' : PoolProps.run h' = some p') (hs' : PoolProps.spec h' = some (n', S')) : pool p = pool p' ↔ n = n' ∧ S = S' := by
  obtain ⟨t, b, h1, h2, h3, h4⟩ := c94_pool h p n S hp hs
  obtain ⟨t', b', h1', h2', h3', h4'⟩ := c94_pool h' p' n' S' hp' hs'
  constructor
  · intro e
    rw [e, h1'] at h1
    obtain rfl := Option.some.inj h1
    rw [h2] at h2'
    simp only [Option.some.injEq, Prod.mk.injEq] at h2'
    obtain ⟨rfl, -, rfl⟩ := h2'
    refine ⟨rfl, ?_⟩
    have i1 := ((PoolProps.c01_pool_refines_set h).2 p n S hp hs).2.2.1
    have i2 := ((PoolProps.c01_pool_refines_set h').2 p' n S' hp' hs').2.2.1
    ext i
    by_cases hi : i < n
    · rw [← h4 i hi, h4' i hi]
    · exact ⟨fun hh => absurd (i1 i hh) hi, fun hh => absurd (i2 i hh) hi⟩
  · rintro ⟨rfl, rfl⟩
    have := (PoolProps.c03_pool_set_algebra h h' p p' n n S S hp hs hp' hs').2.1.mpr ⟨rfl, rfl⟩
    rw [eq_of_beq this]

/-- a text `{a, .., b}` of labels -/
def readSet {α : Type} (rd : Text → Option α) : Text → Option (List α)
  | '{' :: t =>
    match fields '}' t with
    | [t, []] => if t = [] then some [] else (fields ',' (dense t)).mapM rd
    | _ => none
  | _ => none

/-- **C94**: printing a labeled set never panics, and its text lists the labels it holds in the order in which they were declared, for labels whose own texts can be read and contain no blank, comma
or closing brace and are not empty. -/
theorem c94_labeled_set {α : Type} [DecidableEq α] (sh : α → Text) (rd : Text → Option α) (labels : List α) (hnd : labels.Nodup)
    (hrd : ∀ a ∈ labels, rd (sh a) = some a ∧ sh a ≠ [] ∧ ' ' ∉ sh a ∧ ',' ∉ sh a ∧ '}' ∉ sh a)
    (ops : List (PoolProps.LOp α)) (s : LabeledSet α) (hs : PoolProps.lrun labels ops = some s) :
    ∃ t, labeledSet sh s = some t ∧ readSet rd t = some (labels.filter (fun a => @decide _ (Classical.propDecidable (PoolProps.held ops a)))) := by
  obtain ⟨h1, -⟩ := (PoolProps.c06_labeled_set labels hnd ops).2 s hs
  refine ⟨_, by unfold labeledSet; rw [h1]; rfl, ?_⟩
  set l := (labels.filter (fun a => @decide _ (Classical.propDecidable (PoolProps.held ops a)))) with hl
  have hr : ∀ a ∈ l, rd (sh a) = some a ∧ sh a ≠ [] ∧ ' ' ∉ sh a ∧ ',' ∉ sh a ∧ '}' ∉ sh a := fun a ha => hrd a (List.mem_of_mem_filter ha)
  have hsh : ∀ c : Char, (∀ a ∈ l, c ∉ sh a) → ∀ x ∈ l.map sh, c ∉ x := by
    intro c hc x hx
    obtain ⟨a, ha, rfl⟩ := List.mem_map.mp hx
    exact hc a ha
  have hd : dense (joinT [',', ' '] (l.map sh)) = joinT [','] (l.map sh) := by
    rw [dense_joinT, List.map_map]
    congr 1
    exact List.map_congr_left (fun a ha => dense_id (hr a ha).2.2.1)
  show readSet rd ('{' :: (joinT [',', ' '] (l.map sh) ++ ['}'])) = _
  unfold readSet
  simp only
  rw [fields_cut (not_mem_joinT (by decide) (hsh _ (fun a ha => (hr a ha).2.2.2.2))), fields_none (by decide)]
  simp only
  cases hc : l with
  | nil => rfl
  | cons a l' =>
    rw [← hc, if_neg (joinT_ne_nil (by simp [hc]) (by
      intro x hx
      obtain ⟨a, ha, rfl⟩ := List.mem_map.mp hx
      exact (hr a ha).2.1)), hd, fields_join (by simp [hc]) (hsh _ (fun a ha => (hr a ha).2.2.2.1))]
    exact mapM_read l (fun a ha => (hr a ha).1)

example : ((BinaryPool.new 3).add 1).bind pool = some "len = 3, n_elements = 1, data = [0, 1, 0]".toList := by decide +kernel
example : (PoolProps.lrun [4, 17, 2] [.add 2, .add 4]).bind (labeledSet dec) = some "{4, 2}".toList := by decide +kernel
example : ∀ a ∈ [4, 17, 2], readNat (dec a) = some a ∧ dec a ≠ [] ∧ ' ' ∉ dec a ∧ ',' ∉ dec a ∧ '}' ∉ dec a := by decide

end Toppo.Text
