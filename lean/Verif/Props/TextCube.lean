import Verif.Props.TextRead
import Verif.Props.MorseTree
import Verif.Proof.MatrixView
set_option linter.unusedVariables false

/-
C95: the texts of cubes and of the complexes made of them.
-/
namespace Toppo.Text
open Toppo RawGraph CubeProps GraphProps EdgePath MGraphProps SubdivideProps

/-- without the blanks at the beginning -/
def strip (t : Text) : Text := t.dropWhile (fun c => c = ' ')

/-- `[x y]` is an edge, `x` a vertex -/
def readFactor : Text → Option Factor
  | '[' :: t =>
    match fields ']' t with
    | [t, []] =>
      match fields ' ' t with
      | [x, y] => do return .edge (← readNat x) (← readNat y)
      | _ => none
    | _ => none
  | t => (readNat t).map Factor.vertex

/-- `{f, .., f}` -/
def readCube : Text → Option (List Factor)
  | '{' :: t =>
    match fields '}' t with
    | [t, []] => (fields ',' t).mapM (fun f => readFactor (strip f))
    | _ => none
  | _ => none

/-- what a line of the text of a complex says: the beginning of the list of the cells of one dimension (perhaps with their number), or one cell -/
inductive Item where
  | head (d : Nat) (count : Option Nat)
  | cell (c : List Factor)
deriving DecidableEq

/-- one line: `{f, .., f, }` indented is a cell; otherwise `d-cells:`, perhaps followed by a number -/
def readItem : Text → Option Item
  | '\t' :: '{' :: t =>
    match fields '}' t with
    | [t, _] => ((fields ',' t).dropLast.mapM (fun f => readFactor (strip f))).map Item.cell
    | _ => none
  | t =>
    match fields '-' t with
    | [d, r] =>
      match fields ' ' r with
      | [_] => (readNat d).map (fun d => .head d none)
      | _ :: k :: _ => do return .head (← readNat d) (some (← readNat k))
      | _ => none
    | _ => none

/-- the lines of the text of a complex -/
def readComplex (t : Text) : Option (List Item) := (fields '\n' t).dropLast.mapM readItem

/-! ### cubes -/

theorem factor_char {f : Factor} {c : Char} (hc : c.isDigit = false) (h : c ∉ ['[', ' ', ']']) : c ∉ factor f := by
  simp only [List.mem_cons, List.not_mem_nil, or_false, not_or] at h
  cases f with
  | edge x y => simp [factor, not_mem_dec hc, h]
  | vertex x => exact not_mem_dec hc

theorem readFactor_factor (f : Factor) : readFactor (factor f) = some f := by
  cases f with
  | edge x y =>
    have e : factor (.edge x y) = '[' :: ((dec x ++ ' ' :: dec y) ++ ']' :: []) := by simp [factor]
    rw [e]
    unfold readFactor
    simp only
    rw [fields_cut (by
      simp only [List.mem_append, List.mem_cons, not_or]
      exact ⟨not_mem_dec (by decide), by decide, not_mem_dec (by decide)⟩), fields_none (by decide)]
    simp only
    rw [fields_cut (not_mem_dec (by decide)), fields_none (not_mem_dec (by decide))]
    simp [readNat_dec]
  | vertex x =>
    show readFactor (dec x) = _
    rcases h : dec x with _ | ⟨c, t⟩
    · exact absurd h (dec_ne_nil x)
    · have hc := dec_head h
      have : c ≠ '[' := by rintro rfl; exact absurd hc (by decide)
      unfold readFactor
      split
      · rename_i e; exact absurd (List.cons.inj e).1 this
      · rw [← h, readNat_dec]; rfl

theorem strip_factor {f : Factor} : ∀ {pre : Text}, (∀ x ∈ pre, x = ' ') → strip (pre ++ factor f) = factor f
  | [], _ => by
    unfold strip
    cases f with
    | edge x y => simp [factor]
    | vertex x =>
      show (dec x).dropWhile _ = dec x
      rcases h : dec x with _ | ⟨c, t⟩
      · rfl
      · have hc := dec_head h
        have : c ≠ ' ' := by rintro rfl; exact absurd hc (by decide)
        simp [this]
  | x :: pre, h => by
    have hx : x = ' ' := h x (by simp)
    subst hx
    have := strip_factor (f := f) (pre := pre) (fun y hy => h y (List.mem_cons_of_mem _ hy))
    unfold strip at this ⊢
    simpa using this

theorem fields_ne {c : Char} (t : Text) : fields c t ≠ [] := by
  cases t with
  | nil => simp [fields]
  | cons x t => rw [fields]; split_ifs <;> simp; split <;> simp

theorem readFactors_join : ∀ (c : List Factor) (pre : Text), c ≠ [] → (∀ x ∈ pre, x = ' ') →
    (fields ',' (pre ++ joinT [',', ' '] (c.map factor))).mapM (fun f => readFactor (strip f)) = some c
  | [], _, h, _ => absurd rfl h
  | [f], pre, _, hp => by
    have h1 : ',' ∉ pre ++ factor f := by
      simp only [List.mem_append, not_or]
      exact ⟨fun h => absurd (hp _ h) (by decide), factor_char (by decide) (by decide)⟩
    show (fields ',' (pre ++ factor f)).mapM _ = _
    rw [fields_none h1, List.mapM_cons, strip_factor hp, readFactor_factor]; rfl
  | f :: f' :: c, pre, _, hp => by
    have h1 : ',' ∉ pre ++ factor f := by
      simp only [List.mem_append, not_or]
      exact ⟨fun h => absurd (hp _ h) (by decide), factor_char (by decide) (by decide)⟩
    have e : pre ++ joinT [',', ' '] ((f :: f' :: c).map factor) = (pre ++ factor f) ++ ',' :: ([' '] ++ joinT [',', ' '] ((f' :: c).map factor)) := by
      simp [joinT]
    rw [e, fields_cut h1, List.mapM_cons, strip_factor hp, readFactor_factor, readFactors_join (f' :: c) [' '] (by simp) (by simp)]
    rfl

/-- **C95**: printing a cube panics exactly if it has no factor; otherwise its factors can be read off the text, in order. -/
theorem c95_cube (c : List Factor) : (cube c = none ↔ c = []) ∧ ∀ t, cube c = some t → readCube t = some c := by
  unfold cube
  cases c with
  | nil => simp
  | cons f c =>
    refine ⟨by simp, ?_⟩
    intro t ht
    simp only [List.isEmpty_cons, Bool.false_eq_true, if_false, Option.some.injEq] at ht
    have e : t = '{' :: (joinT [',', ' '] ((f :: c).map factor) ++ '}' :: []) := by rw [← ht]; simp
    rw [e]
    unfold readCube
    simp only
    rw [fields_cut (not_mem_joinT (by decide) (fun x hx => by
      obtain ⟨f, -, rfl⟩ := List.mem_map.mp hx
      exact factor_char (by decide) (by decide))), fields_none (by decide)]
    exact readFactors_join (f :: c) [] (by simp) (by simp)

/-- **C95**: two cubes with the same text are equal. -/
theorem c95_cube_inj {c d : List Factor} {t : Text} (hc : cube c = some t) (hd : cube d = some t) : c = d :=
  Option.some.inj (((c95_cube c).2 t hc).symm.trans ((c95_cube d).2 t hd))

/-! ### complexes -/

/-- the factors of a cell as they are printed in a complex -/
theorem readFactors_flat : ∀ (c : List Factor) (pre : Text), (∀ x ∈ pre, x = ' ') →
    (fields ',' (pre ++ c.flatMap (fun f => factor f ++ [',', ' ']))).dropLast.mapM (fun f => readFactor (strip f)) = some c
  | [], pre, hp => by
    have h1 : ',' ∉ pre := fun h => absurd (hp _ h) (by decide)
    rw [List.flatMap_nil, List.append_nil, fields_none h1]
    rfl
  | f :: c, pre, hp => by
    have h1 : ',' ∉ pre ++ factor f := by
      simp only [List.mem_append, not_or]
      exact ⟨fun h => absurd (hp _ h) (by decide), factor_char (by decide) (by decide)⟩
    have e : pre ++ (f :: c).flatMap (fun f => factor f ++ [',', ' ']) = (pre ++ factor f) ++ ',' :: ([' '] ++ c.flatMap (fun f => factor f ++ [',', ' '])) := by
      simp
    rw [e, fields_cut h1, List.dropLast_cons_of_ne_nil (fields_ne _), List.mapM_cons, strip_factor hp, readFactor_factor, readFactors_flat c [' '] (by simp)]
    rfl

/-- a cell line without the line break in front -/
def cellBody (idx last : Nat) (c : List Factor) : Text :=
  ['\t', '{'] ++ c.flatMap (fun f => factor f ++ [',', ' ']) ++ ['}'] ++ (if idx ≠ last then [',', ' '] else [])

theorem flat_char {c : List Factor} {x : Char} (hx : x.isDigit = false) (h : x ∉ ['[', ' ', ']']) (h2 : x ≠ ',') : x ∉ c.flatMap (fun f => factor f ++ [',', ' ']) := by
  intro hm
  obtain ⟨f, -, hf⟩ := List.mem_flatMap.mp hm
  rcases List.mem_append.mp hf with hf | hf
  · exact factor_char hx h hf
  · simp only [List.mem_cons, List.not_mem_nil, or_false, not_or] at hf h
    rcases hf with hf | hf
    · exact h2 hf
    · exact h.2.1 hf

theorem cellBody_char (idx last : Nat) (c : List Factor) : '\n' ∉ cellBody idx last c := by
  simp only [cellBody, List.mem_append, not_or]
  exact ⟨⟨⟨by decide, flat_char (by decide) (by decide) (by decide)⟩, by decide⟩, by split_ifs <;> decide⟩

theorem readItem_cell (idx last : Nat) (c : List Factor) : readItem (cellBody idx last c) = some (.cell c) := by
  have e : cellBody idx last c = '\t' :: '{' :: (c.flatMap (fun f => factor f ++ [',', ' ']) ++ '}' :: (if idx ≠ last then [',', ' '] else [])) := by
    simp [cellBody]
  rw [e]
  unfold readItem
  simp only
  rw [fields_cut (flat_char (by decide) (by decide) (by decide)), fields_none (by split_ifs <;> decide)]
  simp only
  have := readFactors_flat c [] (by simp)
  rw [List.nil_append] at this
  rw [this]; rfl

theorem readItem_nat {d : Nat} {r : Text} : readItem (dec d ++ '-' :: r) = 
    match fields '-' (dec d ++ '-' :: r) with
    | [d, r] =>
      match fields ' ' r with
      | [_] => (readNat d).map (fun d => .head d none)
      | _ :: k :: _ => do return .head (← readNat d) (some (← readNat k))
      | _ => none
    | _ => none := by
  rcases h : dec d with _ | ⟨c, t⟩
  · exact absurd h (dec_ne_nil d)
  · have hc := dec_head h
    have : c ≠ '\t' := by rintro rfl; exact absurd hc (by decide)
    unfold readItem
    split
    · rename_i e; exact absurd (List.cons.inj e).1 this
    · rfl

theorem readItem_head (d : Nat) : readItem (dec d ++ ['-', 'c', 'e', 'l', 'l', 's', ':']) = some (.head d none) := by
  show readItem (dec d ++ '-' :: ['c', 'e', 'l', 'l', 's', ':']) = _
  rw [readItem_nat, fields_cut (not_mem_dec (by decide)), fields_none (by decide)]
  simp only
  rw [fields_none (by decide), readNat_dec]; rfl

theorem readItem_count (d k : Nat) : readItem (dec d ++ ['-', 'c', 'e', 'l', 'l', 's', ':', ' '] ++ dec k ++ [' ', 'c', 'e', 'l', 'l', 's', ' ', 'i', 'n', ' ', 't', 'o', 't', 'a', 'l']) =
    some (.head d (some k)) := by
  have e : dec d ++ ['-', 'c', 'e', 'l', 'l', 's', ':', ' '] ++ dec k ++ [' ', 'c', 'e', 'l', 'l', 's', ' ', 'i', 'n', ' ', 't', 'o', 't', 'a', 'l'] =
      dec d ++ '-' :: (['c', 'e', 'l', 'l', 's', ':'] ++ ' ' :: (dec k ++ ' ' :: ['c', 'e', 'l', 'l', 's', ' ', 'i', 'n', ' ', 't', 'o', 't', 'a', 'l'])) := by simp
  rw [e, readItem_nat, fields_cut (not_mem_dec (by decide)), fields_none (by
    simp only [List.mem_append, List.mem_cons, not_or]
    exact ⟨by decide, by decide, not_mem_dec (by decide), by decide⟩)]
  simp only
  rw [fields_cut (by decide), fields_cut (not_mem_dec (by decide))]
  simp only
  rw [readNat_dec, readNat_dec]; rfl

/-- a paragraph: a line, then lines, then a line break -/
theorem fields_par {c : Char} {t : Text} : ∀ {l : List Text} {h : Text}, c ∉ h → (∀ x ∈ l, c ∉ x) →
    fields c (h ++ (l.map (fun x => c :: x)).flatten ++ [c] ++ t) = h :: l ++ fields c t
  | [], h, hh, _ => by simp [fields_cut hh]
  | x :: l, h, hh, hl => by
    have e : h ++ ((x :: l).map (fun x => c :: x)).flatten ++ [c] ++ t = h ++ c :: (x ++ (l.map (fun x => c :: x)).flatten ++ [c] ++ t) := by simp
    rw [e, fields_cut hh, fields_par (hl x (by simp)) (fun y hy => hl y (List.mem_cons_of_mem _ hy))]
    rfl

theorem fields_pars {α : Type} {c : Char} {hd : α → Text} {ls : α → List Text} : ∀ (l : List α), (∀ a ∈ l, c ∉ hd a ∧ ∀ x ∈ ls a, c ∉ x) →
    fields c ((l.map (fun a => hd a ++ ((ls a).map (fun x => c :: x)).flatten ++ [c])).flatten) = l.flatMap (fun a => hd a :: ls a) ++ [ [] ]
  | [], _ => rfl
  | a :: l, h => by
    rw [List.map_cons, List.flatten_cons, fields_par (h a (by simp)).1 (h a (by simp)).2, fields_pars l (fun b hb => h b (List.mem_cons_of_mem _ hb))]
    simp

theorem mapM_append' {α β : Type} {f : α → Option β} {l l' : List α} {r r' : List β} (h : l.mapM f = some r) (h' : l'.mapM f = some r') : (l ++ l').mapM f = some (r ++ r') := by
  rw [List.mapM_append, h, h']; rfl

theorem readItems_pars {α : Type} {hd : α → Text} {ls : α → List Text} {it : α → Item} {cs : α → List Item} : ∀ (l : List α),
    (∀ a ∈ l, readItem (hd a) = some (it a) ∧ (ls a).mapM readItem = some (cs a)) → (l.flatMap (fun a => hd a :: ls a)).mapM readItem = some (l.flatMap (fun a => it a :: cs a))
  | [], _ => rfl
  | a :: l, h => by
    rw [List.flatMap_cons, List.flatMap_cons]
    refine mapM_append' ?_ (readItems_pars l (fun b hb => h b (List.mem_cons_of_mem _ hb)))
    rw [List.mapM_cons, (h a (by simp)).1, (h a (by simp)).2]; rfl

theorem dim_of_cellAt {s : Cub.Cplx} {i : Nat} {c : List Factor} (h : Cub.Morse.cellAt s i = some c) : Cub.dimOf s.data (i + 1) i = some (dimC c) := by
  unfold Cub.Morse.cellAt at h
  obtain ⟨u, h1, rfl⟩ := Option.map_eq_some_iff.mp h
  rw [Cub.dimOf_eq, h1, dimC_eq]
  simp

theorem filterOpt_some {α : Type} {p : α → Option Bool} {q : α → Bool} {l : List α} (h : ∀ f ∈ l, p f = some (q f)) : filterOpt p l = some (l.filter q) := by
  induction l with
  | nil => rfl
  | cons f fs ih =>
    unfold filterOpt
    rw [h f (by simp), ih (fun f hf => h f (by simp [hf]))]
    simp only [Option.bind_eq_bind, Option.bind_some, List.filter_cons]
    rfl

theorem cellLines_eq {s : Cub.Cplx} {cellAt : Nat → Option (List Factor)} (hl : ∀ i ∈ s.final, ∃ c, cellAt i = some c ∧ Cub.dimOf s.data (i + 1) i = some (dimC c)) (d : Nat) :
    ∃ bodies : List Text, cellLines s cellAt d = some (bodies.map (fun x => '\n' :: x)) ∧ (∀ x ∈ bodies, '\n' ∉ x) ∧
      bodies.mapM readItem = some (((s.final.filterMap cellAt).filter (fun c => decide (dimC c = d))).map Item.cell) := by
  unfold cellLines
  rw [filterOpt_some (q := fun i => decide (((cellAt i).map dimC).getD 0 = d)) (by
    intro i hi
    obtain ⟨c, h1, h2⟩ := hl i hi
    simp [h1, h2])]
  simp only [Option.bind_eq_bind, Option.bind_some]
  have hsub : ∀ i ∈ s.final.filter (fun i => decide (((cellAt i).map dimC).getD 0 = d)), i ∈ s.final := fun i hi => List.mem_of_mem_filter hi
  rcases hlast : s.final.getLast? with _ | last
  · rw [List.getLast?_eq_none_iff.mp hlast]
    exact ⟨[], rfl, by simp, rfl⟩
  · suffices h : ∀ F : List Nat, (∀ i ∈ F, ∃ c, cellAt i = some c ∧ Cub.dimOf s.data (i + 1) i = some (dimC c)) → ∃ bodies : List Text,
        (F.filter (fun i => decide (((cellAt i).map dimC).getD 0 = d))).mapM (fun idx => do
          let c ← cellAt idx
          let last ← some last
          return cellLine idx last c) = some (bodies.map (fun x => '\n' :: x)) ∧ (∀ x ∈ bodies, '\n' ∉ x) ∧
        bodies.mapM readItem = some (((F.filterMap cellAt).filter (fun c => decide (dimC c = d))).map Item.cell) from h s.final hl
    intro F
    induction F with
    | nil => intro _; exact ⟨[], rfl, by simp, rfl⟩
    | cons i F ih =>
      intro hF
      obtain ⟨b, h1, h2, h3⟩ := ih (fun j hj => hF j (List.mem_cons_of_mem _ hj))
      obtain ⟨c, hc, -⟩ := hF i (by simp)
      have e : ((i :: F).filterMap cellAt) = c :: F.filterMap cellAt := List.filterMap_cons_some hc
      rw [e]
      by_cases hd : dimC c = d
      · rw [List.filter_cons_of_pos (by simp [hc, hd]), List.filter_cons_of_pos (by simp [hd])]
        refine ⟨cellBody i last c :: b, ?_, ?_, ?_⟩
        · rw [List.mapM_cons, hc, h1]; rfl
        · intro x hx
          rcases List.mem_cons.mp hx with rfl | hx
          · exact cellBody_char i last c
          · exact h2 x hx
        · rw [List.mapM_cons, readItem_cell, h3]; rfl
      · rw [List.filter_cons_of_neg (by simp [hc, hd]), List.filter_cons_of_neg (by simp [hd])]
        exact ⟨b, h1, h2, h3⟩

theorem cubical_eq {s : Cub.Cplx} (hl : ∀ i ∈ s.final, ∃ c, s.cellAt i = some c) :
    ∃ t, cubicalCplx s = some t ∧ readComplex t = some ((List.range (s.dim + 1)).flatMap (fun d => .head d none :: (cellsDim s d).map Item.cell)) := by
  have hl' : ∀ i ∈ s.final, ∃ c, s.cellAt i = some c ∧ Cub.dimOf s.data (i + 1) i = some (dimC c) := by
    intro i hi
    obtain ⟨c, hc⟩ := hl i hi
    refine ⟨c, hc, dim_of_cellAt ?_⟩
    unfold Cub.Cplx.cellAt at hc
    rw [if_pos hi] at hc; exact hc
  choose bodies h1 h2 h3 using cellLines_eq hl'
  refine ⟨((List.range (s.dim + 1)).map (fun d => (dec d ++ ['-', 'c', 'e', 'l', 'l', 's', ':']) ++ ((bodies d).map (fun x => '\n' :: x)).flatten ++ ['\n'])).flatten, ?_, ?_⟩
  · unfold cubicalCplx
    rw [View.mapM_range _ _ _ (fun d _ => by rw [h1 d]; rfl)]
    rfl
  · unfold readComplex
    rw [fields_pars (hd := fun d => dec d ++ ['-', 'c', 'e', 'l', 'l', 's', ':']) (ls := bodies) _ (fun d _ => ⟨by
      simp only [List.mem_append, not_or]
      exact ⟨not_mem_dec (by decide), by decide⟩, h2 d⟩), List.dropLast_concat]
    exact readItems_pars _ (fun d _ => ⟨readItem_head d, h3 d⟩)

theorem morse_eq {s : Cub.Cplx} (hl : ∀ i ∈ s.final, ∃ c, Cub.Morse.cellAt s i = some c) (hr : ∀ d, d ≤ s.dim → s.ranks[d]? = some (mlistDim s d).length) :
    ∃ t, morseCplx s = some t ∧
      readComplex t = some ((List.range (s.dim + 1)).flatMap (fun d => .head d (some (mlistDim s d).length) :: (mlistDim s d).map Item.cell)) := by
  have hl' : ∀ i ∈ s.final, ∃ c, Cub.Morse.cellAt s i = some c ∧ Cub.dimOf s.data (i + 1) i = some (dimC c) := by
    intro i hi
    obtain ⟨c, hc⟩ := hl i hi
    exact ⟨c, hc, dim_of_cellAt hc⟩
  choose bodies h1 h2 h3 using cellLines_eq hl'
  refine ⟨((List.range (s.dim + 1)).map (fun d => (dec d ++ ['-', 'c', 'e', 'l', 'l', 's', ':', ' '] ++ dec (mlistDim s d).length ++
    [' ', 'c', 'e', 'l', 'l', 's', ' ', 'i', 'n', ' ', 't', 'o', 't', 'a', 'l']) ++ ((bodies d).map (fun x => '\n' :: x)).flatten ++ ['\n'])).flatten, ?_, ?_⟩
  · unfold morseCplx
    rw [View.mapM_range _ _ _ (fun d hd => by rw [hr d (by omega), h1 d]; rfl)]
    rfl
  · unfold readComplex
    rw [fields_pars (hd := fun d => dec d ++ ['-', 'c', 'e', 'l', 'l', 's', ':', ' '] ++ dec (mlistDim s d).length ++
      [' ', 'c', 'e', 'l', 'l', 's', ' ', 'i', 'n', ' ', 't', 'o', 't', 'a', 'l']) (ls := bodies) _ (fun d _ => ⟨by
      simp only [List.mem_append, not_or]
      exact ⟨⟨⟨not_mem_dec (by decide), by decide⟩, not_mem_dec (by decide)⟩, by decide⟩, h2 d⟩), List.dropLast_concat]
    exact readItems_pars _ (fun d _ => ⟨readItem_count d _, h3 d⟩)

/-- What the text of the configuration complex of `k` points says: for every dimension up to the largest of a cell, its cells, each once. -/
def TellsCells (g : RawGraph) (k : Nat) (t : Text) : Prop :=
  ∃ (D : Nat) (L : Nat → List (List Factor)),
    readComplex t = some ((List.range (D + 1)).flatMap (fun d => .head d none :: (L d).map Item.cell)) ∧
    (∀ d, (L d).Nodup ∧ ∀ c, c ∈ L d ↔ IsCell g k c ∧ dimC c = d) ∧ ∀ c, IsCell g k c → dimC c ≤ D

/-- What the text of a Morse complex with the cells `l` says: for every dimension up to the largest of a cell, the number of its cells and its
cells, in the order of `l`. -/
def TellsMorse (l : List (List Factor)) (t : Text) : Prop :=
  ∃ D : Nat, readComplex t = some ((List.range (D + 1)).flatMap (fun d =>
      .head d (some (l.filter (fun c => decide (dimC c = d))).length) :: (l.filter (fun c => decide (dimC c = d))).map Item.cell)) ∧
    (∀ c ∈ l, dimC c ≤ D) ∧ (D = 0 ∨ ∃ c ∈ l, dimC c = D)

theorem tells_cells {g : RawGraph} {k : Nat} {s : Cub.Cplx} (h : CellsOK g k s) : ∃ t, cubicalCplx s = some t ∧ TellsCells g k t := by
  obtain ⟨t, h1, h2⟩ := cubical_eq (s := s) (fun i hi => (h.listed i hi).imp (fun c hc => hc.1))
  refine ⟨t, h1, s.dim, cellsDim s, h2, fun d => ⟨h.count.2.1.filter _, fun c => ?_⟩, fun c hc => h.dim.1 c ((h.count.2.2 c).mpr hc)⟩
  unfold cellsDim
  rw [List.mem_filter, h.count.2.2 c, decide_eq_true_iff]

theorem tells_morse {g : RawGraph} {k : Nat} {u : Option Nat} {s : Cub.Cplx} (h : MorseOK g k u s) : ∃ t, morseCplx s = some t ∧ TellsMorse (mlist s) t := by
  have hk : s.dim ≤ k := by
    rcases h.dim.2 with h0 | ⟨c, hc, h0⟩
    · omega
    · obtain ⟨i, hi, hci⟩ := List.mem_filterMap.mp hc
      obtain ⟨c', e, hc'⟩ := h.listed i hi
      rw [hci] at e
      obtain rfl := Option.some.inj e
      rw [← h0, ← hc'.length]
      exact List.countP_le_length
  obtain ⟨t, h1, h2⟩ := morse_eq (s := s) (fun i hi => (h.listed i hi).imp (fun c hc => hc.1)) (fun d hd => h.ranks.2 d (by omega))
  exact ⟨t, h1, s.dim, h2, h.dim⟩

/-- **C95**: the text of the complex made from a graph lists, dimension by dimension, exactly the cells, each once. -/
theorem c95_complex_of_graph {g : RawGraph} (h : Built g) (h2 : 2 ≤ g.n) (h01 : Edge g 0 1) (k : Nat) (hk : k ≠ 0) (hkn : k ≤ g.n + 1) :
    ∃ s t, Cub.ofGraph g k = some s ∧ cubicalCplx s = some t ∧ TellsCells g k t := by
  obtain ⟨s, s1, s2⟩ := c75_cells_of_graph h h2 h01 k hk hkn
  obtain ⟨t, t1, t2⟩ := tells_cells s2
  exact ⟨s, t, s1, t1, t2⟩

/-- **C95**: so does the text of the configuration complex made from the list of edges of a connected graph. -/
theorem c95_udc {α : Type} [DecidableEq α] (edges : List (α × α)) (hc : ConnectedInput edges) (m : MGraph α) (hm : MGraph.ofEdges edges = some m) (points : Nat) (hp0 : points ≠ 0)
    (hp : points + 1 < 2 ^ 63) (g : SGraph α) (hg : SGraph.subdivide m points = some g) :
    ∃ s t, Cub.udc m points = some s ∧ cubicalCplx s = some t ∧ TellsCells g.data points t := by
  obtain ⟨s, s1, s2⟩ := c75_udc edges hc m hm points hp0 hp g hg
  obtain ⟨t, t1, t2⟩ := tells_cells s2
  exact ⟨s, t, s1, t1, t2⟩

/-- **C95**: the text of the Morse complex gives for every dimension the number of its cells and lists the cells which the complex has. -/
theorem c95_morse {α : Type} [DecidableEq α] (edges : List (α × α)) (hc : ConnectedInput edges) (m : MGraph α) (hm : MGraph.ofEdges edges = some m) (points : Nat) (hp0 : points ≠ 0)
    (hp : points + 1 < 2 ^ 63) (g : SGraph α) (hg : SGraph.subdivide m points = some g) (upper : Option Nat) :
    ∃ s t, Cub.Morse.new m points upper = some s ∧ morseCplx s = some t ∧ TellsMorse (mlist s) t := by
  obtain ⟨s, s1, s2, -⟩ := c76_cells_partial edges hc m hm points hp0 hp g hg upper
  obtain ⟨t, t1, t2⟩ := tells_morse s2
  exact ⟨s, t, s1, t1, t2⟩

/-- two texts which tell the cells of a graph tell the same cells -/
theorem c95_complex_eq {g g' : RawGraph} {k k' : Nat} {t : Text} (h : TellsCells g k t) (h' : TellsCells g' k' t) (c : List Factor) : IsCell g k c ↔ IsCell g' k' c := by
  have key : ∀ {g : RawGraph} {k : Nat}, TellsCells g k t → ∃ l, readComplex t = some l ∧ ∀ c, Item.cell c ∈ l ↔ IsCell g k c := by
    rintro g k ⟨D, L, h1, h2, h3⟩
    refine ⟨_, h1, fun c => ?_⟩
    simp only [List.mem_flatMap, List.mem_range, List.mem_cons, List.mem_map, reduceCtorEq, false_or, Item.cell.injEq, exists_eq_right]
    constructor
    · rintro ⟨d, -, hd⟩; exact (((h2 d).2 c).mp hd).1
    · intro hc; exact ⟨dimC c, by have := h3 c hc; omega, ((h2 _).2 c).mpr ⟨hc, rfl⟩⟩
  obtain ⟨l, h1, h2⟩ := key h
  obtain ⟨l', h1', h2'⟩ := key h'
  rw [h1] at h1'
  obtain rfl := Option.some.inj h1'
  rw [← h2 c, h2' c]

/-- Examples: a cube, and the complexes of two points on a triangle. -/
example : cube [.edge 0 12, .vertex 3] = some "{[0 12], 3}".toList := by decide +kernel
example : readCube "{[0 12], 3}".toList = some [.edge 0 12, .vertex 3] := by decide +kernel
example : cube [.vertex 0, .edge 7 9] ≠ cube [.vertex 0, .vertex 7, .vertex 9] := by decide +kernel
example : ((run 3 [.add 0 1, .add 1 2, .add 0 2]).bind (fun g => Cub.ofGraph g 2)).bind cubicalCplx =
    some "0-cells:\n\t{0, 1, }, \n\t{0, 2, }, \n\t{1, 2, }, \n1-cells:\n\t{0, [1 2], }, \n\t{[0 1], 2, }, \n\t{[0 2], 1, }\n".toList := by decide +kernel
example : readComplex "0-cells: 1 cells in total\n\t{0, 1, }, \n1-cells: 2 cells in total\n\t{0, [2 4], }, \n\t{[2 4], 3, }\n".toList =
    some [.head 0 (some 1), .cell [.vertex 0, .vertex 1], .head 1 (some 2), .cell [.vertex 0, .edge 2 4], .cell [.edge 2 4, .vertex 3]] := by decide +kernel

end Toppo.Text
