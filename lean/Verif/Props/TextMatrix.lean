import Verif.Props.TextCube
import Verif.Props.Sparse
import Verif.Props.FormalSum
set_option linter.unusedVariables false

/-
C97: the texts of integer matrices.  C98: the texts of formal sums.
-/
namespace Toppo.Text
open Toppo Sparse

/-! ### Specification -/

/-- numbers with tabulators between them, perhaps none -/
def readRow (t : Text) : Option (List Int) := if t = [] then some [] else (fields '\t' t).mapM readInt

/-- `| a .. a |` -/
def readBar (t : Text) : Option (List Int) :=
  match fields ' ' t with
  | [['|'], body, ['|']] => readRow body
  | _ => none

/-- an empty line, then the rows -/
def readMatrix (t : Text) : Option (List (List Int)) :=
  match (fields '\n' t).dropLast with
  | [] :: rows => rows.mapM readBar
  | _ => none

/-- `(i, j): v` -/
def readEntry : Text → Option (Nat × Nat × Int)
  | '(' :: t =>
    match fields ' ' t with
    | [i, j, v] =>
      match fields ',' i, fields ')' j with
      | [i, []], [j, [':']] => do return (← readNat i, ← readNat j, ← readInt v)
      | _, _ => none
    | _ => none
  | _ => none

/-- one entry in every line -/
def readSparse (t : Text) : Option (List (Nat × Nat × Int)) := (fields '\n' t).dropLast.mapM readEntry

/-- the first term: `x`, `-x` or `c·x` -/
def readFirst (t : Text) : Option (Int × Text) :=
  match fields '·' t with
  | ['-' :: x] => some (-1, x)
  | [x] => some (1, x)
  | [c, x] => do return (← readInt c, x)
  | _ => none

/-- a later term: ` (c)·x` -/
def readLater (t : Text) : Option (Int × Text) :=
  match fields '·' t with
  | [' ' :: '(' :: c, x] =>
    match fields ')' c with
    | [c, []] => do return (← readInt c, x)
    | _ => none
  | _ => none

/-- every part but the last without its last character -/
def cutEnds : List Text → List Text
  | [] => []
  | [x] => [x]
  | x :: y :: l => x.dropLast :: cutEnds (y :: l)

/-- `0`, or terms with ` + ` between them -/
def readSum (t : Text) : Option (List (Int × Text)) :=
  if t = ['0'] then some []
  else match cutEnds (fields '+' t) with
    | [] => none
    | f :: l => do return (← readFirst f) :: (← l.mapM readLater)

/-- a text of a basis element that can be told from the rest -/
def PlainTerm (x : Text) : Prop := '+' ∉ x ∧ '·' ∉ x ∧ x.head? ≠ some '-' ∧ x ≠ ['0']

/-! ### C97 -/

theorem readRow_join (l : List Int) : readRow (joinT ['\t'] (l.map decI)) = some l := by
  unfold readRow
  cases l with
  | nil => rfl
  | cons x l =>
    rw [if_neg (joinT_ne_nil (by simp) (by
      intro y hy
      obtain ⟨z, -, rfl⟩ := List.mem_map.mp hy
      exact decI_ne_nil z)), fields_join (by simp) (by
      intro y hy
      obtain ⟨z, -, rfl⟩ := List.mem_map.mp hy
      exact not_mem_decI (by decide) (by decide)), mapM_readInt]

/-- a line without its end -/
def barText (l : List Int) : Text := ['|', ' '] ++ joinT ['\t'] (l.map decI) ++ [' ', '|']

theorem join_char (l : List Int) {c : Char} (h1 : c.isDigit = false) (h2 : c ≠ '-') (h3 : c ≠ '\t') : c ∉ joinT ['\t'] (l.map decI) :=
  not_mem_joinT (by simpa using h3) (by
    intro y hy
    obtain ⟨z, -, rfl⟩ := List.mem_map.mp hy
    exact not_mem_decI h1 h2)

theorem readBar_text (l : List Int) : readBar (barText l) = some l := by
  have e : barText l = ['|'] ++ ' ' :: (joinT ['\t'] (l.map decI) ++ ' ' :: ['|']) := by simp [barText]
  unfold readBar
  rw [e, fields_cut (by decide), fields_cut (join_char l (by decide) (by decide) (by decide)), fields_none (by decide)]
  exact readRow_join l

/-- **C97**: the entries of an integer matrix, row by row, can be read off its text. -/
theorem c97_matrix (n m : Nat) (a : Nat → Nat → Int) : readMatrix (matrix n m a) = some ((List.range n).map (fun i => (List.range m).map (fun j => a i j))) := by
  have e : matrix n m a = '\n' :: (List.range n).flatMap (fun i => barText ((List.range m).map (fun j => a i j)) ++ ['\n']) := by
    simp only [matrix, barText, List.map_map, List.singleton_append]
    congr 1
    apply List.flatMap_congr
    intro i _
    simp [Function.comp_def]
  unfold readMatrix
  have hf : fields '\n' (matrix n m a) = [] :: ((List.range n).map (fun i => barText ((List.range m).map (fun j => a i j))) ++ [ [] ]) := by
    rw [e, fields, if_pos rfl, fields_flatMap (g := fun i => barText ((List.range m).map (fun j => a i j))) (fun _ => rfl)]
    intro i _
    simp only [barText, List.mem_append, not_or]
    exact ⟨⟨by decide, join_char _ (by decide) (by decide) (by decide)⟩, by decide⟩
  rw [hf, List.dropLast_cons_of_ne_nil (by simp), List.dropLast_concat]
  simp only
  rw [List.mapM_map]
  induction (List.range n) with
  | nil => rfl
  | cons i l ih =>
    rw [List.mapM_cons, ih, Function.comp_apply, readBar_text]; rfl

/-- **C97**: two matrices with at least one row have the same text if and only if they have the same size and the same entries. -/
theorem c97_matrix_eq (n m n' m' : Nat) (a a' : Nat → Nat → Int) (hn : n ≠ 0) :
    matrix n m a = matrix n' m' a' ↔ n = n' ∧ m = m' ∧ ∀ i j, i < n → j < m → a i j = a' i j := by
  constructor
  · intro h
    have h1 := c97_matrix n m a
    rw [h, c97_matrix n' m' a'] at h1
    have h2 := Option.some.inj h1
    have e1 : n' = n := by simpa using congrArg List.length h2
    subst e1
    have h3 : ∀ i, i < n' → (List.range m').map (fun j => a' i j) = (List.range m).map (fun j => a i j) := by
      intro i hi
      have := congrArg (fun l => l[i]?) h2
      simpa [hi] using this
    have e2 : m' = m := by simpa using congrArg List.length (h3 0 (by omega))
    subst e2
    refine ⟨rfl, rfl, fun i j hi hj => ?_⟩
    have := congrArg (fun l => l[j]?) (h3 i hi)
    simpa [hj] using this.symm
  · rintro ⟨rfl, rfl, h⟩
    unfold matrix
    congr 1
    apply List.flatMap_congr
    intro i hi
    congr 2
    congr 1
    apply List.map_congr_left
    intro j hj
    rw [h i j (List.mem_range.mp hi) (List.mem_range.mp hj)]

/-- C97, outside: matrices without rows all have the same text. -/
theorem c97_no_rows (m m' : Nat) (a a' : Nat → Nat → Int) : matrix 0 m a = matrix 0 m' a' := rfl

/-- an entry line without its end -/
def entryText (e : Nat × Nat × Int) : Text := ['('] ++ dec e.1 ++ [',', ' '] ++ dec e.2.1 ++ [')', ':', ' '] ++ decI e.2.2

theorem readEntry_text (e : Nat × Nat × Int) : readEntry (entryText e) = some e := by
  obtain ⟨i, j, v⟩ := e
  have e : entryText (i, j, v) = '(' :: ((dec i ++ [',']) ++ ' ' :: ((dec j ++ [')', ':']) ++ ' ' :: decI v)) := by simp [entryText]
  rw [e]
  unfold readEntry
  simp only
  rw [fields_cut (by
    simp only [List.mem_append, not_or]
    exact ⟨not_mem_dec (by decide), by decide⟩), fields_cut (by
    simp only [List.mem_append, not_or]
    exact ⟨not_mem_dec (by decide), by decide⟩), fields_none (not_mem_decI (by decide) (by decide))]
  simp only
  rw [fields_cut (not_mem_dec (by decide)), fields_none (by decide), fields_cut (not_mem_dec (by decide)), fields_none (by decide)]
  simp only
  rw [readNat_dec, readNat_dec, readInt_decI]; rfl

/-- **C97**: the text of a sparse matrix lists exactly its entries, by rows and columns. -/
theorem c97_sparse {a : SMat Int} {n m : Nat} {f : Nat → Nat → Option Int} (h : Represents a n m f) :
    ∃ t l, sparse a = some t ∧ readSparse t = some l ∧ l.Nodup ∧ (∀ i j v, (i, j, v) ∈ l ↔ i < n ∧ j < m ∧ f i j = some v) ∧
      l.Pairwise (fun x y => x.1 < y.1 ∨ (x.1 = y.1 ∧ x.2.1 < y.2.1)) := by
  have hrow : ∀ i, i < n → a.rowIter i = some ((List.range m).filterMap (fun j => (f i j).map (fun v => (j, v)))) := by
    intro i hi
    rw [h.row i, if_pos hi]; rfl
  let L : List (Nat × Nat × Int) := (List.range n).flatMap (fun i => (List.range m).filterMap (fun j => (f i j).map (fun v => (i, j, v))))
  have ht : sparse a = some (L.flatMap (fun e => entryText e ++ ['\n'])) := by
    unfold sparse
    rw [h.size]
    have : (List.range n).mapM (fun i => do
        let l ← a.rowIter i
        return l.flatMap (fun jv => sparseLine (i, jv.1, jv.2))) =
        some ((List.range n).map (fun i => ((List.range m).filterMap (fun j => (f i j).map (fun v => (i, j, v)))).flatMap (fun e => entryText e ++ ['\n']))) := by
      have key : ∀ l : List Nat, (∀ i ∈ l, i < n) → l.mapM (fun i => do
          let l ← a.rowIter i
          return l.flatMap (fun jv => sparseLine (i, jv.1, jv.2))) =
          some (l.map (fun i => ((List.range m).filterMap (fun j => (f i j).map (fun v => (i, j, v)))).flatMap (fun e => entryText e ++ ['\n']))) := by
        intro l
        induction l with
        | nil => intro _; rfl
        | cons i l ih =>
          intro hl
          rw [List.mapM_cons, ih (fun j hj => hl j (List.mem_cons_of_mem _ hj)), hrow i (hl i (by simp))]
          simp only [Option.bind_eq_bind, Option.bind_some, List.map_cons]
          show some (_ :: _) = some (_ :: _)
          congr 2
          have e : (List.range m).filterMap (fun j => (f i j).map (fun v => (i, j, v))) =
              ((List.range m).filterMap (fun j => (f i j).map (fun v => (j, v)))).map (fun jv => (i, jv.1, jv.2)) := by
            rw [List.map_filterMap]
            congr 1
            funext j
            cases f i j <;> rfl
          rw [e, List.flatMap_map]
          rfl
      exact key _ (fun i hi => List.mem_range.mp hi)
    simp only [Option.bind_eq_bind]
    simp only [Option.bind_eq_bind] at this
    rw [this]
    show some _ = some _
    congr 1
    rw [List.flatMap_assoc, List.flatMap_def]
  have hr : readSparse (L.flatMap (fun e => entryText e ++ ['\n'])) = some L := by
    unfold readSparse
    rw [fields_flatMap (g := entryText) (fun _ => rfl) (by
      intro e _
      simp only [entryText, List.mem_append, not_or]
      exact ⟨⟨⟨⟨⟨by decide, not_mem_dec (by decide)⟩, by decide⟩, not_mem_dec (by decide)⟩, by decide⟩, not_mem_decI (by decide) (by decide)⟩), List.dropLast_concat]
    exact mapM_read _ (fun e _ => readEntry_text e)
  have hp : L.Pairwise (fun x y => x.1 < y.1 ∨ (x.1 = y.1 ∧ x.2.1 < y.2.1)) := by
    refine List.pairwise_flatMap.mpr ⟨?_, ?_⟩
    · intro i _
      refine List.pairwise_filterMap.mpr (List.pairwise_lt_range.imp ?_)
      intro j j' hj x hx y hy
      obtain ⟨v, -, rfl⟩ := Option.map_eq_some_iff.mp hx
      obtain ⟨w, -, rfl⟩ := Option.map_eq_some_iff.mp hy
      exact Or.inr ⟨rfl, hj⟩
    · refine List.pairwise_lt_range.imp ?_
      intro i i' hi x hx y hy
      obtain ⟨j, -, hx⟩ := List.mem_filterMap.mp hx
      obtain ⟨v, -, rfl⟩ := Option.map_eq_some_iff.mp hx
      obtain ⟨j', -, hy⟩ := List.mem_filterMap.mp hy
      obtain ⟨w, -, rfl⟩ := Option.map_eq_some_iff.mp hy
      exact Or.inl hi
  refine ⟨_, L, ht, hr, hp.imp (by rintro x y h rfl; omega), ?_, hp⟩
  intro i j v
  simp only [L, List.mem_flatMap, List.mem_range, List.mem_filterMap, Option.map_eq_some_iff]
  constructor
  · rintro ⟨i', hi, j', hj, v', hv, e⟩
    injection e with e1 e; injection e with e2 e3
    subst e1; subst e2; subst e3
    exact ⟨hi, hj, hv⟩
  · rintro ⟨hi, hj, hv⟩
    exact ⟨i, hi, j, hj, v, hv, rfl⟩

/-- C97, outside: printing a sparse matrix with at least one row but without entries panics. -/
theorem c97_sparse_empty_false (n m : Nat) (hn : n ≠ 0) (f : Nat → Nat → Option Int) (he : ∀ i j, i < n → j < m → f i j = none) :
    ∃ a, fromFn (n, m) f = some a ∧ sparse a = none := by
  obtain ⟨a, h1, h2, h3⟩ := c40_empty_false n m f he
  refine ⟨a, h1, ?_⟩
  unfold sparse
  rw [h2]
  obtain ⟨k, rfl⟩ := Nat.exists_eq_succ_of_ne_zero hn
  simp only [List.range_succ_eq_map, List.mapM_cons, (h3 0).1]
  rfl

/-! ### C98 -/

theorem decI_char (z : Int) : '·' ∉ decI z := not_mem_decI (by decide) (by decide)

theorem readFirst_term {B : Type} {sh : B → Text} {t : Int × B} (h : PlainTerm (sh t.2)) : readFirst (firstTerm sh t) = some (t.1, sh t.2) := by
  obtain ⟨c, b⟩ := t
  obtain ⟨-, h2, h3, -⟩ := h
  simp only at h2 h3
  unfold firstTerm
  simp only
  split_ifs with a1 a2
  · unfold readFirst
    rw [fields_none h2, a1]
    split
    · rename_i x e
      rw [(List.cons.inj e).1] at h3
      simp at h3
    · rename_i x _ e
      rw [(List.cons.inj e).1]
    · rename_i e; simp at e
    · rename_i e1 e2 e3; exact absurd rfl (e2 _)
  · unfold readFirst
    rw [fields_none (by simp only [List.mem_append, not_or]; exact ⟨by decide, h2⟩), a2]
    rfl
  · unfold readFirst
    rw [List.append_assoc, List.singleton_append, fields_cut (decI_char c), fields_none h2]
    simp [readInt_decI]

/-- a later term without the ` +` in front -/
def laterBody {B : Type} (sh : B → Text) (t : Int × B) : Text := [' ', '('] ++ decI t.1 ++ [')', '·'] ++ sh t.2

theorem readLater_term {B : Type} {sh : B → Text} {t : Int × B} (h : PlainTerm (sh t.2)) : readLater (laterBody sh t) = some (t.1, sh t.2) := by
  obtain ⟨c, b⟩ := t
  have e : laterBody sh (c, b) = (' ' :: '(' :: (decI c ++ ')' :: [])) ++ '·' :: sh b := by simp [laterBody]
  unfold readLater
  rw [e, fields_cut (by
    simp only [List.mem_cons, List.mem_append, not_or]
    exact ⟨by decide, by decide, decI_char c, by decide⟩), fields_none h.2.1]
  simp only
  rw [fields_cut (not_mem_decI (by decide) (by decide)), fields_none (by decide)]
  simp [readInt_decI]

theorem fields_sum {B : Type} {sh : B → Text} : ∀ (l : List (Int × B)) (x : Text), '+' ∉ x → (∀ t ∈ l, PlainTerm (sh t.2)) →
    cutEnds (fields '+' (x ++ l.flatMap (laterTerm sh))) = x :: l.map (laterBody sh)
  | [], x, hx, _ => by rw [List.flatMap_nil, List.append_nil, fields_none hx]; rfl
  | t :: l, x, hx, hl => by
    have e : x ++ (t :: l).flatMap (laterTerm sh) = (x ++ [' ']) ++ '+' :: (laterBody sh t ++ l.flatMap (laterTerm sh)) := by
      simp [laterTerm, laterBody]
    have ih := fields_sum l (laterBody sh t) (by
      simp only [laterBody, List.mem_append, not_or]
      exact ⟨⟨⟨by decide, not_mem_decI (by decide) (by decide)⟩, by decide⟩, (hl t (by simp)).1⟩) (fun s hs => hl s (List.mem_cons_of_mem _ hs))
    rw [e, fields_cut (by simp only [List.mem_append, not_or]; exact ⟨hx, by decide⟩)]
    rcases hf : fields '+' (laterBody sh t ++ l.flatMap (laterTerm sh)) with _ | ⟨y, r⟩
    · rw [hf] at ih; cases ih
    · rw [hf] at ih
      rw [cutEnds, ih]
      simp

/-- **C98**: the coefficients and the texts of the basis elements of a formal sum can be read off its text, term by term. -/
theorem c98_reads {B : Type} (sh : B → Text) (v : FSum Int B) (h : ∀ t ∈ v, PlainTerm (sh t.2)) : readSum (formalSum sh v) = some (v.map (fun t => (t.1, sh t.2))) := by
  cases v with
  | nil => rfl
  | cons t l =>
    have h0 : formalSum sh (t :: l) ≠ ['0'] := by
      intro e
      have h1 := (h t (by simp))
      cases l with
      | nil =>
        simp only [formalSum, List.flatMap_nil, List.append_nil, firstTerm] at e
        split_ifs at e
        · exact h1.2.2.2 e
        · cases e
        · have : '·' ∈ ['0'] := by rw [← e]; simp
          exact absurd this (by decide)
      | cons s l =>
        have : '+' ∈ ['0'] := by rw [← e]; simp [formalSum, laterTerm]
        exact absurd this (by decide)
    unfold readSum
    have hp : '+' ∉ firstTerm sh t := by
      have := (h t (by simp)).1
      have hd : '+' ∉ decI t.1 := not_mem_decI (by decide) (by decide)
      unfold firstTerm
      split_ifs
      · exact this
      · simp [this]
      · simp [this, hd]
    rw [if_neg h0, formalSum, fields_sum l _ hp (fun s hs => h s (List.mem_cons_of_mem _ hs))]
    simp only
    have hl : (l.map (laterBody sh)).mapM readLater = some (l.map (fun t => (t.1, sh t.2))) := by
      have hl' := fun s hs => h s (List.mem_cons_of_mem t hs)
      clear h h0 hp
      induction l with
      | nil => rfl
      | cons s l ih =>
        rw [List.map_cons, List.mapM_cons, readLater_term (hl' s (by simp)), ih (fun u hu => hl' u (List.mem_cons_of_mem _ hu))]; rfl
    rw [readFirst_term (h t (by simp)), hl]; rfl

/-- **C98**: if different basis elements have different texts, two formal sums have the same text if and only if they are the same list of terms. -/
theorem c98_text_eq {B : Type} (sh : B → Text) (v w : FSum Int B) (hi : ∀ t ∈ v, ∀ s ∈ w, sh t.2 = sh s.2 → t.2 = s.2) (hv : ∀ t ∈ v, PlainTerm (sh t.2)) (hw : ∀ t ∈ w, PlainTerm (sh t.2)) :
    formalSum sh v = formalSum sh w ↔ v = w := by
  constructor
  · intro h
    have h1 := c98_reads sh v hv
    rw [h, c98_reads sh w hw] at h1
    refine map_inj_on (f := fun t : Int × B => (t.1, sh t.2)) ?_ (Option.some.inj h1).symm
    rintro ⟨c, b⟩ m1 ⟨c', b'⟩ m2 e
    injection e with e1 e2
    simp only at e1 e2
    rw [e1, show b = b' from hi _ m1 _ m2 e2]
  · rintro rfl; rfl

/-- **C98**: for normal formal sums, equal texts mean equal coefficients. -/
theorem c98_coefficients {B : Type} [LinearOrder B] (sh : B → Text) (v w : FSum Int B) (hi : ∀ t ∈ v, ∀ s ∈ w, sh t.2 = sh s.2 → t.2 = s.2) (hv : ∀ t ∈ v, PlainTerm (sh t.2))
    (hw : ∀ t ∈ w, PlainTerm (sh t.2)) (sv : FSum.Sorted v) (sw : FSum.Sorted w) (zv : ∀ t ∈ v, t.1 ≠ 0) (zw : ∀ t ∈ w, t.1 ≠ 0) :
    formalSum sh v = formalSum sh w ↔ ∀ b, FSum.coef v b = FSum.coef w b := by
  rw [c98_text_eq sh v w hi hv hw, FSum.c25_normal_form_unique v w sv sw zv zw]

/-- **C98** for sums of cubes, such as boundaries: the terms can be read off the text. -/
theorem c98_cubes (v w : FSum Int (List RawGraph.Factor)) (hv : ∀ t ∈ v, t.2 ≠ []) (hw : ∀ t ∈ w, t.2 ≠ []) :
    readSum (formalSum (fun c => (cube c).getD []) v) = some (v.map (fun t => (t.1, (cube t.2).getD []))) ∧
    (formalSum (fun c => (cube c).getD []) v = formalSum (fun c => (cube c).getD []) w ↔ v = w) := by
  have he : ∀ c : List RawGraph.Factor, c ≠ [] → cube c = some (['{'] ++ joinT [',', ' '] (c.map factor) ++ ['}']) := by
    intro c hc
    cases c with
    | nil => exact absurd rfl hc
    | cons f c => rfl
  have hp : ∀ c : List RawGraph.Factor, c ≠ [] → PlainTerm ((cube c).getD []) := by
    intro c hc
    rw [he c hc]
    have hj : ∀ x : Char, x.isDigit = false → x ∉ [',', ' ', '[', ']'] → x ∉ joinT [',', ' '] (c.map factor) := by
      intro x h1 h2
      simp only [List.mem_cons, List.not_mem_nil, or_false, not_or] at h2
      refine not_mem_joinT (by simp [h2]) (fun y hy => ?_)
      obtain ⟨f, -, rfl⟩ := List.mem_map.mp hy
      exact factor_char h1 (by simp [h2])
    refine ⟨?_, ?_, by simp, by simp⟩
    · have := hj '+' (by decide) (by decide)
      simp [this]
    · have := hj '·' (by decide) (by decide)
      simp [this]
  refine ⟨c98_reads _ v (fun t ht => hp _ (hv t ht)), c98_text_eq _ v w ?_ (fun t ht => hp _ (hv t ht)) (fun t ht => hp _ (hw t ht))⟩
  intro t ht s hs e
  have h1 := he t.2 (hv t ht)
  have h2 := he s.2 (hw s hs)
  rw [h1, h2] at e
  simp only [Option.getD_some] at e
  rw [e] at h1
  exact c95_cube_inj h1 h2

/-- C98, outside: a basis element whose text begins with `-` can be taken for a coefficient -1, one with the text `0` for the zero sum. -/
theorem c98_other_texts : (∃ v w : FSum Int Int, v ≠ w ∧ formalSum decI v = formalSum decI w) ∧ ∃ v : FSum Int Int, v ≠ [] ∧ formalSum decI v = formalSum decI [] :=
  ⟨⟨[(1, -2)], [(-1, 2)], by decide, by decide +kernel⟩, [(1, 0)], by decide, by decide +kernel⟩

/-- Examples. -/
example : matrix 2 2 (fun i j => (i : Int) - 10 * j) = "\n| 0\t-10 |\n| 1\t-9 |\n".toList := by decide +kernel
example : readMatrix "\n| 0\t-10 |\n| 1\t-9 |\n".toList = some [[0, -10], [1, -9]] := by decide +kernel
example : readSparse "(0, 2): -7\n(3, 1): 12\n".toList = some [(0, 2, -7), (3, 1, 12)] := by decide +kernel
example : formalSum (fun b : Nat => ['e'] ++ dec b) [(-1, 3), (2, 14), (-5, 20)] = "-e3 + (2)·e14 + (-5)·e20".toList := by decide +kernel
example : readSum "-e3 + (2)·e14 + (-5)·e20".toList = some [(-1, "e3".toList), (2, "e14".toList), (-5, "e20".toList)] := by decide +kernel
example : PlainTerm "{[0 1], 2}".toList := by unfold PlainTerm; decide

end Toppo.Text
