import Verif.Props.TextMatrix
import Verif.Props.Homology
set_option linter.unusedVariables false

/-
C99: the descriptions of the cycles and of the boundaries.
-/
namespace Toppo.Text
open Toppo Hom

/-! ### Specification -/

/-- a generator as it is read: coefficients and texts of cells -/
abbrev Gen := List (Int × Text)

/-- a header line `i-word: ` -/
def readHead (word t : Text) : Option Nat :=
  match fields '-' t with
  | [i, w] => if w = word ++ [':', ' '] then readNat i else none
  | _ => none

/-- the rest of a generator line, `sum, ` -/
def readGen (t : Text) : Option Gen := if t.drop (t.length - 2) = [',', ' '] then readSum (t.take (t.length - 2)) else none

/-- lines read from the last to the first: the generators that have no header yet, and the finished blocks -/
def readBlocks (word : Text) : List Text → Option (List Gen × List (Nat × List Gen))
  | [] => some ([], [])
  | ('\t' :: t) :: l => do
    let (s, r) ← readBlocks word l
    return ((← readGen t) :: s, r)
  | t :: l => do
    let (s, r) ← readBlocks word l
    return ([], (← readHead word t, s) :: r)

/-- a description: for every header its number and the generators below it -/
def readDescription (word t : Text) : Option (List (Nat × List Gen)) := do
  let (s, r) ← readBlocks word (fields '\n' t).dropLast
  if s = [] then return r else none

/-- the vector that a generator stands for: the coefficient of the `j`-th cell is the sum of the coefficients in front of its text -/
def genVec {B : Type} (sh : B → Text) (basis : List B) (m : Nat) (g : Gen) : Fin m → ℤ :=
  fun j => (basis[j.1]?).elim 0 (fun b => ((g.filter (fun t => decide (t.2 = sh b))).map Prod.fst).sum)

/-- the cells can be told apart by their texts, and their texts can be told from what is around them -/
structure Readable {B : Type} (sh : B → Text) (cplx : List (BMap B)) : Prop where
  plain : ∀ b ∈ cplx, ∀ x ∈ b.basis, PlainTerm (sh x) ∧ '\n' ∉ sh x
  inj : ∀ b ∈ cplx, ∀ x ∈ b.basis, ∀ y ∈ b.basis, sh x = sh y → x = y

/-! ### Proof -/

/-- a generator as it is written -/
def asGen {B : Type} (sh : B → Text) (v : FSum Int B) : Gen := v.map (fun t => (t.1, sh t.2))

def GoodSum {B : Type} (sh : B → Text) (v : FSum Int B) : Prop := ∀ t ∈ v, PlainTerm (sh t.2) ∧ '\n' ∉ sh t.2

theorem sum_noline {B : Type} {sh : B → Text} {v : FSum Int B} (h : GoodSum sh v) : '\n' ∉ formalSum sh v := by
  have hd : ∀ z : Int, '\n' ∉ decI z := fun z => not_mem_decI (by decide) (by decide)
  cases v with
  | nil => exact (by decide : '\n' ∉ ['0'])
  | cons t l =>
    rw [formalSum, List.mem_append, not_or]
    constructor
    · have := (h t (by simp)).2
      have h2 := hd t.1
      unfold firstTerm
      split_ifs <;> simp [this, h2]
    · intro hm
      obtain ⟨s, hs, hm⟩ := List.mem_flatMap.mp hm
      have := (h s (List.mem_cons_of_mem _ hs)).2
      have h2 := hd s.1
      simp [laterTerm, this, h2] at hm

/-- a generator line without its end -/
def genBody {B : Type} (sh : B → Text) (v : FSum Int B) : Text := '\t' :: (formalSum sh v ++ [',', ' '])

theorem readGen_text {B : Type} {sh : B → Text} {v : FSum Int B} (h : GoodSum sh v) : readGen (formalSum sh v ++ [',', ' ']) = some (asGen sh v) := by
  unfold readGen
  have e : (formalSum sh v ++ [',', ' ']).length - 2 = (formalSum sh v).length := by simp
  rw [e, List.drop_left, if_pos rfl, List.take_left, c98_reads sh v (fun t ht => (h t ht).1)]; rfl

theorem readHead_text (word : Text) (hw : '-' ∉ word) (i : Nat) : readHead word (dec i ++ '-' :: (word ++ [':', ' '])) = some i := by
  unfold readHead
  rw [fields_cut (not_mem_dec (by decide)), fields_none (by
    simp only [List.mem_append, not_or]
    exact ⟨hw, by decide⟩)]
  simp only
  rw [if_pos trivial, readNat_dec]

/-- the lines of one block -/
def blockLines {B : Type} (sh : B → Text) (word : Text) (gi : List (FSum Int B) × Nat) : List Text :=
  (dec gi.2 ++ '-' :: (word ++ [':', ' '])) :: gi.1.map (genBody sh)

theorem readBlocks_gens {B : Type} {sh : B → Text} (word : Text) (L : List Text) : ∀ (gs : List (FSum Int B)), (∀ v ∈ gs, GoodSum sh v) →
    readBlocks word (gs.map (genBody sh) ++ L) = (readBlocks word L).map (fun sr => (gs.map (asGen sh) ++ sr.1, sr.2))
  | [], _ => by
    rw [List.map_nil, List.nil_append]
    cases readBlocks word L <;> rfl
  | v :: gs, h => by
    rw [List.map_cons, List.cons_append, genBody, readBlocks, readBlocks_gens word L gs (fun w hw => h w (List.mem_cons_of_mem _ hw)), readGen_text (h v (by simp))]
    cases readBlocks word L <;> rfl

theorem readBlocks_head {word t : Text} {i : Nat} (L : List Text) (h : readHead word t = some i) (ht : t.head? ≠ some '\t') :
    readBlocks word (t :: L) = (readBlocks word L).map (fun sr => ([], (i, sr.1) :: sr.2)) := by
  rw [readBlocks]
  · rw [h]; cases readBlocks word L <;> rfl
  · rintro t' rfl
    simp at ht

theorem readBlocks_all {B : Type} {sh : B → Text} (word : Text) (hw : '-' ∉ word) : ∀ (l : List (List (FSum Int B) × Nat)), (∀ gi ∈ l, ∀ v ∈ gi.1, GoodSum sh v) →
    readBlocks word (l.flatMap (blockLines sh word)) = some ([], l.map (fun gi => (gi.2, gi.1.map (asGen sh))))
  | [], _ => rfl
  | gi :: l, h => by
    have hh : (dec gi.2 ++ '-' :: (word ++ [':', ' '])).head? ≠ some '\t' := by
      intro e
      rcases hd : dec gi.2 with _ | ⟨c, t⟩
      · exact dec_ne_nil _ hd
      · have := dec_head hd
        rw [hd] at e
        simp only [List.cons_append, List.head?_cons, Option.some.injEq] at e
        rw [e] at this
        exact absurd this (by decide)
    rw [List.flatMap_cons, blockLines, List.cons_append, readBlocks_head _ (readHead_text word hw gi.2) hh, readBlocks_gens word _ gi.1 (h gi (by simp)),
      readBlocks_all word hw l (fun a ha => h a (List.mem_cons_of_mem _ ha))]
    simp

theorem readDescription_text {B : Type} {sh : B → Text} (word : Text) (hw : '-' ∉ word) (hn : '\n' ∉ word) (l : List (List (FSum Int B) × Nat)) (h : ∀ gi ∈ l, ∀ v ∈ gi.1, GoodSum sh v) :
    readDescription word (l.flatMap (fun gi => dec gi.2 ++ '-' :: (word ++ [':', ' ', '\n']) ++ gi.1.flatMap (generatorLine sh))) =
      some (l.map (fun gi => (gi.2, gi.1.map (asGen sh)))) := by
  have e : l.flatMap (fun gi => dec gi.2 ++ '-' :: (word ++ [':', ' ', '\n']) ++ gi.1.flatMap (generatorLine sh)) =
      ((l.flatMap (blockLines sh word)).map (· ++ ['\n'])).flatten := by
    rw [← List.flatMap_def, List.flatMap_assoc]
    apply List.flatMap_congr
    intro gi _
    rw [blockLines, List.flatMap_cons, List.flatMap_map]
    congr 1
    · simp
    · apply List.flatMap_congr
      intro v _
      simp [generatorLine, genBody]
  unfold readDescription
  rw [e, fields_lines, List.dropLast_concat, readBlocks_all word hw l h]
  · rfl
  · intro t ht
    obtain ⟨gi, hgi, ht⟩ := List.mem_flatMap.mp ht
    rcases List.mem_cons.mp ht with rfl | ht
    · simp only [List.mem_append, List.mem_cons, not_or]
      exact ⟨not_mem_dec (by decide), by decide, hn, by decide⟩
    · obtain ⟨v, hv, rfl⟩ := List.mem_map.mp ht
      have := sum_noline (h gi hgi v hv)
      simp [genBody, this]

/-- **C99**: the description of the cycles lists, for every dimension that is kept, in order, the cycles found, term by term. -/
theorem c99_cycles_read {B : Type} (sh : B → Text) (res : List (Out B)) (h : ∀ o ∈ res, ∀ v ∈ o.cycles, ∀ t ∈ v, PlainTerm (sh t.2) ∧ '\n' ∉ sh t.2) :
    readDescription "cycles".toList (describeCycles sh res) = some (res.zipIdx.map (fun oi => (oi.2, oi.1.cycles.map (fun v => v.map (fun t => (t.1, sh t.2)))))) := by
  have := readDescription_text (sh := sh) "cycles".toList (by decide) (by decide) (res.zipIdx.map (fun oi => (oi.1.cycles, oi.2))) (by
    intro gi hgi v hv
    obtain ⟨oi, ho, rfl⟩ := List.mem_map.mp hgi
    exact h oi.1 (List.fst_mem_of_mem_zipIdx ho) v hv)
  rw [List.flatMap_map, List.map_map] at this
  refine Eq.trans (congrArg _ ?_) this
  unfold describeCycles
  apply List.flatMap_congr
  intro oi _
  simp

/-- **C99**: the same for the boundaries. -/
theorem c99_boundaries_read {B : Type} (sh : B → Text) (res : List (Out B)) (h : ∀ o ∈ res, ∀ v ∈ o.boundaries, ∀ t ∈ v, PlainTerm (sh t.2) ∧ '\n' ∉ sh t.2) :
    readDescription "boundaries".toList (describeBoundaries sh res) = some (res.zipIdx.map (fun oi => (oi.2, oi.1.boundaries.map (fun v => v.map (fun t => (t.1, sh t.2)))))) := by
  have := readDescription_text (sh := sh) "boundaries".toList (by decide) (by decide) (res.zipIdx.map (fun oi => (oi.1.boundaries, oi.2))) (by
    intro gi hgi v hv
    obtain ⟨oi, ho, rfl⟩ := List.mem_map.mp hgi
    exact h oi.1 (List.fst_mem_of_mem_zipIdx ho) v hv)
  rw [List.flatMap_map, List.map_map] at this
  refine Eq.trans (congrArg _ ?_) this
  unfold describeBoundaries
  apply List.flatMap_congr
  intro oi _
  simp

variable {B : Type} [LinearOrder B]

/-- a term of a sum in normal form has its coefficient -/
theorem coef_of_mem : ∀ {v : FSum Int B}, FSum.Sorted v → ∀ x ∈ v, FSum.coef v x.2 = x.1
  | [], _, x, hx => by simp at hx
  | y :: ys, hv, x, hx => by
    have hy := List.pairwise_cons.mp hv
    rw [FSum.coef_cons]
    rcases List.mem_cons.mp hx with rfl | hx
    · rw [if_pos rfl, FSum.coef_not_mem, add_zero]
      intro z hz; exact (hy.1 z hz).ne'
    · rw [if_neg (hy.1 x hx).ne, zero_add]; exact coef_of_mem hy.2 x hx

theorem genVec_asGen {sh : B → Text} {basis : List B} {m : Nat} (hinj : ∀ x ∈ basis, ∀ y ∈ basis, sh x = sh y → x = y) : ∀ {v : FSum Int B}, (∀ t ∈ v, t.2 ∈ basis) →
    genVec sh basis m (asGen sh v) = vec basis m v := by
  intro v hv
  funext j
  unfold genVec vec
  cases hb : basis[j.1]? with
  | none => rfl
  | some b =>
    have hbm := List.mem_of_getElem? hb
    simp only [Option.elim_some, asGen]
    induction v with
    | nil => rfl
    | cons t l ih =>
      rw [List.map_cons, List.filter_cons, FSum.coef_cons, ← ih (fun s hs => hv s (List.mem_cons_of_mem _ hs))]
      by_cases e : t.2 = b
      · simp [e]
      · have : sh t.2 ≠ sh b := fun e' => e (hinj _ (hv t (by simp)) _ hbm e')
        simp [e, this]

/-- **C99**: for every chain complex whose cells have readable texts, the two descriptions can be read back; in every dimension that is kept the
listed cycles generate the kernel of the boundary map, the listed boundaries generate the image of the next one, and they are as many as the ranks say. -/
theorem c99_generate {cplx : List (BMap B)} (sh : B → Text) (h : ChainCplx cplx) (hs : Readable sh cplx) (maxDim : Option Nat) :
    ∃ f0 res, (∀ fuel, f0 ≤ fuel → Hom.new fuel cplx maxDim = some res) ∧
      ∃ C D, readDescription "cycles".toList (describeCycles sh res) = some C ∧ readDescription "boundaries".toList (describeBoundaries sh res) = some D ∧
        C.length = res.length ∧ D.length = res.length ∧
        ∀ i b, cplx[i]? = some b → i < res.length → ∃ gs hs, C[i]? = some (i, gs) ∧ D[i]? = some (i, hs) ∧
          Submodule.span ℤ {v | ∃ g ∈ gs, v = genVec sh b.basis b.m g} = Z b.n b.m b.a ∧ gs.length = b.m - rk b.n b.m b.a ∧
          Submodule.span ℤ {v | ∃ g ∈ hs, v = genVec sh b.basis b.m g} = Bd b.m (upper cplx i).1 (upper cplx i).2 ∧
          hs.length = rk b.m (upper cplx i).1 (upper cplx i).2 := by
  obtain ⟨f0, res, h1, h2, -, h4, -⟩ := Hom.c44_homology h maxDim
  have hb : ∀ i (hi : i < res.length), ∃ b, cplx[i]? = some b := fun i hi => ⟨cplx[i]'(by omega), by simp⟩
  have hin : ∀ i b (hi : i < res.length), cplx[i]? = some b → ∀ v, v ∈ res[i].cycles ∨ v ∈ res[i].boundaries → ∀ t ∈ v, t.2 ∈ b.basis := by
    intro i b hi hb v hv t ht
    have hc := h2 i b res[i] hb (by simp [hi])
    obtain ⟨n1, n2⟩ := hc.normal v hv
    by_contra hcon
    have := hc.support v hv t.2 hcon
    rw [coef_of_mem n1 t ht] at this
    exact n2 t ht this
  have hall : ∀ o ∈ res, ∀ v, v ∈ o.cycles ∨ v ∈ o.boundaries → ∀ t ∈ v, PlainTerm (sh t.2) ∧ '\n' ∉ sh t.2 := by
    intro o ho v hv t ht
    obtain ⟨i, hi, rfl⟩ := List.getElem_of_mem ho
    obtain ⟨b, hbi⟩ := hb i hi
    exact hs.plain b (List.mem_of_getElem? hbi) _ (hin i b hi hbi v hv t ht)
  refine ⟨f0, res, h1, _, _, c99_cycles_read sh res (fun o ho v hv => hall o ho v (Or.inl hv)), c99_boundaries_read sh res (fun o ho v hv => hall o ho v (Or.inr hv)), by simp, by simp, ?_⟩
  intro i b hbi hi
  have hc := h2 i b res[i] hbi (by simp [hi])
  have hset : ∀ l : List (FSum Int B), (∀ v ∈ l, v ∈ res[i].cycles ∨ v ∈ res[i].boundaries) →
      {v | ∃ g ∈ l.map (asGen sh), v = genVec sh b.basis b.m g} = {v | ∃ c ∈ l, v = vec b.basis b.m c} := by
    intro l hl
    ext v
    simp only [Set.mem_ofPred_eq, List.mem_map]
    constructor
    · rintro ⟨g, ⟨c, hcl, rfl⟩, rfl⟩
      exact ⟨c, hcl, genVec_asGen (hs.inj b (List.mem_of_getElem? hbi)) (hin i b hi hbi c (hl c hcl))⟩
    · rintro ⟨c, hcl, rfl⟩
      exact ⟨_, ⟨c, hcl, rfl⟩, (genVec_asGen (hs.inj b (List.mem_of_getElem? hbi)) (hin i b hi hbi c (hl c hcl))).symm⟩
  refine ⟨res[i].cycles.map (asGen sh), res[i].boundaries.map (asGen sh), by simp [hi, asGen], by simp [hi, asGen], ?_, ?_, ?_, ?_⟩
  · rw [hset _ (fun v hv => Or.inl hv)]; exact hc.cycles.1
  · rw [List.length_map]; exact hc.cycles.2
  · rw [hset _ (fun v hv => Or.inr hv)]; exact hc.boundaries.1
  · rw [List.length_map]; exact hc.boundaries.2

/-! ### Examples -/

/-- the names of the cells of a circle with two vertices and two edges -/
def exName (k : Nat) : Text := 'e' :: dec k

example : Readable exName exCircle := by
  constructor
  · intro b hb x hx
    simp only [exCircle, List.mem_cons, List.not_mem_nil, or_false] at hb
    rcases hb with rfl | rfl <;> simp only [List.mem_cons, List.not_mem_nil, or_false] at hx <;> rcases hx with rfl | rfl <;> unfold PlainTerm <;> decide
  · intro b _ x _ y _ e
    exact dec_inj (List.cons.inj e).2

/-- a circle, with the generators that are found -/
def exOuts : List (Out Nat) :=
  [{ module := ⟨1, []⟩, cycles := [[(1, 0)], [(1, 1)]], boundaries := [[(-1, 0), (1, 1)]] }, { module := ⟨1, []⟩, cycles := [[(-1, 2), (7, 3)]], boundaries := [] }]

example : describeCycles exName exOuts = "0-cycles: \n\te0, \n\te1, \n1-cycles: \n\t-e2 + (7)·e3, \n".toList := by decide +kernel
example : describeBoundaries exName exOuts = "0-boundaries: \n\t-e0 + (1)·e1, \n1-boundaries: \n".toList := by decide +kernel
example : readDescription "cycles".toList "0-cycles: \n\te0, \n\te1, \n1-cycles: \n\t-e2 + (7)·e3, \n".toList =
    some [(0, [[(1, "e0".toList)], [(1, "e1".toList)]]), (1, [[(-1, "e2".toList), (7, "e3".toList)]])] := by rfl

end Toppo.Text
