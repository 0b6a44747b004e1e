import Verif.Props.TextRead
import Verif.Props.Rational
import Verif.Props.Permutation
import Verif.Props.Homology
set_option linter.unusedVariables false

/-
C90 – C92: what the texts of rationals, permutations, modules and homology say.
-/
namespace Toppo.Text
open Toppo

/-! ### rationals -/

/-- a fraction `n/d` or an integer, without its sign -/
def readFraction (t : Text) : Option ℚ :=
  match fields '/' t with
  | [n] => (readNat n).map (fun n => (n : ℚ))
  | [n, d] => do return ((← readNat n : Nat) : ℚ) / ((← readNat d : Nat) : ℚ)
  | _ => none

/-- the same with a possible minus sign -/
def readRat : Text → Option ℚ
  | '-' :: t => (readFraction t).map (fun q => -q)
  | t => readFraction t

theorem readFraction_eq (n d : Nat) : readFraction (if d = 1 then dec n else dec n ++ ['/'] ++ dec d) = some ((n : ℚ) / (d : ℚ)) := by
  have hn : '/' ∉ dec n := not_mem_dec (by decide)
  have hd : '/' ∉ dec d := not_mem_dec (by decide)
  unfold readFraction
  split_ifs with h
  · rw [fields_none hn, h]
    simp [readNat_dec]
  · rw [List.append_assoc, List.singleton_append, fields_cut hn, fields_none hd]
    simp [readNat_dec]

/-- **C90**: the text of a rational, read as a fraction or an integer in decimal notation, is the number it represents. -/
theorem c90_reads (r : Rational) : readRat (rational r) = some (RationalProps.val r) := by
  obtain ⟨n, d, s⟩ := r
  have h := readFraction_eq n d
  cases s
  · show (readFraction (if d = 1 then dec n else dec n ++ ['/'] ++ dec d)).map _ = _
    rw [h]; simp [RationalProps.val]
  · have h0 : rational ⟨n, d, true⟩ = (if d = 1 then dec n else dec n ++ ['/'] ++ dec d) := by simp [rational]
    rw [h0]
    generalize ht : (if d = 1 then dec n else dec n ++ ['/'] ++ dec d) = t at h ⊢
    have hh : ∀ t', t ≠ '-' :: t' := by
      rintro t' rfl
      rcases hd : dec n with _ | ⟨c, u⟩
      · exact dec_ne_nil n hd
      · rw [hd] at ht
        have : c = '-' := by
          split_ifs at ht
          · exact (List.cons.inj ht).1
          · exact (List.cons.inj ht).1
        have := dec_head hd
        subst c
        exact absurd this (by decide)
    unfold readRat
    split
    · exact absurd rfl (hh _)
    · rw [h]; simp [RationalProps.val]

/-- **C90** (part that holds). For two computed rationals, in whose histories no zero is negated, the texts are the same if and only if the values are. -/
theorem c90_text_eq_partial (ok : Nat → Bool) (e f : RationalProps.Expr) (he : RationalProps.NegSafe e) (hf : RationalProps.NegSafe f) (r s : Rational)
    (hr : RationalProps.run ok e = some r) (hs : RationalProps.run ok f = some s) : rational r = rational s ↔ RationalProps.eval e = RationalProps.eval f := by
  have h1 := RationalProps.c12_canonical_partial ok e he r hr
  have h2 := RationalProps.c12_canonical_partial ok f hf s hs
  rw [← h1.2, ← h2.2]
  constructor
  · intro h
    have := c90_reads r
    rw [h, c90_reads s] at this
    exact (Option.some.inj this).symm
  · intro h
    rw [RationalProps.canonical_ext h1.1 h2.1 h]

/-- **C90** (part that holds). The text of such a rational is that of an integer exactly when the value is one; otherwise it is a fraction in lowest terms. -/
theorem c90_lowest_partial (ok : Nat → Bool) (e : RationalProps.Expr) (he : RationalProps.NegSafe e) (r : Rational) (hr : RationalProps.run ok e = some r) :
    rational r = (if RationalProps.eval e < 0 then ['-'] else []) ++ dec (RationalProps.eval e).num.natAbs ++
      (if (RationalProps.eval e).den = 1 then [] else ['/'] ++ dec (RationalProps.eval e).den) := by
  obtain ⟨⟨⟨h1, h2⟩, h3⟩, h4⟩ := RationalProps.c12_canonical_partial ok e he r hr
  obtain ⟨n, d, s⟩ := r
  simp only at h1 h2 h3
  have hd0 : (d : ℚ) ≠ 0 := by exact_mod_cast Nat.pos_iff_ne_zero.mp h1
  have key : ((n : ℚ) / d).num = n ∧ ((n : ℚ) / d).den = d := by
    have hz : ((n : ℚ) / d) = ((n : Int) : ℚ) / ((d : Int) : ℚ) := by push_cast; rfl
    rw [hz]
    exact ⟨by rw [Rat.num_div_eq_of_coprime (by exact_mod_cast h1) (by simpa using h2)],
      by have := Rat.den_div_eq_of_coprime (a := (n : Int)) (b := (d : Int)) (by exact_mod_cast h1) (by simpa using h2); exact_mod_cast this⟩
  rw [← h4]
  cases s
  · have hn : n ≠ 0 := fun h => by simpa using h3 h
    have hpos : 0 < (n : ℚ) / d := div_pos (by exact_mod_cast Nat.pos_of_ne_zero hn) (by exact_mod_cast h1)
    have hv : RationalProps.val ⟨n, d, false⟩ = -((n : ℚ) / d) := by simp [RationalProps.val]
    rw [hv, if_pos (by linarith), Rat.num_neg_eq_neg_num, Rat.den_neg_eq_den, key.1, key.2]
    by_cases h : d = 1
    · simp [rational, h]
    · simp [rational, h]
  · have hpos : 0 ≤ (n : ℚ) / d := by positivity
    have hv : RationalProps.val ⟨n, d, true⟩ = (n : ℚ) / d := by simp [RationalProps.val]
    rw [hv, if_neg (by linarith), key.1, key.2]
    by_cases h : d = 1
    · simp [rational, h]
    · simp [rational, h]

/-- **C90 fails** in general: zero has two texts, `0` and `-0`. -/
theorem c90_false : ∃ r s, RationalProps.run Toppo.u64 (.new 0 1) = some r ∧ RationalProps.run Toppo.u64 (.neg (.new 0 1)) = some s ∧
    RationalProps.eval (.new 0 1) = RationalProps.eval (.neg (.new 0 1)) ∧ rational r = ['0'] ∧ rational s = ['-', '0'] :=
  ⟨⟨0, 1, true⟩, ⟨0, 1, false⟩, by decide, by decide, by simp [RationalProps.eval], by decide, by decide⟩

example : rational ⟨3, 4, false⟩ = "-3/4".toList ∧ rational ⟨10, 1, true⟩ = "10".toList := by decide
example : readRat "-3/4".toList = some (-(3 / 4)) := c90_reads ⟨3, 4, false⟩ |>.trans (by simp [RationalProps.val])

/-! ### permutations -/

/-- one cycle without its closing parenthesis -/
def readCycle : Text → Option (List Nat)
  | '(' :: t => (fields ',' t).mapM readNat
  | _ => none

/-- a product of cycles in cycle notation -/
def readCycles (t : Text) : Option (List (List Nat)) := ((fields ')' (dense t)).dropLast).mapM readCycle

theorem not_mem_decs {c : Char} {l : List Nat} (hc : c.isDigit = false) : ∀ x ∈ l.map dec, c ∉ x := by
  intro x hx
  obtain ⟨n, -, rfl⟩ := List.mem_map.mp hx
  exact not_mem_dec hc

theorem dense_decs (l : List Nat) : (l.map dec).map dense = l.map dec := by
  rw [List.map_map]
  exact List.map_congr_left (fun n _ => dense_dec n)

theorem readCycles_eq {p : Permutation} : readCycles (permutation p) = some (List.map (fun c : Cycle => if c.isEmpty then [1] else c) p) := by
  have h1 : dense (permutation p) = p.flatMap (fun c => (['('] ++ joinT [','] (List.map dec (if c.isEmpty then [1] else c))) ++ [')']) := by
    rw [permutation, dense, List.filter_flatMap]
    refine List.flatMap_congr (fun c _ => ?_)
    show dense (cycle c) = _
    rcases c with _ | ⟨x, c⟩
    · decide
    · simp only [cycle, List.isEmpty_cons, Bool.false_eq_true, if_false, dense_append, dense_joinT, dense_decs]
      rfl
  unfold readCycles
  rw [h1, fields_flatMap (g := fun c : Cycle => ['('] ++ joinT [','] (List.map dec (if c.isEmpty then [1] else c))) (fun _ => rfl) (by
      intro c _
      simp only [List.mem_append, not_or]
      exact ⟨by decide, not_mem_joinT (by decide) (not_mem_decs (by decide))⟩), List.dropLast_concat]
  clear h1
  induction p with
  | nil => rfl
  | cons c p ih =>
    rw [List.map_cons, List.mapM_cons, ih]
    have : readCycle (['('] ++ joinT [','] (List.map dec (if c.isEmpty then [1] else c))) = some (if c.isEmpty then [1] else c) := by
      show (fields ',' (joinT [','] _)).mapM readNat = _
      rw [fields_join (by
        rcases c with _ | ⟨x, c⟩ <;> simp) (not_mem_decs (by decide)), mapM_readNat]
    rw [this]; rfl

theorem formPerm_eq_map {c : Cycle} (hc : c.Nodup) (x : Nat) : c.formPerm x = Cycle.map c x := by
  by_cases hx : x ∈ c
  · obtain ⟨i, hi, rfl⟩ := List.getElem_of_mem hx
    rw [List.formPerm_apply_getElem _ hc, Cycle.map_getElem hc i hi]
  · rw [List.formPerm_apply_of_notMem hx, Cycle.map_not_mem hx]

theorem prod_formPerm : ∀ {p : Permutation}, p.flatten.Nodup → ∀ x, (List.map List.formPerm p).prod x = Permutation.map p x
  | [], _, x => rfl
  | c :: p, h, x => by
    rw [List.flatten_cons] at h
    obtain ⟨h1, h2, h3⟩ := List.nodup_append.mp h
    rw [List.map_cons, List.prod_cons, Equiv.Perm.mul_apply, prod_formPerm h2]
    rw [Permutation.map]
    by_cases hx : x ∈ c
    · have hp : x ∉ p.flatten := fun hh => h3 x hx x hh rfl
      rw [Permutation.map_not_mem hp, formPerm_eq_map h1]
      split_ifs with hc
      · rfl
      · simpa using hc
    · have : Permutation.map p x ∉ c := by
        by_cases hp : x ∈ p.flatten
        · intro hm
          obtain ⟨d, hd, hxd⟩ := List.mem_flatten.mp hp
          rw [Permutation.map_mem_aux p h2 d hd x hxd] at hm
          have hn : d.Nodup := (List.nodup_flatten.mp h2).1 d hd
          rw [← formPerm_eq_map hn] at hm
          exact h3 _ hm _ (List.mem_flatten.mpr ⟨d, hd, List.formPerm_apply_mem_of_mem hxd⟩) rfl
        · rwa [Permutation.map_not_mem hp]
      rw [List.formPerm_apply_of_notMem this, Cycle.map_not_mem hx]
      simp

/-- **C91**: the text of a permutation, read in cycle notation, is a product of disjoint cycles without repeated entries, and this product is the permutation. -/
theorem c91_reads {p : Permutation} (hp : Permutation.Built p) : ∃ L, readCycles (permutation p) = some L ∧ L.flatten.Nodup ∧
    ∀ x, (L.map List.formPerm).prod x = Permutation.map p x := by
  refine ⟨_, readCycles_eq, ?_⟩
  rcases Permutation.c17_stored_form hp with rfl | ⟨h1, h2, h3, h4⟩
  · refine ⟨by simp, fun x => ?_⟩
    simp [Permutation.map, Cycle.map]
  · have hn : p.flatten.Nodup := List.nodup_flatten.mpr ⟨fun c hc => (h2 c hc).2.1, h3⟩
    have he : List.map (fun c : Cycle => if c.isEmpty then [1] else c) p = p := by
      conv_rhs => rw [← List.map_id p]
      refine List.map_congr_left (fun c hc => ?_)
      rw [if_neg]
      · rfl
      · have := (h2 c hc).1
        rintro h
        rw [List.isEmpty_iff] at h
        rw [h] at this; simp at this
    rw [he]
    exact ⟨hn, prod_formPerm hn⟩

/-- **C91**: two permutations have the same text if and only if they map every number to the same number. -/
theorem c91_text_eq {p q : Permutation} (hp : Permutation.Built p) (hq : Permutation.Built q) :
    permutation p = permutation q ↔ ∀ x, Permutation.map p x = Permutation.map q x := by
  constructor
  · intro h x
    obtain ⟨L, h1, -, h2⟩ := c91_reads hp
    obtain ⟨L', h1', -, h2'⟩ := c91_reads hq
    rw [h, h1'] at h1
    cases h1
    rw [← h2, h2']
  · intro h
    rw [(Permutation.c17_eq_iff_same_map hp hq).mpr h]

/-- **C91**: the identity is printed as `(1)`, and nothing else is. -/
theorem c91_identity {p : Permutation} (hp : Permutation.Built p) : permutation p = ['(', '1', ')'] ↔ ∀ x, Permutation.map p x = x := by
  have h := c91_text_eq hp Permutation.Built.identity
  have e : permutation Permutation.identity = ['(', '1', ')'] := by decide
  rw [e] at h
  rw [h]
  exact forall_congr' (fun x => by rw [Permutation.map_identity])

example : permutation [[1, 12], [3, 4, 5]] = "(1, 12)(3, 4, 5)".toList := by decide
example : Permutation.Built [[1, 12]] := Permutation.Built.fromCycle (v := [12, 1]) (c := [1, 12]) (by decide)

/-! ### modules and homology -/

/-- one direct summand (without blanks): its free rank and its finite cyclic parts as pairs (order, how often) -/
def readSummand : Text → Option (Nat × List (Int × Nat))
  | ['Z'] => some (1, [])
  | 'Z' :: '^' :: t => (readNat t).map (fun n => (n, []))
  | 'Z' :: '_' :: t => (readInt t).map (fun d => (0, [(d, 1)]))
  | '(' :: 'Z' :: '_' :: t =>
    match fields ')' t with
    | [d, '^' :: k] => do return (0, [(← readInt d, ← readNat k)])
    | _ => none
  | _ => none

/-- a direct sum: the total free rank and the finite cyclic parts -/
def readModule (t : Text) : Option (Nat × List (Int × Nat)) :=
  if dense t = ['0'] then some (0, [])
  else do
    let l ← (fields '+' (dense t)).mapM readSummand
    return ((l.map Prod.fst).sum, l.flatMap Prod.snd)

/-- a line `dim i: M,` -/
def readHomologyLine (t : Text) : Option (Nat × Nat × List (Int × Nat)) :=
  match dense t with
  | 'd' :: 'i' :: 'm' :: t =>
    match fields ':' t with
    | [i, m] =>
      match fields ',' m with
      | [m, []] => do return (← readNat i, ← readModule m)
      | _ => none
    | _ => none
  | _ => none

/-- the lines, each ending with a line break -/
def readHomology (t : Text) : Option (List (Nat × Nat × List (Int × Nat))) := (fields '\n' t).dropLast.mapM readHomologyLine

theorem torsion_dense (dm : Int × Nat) : dense (torsion dm) = torsion dm := by
  unfold torsion
  split_ifs <;> simp only [dense_append, dense_dec, dense_decI] <;> rfl

theorem torsion_char {c : Char} {dm : Int × Nat} (hc : c.isDigit = false) (h : c ∉ ['Z', '_', '(', ')', '^', '-']) : c ∉ torsion dm := by
  simp only [List.mem_cons, List.not_mem_nil, or_false, not_or] at h
  unfold torsion
  split_ifs
  · simp [not_mem_decI hc h.2.2.2.2.2, h]
  · simp [not_mem_decI hc h.2.2.2.2.2, not_mem_dec hc, h]

theorem readSummand_torsion (dm : Int × Nat) : readSummand (torsion dm) = some (0, [dm]) := by
  obtain ⟨d, k⟩ := dm
  unfold torsion
  split_ifs with h
  · obtain rfl : k = 1 := h
    show (readInt (decI d)).map _ = _
    rw [readInt_decI]; rfl
  · have : readSummand (['(', 'Z', '_'] ++ decI d ++ [')', '^'] ++ dec k) =
        (match fields ')' (decI d ++ [')', '^'] ++ dec k) with
        | [d, '^' :: k] => do return (0, [(← readInt d, ← readNat k)])
        | _ => none) := rfl
    rw [this, List.append_assoc]
    show (match fields ')' (decI d ++ ')' :: ('^' :: dec k)) with
        | [d, '^' :: k] => do return (0, [(← readInt d, ← readNat k)])
        | _ => none) = _
    rw [fields_cut (not_mem_decI (by decide) (by decide)), fields_none (by
      simp only [List.mem_cons, not_or]
      exact ⟨by decide, not_mem_dec (by decide)⟩)]
    simp [readInt_decI, readNat_dec]

/-- the summands as they are printed -/
def summands (a : Mod) : List Text := (if a.freeRank = 0 then [] else if a.freeRank = 1 then [['Z']] else [['Z', '^'] ++ dec a.freeRank]) ++ a.divisors.map torsion

theorem joinT_cons {sep x : Text} {l : List Text} : joinT sep (x :: l) = x ++ (if l.isEmpty then [] else sep ++ joinT sep l) := by
  cases l with
  | nil => simp [joinT]
  | cons y l => simp [joinT]

theorem module_eq (a : Mod) : module a = if a.isZero then ['0'] else joinT [' ', '+', ' '] (summands a) := by
  unfold module summands
  by_cases hz : a.isZero = true
  · simp [hz]
  · simp only [hz, Bool.false_eq_true, if_false]
    rcases h : a.freeRank with _ | _ | n
    · simp
    · simp only [zero_add, if_true, Nat.one_ne_zero, if_false, List.singleton_append]
      rw [joinT_cons]
      cases a.divisors <;> simp [joinT]
    · simp only [show ¬ (n + 1 + 1 = 1) by omega, show n + 1 + 1 > 1 by omega, show ¬ (n + 1 + 1 = 0) by omega, if_true, if_false, List.singleton_append, joinT_cons]
      cases a.divisors <;> simp [joinT]

theorem summands_ne {a : Mod} (h : a.isZero = false) : summands a ≠ [] := by
  simp only [Mod.isZero, Bool.and_eq_false_iff, beq_eq_false_iff_ne, List.isEmpty_eq_false_iff] at h
  unfold summands
  rcases h with h | h
  · rw [if_neg h]; split_ifs <;> simp
  · simp [h]

theorem summands_char {a : Mod} {c : Char} (hc : c.isDigit = false) (h : c ∉ ['Z', '_', '(', ')', '^', '-']) : ∀ x ∈ summands a, c ∉ x := by
  intro x hx
  have h' := h
  simp only [List.mem_cons, List.not_mem_nil, or_false, not_or] at h'
  unfold summands at hx
  rcases List.mem_append.mp hx with hx | hx
  · split_ifs at hx
    · simp at hx
    · obtain rfl : x = ['Z'] := by simpa using hx
      simp [h'.1]
    · obtain rfl : x = ['Z', '^'] ++ dec a.freeRank := by simpa using hx
      simp [h', not_mem_dec hc]
  · obtain ⟨dm, -, rfl⟩ := List.mem_map.mp hx
    exact torsion_char hc h

theorem module_char {a : Mod} {c : Char} (hc : c.isDigit = false) (h : c ∉ ['Z', '_', '(', ')', '^', '-']) (h2 : c ∉ [' ', '+']) : c ∉ module a := by
  rw [module_eq]
  split_ifs
  · intro h3
    obtain rfl : c = '0' := by simpa using h3
    exact absurd hc (by decide)
  · refine not_mem_joinT ?_ (summands_char hc h)
    simp only [List.mem_cons, List.not_mem_nil, or_false, not_or] at h2 ⊢
    exact ⟨h2.1, h2.2, h2.1⟩

theorem dense_module (a : Mod) : dense (module a) = if a.isZero then ['0'] else joinT ['+'] (summands a) := by
  rw [module_eq]
  split_ifs
  · rfl
  · rw [dense_joinT]
    have : (summands a).map dense = summands a := by
      conv_rhs => rw [← List.map_id (summands a)]
      exact List.map_congr_left (fun x hx => dense_id (summands_char (by decide) (by decide) x hx))
    rw [this]; rfl

theorem joinT_head {c x : Char} {sep t : Text} : ∀ {l : List Text}, (∀ a ∈ l, a.head? ≠ some c ∧ a ≠ []) → joinT sep l ≠ c :: t
  | [], _ => by simp [joinT]
  | a :: l, h => by
    rw [joinT_cons]
    have := h a (by simp)
    rcases a with _ | ⟨y, a⟩
    · simp at this
    · intro e
      exact this.1 (by rw [List.head?_cons, (List.cons.inj e).1])

theorem readSummand_summands (a : Mod) : ∃ l, (summands a).mapM readSummand = some l ∧ (l.map Prod.fst).sum = a.freeRank ∧ l.flatMap Prod.snd = a.divisors := by
  have ht : ∀ D : List (Int × Nat), (D.map torsion).mapM readSummand = some (D.map (fun dm => (0, [dm]))) := by
    intro D
    induction D with
    | nil => rfl
    | cons d D ih => rw [List.map_cons, List.mapM_cons, readSummand_torsion, ih]; rfl
  have hs : ∀ D : List (Int × Nat), ((D.map (fun dm => ((0 : Nat), [dm]))).map Prod.fst).sum = 0 ∧ (D.map (fun dm => ((0 : Nat), [dm]))).flatMap Prod.snd = D := by
    intro D
    induction D with
    | nil => exact ⟨rfl, rfl⟩
    | cons d D ih => simp only [List.map_cons, List.sum_cons, ih.1, List.flatMap_cons, ih.2]; simp
  obtain ⟨h1, h2⟩ := hs a.divisors
  unfold summands
  split_ifs with e1 e2
  · exact ⟨_, ht _, by rw [h1, e1], h2⟩
  · refine ⟨(1, []) :: a.divisors.map (fun dm => (0, [dm])), ?_, ?_, ?_⟩
    · rw [List.singleton_append, List.mapM_cons, ht]; rfl
    · rw [List.map_cons, List.sum_cons, h1, e2]
    · rw [List.flatMap_cons, h2]; rfl
  · refine ⟨(a.freeRank, []) :: a.divisors.map (fun dm => (0, [dm])), ?_, ?_, ?_⟩
    · have : readSummand (['Z', '^'] ++ dec a.freeRank) = some (a.freeRank, []) := by
        show (readNat (dec a.freeRank)).map _ = _
        rw [readNat_dec]; rfl
      rw [List.singleton_append, List.mapM_cons, ht, this]; rfl
    · rw [List.map_cons, List.sum_cons, h1]; rfl
    · rw [List.flatMap_cons, h2]; rfl

theorem dense_dense (t : Text) : dense (dense t) = dense t := by simp [dense]

theorem readModule_dense (t : Text) : readModule (dense t) = readModule t := by
  unfold readModule; rw [dense_dense]

/-- **C92**: the text of a module, read as a direct sum of copies of `Z` and of cyclic groups `Z_d`, lists the free rank and the elementary divisors with their multiplicities. -/
theorem c92_reads (a : Mod) : readModule (module a) = some (a.freeRank, a.divisors) := by
  unfold readModule
  rw [dense_module]
  by_cases hz : a.isZero = true
  · simp only [hz, if_true]
    simp only [Mod.isZero, Bool.and_eq_true, beq_iff_eq, List.isEmpty_iff] at hz
    rw [hz.1, hz.2]
  · have hz' : a.isZero = false := by simpa using hz
    simp only [hz, Bool.false_eq_true, if_false]
    have hne : joinT ['+'] (summands a) ≠ ['0'] := by
      refine joinT_head (x := '0') (fun x hx => ?_)
      unfold summands at hx
      rcases List.mem_append.mp hx with hx | hx
      · split_ifs at hx
        · simp at hx
        · obtain rfl : x = ['Z'] := by simpa using hx
          exact ⟨by decide, by decide⟩
        · obtain rfl : x = ['Z', '^'] ++ dec a.freeRank := by simpa using hx
          exact ⟨by simp, by simp⟩
      · obtain ⟨dm, -, rfl⟩ := List.mem_map.mp hx
        unfold torsion; split_ifs <;> exact ⟨by simp, by simp⟩
    rw [if_neg hne, fields_join (summands_ne hz') (summands_char (by decide) (by decide))]
    obtain ⟨l, h1, h2, h3⟩ := readSummand_summands a
    rw [h1]
    simp [h2, h3]

/-- **C92** (part that holds: positive divisors). Two modules given by canonical elementary divisors have the same text if and only if their groups are isomorphic. -/
theorem c92_text_eq_partial {a b : Mod} (ha : ModProps.Canonical a) (hb : ModProps.Canonical b) :
    module a = module b ↔ Nonempty (ModProps.Grp a ≃+ ModProps.Grp b) := by
  constructor
  · intro h
    have := c92_reads a
    rw [h, c92_reads b] at this
    have : a = b := by
      obtain ⟨r, d⟩ := a; obtain ⟨r', d'⟩ := b
      simp only [Option.some.injEq, Prod.mk.injEq] at this
      rw [this.1, this.2]
    rw [this]; exact ⟨AddEquiv.refl _⟩
  · rintro ⟨e⟩
    rw [ModProps.canonical_unique ha hb e]

theorem readHomologyLine_eq (a : Mod) (i : Nat) : readHomologyLine (['d', 'i', 'm', ' '] ++ dec i ++ [':', ' '] ++ module a ++ [',']) = some (i, a.freeRank, a.divisors) := by
  unfold readHomologyLine
  have h1 : dense (['d', 'i', 'm', ' '] ++ dec i ++ [':', ' '] ++ module a ++ [',']) = 'd' :: 'i' :: 'm' :: (dec i ++ ':' :: (dense (module a) ++ [','])) := by
    simp only [dense_append, dense_dec, List.append_assoc]; rfl
  have hm : ∀ c : Char, c.isDigit = false → c ∉ ['Z', '_', '(', ')', '^', '-'] → c ∉ [' ', '+'] → c ∉ dense (module a) :=
    fun c x y z hc => module_char x y z (List.mem_of_mem_filter hc)
  rw [h1]
  simp only
  rw [fields_cut (not_mem_dec (by decide)), fields_none (by
    simp only [List.mem_append, not_or]
    exact ⟨hm _ (by decide) (by decide) (by decide), by decide⟩)]
  simp only
  rw [fields_cut (hm _ (by decide) (by decide) (by decide)), fields_none (by simp)]
  simp only
  rw [readNat_dec, readModule_dense, c92_reads]
  rfl

/-- **C92**: the text of the homology has one line for every reported dimension, in order, and the line says what the module is. -/
theorem c92_homology_reads (l : List Mod) : readHomology (homology l) = some (l.zipIdx.map (fun mi => (mi.2, mi.1.freeRank, mi.1.divisors))) := by
  unfold readHomology homology
  rw [fields_flatMap (g := fun mi : Mod × Nat => ['d', 'i', 'm', ' '] ++ dec mi.2 ++ [':', ' '] ++ module mi.1 ++ [',']) (by
    intro mi; simp [homologyLine]) (by
    intro mi _
    simp only [List.mem_append, not_or]
    exact ⟨⟨⟨⟨by decide, not_mem_dec (by decide)⟩, by decide⟩, module_char (by decide) (by decide) (by decide)⟩, by decide⟩), List.dropLast_concat]
  generalize l.zipIdx = L
  induction L with
  | nil => rfl
  | cons mi L ih => rw [List.map_cons, List.mapM_cons, readHomologyLine_eq, ih]; rfl

/-- **C92**: the homology of a chain complex is computed and its text says, line by line, what the homology groups are. -/
theorem c92_homology {B : Type} [LinearOrder B] {cplx : List (Hom.BMap B)} (h : Hom.ChainCplx cplx) (maxDim : Option Nat) :
    ∃ f0 res, (∀ fuel, f0 ≤ fuel → Hom.new fuel cplx maxDim = some res) ∧
      ∃ L, readHomology (homology (res.map (fun o => o.module))) = some L ∧ L.length = res.length ∧
        ∀ i b, cplx[i]? = some b → i < res.length → ∃ r D, L[i]? = some (i, r, D) ∧
          Nonempty (Hom.HGrp b.n b.m (Hom.upper cplx i).1 b.a (Hom.upper cplx i).2 ≃+ ModProps.Grp ⟨r, D⟩) := by
  obtain ⟨f0, res, h1, h2, -⟩ := Hom.c44_homology h maxDim
  refine ⟨f0, res, h1, _, c92_homology_reads _, by simp, ?_⟩
  intro i b hb hi
  have ho : res[i]? = some res[i] := by simp [hi]
  refine ⟨res[i].module.freeRank, res[i].module.divisors, by simp [hi], (h2 i b res[i] hb ho).iso⟩

/-- **C92 fails** in general: two chain complexes with the same homology may have different texts, because a divisor may be printed with a minus sign. -/
theorem c92_false :
    (Hom.new 10 [({ n := 1, m := 1, a := fun _ _ => 0, basis := [0] } : Hom.BMap Nat), { n := 1, m := 1, a := fun _ _ => 2, basis := [1] }] none).map
      (fun res => homology (res.map (fun o => o.module))) = some "dim 0: Z_2,\n".toList ∧
    (Hom.new 10 [({ n := 1, m := 1, a := fun _ _ => 0, basis := [0] } : Hom.BMap Nat), { n := 1, m := 1, a := fun _ _ => -2, basis := [1] }] none).map
      (fun res => homology (res.map (fun o => o.module))) = some "dim 0: Z_-2,\n".toList ∧
    (Hom.new 10 Hom.exNeg none).map (fun res => homology (res.map (fun o => o.module))) = some "dim 0: Z_-1,\n".toList := by
  refine ⟨?_, ?_, ?_⟩ <;> decide +kernel

example : homology [⟨1, []⟩, ⟨2, [(2, 3), (4, 1)]⟩, ⟨0, []⟩] = "dim 0: Z,\ndim 1: Z^2 + (Z_2)^3 + Z_4,\ndim 2: 0,\n".toList := by decide
example : ModProps.Canonical ⟨2, [(2, 3), (4, 1)]⟩ := by constructor <;> simp

end Toppo.Text
