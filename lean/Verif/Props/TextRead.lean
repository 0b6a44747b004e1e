import Verif.Proof.Text
import Mathlib.Data.Rat.Defs
import Mathlib.GroupTheory.Perm.List
set_option linter.unusedVariables false

/-
The specification of the texts: how somebody reads them.  None of these functions mentions the code that prints.
-/
namespace Toppo.Text

/-- the parts of a text between the occurrences of `c` -/
def fields (c : Char) : Text → List Text
  | [] => [[]]
  | x :: t =>
    if x = c then [] :: fields c t
    else match fields c t with
      | [] => [[x]]
      | f :: fs => (x :: f) :: fs

/-- a decimal number -/
def readNat (t : Text) : Option Nat := if t ≠ [] ∧ t.all Char.isDigit = true then some (Nat.ofDigitChars 10 t 0) else none

/-- a decimal number, possibly with a minus sign -/
def readInt : Text → Option Int
  | '-' :: t => (readNat t).map (fun n => -(n : Int))
  | t => (readNat t).map (fun n => (n : Int))

/-- without the blanks -/
def dense (t : Text) : Text := t.filter (fun c => c ≠ ' ')

/-! ### lemmas -/

theorem fields_none {c : Char} : ∀ {a : Text}, c ∉ a → fields c a = [a]
  | [], _ => rfl
  | x :: a, h => by
    have h1 : x ≠ c := fun e => h (by rw [e]; simp)
    have h2 : c ∉ a := fun e => h (List.mem_cons_of_mem _ e)
    rw [fields, if_neg h1, fields_none h2]

theorem fields_cut {c : Char} {t : Text} : ∀ {a : Text}, c ∉ a → fields c (a ++ c :: t) = a :: fields c t
  | [], _ => by rw [List.nil_append, fields, if_pos rfl]
  | x :: a, h => by
    have h1 : x ≠ c := fun e => h (by rw [e]; simp)
    have h2 : c ∉ a := fun e => h (List.mem_cons_of_mem _ e)
    rw [List.cons_append, fields, if_neg h1, fields_cut h2]

theorem fields_join {c : Char} : ∀ {l : List Text}, l ≠ [] → (∀ x ∈ l, c ∉ x) → fields c (joinT [c] l) = l
  | [], h, _ => absurd rfl h
  | [x], _, h => by rw [joinT, fields_none (h x (by simp))]
  | x :: y :: l, _, h => by
    rw [joinT, List.append_assoc, List.singleton_append, fields_cut (h x (by simp)), fields_join (by simp) (fun a ha => h a (List.mem_cons_of_mem _ ha))]

/-- parts that each end with `c` -/
theorem fields_flatMap {α : Type} {c : Char} {f g : α → Text} (hf : ∀ x, f x = g x ++ [c]) : ∀ {l : List α}, (∀ x ∈ l, c ∉ g x) →
    fields c (l.flatMap f) = l.map g ++ [[]]
  | [], _ => rfl
  | x :: l, h => by
    rw [List.flatMap_cons, hf, List.append_assoc, List.singleton_append, fields_cut (h x (by simp)), fields_flatMap hf (fun a ha => h a (List.mem_cons_of_mem _ ha))]
    rfl

theorem fields_lines {c : Char} {l : List Text} (h : ∀ x ∈ l, c ∉ x) : fields c ((l.map (· ++ [c])).flatten) = l ++ [[]] := by
  have := fields_flatMap (f := fun x : Text => x ++ [c]) (g := id) (fun _ => rfl) (l := l) h
  rw [List.flatMap_def] at this
  simpa using this

theorem readNat_dec (n : Nat) : readNat (dec n) = some n := by
  have h : (dec n).all Char.isDigit = true := List.all_eq_true.mpr (fun c hc => dec_digit hc)
  rw [readNat, if_pos ⟨dec_ne_nil n, h⟩]
  exact congrArg some Nat.ofDigitChars_ten_toDigits

theorem readInt_dec (n : Nat) : readInt (dec n) = some (n : Int) := by
  rcases h : dec n with _ | ⟨c, t⟩
  · exact absurd h (dec_ne_nil n)
  · have hc := dec_head h
    have : c ≠ '-' := by rintro rfl; exact absurd hc (by decide)
    unfold readInt
    split
    · rename_i e; exact absurd (List.cons.inj e).1 this
    · rw [← h, readNat_dec]; rfl

theorem readInt_decI (z : Int) : readInt (decI z) = some z := by
  unfold decI
  split
  · rw [readInt, readNat_dec]
    show some (-(z.natAbs : Int)) = some z
    congr 1; omega
  · rw [readInt_dec]; congr 1; omega

theorem dense_append (a b : Text) : dense (a ++ b) = dense a ++ dense b := List.filter_append ..

theorem dense_id {a : Text} (h : ' ' ∉ a) : dense a = a := List.filter_eq_self.mpr (fun c hc => by
  have : c ≠ ' ' := by rintro rfl; exact h hc
  simpa using this)

theorem dense_dec (n : Nat) : dense (dec n) = dec n := dense_id (not_mem_dec (by decide))

theorem dense_decI (z : Int) : dense (decI z) = decI z := dense_id (not_mem_decI (by decide) (by decide))

theorem dense_joinT (sep : Text) : ∀ (l : List Text), dense (joinT sep l) = joinT (dense sep) (l.map dense)
  | [] => rfl
  | [x] => rfl
  | x :: y :: l => by
    simp only [joinT, dense_append, List.map_cons]
    rw [dense_joinT sep (y :: l)]; rfl

theorem mapM_readNat : ∀ (l : List Nat), (l.map dec).mapM readNat = some l
  | [] => rfl
  | x :: l => by rw [List.map_cons, List.mapM_cons, readNat_dec, mapM_readNat l]; rfl

theorem mapM_readInt : ∀ (l : List Int), (l.map decI).mapM readInt = some l
  | [] => rfl
  | x :: l => by rw [List.map_cons, List.mapM_cons, readInt_decI, mapM_readInt l]; rfl

theorem mapM_read {α : Type} {f : α → Text} {rd : Text → Option α} : ∀ (l : List α), (∀ x ∈ l, rd (f x) = some x) → (l.map f).mapM rd = some l
  | [], _ => rfl
  | x :: l, h => by rw [List.map_cons, List.mapM_cons, h x (by simp), mapM_read l (fun a ha => h a (List.mem_cons_of_mem _ ha))]; rfl

end Toppo.Text
