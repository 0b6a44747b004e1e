import Verif.Model.Display
import Mathlib.Data.List.Basic
import Mathlib.Tactic
set_option linter.unusedVariables false

/-
Reading texts back: where one part ends and the next begins.
-/
namespace Toppo.Text

theorem dec_digit {n : Nat} {c : Char} (h : c ∈ dec n) : c.isDigit = true := Nat.isDigit_of_mem_toDigits (by omega) (by omega) h

theorem dec_ne_nil (n : Nat) : dec n ≠ [] := Nat.toDigits_ne_nil

theorem dec_inj {a b : Nat} (h : dec a = dec b) : a = b := by
  rw [← Nat.ofDigitChars_ten_toDigits (n := a), ← Nat.ofDigitChars_ten_toDigits (n := b)]
  unfold dec at h; rw [h]

/-- a character that is not a digit is not in a decimal number -/
theorem not_mem_dec {n : Nat} {c : Char} (hc : c.isDigit = false) : c ∉ dec n := by
  intro h; rw [dec_digit h] at hc; cases hc

theorem mem_decI {z : Int} {c : Char} (h : c ∈ decI z) : c = '-' ∨ c.isDigit = true := by
  unfold decI at h
  split at h
  · rcases List.mem_cons.mp h with h | h
    · exact Or.inl h
    · exact Or.inr (dec_digit h)
  · exact Or.inr (dec_digit h)

theorem not_mem_decI {z : Int} {c : Char} (hc : c.isDigit = false) (hm : c ≠ '-') : c ∉ decI z := by
  intro h
  rcases mem_decI h with h | h
  · exact hm h
  · rw [h] at hc; cases hc

theorem decI_ne_nil (z : Int) : decI z ≠ [] := by
  unfold decI; split
  · simp
  · exact dec_ne_nil _

theorem dec_head {n : Nat} {c : Char} {l : Text} (h : dec n = c :: l) : c.isDigit = true := dec_digit (n := n) (by rw [h]; simp)

theorem decI_inj {a b : Int} (h : decI a = decI b) : a = b := by
  unfold decI at h
  have hm : Char.isDigit '-' = false := by decide
  split at h <;> split at h
  · have := dec_inj (List.cons.inj h).2; omega
  · have := dec_head h.symm; rw [hm] at this; cases this
  · have := dec_head h; rw [hm] at this; cases this
  · have := dec_inj h; omega

/-- two texts are cut at the first occurrence of a character -/
theorem split_char {c : Char} : ∀ {a b s t : Text}, c ∉ a → c ∉ b → a ++ c :: s = b ++ c :: t → a = b ∧ s = t
  | [], [], s, t, _, _, h => ⟨rfl, (List.cons.inj h).2⟩
  | [], y :: b, s, t, _, hb, h => by
    have := (List.cons.inj h).1
    exact absurd (by rw [this]; simp) hb
  | x :: a, [], s, t, ha, _, h => by
    have := (List.cons.inj h).1
    exact absurd (by rw [this]; simp) ha
  | x :: a, y :: b, s, t, ha, hb, h => by
    obtain ⟨h1, h2⟩ := List.cons.inj h
    obtain ⟨h3, h4⟩ := split_char (fun hh => ha (List.mem_cons_of_mem _ hh)) (fun hh => hb (List.mem_cons_of_mem _ hh)) h2
    exact ⟨by rw [h1, h3], h4⟩

/-- one of them ends without the character -/
theorem split_none {c : Char} {a b s : Text} (ha : c ∉ a) (h : a = b ++ c :: s) : False := ha (by rw [h]; simp)

/-- a list of texts can be read back from the joined text if no part contains the first character of the separator -/
theorem joinT_inj {c : Char} {sep : Text} : ∀ {l l' : List Text}, l ≠ [] → l' ≠ [] → (∀ x ∈ l, c ∉ x) → (∀ x ∈ l', c ∉ x) →
    joinT (c :: sep) l = joinT (c :: sep) l' → l = l'
  | [], _, h, _, _, _, _ => absurd rfl h
  | _ :: _, [], _, h, _, _, _ => absurd rfl h
  | [x], [y], _, _, _, _, h => by simp only [joinT] at h; rw [h]
  | [x], y :: z :: l', _, _, h1, _, h => by
    simp only [joinT, List.append_assoc, List.cons_append] at h
    exact (split_none (h1 x (by simp)) h).elim
  | x :: z :: l, [y], _, _, _, h2, h => by
    simp only [joinT, List.append_assoc, List.cons_append] at h
    exact (split_none (h2 y (by simp)) h.symm).elim
  | x :: z :: l, y :: w :: l', _, _, h1, h2, h => by
    simp only [joinT, List.append_assoc, List.cons_append] at h
    obtain ⟨e1, e2⟩ := split_char (h1 x (by simp)) (h2 y (by simp)) h
    have := joinT_inj (l := z :: l) (l' := w :: l') (by simp) (by simp) (fun a ha => h1 a (List.mem_cons_of_mem _ ha))
      (fun a ha => h2 a (List.mem_cons_of_mem _ ha)) (List.append_cancel_left e2)
    rw [e1, this]

theorem joinT_ne_nil {sep : Text} : ∀ {l : List Text}, l ≠ [] → (∀ x ∈ l, x ≠ []) → joinT sep l ≠ []
  | [], h, _ => absurd rfl h
  | [x], _, h => h x (by simp)
  | x :: y :: l, _, h => by simp [joinT, h x (by simp)]

/-- the same when the lists may be empty but the parts may not -/
theorem joinT_inj' {c : Char} {sep : Text} {l l' : List Text} (h1 : ∀ x ∈ l, c ∉ x ∧ x ≠ []) (h2 : ∀ x ∈ l', c ∉ x ∧ x ≠ [])
    (h : joinT (c :: sep) l = joinT (c :: sep) l') : l = l' := by
  by_cases e : l = []
  · by_cases e' : l' = []
    · rw [e, e']
    · rw [e] at h
      exact absurd h.symm (joinT_ne_nil e' (fun x hx => (h2 x hx).2))
  · by_cases e' : l' = []
    · rw [e'] at h
      exact absurd h (joinT_ne_nil e (fun x hx => (h1 x hx).2))
    · exact joinT_inj e e' (fun x hx => (h1 x hx).1) (fun x hx => (h2 x hx).1) h

theorem not_mem_joinT {c : Char} {sep : Text} (hs : c ∉ sep) : ∀ {l : List Text}, (∀ x ∈ l, c ∉ x) → c ∉ joinT sep l
  | [], _ => by simp [joinT]
  | [x], h => h x (by simp)
  | x :: y :: l, h => by
    simp only [joinT, List.mem_append, not_or]
    exact ⟨⟨h x (by simp), hs⟩, not_mem_joinT hs (fun a ha => h a (List.mem_cons_of_mem _ ha))⟩

/-- texts each of which ends with the first occurrence of a character, one after the other -/
theorem flatMap_inj {α : Type} {c : Char} {f : α → Text} {g : α → Text} (hf : ∀ x, f x = g x ++ [c]) :
    ∀ {l l' : List α}, (∀ x ∈ l, c ∉ g x) → (∀ x ∈ l', c ∉ g x) → l.flatMap f = l'.flatMap f → l.map g = l'.map g
  | [], [], _, _, _ => rfl
  | [], y :: l', _, _, h => by simp [hf] at h
  | x :: l, [], _, _, h => by simp [hf] at h
  | x :: l, y :: l', h1, h2, h => by
    simp only [List.flatMap_cons, hf, List.append_assoc, List.singleton_append] at h
    obtain ⟨e1, e2⟩ := split_char (h1 x (by simp)) (h2 y (by simp)) h
    have := flatMap_inj hf (fun a ha => h1 a (List.mem_cons_of_mem _ ha)) (fun a ha => h2 a (List.mem_cons_of_mem _ ha)) (by simpa only [hf] using e2)
    simp only [List.map_cons, e1, this]

/-- `map` of a function injective on the members -/
theorem map_inj_on {α β : Type} {f : α → β} : ∀ {l l' : List α}, (∀ x ∈ l, ∀ y ∈ l', f x = f y → x = y) → l.map f = l'.map f → l = l'
  | [], [], _, _ => rfl
  | [], _ :: _, _, h => by simp at h
  | _ :: _, [], _, h => by simp at h
  | x :: l, y :: l', hf, h => by
    simp only [List.map_cons, List.cons.injEq] at h
    rw [hf x (by simp) y (by simp) h.1, map_inj_on (fun a ha b hb => hf a (List.mem_cons_of_mem _ ha) b (List.mem_cons_of_mem _ hb)) h.2]

/-- the lines of a text -/
theorem lines_inj {c : Char} : ∀ {l l' : List Text}, (∀ x ∈ l, c ∉ x) → (∀ x ∈ l', c ∉ x) →
    (l.map (· ++ [c])).flatten = (l'.map (· ++ [c])).flatten → l = l' := by
  intro l l' h1 h2 h
  have := flatMap_inj (f := fun x : Text => x ++ [c]) (g := id) (fun _ => rfl) (l := l) (l' := l') h1 h2 (by rw [List.flatMap_def, List.flatMap_def]; exact h)
  simpa using this

end Toppo.Text
