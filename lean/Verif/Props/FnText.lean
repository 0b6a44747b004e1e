import Verif.Proof.FnText
set_option linter.unusedVariables false
set_option linter.unusedSectionVars false

/-
C114: the text of a symbolic function determines the function.

`num` is the text of an `f64` (`core::fmt`); all that is assumed about it is `Faithful`: it consists of digits, `-` and `.`, two different numbers of
the set `S` have different texts, and a number whose text is that of an integer is that integer.
`Uses S f` (Proof/FnText.lean) says that the real exponents and the coefficients in `f` are in `S`.  (So `S` contains no `inf` and no `NaN`.)
-/
namespace Toppo.Analysis
open Toppo Text
noncomputable section

/-! ### specification -/

/-- the texts of the numbers in `S` -/
structure Faithful (num : ℝ → Text) (S : Set ℝ) : Prop where
  chars : ∀ a ∈ S, ∀ c ∈ num a, c.isDigit = true ∨ c = '-' ∨ c = '.'
  inj : ∀ a ∈ S, ∀ b ∈ S, num a = num b → a = b
  int : ∀ a ∈ S, ∀ e : ℤ, num a = decI e → a = e

/-! ### proofs -/

section
variable {num : ℝ → Text} {S : Set ℝ} (hF : Faithful num S)
include hF

theorem Faithful.reads : ∃ rd, Reads rd num S := by
  classical
  refine ⟨fun t => if h : ∃ a ∈ S, num a = t then h.choose else if h : ∃ e : ℤ, decI e = t then (h.choose : ℝ) else 0, ?_, ?_, ?_⟩
  · intro a ha
    have h : ∃ b ∈ S, num b = num a := ⟨a, ha, rfl⟩
    rw [dif_pos h]
    exact hF.inj _ h.choose_spec.1 _ ha h.choose_spec.2
  · intro e
    by_cases h : ∃ a ∈ S, num a = decI e
    · simp only [dif_pos h]
      exact hF.int _ h.choose_spec.1 _ h.choose_spec.2
    · have h' : ∃ e' : ℤ, decI e' = decI e := ⟨e, rfl⟩
      simp only [dif_neg h, dif_pos h']
      rw [decI_inj h'.choose_spec]
  · intro a ha c hc
    unfold isNum
    rcases hF.chars a ha c hc with h | h | h <;> simp [h]

theorem Faithful.line {a : ℝ} (ha : a ∈ S) : '\n' ∉ num a := by
  intro h
  rcases hF.chars a ha _ h with h | h | h <;> revert h <;> decide

/-- a text contains no line break -/
theorem text_line : ∀ n : ℕ, (∀ f, sizeOf f < n → Uses S f → '\n' ∉ text num f) ∧
    (∀ v : List (ℝ × Fn), sizeOf v < n → (∀ p ∈ v, Uses S p.2 ∧ p.1 ∈ S) → '\n' ∉ sumText num v ∧ '\n' ∉ restText num v) ∧
    (∀ v : List (ℤ × Fn), sizeOf v < n → (∀ p ∈ v, Uses S p.2) → '\n' ∉ prodText num v) := by
  intro n
  induction n with
  | zero => exact ⟨fun _ h => absurd h (by omega), fun _ h => absurd h (by omega), fun _ h => absurd h (by omega)⟩
  | succ n ih =>
    obtain ⟨i1, i2, i3⟩ := ih
    have sub : ∀ {f g : Fn}, (∀ h, Occurs h g → Occurs h f) → Uses S f → Uses S g := fun ho hu =>
      ⟨fun g a h => hu.1 g a (ho _ h), fun v h => hu.2 v (ho _ h)⟩
    refine ⟨?_, ?_, ?_⟩
    · intro f hn hu
      cases f with
      | zero => simp [text]
      | one => simp [text]
      | proj m => simp [text, not_mem_dec (show ('\n').isDigit = false by decide)]
      | sin g =>
        simp only [Fn.sin.sizeOf_spec] at hn
        simp [text, i1 g (by omega) (sub (fun h ho => .sin ho) hu)]
      | cos g =>
        simp only [Fn.cos.sizeOf_spec] at hn
        simp [text, i1 g (by omega) (sub (fun h ho => .cos ho) hu)]
      | rpow g a =>
        simp only [Fn.rpow.sizeOf_spec] at hn
        simp [text, i1 g (by omega) (sub (fun h ho => .rpow ho) hu), hF.line (hu.1 g a .here)]
      | sum v =>
        simp only [Fn.sum.sizeOf_spec] at hn
        simp [text, (i2 v (by omega) (fun p hp => ⟨sub (fun h ho => .sum hp ho) hu, hu.2 v .here p hp⟩)).1]
      | prod v =>
        simp only [Fn.prod.sizeOf_spec] at hn
        simp [text, i3 v (by omega) (fun p hp => sub (fun h ho => .prod hp ho) hu)]
    · intro v hn hv
      cases v with
      | nil => simp [sumText, restText]
      | cons p v =>
        obtain ⟨c, f⟩ := p
        simp only [List.cons.sizeOf_spec, Prod.mk.sizeOf_spec] at hn
        have h1 := hv (c, f) (List.mem_cons_self ..)
        have h2 := i1 f (by omega) h1.1
        have h3 := i2 v (by omega) (fun p hp => hv p (List.mem_cons_of_mem _ hp))
        have h4 := hF.line h1.2
        refine ⟨?_, by simp [restText, h2, h3.2, h4]⟩
        simp only [sumText]
        split_ifs <;> simp [h2, h3.2, h4]
    · intro v hn hv
      cases v with
      | nil => simp [prodText]
      | cons p v =>
        obtain ⟨e, f⟩ := p
        simp only [List.cons.sizeOf_spec, Prod.mk.sizeOf_spec] at hn
        have h2 := i1 f (by omega) (hv (e, f) (List.mem_cons_self ..))
        have h3 := i3 v (by omega) (fun p hp => hv p (List.mem_cons_of_mem _ hp))
        have h4 : '\n' ∉ decI e := not_mem_decI (by decide) (by decide)
        simp only [prodText]
        split_ifs <;> simp [h2, h3, h4]

/-- **C114**: two expressions in which sums are not summands of sums and products not factors of products (all that can be built, C113), and that are
printed alike, have the same values. -/
theorem c114_text (f g : Fn) (hf : Unnested f) (hg : Unnested g) (uf : Uses S f) (ug : Uses S g) (h : text num f = text num g) :
    ∀ x, eval x f = eval x g := by
  obtain ⟨rd, hR⟩ := hF.reads
  obtain ⟨K, hK⟩ := read_text hR f hf uf
  obtain ⟨L, hL⟩ := read_text hR g hg ug
  have e1 := hK (K + L) (by omega)
  have e2 := hL (K + L) (by omega)
  rw [h, e2] at e1
  intro x
  exact (congrFun (congrArg Prod.fst e1) x).symm

/-- **C114**: in particular this holds for the expressions that can be built with the operators of the crate. -/
theorem c114_built [LinearOrder Fn] (f g : Fn) (hf : Built f) (hg : Built g) (uf : Uses S f) (ug : Uses S g) (h : text num f = text num g) :
    ∀ x, eval x f = eval x g :=
  c114_text hF f g (c113_unnested f hf) (c113_unnested g hg) uf ug h

/-- **C114**: two functions with several components that are printed alike have as many components, and the components have the same values. -/
theorem c114_lines (fs gs : List Fn) (hf : ∀ f ∈ fs, Unnested f ∧ Uses S f) (hg : ∀ g ∈ gs, Unnested g ∧ Uses S g)
    (h : linesText num 0 fs = linesText num 0 gs) : ∀ x, fs.map (eval x) = gs.map (eval x) := by
  suffices key : ∀ (fs gs : List Fn) (i : Nat), (∀ f ∈ fs, Unnested f ∧ Uses S f) → (∀ g ∈ gs, Unnested g ∧ Uses S g) →
      linesText num i fs = linesText num i gs → ∀ x, fs.map (eval x) = gs.map (eval x) from key fs gs 0 hf hg h
  intro fs
  induction fs with
  | nil =>
    intro gs i _ _ h x
    cases gs with
    | nil => rfl
    | cons g gs => simp [linesText] at h
  | cons f fs ih =>
    intro gs i hf hg h x
    cases gs with
    | nil => simp [linesText] at h
    | cons g gs =>
      have nf := (text_line hF (sizeOf f + 1)).1 f (by omega) (hf f (List.mem_cons_self ..)).2
      have ng := (text_line hF (sizeOf g + 1)).1 g (by omega) (hg g (List.mem_cons_self ..)).2
      simp only [linesText, List.append_assoc, List.cons_append, List.nil_append, List.cons.injEq, true_and, List.append_cancel_left_eq] at h
      have cut : (text num f ++ [',']) ++ '\n' :: linesText num (i + 1) fs = (text num g ++ [',']) ++ '\n' :: linesText num (i + 1) gs := by
        simpa using h
      obtain ⟨h1, h2⟩ := split_char (by simp [nf]) (by simp [ng]) cut
      have h3 := c114_text hF f g (hf f (List.mem_cons_self ..)).1 (hg g (List.mem_cons_self ..)).1 (hf f (List.mem_cons_self ..)).2
        (hg g (List.mem_cons_self ..)).2 (List.append_cancel_right h1) x
      have h4 := ih gs (i + 1) (fun f hf' => hf f (List.mem_cons_of_mem _ hf')) (fun g hg' => hg g (List.mem_cons_of_mem _ hg')) h2 x
      simp [h3, h4]

end

/-! ### a case that meets the hypotheses -/

/-- the texts of the integers -/
theorem faithful_int : Faithful (fun a => decI ⌊a⌋) {a | ∃ e : ℤ, a = e} where
  chars := by
    rintro a ⟨e, rfl⟩ c hc
    rcases mem_decI hc with h | h
    · exact Or.inr (Or.inl h)
    · exact Or.inl h
  inj := by
    rintro a ⟨e, rfl⟩ b ⟨e', rfl⟩ h
    have := decI_inj h
    simpa using this
  int := by
    rintro a ⟨e, rfl⟩ e' h
    have := decI_inj h
    simpa using this

/-- `(2·x₀ + (3)· x₁²)` -/
def sample : Fn := .sum [(2, .proj 0), (3, .prod [(2, .proj 1)])]

example : text (fun a => decI ⌊a⌋) sample = "(2·x[0] + (3)· x[1]^2)".toList := by
  have h2 : ⌊(2 : ℝ)⌋ = 2 := by norm_num
  have h3 : ⌊(3 : ℝ)⌋ = 3 := by norm_num
  have n1 : ¬ ((2 : ℝ) = 1) := by norm_num
  have n2 : ¬ ((2 : ℝ) = -1) := by norm_num
  simp only [sample, text, sumText, restText, prodText, h2, h3, if_neg n1, if_neg n2]
  decide

example : Unnested sample ∧ Uses {a : ℝ | ∃ e : ℤ, a = e} sample := by
  have occ : ∀ g, Occurs g sample → g = sample ∨ g = .proj 0 ∨ g = .prod [(2, .proj 1)] ∨ g = .proj 1 := by
    intro g h
    cases h with
    | here => exact Or.inl rfl
    | sum hp h =>
      simp only [List.mem_cons, List.not_mem_nil, or_false] at hp
      rcases hp with rfl | rfl
      · cases h; simp
      · cases h with
        | here => simp
        | prod hp h =>
          simp only [List.mem_cons, List.not_mem_nil, or_false] at hp
          subst hp
          cases h; simp
  refine ⟨⟨fun v h c w hm => ?_, fun v h c w hm => ?_⟩, ⟨fun g a h => ?_, fun v h p hp => ?_⟩⟩
  · rcases occ _ h with h | h | h | h <;> simp [sample] at h
    subst h; simp at hm
  · rcases occ _ h with h | h | h | h <;> simp [sample] at h
    subst h; simp at hm
  · rcases occ _ h with h | h | h | h <;> simp [sample] at h
  · rcases occ _ h with h | h | h | h <;> simp [sample] at h
    subst h
    simp only [List.mem_cons, List.not_mem_nil, or_false] at hp
    rcases hp with rfl | rfl
    · exact ⟨2, by norm_num⟩
    · exact ⟨3, by norm_num⟩

/-- Without `Unnested` the texts would be ambiguous: the square of the product `x₀·x₁` is printed like the product `x₀·x₁²`. -/
example (num : ℝ → Text) : text num (.prod [(2, .prod [(1, .proj 0), (1, .proj 1)])]) = text num (.prod [(1, .prod [(1, .proj 0), (2, .proj 1)])]) := by
  simp [text, prodText]

end
end Toppo.Analysis
