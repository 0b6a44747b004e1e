import Verif.Model.FnText
import Verif.Proof.Text
import Verif.Props.FnShape
set_option linter.unusedVariables false
set_option linter.unusedSectionVars false
/-! Reading the texts of symbolic functions. -/
namespace Toppo.Analysis
open Toppo Text
noncomputable section

/-- a character of the text of a number -/
def isNum (c : Char) : Bool := c.isDigit || c == '-' || c == '.'

abbrev Val := (Nat → ℝ) → ℝ

variable (rd : Text → ℝ)

/-- `^` and a number, any number of times -/
def powers : Nat → Val → Text → Val × Text
  | 0, v, t => (v, t)
  | k + 1, v, '^' :: t => powers k (fun x => v x ^ rd (t.takeWhile isNum)) (t.dropWhile isNum)
  | k + 1, v, t => (v, t)

mutual
def atom : Nat → Text → Val × Text
  | 0, t => (fun _ => 1, t)
  | k + 1, '0' :: t => (fun _ => 0, t)
  | k + 1, '1' :: t => (fun _ => 1, t)
  | k + 1, 'x' :: '[' :: t => (fun x => x (Nat.ofDigitChars 10 (t.takeWhile Char.isDigit) 0), (t.dropWhile Char.isDigit).drop 1)
  | k + 1, 's' :: 'i' :: 'n' :: '(' :: t => (fun x => Real.sin ((expr k t).1 x), (expr k t).2.drop 1)
  | k + 1, 'c' :: 'o' :: 's' :: '(' :: t => (fun x => Real.cos ((expr k t).1 x), (expr k t).2.drop 1)
  | k + 1, '(' :: t => ((body k t).1, (body k t).2.drop 1)
  | k + 1, t => (fun _ => 1, t)
def factor : Nat → Text → Val × Text
  | 0, t => (fun _ => 1, t)
  | k + 1, t => powers rd k (atom k t).1 (atom k t).2
def prodR : Nat → Text → Val × Text
  | 0, t => (fun _ => 1, t)
  | k + 1, ' ' :: t =>
    if t.head? = some '+' then (fun _ => 1, ' ' :: t)
    else (fun x => (factor k t).1 x * (prodR k (factor k t).2).1 x, (prodR k (factor k t).2).2)
  | k + 1, t => (fun _ => 1, t)
def expr : Nat → Text → Val × Text
  | 0, t => (fun _ => 1, t)
  | k + 1, t =>
    if t.head? = some ' ' then prodR k t
    else if t.head? = none ∨ t.head? = some ')' then (fun _ => 1, t)
    else factor k t
def body : Nat → Text → Val × Text
  | 0, t => (fun _ => 1, t)
  | k + 1, t =>
    if (t.dropWhile isNum).head? = some '·' then
      let e := expr k ((t.dropWhile isNum).drop 1)
      rest k (fun x => rd (t.takeWhile isNum) * e.1 x) e.2
    else if t.head? = some '-' then
      let e := expr k (t.drop 1)
      rest k (fun x => -1 * e.1 x) e.2
    else
      let e := expr k t
      rest k (fun x => 1 * e.1 x) e.2
def rest : Nat → Val → Text → Val × Text
  | 0, v, t => (v, t)
  | k + 1, v, ' ' :: '+' :: ' ' :: '(' :: t =>
    let e := expr k ((t.dropWhile isNum).drop 2)
    rest k (fun x => v x + rd (t.takeWhile isNum) * e.1 x) e.2
  | k + 1, v, t => (v, t)
end

variable (num : ℝ → Text) (S : Set ℝ)

/-- the numbers in `f` -/
def Uses (f : Fn) : Prop := (∀ g a, Occurs (.rpow g a) f → a ∈ S) ∧ (∀ v, Occurs (.sum v) f → ∀ p ∈ v, p.1 ∈ S)

/-- the reading function reads numbers -/
structure Reads : Prop where
  real : ∀ a ∈ S, rd (num a) = a
  int : ∀ e : ℤ, rd (decI e) = e
  chars : ∀ a ∈ S, ∀ c ∈ num a, isNum c = true

/-- the text after an expression -/
def Ends (r : Text) : Prop := r = [] ∨ (∃ t, r = ')' :: t) ∨ ∃ t, r = ' ' :: '+' :: t
/-- the text after a factor -/
def Stops (r : Text) : Prop := r = [] ∨ (∃ t, r = ')' :: t) ∨ ∃ t, r = ' ' :: t

theorem Ends.stops {r : Text} (h : Ends r) : Stops r := by
  rcases h with h | h | ⟨t, h⟩
  · exact Or.inl h
  · exact Or.inr (Or.inl h)
  · exact Or.inr (Or.inr ⟨_, h⟩)

/-- the first character is not one of a number -/
def NoNum (r : Text) : Prop := ∀ c t, r = c :: t → isNum c = false

theorem Stops.noNum {r : Text} (h : Stops r) : NoNum r := by
  intro c t e
  rcases h with h | ⟨u, h⟩ | ⟨u, h⟩ <;> rw [h] at e
  · simp at e
  · simp only [List.cons.injEq] at e; rw [← e.1]; decide
  · simp only [List.cons.injEq] at e; rw [← e.1]; decide

theorem take_num {n r : Text} (h : ∀ c ∈ n, isNum c = true) (hr : NoNum r) : (n ++ r).takeWhile isNum = n ∧ (n ++ r).dropWhile isNum = r := by
  induction n with
  | nil =>
    cases r with
    | nil => simp
    | cons c t => simp [hr c t rfl]
  | cons c n ih =>
    have := ih (fun c hc => h c (List.mem_cons_of_mem _ hc))
    simp [h c (by simp), this]

theorem take_digit {n r : Text} (h : ∀ c ∈ n, c.isDigit = true) (hr : ∀ c t, r = c :: t → c.isDigit = false) :
    (n ++ r).takeWhile Char.isDigit = n ∧ (n ++ r).dropWhile Char.isDigit = r := by
  induction n with
  | nil =>
    cases r with
    | nil => simp
    | cons c t => simp [hr c t rfl]
  | cons c n ih =>
    have := ih (fun c hc => h c (List.mem_cons_of_mem _ hc))
    simp [h c (by simp), this]

theorem decI_num (e : ℤ) : ∀ c ∈ decI e, isNum c = true := by
  intro c hc
  rcases mem_decI hc with h | h
  · subst h; rfl
  · unfold isNum; simp [h]

theorem powers_stop {r : Text} (h : Stops r) (k : Nat) (v : Val) : powers rd k v r = (v, r) := by
  cases k with
  | zero => rfl
  | succ k =>
    rcases h with h | ⟨u, h⟩ | ⟨u, h⟩ <;> subst h <;> rfl

/-- the first characters of a text -/
theorem text_head : ∀ f : Fn, (∀ v, f ≠ .prod v) → ∃ c t, text num f = c :: t ∧ isNum c = (c == '0' || c == '1') ∧ (c = '0' ∨ c = '1' → t = []) ∧
    c ≠ ' ' ∧ c ≠ ')' ∧ c ≠ '-' ∧ c ≠ '·' ∧ c ≠ '+'
  | .zero, _ => ⟨'0', [], by simp [text], by decide⟩
  | .one, _ => ⟨'1', [], by simp [text], by decide⟩
  | .proj m, _ => ⟨'x', _, by rw [text]; rfl, by decide, by simp, by decide⟩
  | .sin g, _ => ⟨'s', _, by rw [text]; rfl, by decide, by simp, by decide⟩
  | .cos g, _ => ⟨'c', _, by rw [text]; rfl, by decide, by simp, by decide⟩
  | .rpow g a, _ => ⟨'(', _, by rw [text]; rfl, by decide, by simp, by decide⟩
  | .sum v, _ => ⟨'(', _, by rw [text]; rfl, by decide, by simp, by decide⟩
  | .prod v, h => absurd rfl (h v)

/-- nothing that looks like a coefficient at the beginning of a text -/
theorem look (f : Fn) {r : Text} (hr : Ends r) :
    ((text num f ++ r).dropWhile isNum).head? ≠ some '·' ∧ (text num f ++ r).head? ≠ some '-' := by
  have hE : ∀ r, Ends r → (r.dropWhile isNum).head? ≠ some '·' ∧ r.head? ≠ some '-' := by
    intro r h
    rcases h with h | ⟨u, h⟩ | ⟨u, h⟩ <;> subst h
    · simp
    · simp [isNum]
    · simp [isNum]
  by_cases hp : ∃ v, f = .prod v
  · obtain ⟨v, rfl⟩ := hp
    cases v with
    | nil => simpa [text, prodText] using hE r hr
    | cons p v =>
      obtain ⟨e, f⟩ := p
      simp [text, prodText, isNum]
  · push Not at hp
    obtain ⟨c, t, e, h1, h2, h3⟩ := text_head num f hp
    rw [e]
    by_cases hc : c = '0' ∨ c = '1'
    · rw [h2 hc]
      have : isNum c = true := by rcases hc with rfl | rfl <;> decide
      simp only [List.singleton_append, List.dropWhile_cons, this, if_true, List.head?_cons]
      exact ⟨(hE r hr).1, by simp [h3]⟩
    · have : isNum c = false := by rw [h1]; simpa using not_or.mp hc
      simp [this, h3]

theorem expr_prod (v : List (ℤ × Fn)) (k : Nat) {r : Text} (hr : Ends r) (x : Val)
    (h : prodR rd k (prodText num v ++ r) = (x, r)) (h0 : v = [] → x = fun _ => 1) : expr rd (k + 1) (prodText num v ++ r) = (x, r) := by
  rw [expr]
  cases v with
  | nil =>
    rw [prodText, List.nil_append] at h ⊢
    rcases hr with hr | ⟨u, hr⟩ | ⟨u, hr⟩ <;> subst hr
    · simp [h0 rfl]
    · simp [h0 rfl]
    · simpa using h
  | cons p v =>
    obtain ⟨e, f⟩ := p
    rw [if_pos (by simp [prodText])]
    exact h

theorem restText_ends (v : List (ℝ × Fn)) (r : Text) : Ends (restText num v ++ ')' :: r) := by
  cases v with
  | nil => exact Or.inr (Or.inl ⟨r, by simp [restText]⟩)
  | cons p v => exact Or.inr (Or.inr ⟨_, by rw [restText]; rfl⟩)

theorem prodText_stops (v : List (ℤ × Fn)) {r : Text} (h : Ends r) : Stops (prodText num v ++ r) := by
  cases v with
  | nil => simpa [prodText] using h.stops
  | cons p v => exact Or.inr (Or.inr ⟨_, by rw [prodText]; rfl⟩)

variable {rd num S} (hR : Reads rd num S)
include hR

/-- the exponent of a factor -/
def expo (e : ℤ) : Text := if e = 1 then [] else '^' :: decI e

omit hR in
theorem expo_noNum (e : ℤ) {r : Text} (hr : Stops r) : NoNum (expo e ++ r) := by
  unfold expo
  split
  · simpa using hr.noNum
  · intro c t h
    simp only [List.cons_append, List.cons.injEq] at h
    rw [← h.1]; decide

theorem powers_expo (e : ℤ) {r : Text} (hr : Stops r) (k : Nat) (v : Val) : powers rd (k + 2) v (expo e ++ r) = (fun x => v x ^ e, r) := by
  unfold expo
  split
  · rename_i h; subst h; simpa using powers_stop rd hr (k + 2) v
  · obtain ⟨h1, h2⟩ := take_num (decI_num e) hr.noNum
    rw [List.cons_append, powers, h1, h2, powers_stop rd hr, hR.int]
    simp only [Real.rpow_intCast]

theorem powers_real {a : ℝ} (ha : a ∈ S) (e : ℤ) {r : Text} (hr : Stops r) (k : Nat) (v : Val) :
    powers rd (k + 3) v ('^' :: num a ++ (expo e ++ r)) = (fun x => (v x ^ a) ^ e, r) := by
  obtain ⟨h1, h2⟩ := take_num (hR.chars a ha) (expo_noNum e hr)
  rw [List.cons_append, powers, h1, h2, hR.real a ha]
  exact powers_expo hR e hr k _

omit hR in
theorem rest_stop (k : Nat) (v : Val) (r : Text) : rest rd k v (')' :: r) = (v, ')' :: r) := by
  cases k with
  | zero => rfl
  | succ k => simp [rest]

/-- the readings of an expression, of sums, of the rest of a sum, of the factors of a product -/
def OkE (rd : Text → ℝ) (num : ℝ → Text) (f : Fn) : Prop := ∃ K, ∀ k, K ≤ k → ∀ r, Ends r → expr rd k (text num f ++ r) = (fun x => eval x f, r)
def OkB (rd : Text → ℝ) (num : ℝ → Text) (v : List (ℝ × Fn)) : Prop := ∃ K, ∀ k, K ≤ k → ∀ r, body rd k (sumText num v ++ ')' :: r) = (fun x => evalSum x v, ')' :: r)
def OkR (rd : Text → ℝ) (num : ℝ → Text) (v : List (ℝ × Fn)) : Prop := ∃ K, ∀ k, K ≤ k → ∀ y r, rest rd k y (restText num v ++ ')' :: r) = (fun x => y x + evalSum x v, ')' :: r)
def OkP (rd : Text → ℝ) (num : ℝ → Text) (v : List (ℤ × Fn)) : Prop := ∃ K, ∀ k, K ≤ k → ∀ r, Ends r → prodR rd k (prodText num v ++ r) = (fun x => evalProd x v, r)
def OkF (rd : Text → ℝ) (num : ℝ → Text) (f : Fn) : Prop := ∃ K, ∀ k, K ≤ k → ∀ e r, Stops r → factor rd k (text num f ++ (expo e ++ r)) = (fun x => eval x f ^ e, r)

omit hR in
/-- an expression in parentheses is read like a sum -/
theorem bodyE {g : Fn} (h : OkE rd num g) : ∃ K, ∀ k, K ≤ k → ∀ r, body rd k (text num g ++ ')' :: r) = (fun x => eval x g, ')' :: r) := by
  obtain ⟨K, hK⟩ := h
  refine ⟨K + 1, fun k hk r => ?_⟩
  obtain ⟨k, rfl⟩ := Nat.exists_eq_add_of_le' (show 1 ≤ k by omega)
  have hE : Ends (')' :: r) := Or.inr (Or.inl ⟨r, rfl⟩)
  obtain ⟨l1, l2⟩ := look num g hE
  rw [body, if_neg l1, if_neg l2]
  simp only [hK k (by omega) _ hE, rest_stop, one_mul]

theorem okF (f : Fn) (hu : Uses S f) (hp : ∀ v, f ≠ .prod v) (hs : ∀ g, f = .sin g ∨ f = .cos g ∨ (∃ a, f = .rpow g a) → OkE rd num g)
    (hb : ∀ v, f = .sum v → OkB rd num v) : OkF rd num f := by
  have close : ∀ r : Text, Ends (')' :: r) := fun r => Or.inr (Or.inl ⟨r, rfl⟩)
  -- an atom, then an exponent
  have fin : ∀ K, (∀ k, K ≤ k → ∀ s, atom rd k (text num f ++ s) = (fun x => eval x f, s)) → OkF rd num f := by
    intro K h
    refine ⟨K + 3, fun k hk e r hr => ?_⟩
    obtain ⟨k, rfl⟩ := Nat.exists_eq_add_of_le' (show 3 ≤ k by omega)
    rw [factor, h (k + 2) (by omega)]
    exact powers_expo hR e hr k _
  cases f with
  | zero =>
    refine fin 1 (fun k hk s => ?_)
    obtain ⟨k, rfl⟩ := Nat.exists_eq_add_of_le' hk
    simp [text, atom, eval]
  | one =>
    refine fin 1 (fun k hk s => ?_)
    obtain ⟨k, rfl⟩ := Nat.exists_eq_add_of_le' hk
    simp [text, atom, eval]
  | proj m =>
    refine fin 1 (fun k hk s => ?_)
    obtain ⟨k, rfl⟩ := Nat.exists_eq_add_of_le' hk
    obtain ⟨h1, h2⟩ := take_digit (n := dec m) (r := ']' :: s) (fun c hc => dec_digit hc) (by
      intro c t h; simp only [List.cons.injEq] at h; rw [← h.1]; decide)
    have : text num (.proj m) ++ s = 'x' :: '[' :: (dec m ++ ']' :: s) := by simp [text]
    rw [this, atom, h1, h2]
    simp [eval, dec]
  | sin g =>
    obtain ⟨K, hK⟩ := hs g (Or.inl rfl)
    refine fin (K + 1) (fun k hk s => ?_)
    obtain ⟨k, rfl⟩ := Nat.exists_eq_add_of_le' (show 1 ≤ k by omega)
    have : text num (.sin g) ++ s = 's' :: 'i' :: 'n' :: '(' :: (text num g ++ ')' :: s) := by simp [text]
    rw [this, atom, hK k (by omega) _ (close s)]
    simp [eval]
  | cos g =>
    obtain ⟨K, hK⟩ := hs g (Or.inr (Or.inl rfl))
    refine fin (K + 1) (fun k hk s => ?_)
    obtain ⟨k, rfl⟩ := Nat.exists_eq_add_of_le' (show 1 ≤ k by omega)
    have : text num (.cos g) ++ s = 'c' :: 'o' :: 's' :: '(' :: (text num g ++ ')' :: s) := by simp [text]
    rw [this, atom, hK k (by omega) _ (close s)]
    simp [eval]
  | rpow g a =>
    obtain ⟨K, hK⟩ := bodyE (hs g (Or.inr (Or.inr ⟨a, rfl⟩)))
    refine ⟨K + 5, fun k hk e r hr => ?_⟩
    obtain ⟨k, rfl⟩ := Nat.exists_eq_add_of_le' (show 5 ≤ k by omega)
    have : text num (.rpow g a) ++ (expo e ++ r) = '(' :: (text num g ++ ')' :: ('^' :: num a ++ (expo e ++ r))) := by simp [text]
    rw [this, factor, atom, hK (k + 3) (by omega)]
    · have := powers_real hR (hu.1 g a .here) e hr (k + 1) (fun x => eval x g)
      simp only [List.drop_succ_cons, List.drop_zero]
      rw [this]
      simp [eval]
  | sum v =>
    obtain ⟨K, hK⟩ := hb v rfl
    refine fin (K + 1) (fun k hk s => ?_)
    obtain ⟨k, rfl⟩ := Nat.exists_eq_add_of_le' (show 1 ≤ k by omega)
    have : text num (.sum v) ++ s = '(' :: (sumText num v ++ ')' :: s) := by simp [text]
    rw [this, atom, hK k (by omega)]
    simp [eval]
  | prod v => exact absurd rfl (hp v)

omit hR in
theorem okE_of_F {f : Fn} (hp : ∀ v, f ≠ .prod v) (h : OkF rd num f) : OkE rd num f := by
  obtain ⟨K, hK⟩ := h
  refine ⟨K + 1, fun k hk r hr => ?_⟩
  obtain ⟨k, rfl⟩ := Nat.exists_eq_add_of_le' (show 1 ≤ k by omega)
  obtain ⟨c, t, e, h1, h2, h3, h4, h5⟩ := text_head num f hp
  have hh : (text num f ++ r).head? = some c := by rw [e]; rfl
  rw [expr, hh, if_neg (by simpa using h3), if_neg (by simpa using h4)]
  have := hK k (by omega) 1 r hr.stops
  simp only [expo, if_true, List.nil_append, zpow_one] at this
  exact this

theorem ok_all : ∀ n : ℕ, (∀ f, sizeOf f < n → Unnested f → Uses S f → OkE rd num f) ∧
    (∀ v : List (ℝ × Fn), sizeOf v < n → (∀ p ∈ v, Unnested p.2 ∧ Uses S p.2 ∧ p.1 ∈ S) → OkB rd num v ∧ OkR rd num v) ∧
    (∀ v : List (ℤ × Fn), sizeOf v < n → (∀ p ∈ v, Unnested p.2 ∧ Uses S p.2 ∧ ∀ w, p.2 ≠ .prod w) → OkP rd num v) := by
  intro n
  induction n with
  | zero => simp
  | succ n ih =>
    obtain ⟨i1, i2, i3⟩ := ih
    have sub : ∀ {f g : Fn}, (∀ h, Occurs h g → Occurs h f) → Unnested f → Uses S f → Unnested g ∧ Uses S g := fun ho hn hu =>
      ⟨⟨fun v h => hn.1 v (ho _ h), fun v h => hn.2 v (ho _ h)⟩, ⟨fun g a h => hu.1 g a (ho _ h), fun v h => hu.2 v (ho _ h)⟩⟩
    -- a factor
    have stepF : ∀ f, sizeOf f < n + 1 → Unnested f → Uses S f → (∀ v, f ≠ .prod v) → OkF rd num f := by
      intro f hn hu hs hp
      refine okF hR f hs hp ?_ ?_
      · rintro g (rfl | rfl | ⟨a, rfl⟩)
        · obtain ⟨a1, a2⟩ := sub (fun h => Occurs.sin) hu hs
          exact i1 g (by simp only [Fn.sin.sizeOf_spec] at hn; omega) a1 a2
        · obtain ⟨a1, a2⟩ := sub (fun h => Occurs.cos) hu hs
          exact i1 g (by simp only [Fn.cos.sizeOf_spec] at hn; omega) a1 a2
        · obtain ⟨a1, a2⟩ := sub (fun h => Occurs.rpow) hu hs
          exact i1 g (by simp only [Fn.rpow.sizeOf_spec] at hn; omega) a1 a2
      · rintro v rfl
        refine (i2 v (by simp only [Fn.sum.sizeOf_spec] at hn; omega) ?_).1
        intro p hp
        obtain ⟨a1, a2⟩ := sub (fun h => Occurs.sum hp) hu hs
        exact ⟨a1, a2, hs.2 v .here p hp⟩
    have stepE : ∀ f, sizeOf f < n + 1 → Unnested f → Uses S f → OkE rd num f := by
      intro f hn hu hs
      by_cases hp : ∃ v, f = .prod v
      · obtain ⟨v, rfl⟩ := hp
        obtain ⟨K, hK⟩ := i3 v (by simp only [Fn.prod.sizeOf_spec] at hn; omega) (by
          intro p hp
          obtain ⟨a1, a2⟩ := sub (fun h => Occurs.prod hp) hu hs
          refine ⟨a1, a2, fun w e => hu.2 v .here p.1 w ?_⟩
          rw [← e]; exact hp)
        refine ⟨K + 1, fun k hk r hr => ?_⟩
        obtain ⟨k, rfl⟩ := Nat.exists_eq_add_of_le' (show 1 ≤ k by omega)
        simp only [text, eval]
        exact expr_prod rd num v k hr _ (hK k (by omega) r hr) (by rintro rfl; simp [evalProd])
      · push Not at hp
        exact okE_of_F hp (stepF f hn hu hs hp)
    refine ⟨stepE, ?_, ?_⟩
    · intro v hn hv
      cases v with
      | nil =>
        refine ⟨⟨4, fun k hk r => ?_⟩, ⟨0, fun k hk y r => ?_⟩⟩
        · obtain ⟨k, rfl⟩ := Nat.exists_eq_add_of_le' hk
          simp [sumText, body, expr, factor, atom, powers, isNum, rest_stop, evalSum]
        · simp [restText, rest_stop, evalSum]
      | cons p v =>
        obtain ⟨c, f⟩ := p
        simp only [List.cons.sizeOf_spec, Prod.mk.sizeOf_spec] at hn
        obtain ⟨h1, h2, h3⟩ := hv (c, f) (List.mem_cons_self ..)
        obtain ⟨K1, hE⟩ := stepE f (by omega) h1 h2
        obtain ⟨K2, hr⟩ := (i2 v (by omega) (fun p hp => hv p (List.mem_cons_of_mem _ hp))).2
        refine ⟨⟨K1 + K2 + 1, fun k hk r => ?_⟩, ⟨K1 + K2 + 1, fun k hk y r => ?_⟩⟩
        · obtain ⟨k, rfl⟩ := Nat.exists_eq_add_of_le' (show 1 ≤ k by omega)
          have hend := restText_ends num v r
          have e1 := hE k (by omega) _ hend
          obtain ⟨l1, l2⟩ := look num f hend
          simp only [sumText, evalSum]
          split
          · rename_i hc; subst hc
            rw [List.append_assoc, body, if_neg l1, if_neg l2]
            simp only [e1, hr k (by omega)]
          · split
            · rename_i hc; subst hc
              have hd : ('-' :: text num f ++ restText num v ++ ')' :: r) = '-' :: (text num f ++ (restText num v ++ ')' :: r)) := by simp
              rw [hd, body, if_neg (by rw [List.dropWhile_cons, if_pos (by decide)]; exact l1), if_pos (by simp)]
              simp only [List.drop_succ_cons, List.drop_zero, e1, hr k (by omega)]
            · have hd : (num c ++ '·' :: text num f) ++ restText num v ++ ')' :: r = num c ++ '·' :: (text num f ++ (restText num v ++ ')' :: r)) := by simp
              obtain ⟨t1, t2⟩ := take_num (n := num c) (r := '·' :: (text num f ++ (restText num v ++ ')' :: r))) (hR.chars c h3) (by
                intro d t h; simp only [List.cons.injEq] at h; rw [← h.1]; decide)
              rw [hd, body, t1, t2, if_pos (by simp)]
              simp only [List.drop_succ_cons, List.drop_zero, e1, hr k (by omega), hR.real c h3]
        · obtain ⟨k, rfl⟩ := Nat.exists_eq_add_of_le' (show 1 ≤ k by omega)
          have hend := restText_ends num v r
          have e1 := hE k (by omega) _ hend
          have hd : restText num ((c, f) :: v) ++ ')' :: r = ' ' :: '+' :: ' ' :: '(' :: (num c ++ ')' :: '·' :: (text num f ++ (restText num v ++ ')' :: r))) := by
            simp [restText]
          obtain ⟨t1, t2⟩ := take_num (n := num c) (r := ')' :: '·' :: (text num f ++ (restText num v ++ ')' :: r))) (hR.chars c h3) (by
            intro d t h; simp only [List.cons.injEq] at h; rw [← h.1]; decide)
          rw [hd, rest, t1, t2]
          simp only [List.drop_succ_cons, List.drop_zero, e1, hr k (by omega), hR.real c h3, evalSum, add_assoc]
    · intro v hn hv
      cases v with
      | nil =>
        refine ⟨1, fun k hk r hr => ?_⟩
        obtain ⟨k, rfl⟩ := Nat.exists_eq_add_of_le' hk
        simp only [prodText, List.nil_append, evalProd]
        rcases hr with hr | ⟨u, hr⟩ | ⟨u, hr⟩ <;> subst hr <;> simp [prodR]
      | cons p v =>
        obtain ⟨e, f⟩ := p
        simp only [List.cons.sizeOf_spec, Prod.mk.sizeOf_spec] at hn
        obtain ⟨h1, h2, h3⟩ := hv (e, f) (List.mem_cons_self ..)
        obtain ⟨K1, hF⟩ := stepF f (by omega) h1 h2 h3
        obtain ⟨K2, hP⟩ := i3 v (by omega) (fun p hp => hv p (List.mem_cons_of_mem _ hp))
        refine ⟨K1 + K2 + 1, fun k hk r hr => ?_⟩
        obtain ⟨k, rfl⟩ := Nat.exists_eq_add_of_le' (show 1 ≤ k by omega)
        have hd : prodText num ((e, f) :: v) ++ r = ' ' :: (text num f ++ (expo e ++ (prodText num v ++ r))) := by
          rw [prodText]
          unfold expo
          split <;> simp
        obtain ⟨c, t, ht, g1, g2, g3, g4, g5, g6, g7⟩ := text_head num f h3
        rw [hd, prodR, if_neg (by rw [ht]; simpa using g7), hF k (by omega) e _ (prodText_stops num v hr)]
        simp only [hP k (by omega) r hr, evalProd]

/-- the reading of a whole text -/
theorem read_text (f : Fn) (hn : Unnested f) (hu : Uses S f) : ∃ K, ∀ k, K ≤ k → expr rd k (text num f) = (fun x => eval x f, []) := by
  obtain ⟨K, hK⟩ := (ok_all hR (sizeOf f + 1)).1 f (by omega) hn hu
  refine ⟨K, fun k hk => ?_⟩
  have := hK k hk [] (Or.inl rfl)
  rwa [List.append_nil] at this

end
end Toppo.Analysis
