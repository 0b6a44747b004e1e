import Verif.Model.MatrixView
import Mathlib.Tactic.Ring
import Mathlib.Tactic.Linarith
set_option linter.unusedVariables false

namespace Toppo

theorem extract_lt (d : Nat) : (extract d).1.1 < 65536 ∧ (extract d).1.2 < 65536 ∧ (extract d).2.1 < 65536 ∧ (extract d).2.2 < 65536 := by
  have h : ∀ x : Nat, x &&& 65535 < 65536 := fun x => by
    have := Nat.and_two_pow_sub_one_eq_mod x 16
    norm_num at this; omega
  exact ⟨h _, h _, h _, h _⟩

theorem extract_compress {a b c d : Nat} (ha : a < 65536) (hb : b < 65536) (hc : c < 65536) (hd : d < 65536) :
    extract (compress (a, b) (c, d)) = ((a, b), (c, d)) := by
  have hmask : ∀ x : Nat, x &&& 65535 = x % 65536 := fun x => by
    have := Nat.and_two_pow_sub_one_eq_mod x 16
    norm_num at this; exact this
  have hs : ∀ x k y : Nat, x < 65536 → x * 2 ^ k < 2 ^ 64 → shl64 x k = x <<< k := by
    intro x k y hx h
    rw [shl64, Nat.shiftLeft_eq, Nat.mod_eq_of_lt h]
  have e1 : compress (a, b) (c, d) = a * 2^48 + b * 2^32 + c * 2^16 + d := by
    simp only [compress]
    rw [hs a 48 0 ha (by omega), hs b 32 0 hb (by omega), hs c 16 0 hc (by omega)]
    rw [Nat.or_assoc, Nat.or_assoc, ← Nat.shiftLeft_add_eq_or_of_lt (i := 16) (b := d) (by omega) c]
    rw [← Nat.shiftLeft_add_eq_or_of_lt (i := 32) (by rw [Nat.shiftLeft_eq]; omega) b]
    rw [← Nat.shiftLeft_add_eq_or_of_lt (i := 48) (by rw [Nat.shiftLeft_eq, Nat.shiftLeft_eq]; omega) a]
    simp only [Nat.shiftLeft_eq]; omega
  rw [e1]
  simp only [extract, hmask, Nat.shiftRight_eq_div_pow, Prod.mk.injEq]
  refine ⟨⟨?_, ?_⟩, ?_, ?_⟩ <;> omega

namespace View

/-- all packed fields fit -/
def Fits (v : View) : Prop := v.size.1 < 65536 ∧ v.size.2 < 65536 ∧ v.off.1 < 65536 ∧ v.off.2 < 65536

theorem fromRaw_fits (b : Nat) (s o : Nat × Nat) : (fromRaw b s o).Fits := extract_lt _

theorem fromRaw_eq {b : Nat} {s o : Nat × Nat} (h : s.1 < 65536 ∧ s.2 < 65536 ∧ o.1 < 65536 ∧ o.2 < 65536) :
    fromRaw b s o = ⟨b, s, o⟩ := by
  obtain ⟨s1, s2⟩ := s
  obtain ⟨o1, o2⟩ := o
  simp only [fromRaw, extract_compress h.1 h.2.1 h.2.2.1 h.2.2.2]

theorem asPtr_some {v : View} (h1 : 0 < v.size.1) (h2 : 0 < v.size.2) (h3 : 0 < v.off.1) (h4 : 0 < v.off.2) :
    v.asPtr = some v.base := by
  have a := Nat.mul_pos h1 h3
  have b := Nat.mul_pos h2 h4
  simp [asPtr, sliceLen]; omega

/-- A view whose elements lie at pairwise distinct places of the memory. -/
structure Good {K : Type} (mem : List K) (v : View) : Prop where
  fits : v.Fits
  o1 : 0 < v.off.1
  o2 : 0 < v.off.2
  inside : ∀ i j, i < v.size.1 → j < v.size.2 → v.addr i j < mem.length
  inj : ∀ i j i' j', i < v.size.1 → j < v.size.2 → i' < v.size.1 → j' < v.size.2 → v.addr i j = v.addr i' j' → i = i' ∧ j = j'

variable {K : Type}

theorem get_eq {mem : List K} {v : View} (h1 : 0 < v.off.1) (h2 : 0 < v.off.2) {i j : Nat} (hi : i < v.size.1) (hj : j < v.size.2) :
    get mem v i j = mem[v.addr i j]? := by
  simp [get, hi, hj, asPtr_some (v := v) (by omega) (by omega) h1 h2]

theorem get_none {mem : List K} {v : View} {i j : Nat} (h : ¬ (i < v.size.1 ∧ j < v.size.2)) : get mem v i j = none := by
  simp only [get, if_neg h]

theorem set_none {mem : List K} {v : View} {i j : Nat} {x : K} (h : ¬ (i < v.size.1 ∧ j < v.size.2)) : set mem v i j x = none := by
  simp only [set, if_neg h]

theorem set_eq {mem : List K} {v : View} (g : Good mem v) {i j : Nat} (hi : i < v.size.1) (hj : j < v.size.2) (x : K) :
    set mem v i j x = some (mem.set (v.addr i j) x) := by
  have := g.inside i j hi hj
  simp [set, hi, hj, asPtr_some (v := v) (by omega) (by omega) g.o1 g.o2, this]

theorem Good.congr {mem mem' : List K} {v : View} (g : Good mem v) (h : mem'.length = mem.length) : Good mem' v :=
  ⟨g.fits, g.o1, g.o2, fun i j a b => by rw [h]; exact g.inside i j a b, g.inj⟩

theorem sub_eq {v : View} (f : v.Fits) (h3 : 0 < v.off.1) (h4 : 0 < v.off.2) (h1 : 0 < v.size.1) (h2 : 0 < v.size.2)
    {rows cols : Rng} (hr : (unpack rows v.size.1).1 ≤ (unpack rows v.size.1).2) (hr' : (unpack rows v.size.1).2 ≤ v.size.1)
    (hc : (unpack cols v.size.2).1 ≤ (unpack cols v.size.2).2) (hc' : (unpack cols v.size.2).2 ≤ v.size.2) :
    v.sub rows cols = some ⟨v.addr (unpack rows v.size.1).1 (unpack cols v.size.2).1,
      ((unpack rows v.size.1).2 - (unpack rows v.size.1).1, (unpack cols v.size.2).2 - (unpack cols v.size.2).1), v.off⟩ := by
  simp only [sub, checkSub, decide_true, hr, hr', hc, hc', Bool.and_true, Bool.true_and]
  rw [asPtr_some h1 h2 h3 h4]
  have e1 : (unpack rows v.size.1).2 - (unpack rows v.size.1).1 ≤ v.size.1 := by omega
  have e2 : (unpack cols v.size.2).2 - (unpack cols v.size.2).1 ≤ v.size.2 := by omega
  simp only [e1, e2, decide_true, Bool.and_self, if_true]
  show some (fromRaw _ _ _) = _
  rw [fromRaw_eq ⟨by have := f.1; simp only; omega, by have := f.2.1; simp only; omega, f.2.2.1, f.2.2.2⟩]
  simp only [addr, Nat.mul_comm]

theorem sub_some {v w : View} {rows cols : Rng} (h : v.sub rows cols = some w) :
    (unpack rows v.size.1).1 ≤ (unpack rows v.size.1).2 ∧ (unpack rows v.size.1).2 ≤ v.size.1 ∧
    (unpack cols v.size.2).1 ≤ (unpack cols v.size.2).2 ∧ (unpack cols v.size.2).2 ≤ v.size.2 ∧
    0 < v.size.1 ∧ 0 < v.size.2 ∧ 0 < v.off.1 ∧ 0 < v.off.2 := by
  simp only [sub] at h
  generalize hu : unpack rows v.size.1 = ur at *
  generalize hu' : unpack cols v.size.2 = uc at *
  by_cases hb : (checkSub ur.1 ur.2 v.size.1 && checkSub uc.1 uc.2 v.size.2) = true
  · rw [if_pos hb] at h
    simp only [checkSub, Bool.and_eq_true, decide_eq_true_eq] at hb
    have hp : v.asPtr ≠ none := by
      intro hn; rw [hn] at h; simp at h
    have : ¬ (v.size.1 * v.off.1 = 0 ∨ v.size.2 * v.off.2 = 0) := by
      intro hh; apply hp; simp only [asPtr, sliceLen, if_pos hh, Option.map_none]
    simp only [Nat.mul_eq_zero] at this
    omega
  · rw [if_neg hb] at h; cases h

theorem row_sub {v : View} (f : v.Fits) (h3 : 0 < v.off.1) (h4 : 0 < v.off.2) (h2 : 0 < v.size.2) {i : Nat} (hi : i < v.size.1) :
    v.sub (.idx i) .full = some ⟨v.addr i 0, (1, v.size.2), v.off⟩ := by
  rw [sub_eq f h3 h4 (by omega) h2 (by simp [unpack]) (by simp [unpack]; omega) (by simp [unpack]) (by simp [unpack])]
  simp [unpack]

theorem col_sub {v : View} (f : v.Fits) (h3 : 0 < v.off.1) (h4 : 0 < v.off.2) (h1 : 0 < v.size.1) {j : Nat} (hj : j < v.size.2) :
    v.sub .full (.idx j) = some ⟨v.addr 0 j, (v.size.1, 1), v.off⟩ := by
  rw [sub_eq f h3 h4 h1 (by omega) (by simp [unpack]) (by simp [unpack]) (by simp [unpack]) (by simp [unpack]; omega)]
  simp [unpack]

/-! ### loops writing pairwise distinct entries -/

/-- A `foldlM` whose every step rewrites, from the current entries, a single group of entries. -/
theorem foldlM_inv {α : Type} (P : Nat → List K → Prop) (n : Nat) (step : List K → Nat → Option (List K)) (mem : List K)
    (h0 : P 0 mem) (hs : ∀ k m, k < n → P k m → ∃ m', step m k = some m' ∧ P (k + 1) m') :
    ∃ m', (List.range n).foldlM step mem = some m' ∧ P n m' := by
  induction n with
  | zero => exact ⟨mem, rfl, h0⟩
  | succ n ih =>
    obtain ⟨m, hm, hP⟩ := ih (fun k m hk hp => hs k m (by omega) hp)
    obtain ⟨m', hm', hP'⟩ := hs n m (by omega) hP
    refine ⟨m', ?_, hP'⟩
    rw [List.range_succ, List.foldlM_append, hm]
    simp [hm']

theorem mapM_range {α : Type} (n : Nat) (f : Nat → Option α) (g : Nat → α) (h : ∀ i < n, f i = some (g i)) :
    (List.range n).mapM f = some ((List.range n).map g) := by
  have : ∀ l : List Nat, (∀ i ∈ l, f i = some (g i)) → l.mapM f = some (l.map g) := by
    intro l
    induction l with
    | nil => intro _; rfl
    | cons a l ih =>
      intro hl
      rw [List.mapM_cons, hl a (by simp), ih (fun i hi => hl i (by simp [hi]))]
      rfl
  exact this _ (fun i hi => h i (List.mem_range.mp hi))

theorem mapM_some {α β : Type} (l : List α) (f : α → Option β) (g : α → β) (h : ∀ i ∈ l, f i = some (g i)) :
    l.mapM f = some (l.map g) := by
  induction l with
  | nil => rfl
  | cons a l ih =>
    rw [List.mapM_cons, h a (by simp), ih (fun i hi => h i (by simp [hi]))]
    rfl

theorem mapM_none {α β : Type} (l : List α) (f : α → Option β) (h : ∃ i ∈ l, f i = none) : l.mapM f = none := by
  induction l with
  | nil => simp at h
  | cons a l ih =>
    rw [List.mapM_cons]
    cases hf : f a with
    | none => rfl
    | some b =>
      have : ∃ i ∈ l, f i = none := by
        obtain ⟨i, hi, hn⟩ := h
        rcases List.mem_cons.mp hi with rfl | hi
        · rw [hf] at hn; cases hn
        · exact ⟨i, hi, hn⟩
      rw [ih this]; rfl

theorem mem_positions {n m : Nat} {p : Nat × Nat} : p ∈ positions n m ↔ p.1 < n ∧ p.2 < m := by
  obtain ⟨i, j⟩ := p
  simp [positions]

theorem positions_succ (n m : Nat) : positions (n + 1) m = positions n m ++ (List.range m).map (fun j => (n, j)) := by
  simp [positions, List.range_succ]

theorem positions_length (n m : Nat) : (positions n m).length = n * m := by
  induction n with
  | zero => simp [positions]
  | succ n ih => rw [positions_succ]; simp [ih]; ring

theorem positions_get {n m i j : Nat} (hi : i < n) (hj : j < m) : (positions n m)[i * m + j]? = some (i, j) := by
  induction n with
  | zero => omega
  | succ n ih =>
    rw [positions_succ]
    by_cases h : i < n
    · have : i * m + j < n * m := by nlinarith
      rw [List.getElem?_append_left (by rw [positions_length]; exact this)]
      exact ih h
    · have : i = n := by omega
      subst this
      rw [List.getElem?_append_right (by rw [positions_length]; omega), positions_length]
      simp [hj]

end View

namespace Mat
variable {K : Type}

theorem build_some {n m : Nat} {f : Nat → Nat → Option K} {g : Nat → Nat → K} (h : ∀ i j, i < n → j < m → f i j = some (g i j)) :
    ∃ a, build n m f = some a ∧ a.size = (n, m) ∧ a.off = (m, 1) ∧ a.data.length = n * m ∧
      ∀ i j, i < n → j < m → a.data[i * m + j]? = some (g i j) := by
  refine ⟨⟨(View.positions n m).map (fun p => g p.1 p.2), (n, m), (m, 1)⟩, ?_, rfl, rfl, ?_, ?_⟩
  · rw [build, View.mapM_some _ _ (fun p => g p.1 p.2) (fun p hp => by rw [View.mem_positions] at hp; exact h _ _ hp.1 hp.2)]
    rfl
  · simp [View.positions_length]
  · intro i j hi hj
    simp [View.positions_get hi hj]

theorem build_none {n m : Nat} {f : Nat → Nat → Option K} (h : ∃ i j, i < n ∧ j < m ∧ f i j = none) : build n m f = none := by
  obtain ⟨i, j, hi, hj, hf⟩ := h
  rw [build, View.mapM_none _ _ ⟨(i, j), View.mem_positions.mpr ⟨hi, hj⟩, hf⟩]
  rfl

end Mat
end Toppo
