import Verif.Model.SmithField
import Mathlib.Data.List.Forall2
import Mathlib.Algebra.GroupWithZero.Units.Basic
import Mathlib.Order.Basic
set_option linter.unusedVariables false
set_option linter.unusedSectionVars false

/-
Simulation: a run of the generic code with some arithmetic `A` is matched, step by step, by the run with exact arithmetic over a field `K`.
`tot` says whether `A` may panic where exact arithmetic does not (`tot = False`) or not (`tot = True`).
-/
namespace Toppo.SmithF
open Toppo

/-- outcomes that match: a returned value is matched by a returned value; a panic, if `tot`, by a panic -/
def OR {α β : Type} (tot : Prop) (R : α → β → Prop) (x : Option α) (y : Option β) : Prop :=
  match x with
  | some r => ∃ r', y = some r' ∧ R r r'
  | none => tot → y = none

namespace OR
variable {α β γ δ : Type} {tot : Prop} {R : α → β → Prop} {S : γ → δ → Prop}

theorem some' {r : α} {r' : β} (h : R r r') : OR tot R (some r) (some r') := ⟨r', rfl, h⟩

theorem none' {x : Option β} (h : x = none) : OR tot R none x := fun _ => h

theorem bind {x : Option α} {y : Option β} {f : α → Option γ} {g : β → Option δ} (h : OR tot R x y)
    (hf : ∀ r r', R r r' → OR tot S (f r) (g r')) : OR tot S (x.bind f) (y.bind g) := by
  match x, h with
  | some r, ⟨r', e, h⟩ => rw [e]; exact hf r r' h
  | none, h => exact fun t => by rw [h t]; rfl

theorem mono {T : α → β → Prop} {x : Option α} {y : Option β} (h : OR tot R x y) (hT : ∀ r r', R r r' → T r r') : OR tot T x y := by
  match x, h with
  | some r, ⟨r', e, h⟩ => exact ⟨r', e, hT _ _ h⟩
  | none, h => exact h

theorem ret {x : Option α} {y : Option β} {r : α} (h : OR tot R x y) (e : x = some r) : ∃ r', y = some r' ∧ R r r' := by
  subst e; exact h

theorem foldlM {ι : Type} {l : List ι} {f : α → ι → Option α} {g : β → ι → Option β} (hs : ∀ i ∈ l, ∀ r r', R r r' → OR tot R (f r i) (g r' i)) :
    ∀ {r r'}, R r r' → OR tot R (l.foldlM f r) (l.foldlM g r') := by
  induction l with
  | nil => intro r r' h; exact some' h
  | cons i l ih =>
    intro r r' h
    rw [List.foldlM_cons, List.foldlM_cons]
    exact bind (hs i (by simp) r r' h) (fun s s' h' => ih (fun k hk => hs k (List.mem_cons_of_mem _ hk)) h')

theorem allM {ι : Type} {l : List ι} {f g : ι → Option Bool} (hs : ∀ i ∈ l, OR tot Eq (f i) (g i)) : OR tot Eq (l.allM f) (l.allM g) := by
  induction l with
  | nil => exact some' rfl
  | cons i l ih =>
    rw [List.allM, List.allM]
    refine bind (hs i (by simp)) ?_
    rintro b _ rfl
    cases b
    · exact some' rfl
    · exact ih (fun k hk => hs k (List.mem_cons_of_mem _ hk))

theorem mapM {ι κ : Type} {l : List ι} {l' : List κ} {T : ι → κ → Prop} (hl : List.Forall₂ T l l') {f : ι → Option α} {g : κ → Option β}
    (hs : ∀ i k, T i k → OR tot R (f i) (g k)) : OR tot (List.Forall₂ R) (l.mapM f) (l'.mapM g) := by
  induction hl with
  | nil => exact some' List.Forall₂.nil
  | cons h _ ih =>
    rw [List.mapM_cons, List.mapM_cons]
    refine bind (hs _ _ h) (fun r r' hr => bind ih (fun s s' hs => some' (List.Forall₂.cons hr hs)))

end OR

variable {F : Type} [DecidableEq F] {K : Type} [Field K] [DecidableEq K]

/-- the arithmetic `A` simulates exact arithmetic under the relation `V` between representations and values -/
structure Sim (tot : Prop) (V : F → K → Prop) (A : Arith F) : Prop where
  zero : V A.zero 0
  one : V A.one 1
  eqz : ∀ {x x'}, V x x' → (x = A.zero ↔ x' = 0)
  add : ∀ {x x' y y'}, V x x' → V y y' → OR tot V (A.add x y) ((exact K).add x' y')
  sub : ∀ {x x' y y'}, V x x' → V y y' → OR tot V (A.sub x y) ((exact K).sub x' y')
  mul : ∀ {x x' y y'}, V x x' → V y y' → OR tot V (A.mul x y) ((exact K).mul x' y')
  div : ∀ {x x' y y'}, V x x' → V y y' → OR tot V (A.div x y) ((exact K).div x' y')
  neg : ∀ {x x'}, V x x' → x' ≠ 0 → V (A.neg x) (-x')

/-- matrices related inside the size -/
def RelM (V : F → K → Prop) (n m : Nat) (f : Nat → Nat → F) (f' : Nat → Nat → K) : Prop := ∀ i j, i < n → j < m → V (f i j) (f' i j)

/-- states related inside the sizes -/
structure RelS (V : F → K → Prop) (n m : Nat) (s : St F) (s' : St K) : Prop where
  a : RelM V n m s.a s'.a
  p : RelM V n n s.p s'.p
  pinv : RelM V n n s.pinv s'.pinv
  q : RelM V m m s.q s'.q
  qinv : RelM V m m s.qinv s'.qinv

section
variable {tot : Prop} {V : F → K → Prop} {A : Arith F} (H : Sim tot V A)
include H

theorem Sim.axpy {x y c : F} {x' y' c' : K} (hx : V x x') (hy : V y y') (hc : V c c') :
    OR tot V (axpy A x y c) (axpy (exact K) x' y' c') := by
  refine OR.bind (H.mul hy hc) (fun p p' hp => H.add hx hp)

theorem all_none {n : Nat} {f : Nat → Option F} (h : ¬ (List.range n).all (fun j => (f j).isSome) = true) : ∃ j < n, f j = none := by
  simp at h
  obtain ⟨j, hj, h⟩ := h
  exact ⟨j, hj, h⟩

theorem Sim.rowOp {n m r1 r2 : Nat} {a : Nat → Nat → F} {a' : Nat → Nat → K} {c : F} {c' : K} (h : RelM V n m a a') (h1 : r1 < n) (h2 : r2 < n)
    (hc : V c c') : OR tot (RelM V n m) (rowOp A m a r1 r2 c) (rowOp (exact K) m a' r1 r2 c') := by
  have hx : ∀ j < m, OR tot V (SmithF.axpy A (a r1 j) (a r2 j) c) (SmithF.axpy (exact K) (a' r1 j) (a' r2 j) c') :=
    fun j hj => H.axpy (h r1 j h1 hj) (h r2 j h2 hj) hc
  rw [SmithF.rowOp]
  split
  · rename_i hall
    have hs : ∀ j < m, ∃ z, SmithF.axpy A (a r1 j) (a r2 j) c = some z := by
      intro j hj
      rw [List.all_eq_true] at hall
      exact Option.isSome_iff_exists.mp (hall j (List.mem_range.mpr hj))
    have hs' : (List.range m).all (fun j => (SmithF.axpy (exact K) (a' r1 j) (a' r2 j) c').isSome) = true := by
      rw [List.all_eq_true]
      intro j hj
      obtain ⟨z, hz⟩ := hs j (List.mem_range.mp hj)
      obtain ⟨z', hz', _⟩ := (hx j (List.mem_range.mp hj)).ret hz
      rw [hz']; rfl
    rw [SmithF.rowOp, if_pos hs']
    refine OR.some' fun i j hi hj => ?_
    split
    · obtain ⟨z, hz⟩ := hs j hj
      obtain ⟨z', hz', hv⟩ := (hx j hj).ret hz
      rw [hz, hz']; exact hv
    · exact h i j hi hj
  · rename_i hall
    obtain ⟨j, hj, hn⟩ := all_none (tot := tot) (V := V) H hall
    intro t
    rw [SmithF.rowOp, if_neg]
    intro hall'
    rw [List.all_eq_true] at hall'
    have h1 := hall' j (List.mem_range.mpr hj)
    have h2 := hx j hj
    rw [hn] at h2
    rw [h2 t] at h1
    cases h1

theorem Sim.colOp {n m c1 c2 : Nat} {a : Nat → Nat → F} {a' : Nat → Nat → K} {c : F} {c' : K} (h : RelM V n m a a') (h1 : c1 < m) (h2 : c2 < m)
    (hc : V c c') : OR tot (RelM V n m) (colOp A n a c1 c2 c) (colOp (exact K) n a' c1 c2 c') := by
  have hx : ∀ j < n, OR tot V (SmithF.axpy A (a j c1) (a j c2) c) (SmithF.axpy (exact K) (a' j c1) (a' j c2) c') :=
    fun j hj => H.axpy (h j c1 hj h1) (h j c2 hj h2) hc
  rw [SmithF.colOp]
  split
  · rename_i hall
    have hs : ∀ j < n, ∃ z, SmithF.axpy A (a j c1) (a j c2) c = some z := by
      intro j hj
      rw [List.all_eq_true] at hall
      exact Option.isSome_iff_exists.mp (hall j (List.mem_range.mpr hj))
    have hs' : (List.range n).all (fun j => (SmithF.axpy (exact K) (a' j c1) (a' j c2) c').isSome) = true := by
      rw [List.all_eq_true]
      intro j hj
      obtain ⟨z, hz⟩ := hs j (List.mem_range.mp hj)
      obtain ⟨z', hz', _⟩ := (hx j (List.mem_range.mp hj)).ret hz
      rw [hz']; rfl
    rw [SmithF.colOp, if_pos hs']
    refine OR.some' fun i j hi hj => ?_
    split
    · obtain ⟨z, hz⟩ := hs i hi
      obtain ⟨z', hz', hv⟩ := (hx i hi).ret hz
      rw [hz, hz']; exact hv
    · exact h i j hi hj
  · rename_i hall
    obtain ⟨j, hj, hn⟩ := all_none (tot := tot) (V := V) H hall
    intro t
    rw [SmithF.colOp, if_neg]
    intro hall'
    rw [List.all_eq_true] at hall'
    have h1 := hall' j (List.mem_range.mpr hj)
    have h2 := hx j hj
    rw [hn] at h2
    rw [h2 t] at h1
    cases h1

omit H in
theorem RelM.swapRows {n m r1 r2 : Nat} {a : Nat → Nat → F} {a' : Nat → Nat → K} (h : RelM V n m a a') (h1 : r1 < n) (h2 : r2 < n) :
    RelM V n m (swapRows a r1 r2) (swapRows a' r1 r2) := by
  intro i j hi hj
  simp only [SmithF.swapRows]
  split
  · exact h _ _ h2 hj
  · split
    · exact h _ _ h1 hj
    · exact h _ _ hi hj

omit H in
theorem RelM.swapCols {n m c1 c2 : Nat} {a : Nat → Nat → F} {a' : Nat → Nat → K} (h : RelM V n m a a') (h1 : c1 < m) (h2 : c2 < m) :
    RelM V n m (swapCols a c1 c2) (swapCols a' c1 c2) := by
  intro i j hi hj
  simp only [SmithF.swapCols]
  split
  · exact h _ _ hi h2
  · split
    · exact h _ _ hi h1
    · exact h _ _ hi hj

omit H in
theorem rng_mem {lo hi k : Nat} : k ∈ rng lo hi ↔ lo ≤ k ∧ k < hi := by
  simp [rng]; omega

omit H in
theorem find_congr {l : List Nat} {f g : Nat → Bool} (h : ∀ k ∈ l, f k = g k) : l.find? f = l.find? g := by
  induction l with
  | nil => rfl
  | cons x l ih =>
    rw [List.find?_cons, List.find?_cons, h x (by simp), ih (fun k hk => h k (List.mem_cons_of_mem _ hk))]

theorem Sim.dec {x : F} {x' : K} (h : V x x') : decide (x ≠ A.zero) = decide (x' ≠ (exact K).zero) := by
  have := H.eqz h
  by_cases e : x = A.zero
  · have e' : x' = (exact K).zero := this.mp e
    simp only [ne_eq, decide_not]; rw [decide_eq_true e, decide_eq_true e']
  · have e' : ¬ x' = (exact K).zero := fun e2 => e (this.mpr e2)
    simp only [ne_eq, decide_not]; rw [decide_eq_false e, decide_eq_false e']

theorem Sim.dec' {x : F} {x' : K} (h : V x x') : decide (x = A.zero) = decide (x' = (exact K).zero) := by
  have := H.eqz h
  by_cases e : x = A.zero
  · rw [decide_eq_true e, decide_eq_true (show x' = (exact K).zero from this.mp e)]
  · rw [decide_eq_false e, decide_eq_false (show ¬ x' = (exact K).zero from fun e2 => e (this.mpr e2))]

theorem Sim.findCol {n m i j : Nat} {a : Nat → Nat → F} {a' : Nat → Nat → K} (h : RelM V n m a a') :
    findCol A n m i j a = findCol (exact K) n m i j a' := by
  apply find_congr
  intro l hl
  rw [rng_mem] at hl
  have : ∀ ks : List Nat, (∀ k ∈ ks, k < n) → ks.any (fun k => decide (a k l ≠ A.zero)) = ks.any (fun k => decide (a' k l ≠ (exact K).zero)) := by
    intro ks
    induction ks with
    | nil => intro _; rfl
    | cons k ks ih =>
      intro hk
      rw [List.any_cons, List.any_cons, H.dec (h k l (hk k (by simp)) hl.2), ih (fun x hx => hk x (List.mem_cons_of_mem _ hx))]
  exact this _ (fun k hk => (rng_mem.mp hk).2)

theorem Sim.choosePivot {n m i j : Nat} {st : St F} {st' : St K} (h : RelS V n m st st') (hi : i < n) (hj : j < m) :
    OR tot (RelS V n m) (choosePivot A n m i j st) (choosePivot (exact K) n m i j st') := by
  simp only [SmithF.choosePivot, H.findCol h.a, Option.bind_eq_bind]
  cases hc : SmithF.findCol (exact K) n m i j st'.a with
  | none => exact OR.none' rfl
  | some l =>
    have hl := (rng_mem.mp (List.mem_of_find?_eq_some hc)).2
    simp only [Option.bind_some]
    have h1 : RelS V n m { st with a := swapCols st.a j l, q := swapCols st.q j l, qinv := swapRows st.qinv j l }
        { st' with a := swapCols st'.a j l, q := swapCols st'.q j l, qinv := swapRows st'.qinv j l } :=
      ⟨h.a.swapCols hj hl, h.p, h.pinv, h.q.swapCols hj hl, h.qinv.swapRows hj hl⟩
    have hz := H.eqz (h1.a i j hi hj)
    simp only at hz
    have hc : ∀ s s', RelS V n m s s' → OR tot (RelS V n m) (if s.a i j ≠ A.zero then some s else none) (if s'.a i j ≠ (exact K).zero then some s' else none) := by
      intro s s' hs
      have hz := H.eqz (hs.a i j hi hj)
      by_cases e : s.a i j = A.zero
      · rw [if_neg (not_not.mpr e), if_neg (not_not.mpr (show s'.a i j = (exact K).zero from hz.mp e))]
        exact OR.none' rfl
      · rw [if_pos e, if_pos (show s'.a i j ≠ (exact K).zero from fun e2 => e (hz.mpr e2))]
        exact OR.some' hs
    by_cases e : swapCols st.a j l i j = A.zero
    · rw [if_pos e, if_pos (show _ = (exact K).zero from hz.mp e)]
      have hf : (rng i n).find? (fun k => decide (swapCols st.a j l k j ≠ A.zero)) = (rng i n).find? (fun k => decide (swapCols st'.a j l k j ≠ (exact K).zero)) :=
        find_congr fun k hk => H.dec (h1.a k j (rng_mem.mp hk).2 hj)
      rw [hf]
      cases hk : (rng i n).find? (fun k => decide (swapCols st'.a j l k j ≠ (exact K).zero)) with
      | none => exact OR.none' rfl
      | some k =>
        have hkn := (rng_mem.mp (List.mem_of_find?_eq_some hk)).2
        exact hc _ _ ⟨h1.a.swapRows hi hkn, h1.p.swapRows hi hkn, h1.pinv.swapCols hi hkn, h1.q, h1.qinv⟩
    · rw [if_neg e, if_neg (show ¬ _ = (exact K).zero from fun e2 => e (hz.mpr e2))]
      exact hc _ _ h1

theorem Sim.euclidDiv {x y : F} {x' y' : K} (hx : V x x') (hy : V y y') :
    OR tot (fun r r' => V r.1 r'.1 ∧ V r.2 r'.2) (euclidDiv A x y) (euclidDiv (exact K) x' y') :=
  OR.bind (H.div hx hy) (fun q q' hq => OR.some' ⟨hq, H.zero⟩)

theorem Sim.divides {x y : F} {x' y' : K} (hx : V x x') (hy : V y y') : OR tot Eq (divides A x y) (divides (exact K) x' y') :=
  OR.bind (H.euclidDiv hy hx) (fun r r' hr => OR.some' (H.dec' hr.2))

theorem Sim.guardPivot {n m i j : Nat} {a : Nat → Nat → F} {a' : Nat → Nat → K} (h : RelM V n m a a') (hi : i < n) (hj : j < m) :
    OR tot Eq (guardPivot A n m i j a) (guardPivot (exact K) n m i j a') := by
  refine OR.bind (OR.allM fun k hk => H.divides (h i j hi hj) (h k j (rng_mem.mp hk).2 hj)) ?_
  rintro b _ rfl
  cases b
  · exact OR.some' rfl
  · exact OR.allM fun l hl => H.divides (h i j hi hj) (h i l hi (rng_mem.mp hl).2)

omit H in
theorem div_nz {x y : K} (hx : x ≠ 0) {r : K × K} (h : SmithF.euclidDiv (exact K) x y = some r) : r.1 ≠ 0 := by
  by_cases hy : y = 0
  · subst hy; simp [SmithF.euclidDiv, exact] at h
  · simp [SmithF.euclidDiv, exact, hy] at h
    rw [← h]; exact div_ne_zero hx hy

/-- `bind` with the equation of the exact side at hand -/
theorem bind_eq {α β γ δ : Type} {R : α → β → Prop} {S : γ → δ → Prop} {x : Option α} {y : Option β} {f : α → Option γ} {g : β → Option δ}
    (h : OR tot R x y) (hf : ∀ r r', y = some r' → R r r' → OR tot S (f r) (g r')) : OR tot S (x.bind f) (y.bind g) := by
  match x, h with
  | some r, ⟨r', e, h⟩ => rw [e]; exact hf r r' e h
  | none, h => exact fun t => by rw [h t]; rfl

theorem Sim.elimRow {n m i j k : Nat} {st : St F} {st' : St K} (h : RelS V n m st st') (hi : i < n) (hj : j < m) (hk : k < n) :
    OR tot (RelS V n m) (elimRow A n m i j st k) (elimRow (exact K) n m i j st' k) := by
  have hz := H.eqz (h.a k j hk hj)
  simp only [SmithF.elimRow]
  by_cases e : st.a k j = A.zero
  · rw [if_pos e, if_pos (show _ = (exact K).zero from hz.mp e)]; exact OR.some' h
  · have e' : st'.a k j ≠ 0 := fun e2 => e (hz.mpr e2)
    rw [if_neg e, if_neg (show ¬ _ = (exact K).zero from e')]
    refine bind_eq H (H.euclidDiv (h.a k j hk hj) (h.a i j hi hj)) ?_
    rintro ⟨r, w⟩ ⟨r', w'⟩ he ⟨hr, _⟩
    have hneg : V (A.neg r) ((exact K).neg r') := H.neg hr (div_nz e' he)
    refine OR.bind (H.rowOp h.a hk hi hneg) (fun a a' ha => OR.bind (H.rowOp h.p hk hi hneg) (fun p p' hp =>
      OR.bind (H.colOp h.pinv hi hk hr) (fun q q' hq => OR.some' ⟨ha, hp, hq, h.q, h.qinv⟩)))

theorem Sim.elimCol {n m i j l : Nat} {st : St F} {st' : St K} (h : RelS V n m st st') (hi : i < n) (hj : j < m) (hl : l < m) :
    OR tot (RelS V n m) (elimCol A n m i j st l) (elimCol (exact K) n m i j st' l) := by
  have hz := H.eqz (h.a i l hi hl)
  simp only [SmithF.elimCol]
  by_cases e : st.a i l = A.zero
  · rw [if_pos e, if_pos (show _ = (exact K).zero from hz.mp e)]; exact OR.some' h
  · have e' : st'.a i l ≠ 0 := fun e2 => e (hz.mpr e2)
    rw [if_neg e, if_neg (show ¬ _ = (exact K).zero from e')]
    refine bind_eq H (H.euclidDiv (h.a i l hi hl) (h.a i j hi hj)) ?_
    rintro ⟨r, w⟩ ⟨r', w'⟩ he ⟨hr, _⟩
    have hneg : V (A.neg r) ((exact K).neg r') := H.neg hr (div_nz e' he)
    refine OR.bind (H.colOp h.a hl hj hneg) (fun a a' ha => OR.bind (H.colOp h.q hl hj hneg) (fun p p' hp =>
      OR.bind (H.rowOp h.qinv hj hl hr) (fun q q' hq => OR.some' ⟨ha, h.p, h.pinv, hp, hq⟩)))

theorem Sim.mainLoop {n m : Nat} : ∀ (k i j : Nat) {st : St F} {st' : St K}, RelS V n m st st' →
    OR tot (RelS V n m) (mainLoop A n m k i j st) (mainLoop (exact K) n m k i j st') := by
  intro k
  induction k with
  | zero => intro i j st st' h; exact OR.some' h
  | succ k ih =>
    intro i j st st' h
    simp only [SmithF.mainLoop]
    by_cases hij : i < n ∧ j < m
    · rw [if_pos hij, if_pos hij, H.findCol h.a]
      cases hc : SmithF.findCol (exact K) n m i j st'.a with
      | none => exact OR.some' h
      | some l =>
        have hl := (rng_mem.mp (List.mem_of_find?_eq_some hc)).2
        simp only
        refine OR.bind (H.choosePivot h hij.1 hl) (fun s s' hs => OR.bind (H.guardPivot hs.a hij.1 hl) ?_)
        rintro b _ rfl
        cases b
        · exact OR.none' rfl
        · refine OR.bind (OR.foldlM (R := RelS V n m) (f := SmithF.elimRow A n m i l) (g := SmithF.elimRow (exact K) n m i l) (fun k hk r r' hr => H.elimRow hr hij.1 hl (rng_mem.mp hk).2) hs) (fun t t' ht => ?_)
          refine OR.bind (OR.foldlM (R := RelS V n m) (f := SmithF.elimCol A n m i l) (g := SmithF.elimCol (exact K) n m i l) (fun k hk r r' hr => H.elimCol hr hij.1 hl (rng_mem.mp hk).2) ht) (fun u u' hu => ?_)
          exact ih _ _ hu
    · rw [if_neg hij, if_neg hij]; exact OR.some' h

theorem Sim.diagLoop {n m : Nat} : ∀ (l : List Nat) {st : St F} {st' : St K}, (∀ r ∈ l, r < n ∧ r < m) → RelS V n m st st' →
    RelS V n m (diagLoop A m l st) (diagLoop (exact K) m l st') := by
  intro l
  induction l with
  | nil => intro st st' _ h; exact h
  | cons r l ih =>
    intro st st' hl h
    obtain ⟨hr1, hr2⟩ := hl r (by simp)
    have hl' : ∀ x ∈ l, x < n ∧ x < m := fun x hx => hl x (List.mem_cons_of_mem _ hx)
    have hz := H.eqz (h.a r r hr1 hr2)
    simp only [SmithF.diagLoop]
    by_cases e : st.a r r = A.zero
    · rw [if_neg (not_not.mpr e), if_neg (not_not.mpr (show st'.a r r = (exact K).zero from hz.mp e))]
      have hf : (rng (r + 1) m).find? (fun s => decide (st.a r s ≠ A.zero)) = (rng (r + 1) m).find? (fun s => decide (st'.a r s ≠ (exact K).zero)) :=
        find_congr fun k hk => H.dec (h.a r k hr1 (rng_mem.mp hk).2)
      rw [hf]
      cases hs : (rng (r + 1) m).find? (fun s => decide (st'.a r s ≠ (exact K).zero)) with
      | none => exact h
      | some s =>
        have hsm := (rng_mem.mp (List.mem_of_find?_eq_some hs)).2
        refine ih hl' ⟨?_, h.p, h.pinv, h.q.swapCols hr2 hsm, h.qinv.swapRows hsm hr2⟩
        intro i j hi hj
        simp only
        split
        · exact H.zero
        · split
          · exact h.a r s hr1 hsm
          · exact h.a i j hi hj
    · rw [if_pos e, if_pos (show st'.a r r ≠ (exact K).zero from fun e2 => e (hz.mpr e2))]
      exact ih hl' h

theorem Sim.rankOf {n m : Nat} {a : Nat → Nat → F} {a' : Nat → Nat → K} (h : RelM V n m a a') : rankOf A n m a = rankOf (exact K) n m a' := by
  simp only [SmithF.rankOf]
  rw [find_congr (f := fun r => decide (a r r = A.zero)) (g := fun r => decide (a' r r = (exact K).zero))
    (fun r hr => H.dec' (h r r (by have := (rng_mem.mp hr).2; omega) (by have := (rng_mem.mp hr).2; omega)))]

omit H in
theorem rankOf_le {n m : Nat} {a : Nat → Nat → F} : SmithF.rankOf A n m a ≤ min n m := by
  simp only [SmithF.rankOf]
  split
  · rename_i r hr
    exact le_of_lt (rng_mem.mp (List.mem_of_find?_eq_some hr)).2
  · exact le_rfl

theorem Sim.guardDiag {n m R : Nat} {a : Nat → Nat → F} {a' : Nat → Nat → K} (h : RelM V n m a a') (hR : R ≤ min n m) :
    OR tot Eq (guardDiag A R a) (guardDiag (exact K) R a') := by
  refine OR.allM fun i hi => OR.allM fun k hk => ?_
  have h1 := (rng_mem.mp hi).2; have h2 := (rng_mem.mp hk).2
  exact H.divides (h i i (by omega) (by omega)) (h k k (by omega) (by omega))

theorem Sim.ident (n : Nat) : RelM V n n (ident A) (ident (exact K)) := by
  intro i j _ _
  simp only [SmithF.ident]
  split
  · exact H.one
  · exact H.zero

theorem Sim.snf {n m : Nat} {a : Nat → Nat → F} {a' : Nat → Nat → K} (h : RelM V n m a a') :
    OR tot (RelS V n m) (snf A n m a) (snf (exact K) n m a') := by
  simp only [SmithF.snf]
  by_cases h0 : n = 0 ∨ m = 0
  · rw [if_pos h0, if_pos h0]; exact OR.none' rfl
  · rw [if_neg h0, if_neg h0]
    refine OR.bind (H.mainLoop n 0 0 (st := ⟨a, _, _, _, _⟩) (st' := ⟨a', _, _, _, _⟩) ⟨h, H.ident n, H.ident n, H.ident m, H.ident m⟩) (fun s s' hs => ?_)
    have hd := H.diagLoop (rng 0 (min n m)) (fun r hr => by have := (rng_mem.mp hr).2; omega) hs
    have hg := H.guardDiag hd.a (rankOf_le (A := exact K) (n := n) (m := m) (a := (SmithF.diagLoop (exact K) m (rng 0 (min n m)) s').a))
    rw [H.rankOf hd.a]
    refine OR.bind hg ?_
    rintro b _ rfl
    cases b
    · exact OR.none' rfl
    · refine OR.bind hg ?_
      rintro b _ rfl
      cases b
      · exact OR.none' rfl
      · exact OR.some' hd

/-! ### the rank -/

theorem Sim.rankPivot {n m k : Nat} {a : Nat → Nat → F} {a' : Nat → Nat → K} (h : RelM V n m a a') (hk1 : k < n) (hk2 : k < m) :
    OR tot (fun r r' => RelM V n m r.1 r'.1 ∧ r.2 = r'.2) (rankPivot A n m a k) (rankPivot (exact K) n m a' k) := by
  simp only [SmithF.rankPivot]
  have hc : ∀ b b', RelM V n m b b' → OR tot (fun (r : (Nat → Nat → F) × Bool) (r' : (Nat → Nat → K) × Bool) => RelM V n m r.1 r'.1 ∧ r.2 = r'.2)
      (if b k k = A.zero then
        match (rng (k + 2) n).find? (fun j => decide (b j k ≠ A.zero)) with
        | some i => (SmithF.rowOp A m b k i A.one).bind fun a => some (a, false)
        | none => some (b, true)
      else some (b, false))
      (if b' k k = (exact K).zero then
        match (rng (k + 2) n).find? (fun j => decide (b' j k ≠ (exact K).zero)) with
        | some i => (SmithF.rowOp (exact K) m b' k i (exact K).one).bind fun a => some (a, false)
        | none => some (b', true)
      else some (b', false)) := by
    intro b b' hb
    have hz := H.eqz (hb k k hk1 hk2)
    by_cases e : b k k = A.zero
    · rw [if_pos e, if_pos (show _ = (exact K).zero from hz.mp e)]
      rw [find_congr (f := fun i => decide (b i k ≠ A.zero)) (g := fun i => decide (b' i k ≠ (exact K).zero)) (fun i hi => H.dec (hb i k (rng_mem.mp hi).2 hk2))]
      cases hs : (rng (k + 2) n).find? (fun i => decide (b' i k ≠ (exact K).zero)) with
      | none => exact OR.some' ⟨hb, rfl⟩
      | some j => exact OR.bind (H.rowOp hb hk1 (rng_mem.mp (List.mem_of_find?_eq_some hs)).2 H.one) (fun r r' hr => OR.some' ⟨hr, rfl⟩)
    · rw [if_neg e, if_neg (show ¬ _ = (exact K).zero from fun e2 => e (hz.mpr e2))]
      exact OR.some' ⟨hb, rfl⟩
  have hz := H.eqz (h k k hk1 hk2)
  by_cases e : a k k = A.zero
  · rw [if_pos e, if_pos (show _ = (exact K).zero from hz.mp e)]
    rw [find_congr (f := fun i => decide (a k i ≠ A.zero)) (g := fun i => decide (a' k i ≠ (exact K).zero)) (fun i hi => H.dec (h k i hk1 (rng_mem.mp hi).2))]
    cases hs : (rng (k + 2) m).find? (fun i => decide (a' k i ≠ (exact K).zero)) with
    | none => exact hc _ _ h
    | some j => exact OR.bind (H.colOp h hk2 (rng_mem.mp (List.mem_of_find?_eq_some hs)).2 H.one) hc
  · rw [if_neg e, if_neg (show ¬ _ = (exact K).zero from fun e2 => e (hz.mpr e2))]
    exact hc _ _ h

theorem Sim.rankElimRow {n m k l : Nat} {a : Nat → Nat → F} {a' : Nat → Nat → K} (h : RelM V n m a a') (hk1 : k < n) (hk2 : k < m) (hl : l < n) :
    OR tot (RelM V n m) (rankElimRow A m k a l) (rankElimRow (exact K) m k a' l) := by
  simp only [SmithF.rankElimRow]
  refine OR.bind (H.sub H.zero H.one) (fun o o' ho => ?_)
  have hz := H.eqz (h l k hl hk2)
  by_cases e : a l k = A.zero
  · rw [if_pos e, if_pos (show _ = (exact K).zero from hz.mp e)]; exact OR.some' h
  · rw [if_neg e, if_neg (show ¬ _ = (exact K).zero from fun e2 => e (hz.mpr e2))]
    exact OR.bind (H.mul ho (h l k hl hk2)) (fun c c' hc => H.rowOp h hl hk1 hc)

theorem Sim.rankElim {n m k : Nat} {a : Nat → Nat → F} {a' : Nat → Nat → K} (h : RelM V n m a a') (hk1 : k < n) (hk2 : k < m) :
    OR tot (RelM V n m) (rankElim A n m a k) (rankElim (exact K) n m a' k) := by
  refine OR.bind (H.div H.one (h k k hk1 hk2)) (fun o o' ho => OR.bind (H.sub ho H.one) (fun c c' hc => OR.bind (H.rowOp h hk1 hk1 hc) (fun b b' hb => ?_)))
  exact OR.foldlM (R := RelM V n m) (f := SmithF.rankElimRow A m k) (g := SmithF.rankElimRow (exact K) m k) (fun l hl r r' hr => H.rankElimRow hr hk1 hk2 (rng_mem.mp hl).2) hb

theorem Sim.rank {n m : Nat} {a : Nat → Nat → F} {a' : Nat → Nat → K} (h : RelM V n m a a') :
    OR tot Eq (rankAsLinearMap A n m a) (rankAsLinearMap (exact K) n m a') := by
  refine OR.bind (OR.foldlM (R := fun r r' => RelM V n m r.1 r'.1 ∧ r.2 = r'.2) (fun k hk r r' hr => ?_) ⟨h, rfl⟩) (fun s s' hs => OR.some' (by rw [hs.2]))
  have hk' := List.mem_range.mp hk
  refine OR.bind (H.rankPivot hr.1 (show k < n by omega) (show k < m by omega)) ?_
  rintro ⟨b, sk⟩ ⟨b', sk'⟩ ⟨hb, hsk⟩
  simp only at hsk; subst hsk
  cases sk
  · exact OR.bind (H.rankElim hb (show k < n by omega) (show k < m by omega)) (fun u u' hu => OR.some' ⟨hu, hr.2⟩)
  · exact OR.some' ⟨hb, by simp [hr.2]⟩

end

end Toppo.SmithF
