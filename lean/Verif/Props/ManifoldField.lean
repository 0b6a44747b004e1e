import Verif.Props.Boundary
import Verif.Props.UnivCoeff
set_option linter.unusedVariables false
set_option linter.unusedSectionVars false
/-!
# C150: Betti numbers of pseudomanifolds over a field
-/
namespace Toppo.Simp
open Toppo Toppo.ModProps Toppo.Univ

/-! ### torsion coefficients that vanish in a field -/

open Classical in
theorem tor_orders (K : Type) [Field K] (l : List (Int × Nat)) :
    (l.map (fun dk => if (dk.1 : K) = 0 then dk.2 else 0)).sum = ((orders l).filter (fun d : Nat => decide ((d : K) = 0))).length := by
  induction l with
  | nil => rfl
  | cons dk l ih =>
    have e : ((dk.1.natAbs : ℕ) : K) = 0 ↔ (dk.1 : K) = 0 := by
      rcases abs_choice dk.1 with q | q <;> rw [Nat.cast_natAbs, q] <;> simp
    rw [List.map_cons, List.sum_cons, ih, show orders (dk :: l) = List.replicate dk.2 dk.1.natAbs ++ orders l from rfl, List.filter_append, List.length_append]
    congr 1
    by_cases h : (dk.1 : K) = 0
    · rw [if_pos h, List.filter_eq_self.mpr, List.length_replicate]
      intro d hd
      rw [List.eq_of_mem_replicate hd]
      simpa using e.mpr h
    · rw [if_neg h, List.filter_eq_nil_iff.mpr, List.length_nil]
      intro d hd
      rw [List.eq_of_mem_replicate hd]
      simpa using fun t => h (e.mp t)

theorem tor_free (K : Type) [Field K] {a : Mod} {n : Nat} (h : FreeOfRank a n) : tor K a = 0 := by
  rw [tor, List.sum_eq_zero_iff]
  intro x hx
  obtain ⟨dk, e1, rfl⟩ := List.mem_map.mp hx
  rw [if_neg]
  have := h.2 dk e1
  rcases Int.natAbs_eq dk.1 with e | e <;> rw [e, this] <;> simp

open Classical in
theorem tor_two (K : Type) [Field K] {a : Mod} (h : (orders a.divisors).filter (fun d => d ≠ 1) = [2]) : tor K a = if (2 : K) = 0 then 1 else 0 := by
  have e : (orders a.divisors).filter (fun d : Nat => decide ((d : K) = 0)) = ((orders a.divisors).filter (fun d => d ≠ 1)).filter (fun d : Nat => decide ((d : K) = 0)) := by
    rw [List.filter_filter]
    refine List.filter_congr (fun d _ => ?_)
    by_cases h1 : d = 1
    · subst h1; simp
    · simp [h1]
  unfold tor
  rw [tor_orders, e, h]
  by_cases h2 : (2 : K) = 0 <;> simp [h2]

section
variable {T : Type} [DecidableEq T] [LinearOrder (Simplex T)]

/-- the dimension of the cycles modulo the boundaries with coefficients in `K`; zero where the complex has no cells -/
noncomputable def fieldBetti (K : Type) [Field K] (bm : List (Hom.BMap (Simplex T))) (i : Nat) : Nat :=
  (bm[i]?.map (fun b => FHom.betti b.n b.m (Hom.upper bm i).1 (inField K b.a) (inField K (Hom.upper bm i).2))).getD 0

theorem field_known {h : List (List T)} (g : GoodHistory h) {bm res} (k : Computes h none bm res) (K : Type) [Field K] {i : Nat} (hi : i < bm.length) :
    fieldBetti K bm i = (reportedMod res i).freeRank + tor K (reportedMod res i) + if i = 0 then 0 else tor K (reportedMod res (i - 1)) := by
  obtain ⟨bm', res', ⟨c', f0', e1', e2', h1'⟩, h2⟩ := c134_simplicial g none
  obtain ⟨c, f0, e1, e2, h1⟩ := k
  rw [e1] at e1'; cases e1'
  rw [e2] at e2'; cases e2'
  have a := h1 (f0 + f0') (by omega)
  have b := h1' (f0 + f0') (by omega)
  rw [a] at b; cases b
  have hb : bm[i]? = some bm[i] := List.getElem?_eq_getElem hi
  unfold fieldBetti
  rw [hb, Option.map_some, Option.getD_some]
  exact h2 K i _ hb (by simp)

/-- the dimension of a listed simplex is listed -/
theorem listed_length {h : List (List T)} (g : GoodHistory h) {bm res} (k : Computes h none bm res) {A : Finset T} (hA : Listed bm A) : A.card ≤ bm.length := by
  obtain ⟨c, f0, e1, e2, -⟩ := k
  obtain ⟨c', bm', r0, q1, q2, hk⟩ := known g
  rw [e1] at q1; cases q1
  rw [e2] at q2; cases q2
  obtain ⟨b, hb, s, hs, rfl⟩ := hA
  obtain ⟨i, hi⟩ := List.mem_iff_getElem?.mp hb
  have := (List.getElem?_eq_some_iff.mp hi).1
  have := ((hk.basis i b hi).2 s hs).1
  have := List.toFinset_card_le s.labels
  omega

open Classical in
/-- **C150, closed**. For a closed pseudomanifold of dimension `n ≥ 1` and a field `K`, the Betti number over `K` in dimension `n` is 1 if there is an orientation or if `2 = 0` in `K`,
and 0 otherwise. -/
theorem c150_closed {h : List (List T)} (g : GoodHistory h) {bm res} (k : Computes h none bm res) {n : Nat} (hn : 1 ≤ n) (M : Pseudomanifold (Listed bm) n) {r : T → ℤ}
    (hr : ∀ x ∈ h.flatten, ∀ y ∈ h.flatten, r x = r y → x = y) (K : Type) [Field K] :
    fieldBetti K bm n = if (∃ o, Oriented (Listed bm) r n o) ∨ (2 : K) = 0 then 1 else 0 := by
  obtain ⟨A, hA⟩ := M.nonempty
  obtain ⟨C, hC, -⟩ := M.pure A hA
  have hl := listed_length g k hC.1
  rw [hC.2] at hl
  rw [field_known g k K (by omega), if_neg (show ¬ n = 0 by omega)]
  by_cases ho : ∃ o, Oriented (Listed bm) r n o
  · obtain ⟨t1, t2⟩ := c148_orientable g k hn (by simp) M hr ho
    rw [if_pos (Or.inl ho), tor_free K t1, tor_free K t2, t1.1]
  · obtain ⟨t1, t2⟩ := c148_nonorientable g k hn (by simp) M hr ho
    rw [tor_free K t1, tor_two K t2, t1.1]
    by_cases h2 : (2 : K) = 0
    · rw [if_pos h2, if_pos (Or.inr h2)]
    · rw [if_neg h2, if_neg (by rintro (t | t) <;> [exact ho t; exact h2 t])]

/-- **C150, with boundary**. For a pseudomanifold with boundary the Betti number in the highest dimension is 0 over every field. -/
theorem c150_bounded {h : List (List T)} (g : GoodHistory h) {bm res} (k : Computes h none bm res) {n : Nat} (hn : 1 ≤ n) (M : BoundedPseudomanifold (Listed bm) n)
    (K : Type) [Field K] : fieldBetti K bm n = 0 := by
  obtain ⟨B, C, -, -, hE⟩ := M.boundary
  have hC := ((hE C).mpr rfl).1
  have hl := listed_length g k hC.1
  rw [hC.2] at hl
  obtain ⟨t1, t2, -⟩ := c149_bounded g k hn (by simp) M
  rw [field_known g k K (by omega), if_neg (show ¬ n = 0 by omega), tor_free K t1, tor_free K t2, t1.1]

end

/-- a case: the projective plane has Betti number 1 in dimension two over the field with two elements, and 0 over the rationals -/
theorem c150_projective_plane [LinearOrder (Simplex (Fin 6))] {bm res} (k : Computes exPlane none bm res) :
    fieldBetti (ZMod 2) bm 2 = 1 ∧ fieldBetti ℚ bm 2 = 0 := by
  have hL := (k.spec exPlane_surface.1).2.2.2.1 (by decide)
  have M := exPlane_surface.2
  have hno := exPlane_not_oriented
  rw [← hL] at M hno
  have hr : ∀ x ∈ exPlane.flatten, ∀ y ∈ exPlane.flatten, ((x.val : ℕ) : ℤ) = y.val → x = y := fun x _ y _ e => Fin.ext (by exact_mod_cast e)
  rw [c150_closed exPlane_surface.1 k (by omega) M hr, c150_closed exPlane_surface.1 k (by omega) M hr, if_pos (Or.inr (by decide)), if_neg]
  · exact ⟨rfl, rfl⟩
  · rintro (t | t)
    · exact hno t
    · norm_num at t

end Toppo.Simp
