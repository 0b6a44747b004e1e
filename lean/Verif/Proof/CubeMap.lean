import Verif.Proof.CubeBd
import Mathlib.Data.List.Forall2
set_option linter.unusedVariables false

/-! The matrices `boundary_map` fills in. -/
namespace Toppo.Cub
open RawGraph RawGraph.Factor

abbrev dm (c : List Factor) : Nat := c.countP isEdge

/-- the cells of dimension `d` -/
def ofDim (C : List (List Factor)) (d : Nat) : List (List Factor) := C.filter (fun c => decide (dm c = d))

theorem filter_getElem_count {α : Type} (p : α → Bool) (l : List α) (a : Nat) (c : α) (h : l[a]? = some c) (hp : p c = true) :
    (l.filter p)[(l.take a).countP p]? = some c := by
  induction l generalizing a with
  | nil => simp at h
  | cons x l ih =>
    cases a with
    | zero =>
      simp at h; subst h
      simp [hp]
    | succ a =>
      simp only [List.getElem?_cons_succ] at h
      have := ih a h
      rw [List.take_succ_cons, List.countP_cons, List.filter_cons]
      split
      · rename_i hx; simp [hx, this]
      · rename_i hx; simp [hx, this]

theorem number_spec {data : List Branch} (F : List Nat) (C : List (List Factor)) (hFC : List.Forall₂ (PathAt data) F C) (hnd : F.Nodup)
    (numbering counter : List Nat) (hn : ∀ i ∈ F, i < numbering.length) (hd : ∀ c ∈ C, dm c < counter.length) :
    ∃ num, Cplx.number data F numbering counter = some num ∧ (∀ (i : Nat), i ∉ F → num[i]? = numbering[i]?) ∧
      ∀ (a i : Nat) c, F[a]? = some i → C[a]? = some c → num[i]? = some (counter.getD (dm c) 0 + (C.take a).countP (fun c' => decide (dm c' = dm c))) := by
  induction hFC generalizing numbering counter with
  | nil => exact ⟨numbering, rfl, fun _ _ => rfl, by simp⟩
  | @cons idx c0 F C hp hFC ih =>
    rw [List.nodup_cons] at hnd
    have hc := hd c0 (by simp)
    have hi := hn idx (by simp)
    unfold Cplx.number
    rw [hp.dim]
    simp only [Option.bind_eq_bind, Option.bind_some, List.getElem?_eq_getElem hc]
    rw [if_pos hi]
    obtain ⟨num, n1, n2, n3⟩ := ih hnd.2 (numbering.set idx counter[dm c0]) (counter.set (dm c0) (counter[dm c0] + 1)) (by intro i hi; simp [hn i (by simp [hi])])
      (by intro c hc; simp only [List.length_set]; exact hd c (by simp [hc]))
    refine ⟨num, n1, ?_, ?_⟩
    · intro i hi'
      rw [n2 i (fun h => hi' (by simp [h])), List.getElem?_set_ne]
      rintro rfl; simp at hi'
    · intro a i c ha hca
      cases a with
      | zero =>
        simp at ha hca
        subst ha; subst hca
        rw [n2 idx hnd.1, List.getElem?_set_self hi]
        simp [List.getElem?_eq_getElem hc]
      | succ a =>
        simp only [List.getElem?_cons_succ] at ha hca
        rw [n3 a i c ha hca]
        congr 1
        rw [List.take_succ_cons, List.countP_cons]
        simp only [List.getD_eq_getElem?_getD, List.getElem?_set]
        by_cases e : dm c0 = dm c
        · rw [if_pos e, if_pos hc]
          have e' : dm c < counter.length := by omega
          have : counter[dm c0] = counter[dm c] := by congr 1
          simp [e, e', this]; omega
        · simp [e]

/-- one column is filled -/
theorem fillCol_spec (num : List Nat) (d j : Nat) (bs : List (Bool × Nat)) (maps : List Cplx.IMat) (x : Cplx.IMat) (hx : maps[d]? = some x) (hj : j < x.m)
    (ν : Nat → Nat) (hν : ∀ sb ∈ bs, num[sb.2]? = some (ν sb.2) ∧ ν sb.2 < x.n) :
    ∃ maps', Cplx.fillCol num d j bs maps = some maps' ∧ maps'.length = maps.length ∧ (∀ d', d' ≠ d → maps'[d']? = maps[d']?) ∧
      maps'[d]? = some ⟨x.n, x.m, fun i' j' => x.a i' j' + if j' = j then (bs.map (fun sb => if ν sb.2 = i' then sg sb.1 else 0)).sum else 0⟩ := by
  induction bs generalizing maps x with
  | nil => exact ⟨maps, rfl, rfl, fun _ _ => rfl, by simp [hx]⟩
  | cons sb bs ih =>
    obtain ⟨sign, b⟩ := sb
    obtain ⟨h1, h2⟩ := hν (sign, b) (by simp)
    simp only at h1 h2
    have hd := (List.getElem?_eq_some_iff.mp hx).1
    obtain ⟨x', hx'⟩ : ∃ x' : Cplx.IMat, x' = { x with a := fun i' j' => if i' = ν b ∧ j' = j then x.a (ν b) j + sg sign else x.a i' j' } := ⟨_, rfl⟩
    have hadd : Cplx.addAt maps d (ν b) j (sg sign) = some (maps.set d x') := by
      unfold Cplx.addAt
      rw [hx]
      simp only [Option.bind_eq_bind, Option.bind_some]
      rw [if_pos ⟨h2, hj⟩, hx']
    obtain ⟨maps', m1, m2, m3, m4⟩ := ih (maps.set d x') x' (by rw [List.getElem?_set_self hd]) (by rw [hx']; exact hj)
      (by intro sb hsb; rw [hx']; exact hν sb (by simp [hsb]))
    refine ⟨maps', ?_, by rw [m2, List.length_set], ?_, ?_⟩
    · unfold Cplx.fillCol
      rw [h1]
      simp only [Option.bind_eq_bind, Option.bind_some]
      rw [show (if sign = true then (1 : ℤ) else -1) = sg sign from rfl, hadd]
      exact m1
    · intro d' hd'
      rw [m3 d' hd', List.getElem?_set_ne (by omega)]
    · rw [m4, hx']
      simp only [Option.some.injEq, Cplx.IMat.mk.injEq, true_and]
      funext i' j'
      by_cases ej : j' = j
      · subst ej
        by_cases ei : i' = ν b
        · subst ei
          simp only [and_self, if_true, List.map_cons, List.sum_cons]; ring
        · have : ¬ ν b = i' := fun e => ei e.symm
          simp only [ei, false_and, if_false, if_true, List.map_cons, List.sum_cons, this]; ring
      · simp [ej]

end Toppo.Cub
