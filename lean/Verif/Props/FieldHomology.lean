import Verif.Model.FieldHomology
import Verif.Props.LinAlg
import Mathlib.LinearAlgebra.FiniteDimensional.Lemmas
set_option linter.unusedVariables false

/-
C70: Betti numbers over a field.
-/
namespace Toppo.FHom
open Toppo.LinAlg Module
variable {K : Type} [Field K] [DecidableEq K]

/-- the cycles: kernel of the `n × m` matrix `f` -/
def Z (n m : Nat) (f : Nat → Nat → K) : Submodule K (Fin m → K) := LinearMap.ker (mat n m f).mulVecLin
/-- the boundaries: image of the `m × l` matrix `g` -/
def Bd (m l : Nat) (g : Nat → Nat → K) : Submodule K (Fin m → K) := LinearMap.range (mat m l g).mulVecLin
/-- the Betti number: dimension of cycles modulo boundaries -/
noncomputable def betti (n m l : Nat) (f g : Nat → Nat → K) : Nat := finrank K (Z n m f ⧸ (Bd m l g).submoduleOf (Z n m f))

/-- the boundary map above dimension `i` (empty above the top) -/
def upper (maps : List (FMap K)) (i : Nat) : Nat × (Nat → Nat → K) :=
  match maps[i + 1]? with
  | some c => (c.m, c.a)
  | none => (0, fun _ _ => 0)

/-- consecutive boundary maps fit and compose to zero -/
structure ChainCplx (maps : List (FMap K)) : Prop where
  fit : ∀ i b c, maps[i]? = some b → maps[i + 1]? = some c → c.n = b.m
  zero : ∀ i b c, maps[i]? = some b → maps[i + 1]? = some c → mat b.n b.m b.a * mat b.m c.m c.a = 0

theorem betti_eq {n m l : Nat} {f g : Nat → Nat → K} (h : Bd m l g ≤ Z n m f) :
    betti n m l f g + (mat n m f).rank + (mat m l g).rank = m := by
  have h1 : finrank K ((Bd m l g).submoduleOf (Z n m f)) = (mat m l g).rank := by
    rw [(Submodule.submoduleOfEquivOfLe h).finrank_eq]; rfl
  have h2 := Submodule.finrank_quotient_add_finrank ((Bd m l g).submoduleOf (Z n m f))
  have h3 := LinearMap.finrank_range_add_finrank_ker (mat n m f).mulVecLin
  rw [Module.finrank_fin_fun] at h3
  have h4 : finrank K (LinearMap.range (mat n m f).mulVecLin) = (mat n m f).rank := rfl
  have h5 : finrank K (LinearMap.ker (mat n m f).mulVecLin) = finrank K (Z n m f) := rfl
  rw [betti]; omega

/-- the answers of the rank function used by the code -/
def rkc (b : FMap K) : Nat := rankAsLinearMap b.n b.m b.a

theorem imKer_eq (b : FMap K) : imKer b = some (rkc b, b.m - rkc b) := by
  have h1 := c37_le_rank_partial (n := b.n) (m := b.m) b.a
  have h2 := (mat b.n b.m b.a).rank_le_width
  simp only [imKer, rkc]
  rw [if_neg (by omega)]

theorem mapM_imKer (maps : List (FMap K)) : maps.mapM imKer = some (maps.map fun b => (rkc b, b.m - rkc b)) := by
  induction maps with
  | nil => rfl
  | cons b t ih => rw [List.mapM_cons, imKer_eq, ih]; simp

theorem bd_le {maps : List (FMap K)} (h : ChainCplx maps) {i : Nat} {b : FMap K} (hb : maps[i]? = some b) :
    Bd b.m (upper maps i).1 (upper maps i).2 ≤ Z b.n b.m b.a := by
  rintro x ⟨y, rfl⟩
  show (mat b.n b.m b.a).mulVec ((mat b.m _ _).mulVec y) = 0
  rw [Matrix.mulVec_mulVec]
  suffices mat b.n b.m b.a * mat b.m (upper maps i).1 (upper maps i).2 = 0 by rw [this, Matrix.zero_mulVec]
  cases hc : maps[i + 1]? with
  | none =>
    have : upper maps i = (0, fun _ _ => 0) := by simp [upper, hc]
    rw [this]; ext p q; exact q.elim0
  | some c =>
    have : upper maps i = (c.m, c.a) := by simp [upper, hc]
    rw [this]; exact h.zero i b c hb hc

/-- the number computed for dimension `i`, in terms of the rank answers -/
theorem homology_eq {maps : List (FMap K)} (h : ChainCplx maps) : ∃ out, homology maps = some out ∧ out.length = maps.length ∧
    ∀ i b, maps[i]? = some b → out[i]? = some (b.m - rkc b - (match maps[i + 1]? with
      | some c => rkc c
      | none => 0)) := by
  have key : ∀ (t : List (FMap K)) (b : FMap K), ChainCplx (b :: t) →
      ∃ out, loop (b.m - rkc b) (t.map fun b => (rkc b, b.m - rkc b)) = some out ∧ out.length = t.length ∧
      ∀ i p c, (b :: t)[i]? = some p → (b :: t)[i + 1]? = some c → out[i]? = some (p.m - rkc p - rkc c) := by
    intro t
    induction t with
    | nil => intro b _; exact ⟨[], rfl, rfl, by simp⟩
    | cons c t ih =>
      intro b hcb
      have hct : ChainCplx (c :: t) := ⟨fun i p q hp hq => hcb.fit (i + 1) p q (by simpa using hp) (by simpa using hq),
        fun i p q hp hq => hcb.zero (i + 1) p q (by simpa using hp) (by simpa using hq)⟩
      obtain ⟨out, h1, h2, h3⟩ := ih c hct
      have hle : rkc c ≤ b.m - rkc b := by
        have hb := betti_eq (bd_le hcb (i := 0) (b := b) (by simp))
        have e : upper (b :: c :: t) 0 = (c.m, c.a) := by simp [upper]
        rw [e] at hb
        have hn : c.n = b.m := hcb.fit 0 b c (by simp) (by simp)
        have r1 := c37_le_rank_partial (n := b.n) (m := b.m) b.a
        have r2 := c37_le_rank_partial (n := c.n) (m := c.m) c.a
        rw [hn] at r2
        simp only [rkc]
        rw [hn]
        simp only at hb
        omega
      refine ⟨(b.m - rkc b - rkc c) :: out, ?_, by simp [h2], ?_⟩
      · simp only [List.map_cons, loop]
        rw [if_neg (by omega), h1]; rfl
      · intro i p q hp hq
        cases i with
        | zero =>
          simp only [List.getElem?_cons_zero, List.getElem?_cons_succ, Option.some.injEq] at hp hq
          subst hp hq; simp
        | succ i =>
          simp only [List.getElem?_cons_succ] at hp hq ⊢
          exact h3 i p q hp (by simpa using hq)
  cases maps with
  | nil => exact ⟨[], rfl, rfl, by simp⟩
  | cons b t =>
    obtain ⟨out, h1, h2, h3⟩ := key t b h
    have hlast : ∃ z, (b :: t).getLast? = some z := ⟨_, List.getLast?_eq_getLast_of_ne_nil (by simp)⟩
    obtain ⟨z, hz⟩ := hlast
    refine ⟨out ++ [z.m - rkc z], ?_, by simp [h2], ?_⟩
    · simp only [homology, List.isEmpty_cons, mapM_imKer, Option.bind_eq_bind, Option.bind_some, List.map_cons, List.head?_cons, List.tail_cons, h1]
      rw [← List.map_cons (f := fun b : FMap K => (rkc b, b.m - rkc b)), List.getLast?_map, hz]; rfl
    · intro i p hp
      have hi := (List.getElem?_eq_some_iff.mp hp).1
      simp only [List.length_cons] at hi
      cases hc : (b :: t)[i + 1]? with
      | some c =>
        have hi2 := (List.getElem?_eq_some_iff.mp hc).1
        simp only [List.length_cons] at hi2
        rw [List.getElem?_append_left (by omega)]
        exact h3 i p c hp hc
      | none =>
        have hi2 := List.getElem?_eq_none_iff.mp hc
        simp only [List.length_cons] at hi2
        have hit : i = t.length := by omega
        rw [List.getElem?_append_right (by omega), h2, hit]
        rw [List.getLast?_eq_getElem?] at hz
        simp only [List.length_cons, Nat.add_sub_cancel] at hz
        rw [hit, hz] at hp
        cases hp
        simp

/-- **C70**, what holds of the code: on a chain complex `homology()` never panics, lists one number per dimension, and no number is below
the Betti number.  Missing: equality, which fails because the rank function can answer too little (`c70_false`). -/
theorem c70_upper_bound_partial {maps : List (FMap K)} (h : ChainCplx maps) : ∃ out, homology maps = some out ∧ out.length = maps.length ∧
    ∀ i b, maps[i]? = some b → ∃ v, out[i]? = some v ∧ betti b.n b.m (upper maps i).1 b.a (upper maps i).2 ≤ v := by
  obtain ⟨out, h1, h2, h3⟩ := homology_eq h
  refine ⟨out, h1, h2, fun i b hb => ⟨_, h3 i b hb, ?_⟩⟩
  have hbt := betti_eq (bd_le h hb)
  have r1 := c37_le_rank_partial (n := b.n) (m := b.m) b.a
  cases hc : maps[i + 1]? with
  | none => simp only [rkc]; omega
  | some c =>
    have e : upper maps i = (c.m, c.a) := by simp [upper, hc]
    rw [e] at hbt ⊢
    have hn := h.fit i b c hb hc
    have r2 := c37_le_rank_partial (n := c.n) (m := c.m) c.a
    rw [hn] at r2
    simp only [rkc]
    rw [hn]
    simp only at hbt ⊢
    omega

/-- **C70** where the rank answers are right: the numbers are the Betti numbers. -/
theorem c70_exact_partial {maps : List (FMap K)} (h : ChainCplx maps)
    (hr : ∀ b ∈ maps, rankAsLinearMap b.n b.m b.a = (mat b.n b.m b.a).rank) : ∃ out, homology maps = some out ∧ out.length = maps.length ∧
    ∀ i b, maps[i]? = some b → out[i]? = some (betti b.n b.m (upper maps i).1 b.a (upper maps i).2) := by
  obtain ⟨out, h1, h2, h3⟩ := homology_eq h
  refine ⟨out, h1, h2, fun i b hb => ?_⟩
  rw [h3 i b hb]
  have hbt := betti_eq (bd_le h hb)
  have r1 := hr b (List.mem_of_getElem? hb)
  congr 1
  cases hc : maps[i + 1]? with
  | none =>
    have e : upper maps i = (0, fun _ _ => 0) := by simp [upper, hc]
    rw [e] at hbt ⊢
    have := (mat b.m 0 (fun _ _ => (0 : K))).rank_le_width
    simp only [rkc] at *
    omega
  | some c =>
    have e : upper maps i = (c.m, c.a) := by simp [upper, hc]
    rw [e] at hbt ⊢
    have hn := h.fit i b c hb hc
    have r2 := hr c (List.mem_of_getElem? hc)
    rw [hn] at r2
    simp only [rkc]
    rw [hn]
    simp only at hbt ⊢
    omega

/-- **C70** for boundary matrices whose leading principal minors, up to the rank, are all non-zero: the numbers are the Betti numbers. -/
theorem c70_minors_partial {maps : List (FMap K)} (h : ChainCplx maps)
    (hm : ∀ b ∈ maps, ∀ j ≤ (mat b.n b.m b.a).rank, (mat j j b.a).det ≠ 0) : ∃ out, homology maps = some out ∧ out.length = maps.length ∧
    ∀ i b, maps[i]? = some b → out[i]? = some (betti b.n b.m (upper maps i).1 b.a (upper maps i).2) :=
  c70_exact_partial h fun b hb => c37_minors_partial b.a (hm b hb)

/-- the path with three points and two edges -/
def exPath : List (FMap K) :=
  [{ n := 1, m := 3, a := fun _ _ => 0 },
   { n := 3, m := 2, a := fun i j => if i = j then -1 else if i = j + 1 then 1 else 0 }]

example : ∃ out, homology (exPath : List (FMap K)) = some out ∧ out.length = 2 ∧
    ∀ i b, (exPath : List (FMap K))[i]? = some b →
      out[i]? = some (betti b.n b.m (upper (exPath : List (FMap K)) i).1 b.a (upper (exPath : List (FMap K)) i).2) := by
  refine c70_minors_partial ⟨?_, ?_⟩ ?_
  · intro i b c h1 h2
    match i with
    | 0 => simp [exPath] at h1 h2; subst h1 h2; rfl
    | i + 1 => simp [exPath] at h2
  · intro i b c h1 h2
    match i with
    | 0 => simp [exPath] at h1 h2; subst h1 h2; ext i j; simp [mat, Matrix.mul_apply]
    | i + 1 => simp [exPath] at h2
  · intro b hb j hj
    simp only [exPath, List.mem_cons, List.not_mem_nil, or_false] at hb
    rcases hb with rfl | rfl
    · have : mat 1 3 (fun _ _ => (0 : K)) = 0 := by ext; rfl
      simp only [this, Matrix.rank_zero, Nat.le_zero] at hj
      subst hj
      simp
    · have := (mat 3 2 (fun i j => if i = j then (-1 : K) else if i = j + 1 then 1 else 0)).rank_le_width
      have hj2 : j ≤ 2 := le_trans hj this
      match j with
      | 0 => simp
      | 1 => simp [mat]
      | 2 => simp [mat, Matrix.det_fin_two]

/-- the complex of two points and two edges with boundary matrix `[[0, 1], [1, 0]]` -/
def exSwap : List (FMap K) :=
  [{ n := 1, m := 2, a := fun _ _ => 0 }, { n := 2, m := 2, a := fun i j => if i = 0 ∧ j = 1 then 1 else if i = 1 ∧ j = 0 then 1 else 0 }]

theorem exSwap_chain : ChainCplx (exSwap : List (FMap K)) where
  fit := by
    intro i b c h1 h2
    match i with
    | 0 => simp [exSwap] at h1 h2; subst h1 h2; rfl
    | i + 1 => simp [exSwap] at h2
  zero := by
    intro i b c h1 h2
    match i with
    | 0 => simp [exSwap] at h1 h2; subst h1 h2; ext i j; simp [mat, Matrix.mul_apply]
    | i + 1 => simp [exSwap] at h2

/-- **C70 fails**: over every field, this acyclic complex gets the answer `[2, 2]`, while both Betti numbers are zero. -/
theorem c70_false : homology (exSwap : List (FMap K)) = some [2, 2] ∧
    ∀ i b, (exSwap : List (FMap K))[i]? = some b → betti b.n b.m (upper (exSwap : List (FMap K)) i).1 b.a (upper (exSwap : List (FMap K)) i).2 = 0 := by
  obtain ⟨e1, e2⟩ := c37_false (1 : K) 1 one_ne_zero one_ne_zero
  constructor
  · have h0 : rankAsLinearMap 1 2 (fun _ _ => (0 : K)) = 0 := by simp [rankAsLinearMap, rankStep, rankPivot, rng]
    simp only [homology, exSwap, List.isEmpty_cons, mapM_imKer, List.map_cons, List.map_nil, rkc, Option.bind_eq_bind, Option.bind_some, List.head?_cons,
      List.tail_cons, loop, h0, e1]
    rfl
  · intro i b hb
    match i with
    | 0 =>
      have hbt := betti_eq (bd_le (exSwap_chain (K := K)) hb)
      simp [exSwap] at hb
      subst hb
      have e : upper (exSwap : List (FMap K)) 0 = (2, fun i j => if i = 0 ∧ j = 1 then 1 else if i = 1 ∧ j = 0 then 1 else 0) := by simp [upper, exSwap]
      rw [e] at hbt ⊢
      simp only at hbt e2 ⊢
      omega
    | 1 =>
      have hbt := betti_eq (bd_le (exSwap_chain (K := K)) hb)
      simp [exSwap] at hb
      subst hb
      simp only at hbt e2 ⊢
      omega
    | i + 2 => simp [exSwap] at hb

end Toppo.FHom
