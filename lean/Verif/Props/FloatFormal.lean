import Verif.Model.FloatFormal
import Verif.Props.CheckedSum
import Verif.Props.FloatSparse
import Verif.Props.FloatCircle
set_option linter.unusedSectionVars false
set_option linter.unusedVariables false

/-! C127: formal sums with `f64` coefficients. -/
namespace Toppo.FSumF
open Toppo FSum F64 FloatAlg
variable {K K' B : Type} [LinearOrder B]

/-! ### the rounds of the merge -/

/-- the coefficients added in every round, with the basis element -/
def rounds : Nat → List (FSum.Stream K B) → Option (List (List K × B))
  | _, [] => some []
  | 0, _ :: _ => none
  | fuel + 1, s :: ss => (rounds fuel (nextIters s ss)).map (fun l => ((s :: group s ss).map (fun t => t.1.1), s.1.2) :: l)

/-- adding from the left -/
def foldNE [Add K] [Zero K] : List K → K
  | [] => 0
  | c :: cs => cs.foldl (· + ·) c

theorem fold_group [Add K] [Zero K] (s : FSum.Stream K B) (l : List (FSum.Stream K B)) : l.foldl (fun c t => c + t.1.1) s.1.1 = foldNE ((s :: l).map (fun t => t.1.1)) := by
  rw [List.map_cons, foldNE, List.foldl_map]

theorem loop_rounds [Add K] [Zero K] [DecidableEq K] : ∀ (fuel : Nat) (ss : List (FSum.Stream K B)) (out : FSum K B),
    FSum.sumLoop fuel ss out = (rounds fuel ss).map (fun l => out ++ l.filterMap (fun p => if foldNE p.1 = 0 then none else some (foldNE p.1, p.2))) := by
  intro fuel
  induction fuel with
  | zero =>
    intro ss out
    cases ss with
    | nil => simp [FSum.sumLoop, rounds]
    | cons s ss => simp [FSum.sumLoop, rounds]
  | succ fuel ih =>
    intro ss out
    cases ss with
    | nil => simp [FSum.sumLoop, rounds]
    | cons s ss =>
      rw [sumLoop_cons, rounds]
      simp only
      rw [ih, Option.map_map]
      congr 1
      funext l
      simp only [Function.comp, List.filterMap_cons, fold_group]
      by_cases h : foldNE ((s :: group s ss).map (fun t => t.1.1)) = 0
      · rw [if_pos h, if_neg (not_not.mpr h)]
      · rw [if_neg h, if_pos h]; simp

theorem loopF_rounds : ∀ (fuel : Nat) (ss : List (FSum.Stream F64 B)) (out : FSum F64 B),
    sumLoop fuel ss out = (rounds fuel ss).map (fun l => out ++ l.filterMap (fun p => if isZero (foldNE p.1) then none else some (foldNE p.1, p.2))) := by
  intro fuel
  induction fuel with
  | zero =>
    intro ss out
    cases ss with
    | nil => simp [sumLoop, rounds]
    | cons s ss => simp [sumLoop, rounds]
  | succ fuel ih =>
    intro ss out
    cases ss with
    | nil => simp [sumLoop, rounds]
    | cons s ss =>
      have e : sumLoop (fuel + 1) (s :: ss) out =
          sumLoop fuel (nextIters s ss) (if isZero ((group s ss).foldl (fun c t => c + t.1.1) s.1.1) then out else out ++ [((group s ss).foldl (fun c t => c + t.1.1) s.1.1, s.1.2)]) := rfl
      rw [e, rounds, ih, Option.map_map]
      congr 1
      funext l
      simp only [Function.comp, List.filterMap_cons, fold_group]
      by_cases h : isZero (foldNE ((s :: group s ss).map (fun t => t.1.1))) = true
      · rw [if_pos h, if_pos h]
      · rw [if_neg h, if_neg h]; simp

theorem rounds_map (φ : K → K') : ∀ (fuel : Nat) (ss : List (FSum.Stream K B)),
    rounds fuel (ss.map (mapS φ)) = (rounds fuel ss).map (List.map (fun p => (p.1.map φ, p.2))) := by
  intro fuel
  induction fuel with
  | zero => intro ss; cases ss <;> simp [rounds]
  | succ fuel ih =>
    intro ss
    cases ss with
    | nil => simp [rounds]
    | cons s ss =>
      rw [List.map_cons, rounds, rounds, next_map, ih, group_map, Option.map_map, Option.map_map]
      congr 1
      funext l
      simp only [Function.comp, List.map_cons, List.map_map]
      rfl

/-- all items of a list of streams -/
abbrev allItems (ss : List (FSum.Stream K B)) : List (K × B) := ss.flatMap (fun s => s.1 :: s.2)
/-- all items used in the rounds -/
abbrev used (l : List (List K × B)) : List (K × B) := l.flatMap (fun p => p.1.map (fun c => (c, p.2)))

theorem allItems_advance (l : List (FSum.Stream K B)) : (l.map (fun t => t.1) ++ allItems (advance l)).Perm (allItems l) := by
  induction l with
  | nil => simp [advance]
  | cons s l ih =>
    obtain ⟨x, _ | ⟨y, ys⟩⟩ := s
    · simp only [allItems, advance, List.map_cons, List.filterMap_cons, List.flatMap_cons, List.cons_append, List.nil_append] at ih ⊢
      exact ih.cons x
    · simp only [allItems, advance, List.map_cons, List.filterMap_cons, List.flatMap_cons, List.cons_append] at ih ⊢
      refine List.Perm.cons x ?_
      have : (List.map (fun t : FSum.Stream K B => t.1) l ++ y :: (ys ++ List.flatMap (fun s : FSum.Stream K B => s.1 :: s.2) (advance l))).Perm
          (y :: (ys ++ (List.map (fun t => t.1) l ++ List.flatMap (fun s => s.1 :: s.2) (advance l)))) := by
        refine List.perm_middle.trans (List.Perm.cons y ?_)
        rw [← List.append_assoc, ← List.append_assoc]
        exact List.perm_append_comm.append_right _
      exact this.trans (((ih).append_left ys).cons y)

theorem rounds_perm : ∀ (fuel : Nat) (ss : List (FSum.Stream K B)) (l : List (List K × B)), rounds fuel ss = some l → (used l).Perm (allItems ss) := by
  intro fuel
  induction fuel with
  | zero =>
    intro ss l h
    cases ss with
    | nil => cases h; exact List.Perm.refl _
    | cons s ss => cases h
  | succ fuel ih =>
    intro ss l h
    cases ss with
    | nil => cases h; exact List.Perm.refl _
    | cons s ss =>
      rw [rounds, Option.map_eq_some_iff] at h
      obtain ⟨l', h, rfl⟩ := h
      have h1 := ih _ _ h
      obtain ⟨rest, e1, e2, e3⟩ := next_perm s ss
      have h2 : (allItems (nextIters s ss)).Perm (allItems (rest ++ advance (s :: group s ss))) := e3.flatMap_right _
      have h3 : (((s :: group s ss).map (fun t => t.1.1)).map (fun c => (c, s.1.2))) = (s :: group s ss).map (fun t => t.1) := by
        rw [List.map_map]
        apply List.map_congr_left
        intro t ht
        rcases List.mem_cons.mp ht with rfl | ht
        · rfl
        · exact Prod.ext rfl (e2 t ht).symm
      show (((s :: group s ss).map (fun t => t.1.1)).map (fun c => (c, s.1.2)) ++ used l').Perm (allItems (s :: ss))
      rw [h3, e1]
      refine ((h1.trans h2).append_left _).trans ?_
      unfold allItems
      rw [List.flatMap_append, List.flatMap_append]
      refine List.Perm.trans ?_ ((allItems_advance (s :: group s ss)).append_right _)
      rw [List.append_assoc]
      exact List.perm_append_comm.append_left _

theorem rounds_len : ∀ (fuel : Nat) (ss : List (FSum.Stream K B)) (l : List (List K × B)) (n : Nat), rounds fuel ss = some l → ss.length ≤ n →
    ∀ p ∈ l, p.1 ≠ [] ∧ p.1.length ≤ n := by
  intro fuel
  induction fuel with
  | zero =>
    intro ss l n h
    cases ss with
    | nil => cases h; simp
    | cons s ss => cases h
  | succ fuel ih =>
    intro ss l n h hn
    cases ss with
    | nil => cases h; simp
    | cons s ss =>
      rw [rounds, Option.map_eq_some_iff] at h
      obtain ⟨l', h, rfl⟩ := h
      intro p hp
      rcases List.mem_cons.mp hp with rfl | hp
      · obtain ⟨rest, e1, -, -⟩ := next_perm s ss
        have := congrArg List.length e1
        simp only [List.length_append, List.length_cons] at this hn
        refine ⟨by simp, ?_⟩
        simp only [List.length_map, List.length_cons]
        omega
      · exact ih _ _ n h ((length_next s ss).trans (by simpa using hn)) p hp

/-- the fuel suffices -/
theorem rounds_exist (vs : List (FSum K B)) : ∃ l, rounds (vs.map List.length).sum (sortStreams (streams vs)) = some l := by
  obtain ⟨r, h, -⟩ := sum_spec (vs.map (fun v => v.map (fun x => ((1 : ℤ), x.2))))
  rw [FSum.sum, loop_rounds, streams_map (fun _ => (1 : ℤ)), sort_map, rounds_map, Option.map_map, Option.map_eq_some_iff] at h
  obtain ⟨l, h, -⟩ := h
  refine ⟨l, ?_⟩
  rw [← h, List.map_map]
  congr 2
  simp [Function.comp_def]

theorem allItems_streams (vs : List (FSum K B)) : allItems (streams vs) = vs.flatten := by
  induction vs with
  | nil => rfl
  | cons v vs ih =>
    cases v with
    | nil => simpa [streams, allItems] using ih
    | cons x v => simpa [streams, allItems] using ih

/-! ### sums of any number -/

/-- Specification: the exact coefficient of `b` (the sum of the values of the listed coefficients), and the sum of the absolute values. -/
def vcoef (v : FSum F64 B) (b : B) : ℚ := ((v.filter (fun x => decide (x.2 = b))).map (fun x => val x.1)).sum
/-- Specification: the sum of the absolute values. -/
def acoef (v : FSum F64 B) (b : B) : ℚ := ((v.filter (fun x => decide (x.2 = b))).map (fun x => |val x.1|)).sum

/-- the outcome in terms of the rounds -/
theorem sum_eq (vs : List (FSum F64 B)) : ∃ l, rounds (vs.map List.length).sum (sortStreams (streams vs)) = some l ∧
    sum vs = some (l.filterMap (fun p => if isZero (foldNE p.1) then none else some (foldNE p.1, p.2))) ∧ (used l).Perm vs.flatten ∧ ∀ p ∈ l, p.1 ≠ [] ∧ p.1.length ≤ vs.length := by
  obtain ⟨l, h⟩ := rounds_exist vs
  refine ⟨l, h, by rw [sum, loopF_rounds, h]; rfl, ?_, ?_⟩
  · refine (rounds_perm _ _ _ h).trans ?_
    rw [← allItems_streams]
    exact (sortStreams_perm _).flatMap_right _
  · refine rounds_len _ _ _ _ h ?_
    rw [(sortStreams_perm _).length_eq]
    exact List.length_filterMap_le _ _

theorem isZero_fin {x : F64} (h : isZero x = true) : x.isFinite = true ∧ val x = 0 := by
  cases x with
  | nan => cases h
  | inf s => cases h
  | num s m =>
    have : val (num s m) = val (num false 0) := of_decide_eq_true h
    exact ⟨rfl, this⟩

theorem isZero_iff {x : F64} (h : x.isFinite = true) : isZero x = true ↔ val x = 0 := by
  refine ⟨fun h => (isZero_fin h).2, fun h0 => ?_⟩
  obtain ⟨s, m, rfl⟩ := fin_iff.mp h
  exact decide_eq_true (by rw [h0]; rfl)

theorem foldNE_err (l : List F64) (hl : ∀ x ∈ l, Rep x) (hne : l ≠ []) (h : (foldNE l).isFinite = true) :
    |val (foldNE l) - vsum l| ≤ (g ^ (l.length - 1) - 1) * asum l := by
  cases l with
  | nil => exact absurd rfl hne
  | cons c cs =>
    obtain ⟨-, -, h3⟩ := acc_err cs c (hl c (by simp)) (fun x hx => hl x (by simp [hx])) h
    simpa [vsum, asum, foldNE] using h3

/-- the coefficients used in the rounds of `b` -/
theorem used_coef (l : List (List F64 × B)) (b : B) (f : F64 → ℚ) :
    ((used l).filter (fun x => decide (x.2 = b))).map (fun x => f x.1) = (l.filter (fun p => decide (p.2 = b))).flatMap (fun p => p.1.map f) := by
  induction l with
  | nil => rfl
  | cons p l ih =>
    have e : used (p :: l) = p.1.map (fun c => (c, p.2)) ++ used l := rfl
    rw [e, List.filter_append, List.map_append, ih, List.filter_cons]
    by_cases h : p.2 = b
    · rw [List.filter_eq_self.mpr (by simp [h]), if_pos (by simpa using h), List.flatMap_cons, List.map_map]; rfl
    · rw [List.filter_eq_nil_iff.mpr (by simp [h]), if_neg (by simpa using h)]; rfl

theorem sum_flatMap_map {α : Type} (l : List α) (h : α → List F64) (f : F64 → ℚ) : (l.flatMap (fun p => (h p).map f)).sum = (l.map (fun p => ((h p).map f).sum)).sum := by
  induction l with
  | nil => rfl
  | cons p l ih => simp [ih]

/-- **C127**, sums of any number of formal sums: for every basis element whose coefficients in the result are finite, the coefficient is that of the exact sum up to a
relative error of `(1 + u)^(n-1) - 1`, relative to the sum of the absolute values, where `n` is the number of summands; no coefficient of the result is zero. -/
theorem c127_sum (vs : List (FSum F64 B)) (hr : ∀ v ∈ vs, ∀ x ∈ v, Rep x.1) : ∃ r, sum vs = some r ∧ (∀ x ∈ r, isZero x.1 = false) ∧
    ∀ b, (∀ x ∈ r, x.2 = b → x.1.isFinite = true) →
      |vcoef r b - (vs.map (fun v => vcoef v b)).sum| ≤ ((1 + u) ^ (vs.length - 1) - 1) * (vs.map (fun v => acoef v b)).sum := by
  obtain ⟨l, -, h2, h3, h4⟩ := sum_eq vs
  refine ⟨_, h2, ?_, ?_⟩
  · intro x hx
    obtain ⟨p, -, e⟩ := List.mem_filterMap.mp hx
    split_ifs at e with h
    cases e
    simpa using h
  · intro b hf
    have hrep : ∀ p ∈ l, ∀ c ∈ p.1, Rep c := by
      intro p hp c hc
      have : (c, p.2) ∈ used l := List.mem_flatMap.mpr ⟨p, hp, List.mem_map.mpr ⟨c, hc, rfl⟩⟩
      obtain ⟨v, hv, hx⟩ := List.mem_flatten.mp (h3.mem_iff.mp this)
      exact hr v hv _ hx
    have hfin : ∀ p ∈ l, p.2 = b → (foldNE p.1).isFinite = true := by
      intro p hp e
      by_cases h : isZero (foldNE p.1) = true
      · exact (isZero_fin h).1
      · exact hf (foldNE p.1, p.2) (List.mem_filterMap.mpr ⟨p, hp, by rw [if_neg h]⟩) e
    set lb := l.filter (fun p => decide (p.2 = b)) with hlb
    have hmem : ∀ p ∈ lb, p ∈ l ∧ p.2 = b := fun p hp => by
      have := List.mem_filter.mp hp
      exact ⟨this.1, by simpa using this.2⟩
    -- the result
    have e1 : vcoef (l.filterMap (fun p => if isZero (foldNE p.1) then none else some (foldNE p.1, p.2))) b = (lb.map (fun p => val (foldNE p.1))).sum := by
      rw [hlb]
      clear hlb hmem hfin hf hrep h4 h3 h2
      clear lb
      unfold vcoef
      induction l with
      | nil => rfl
      | cons p l ih =>
        rw [List.filterMap_cons, List.filter_cons]
        by_cases hz : isZero (foldNE p.1) = true
        · rw [if_pos hz]
          simp only
          rw [ih]
          by_cases hb : p.2 = b
          · rw [if_pos (by simpa using hb), List.map_cons, List.sum_cons, (isZero_fin hz).2, zero_add]
          · rw [if_neg (by simpa using hb)]
        · rw [if_neg hz]
          simp only
          rw [List.filter_cons]
          by_cases hb : p.2 = b
          · rw [if_pos (by simpa using hb), if_pos (by simpa using hb), List.map_cons, List.sum_cons, ih, List.map_cons, List.sum_cons]
          · rw [if_neg (by simpa using hb), if_neg (by simpa using hb), ih]
    have e2 : ∀ f : F64 → ℚ, (vs.map (fun v => ((v.filter (fun x => decide (x.2 = b))).map (fun x => f x.1)).sum)).sum = (lb.map (fun p => (p.1.map f).sum)).sum := by
      intro f
      rw [← sum_flatMap_map, hlb, ← used_coef, ((h3.filter _).map _).sum_eq]
      clear hlb hmem hfin hf hrep h4 h3 h2 e1 hr
      clear lb
      induction vs with
      | nil => rfl
      | cons v vs ih => simp only [List.map_cons, List.sum_cons, List.flatten_cons, List.filter_append, List.map_append, List.sum_append, ih]
    have e3 := e2 val
    have e4 := e2 (fun x => |val x|)
    unfold vcoef acoef at *
    rw [e1, e3, e4]
    refine (abs_map_sum_sub lb _ _).trans ?_
    have : ∀ p ∈ lb, |val (foldNE p.1) - (p.1.map val).sum| ≤ ((1 + u) ^ (vs.length - 1) - 1) * (p.1.map (fun x => |val x|)).sum := by
      intro p hp
      obtain ⟨hp1, hp2⟩ := hmem p hp
      obtain ⟨hne, hlen⟩ := h4 p hp1
      refine (foldNE_err p.1 (hrep p hp1) hne (hfin p hp1 hp2)).trans ?_
      refine mul_le_mul_of_nonneg_right ?_ (asum_nonneg p.1)
      exact sub_le_sub_right (gpow_mono (by omega)) 1
    refine (List.sum_le_sum this).trans ?_
    rw [List.sum_map_mul_left]

/-! ### sums of two -/

/-- the coefficient listed for `b`; lin_alg.rs:401-406 without the panic -/
abbrev at' (v : FSum F64 B) (b : B) : Option F64 := FSum.index v b

/-- Specification: what the sum lists for a basis element, given what the summands list. -/
def addAt : Option F64 → Option F64 → Option F64
  | none, none => none
  | some x, none => if isZero x then none else some x
  | none, some y => if isZero y then none else some y
  | some x, some y => if isZero (x + y) then none else some (x + y)

/-- strictly increasing basis lists -/
def Inc (v : FSum K B) : Prop := v.Pairwise (fun x y => x.2 < y.2)

theorem index_of_mem {v : FSum K B} (h : Inc v) {x : K × B} (hx : x ∈ v) : FSum.index v x.2 = some x.1 := by
  induction v with
  | nil => simp at hx
  | cons y v ih =>
    have hy := List.pairwise_cons.mp h
    unfold FSum.index
    rw [List.find?_cons]
    rcases List.mem_cons.mp hx with rfl | hx
    · simp
    · rw [decide_eq_false (hy.1 x hx).ne]
      exact ih hy.2 hx

theorem index_none {v : FSum K B} {b : B} (h : ∀ x ∈ v, x.2 ≠ b) : FSum.index v b = none := by
  unfold FSum.index
  rw [List.find?_eq_none.mpr (by intro x hx; simpa using h x hx)]; rfl

theorem mem_of_index {v : FSum K B} {b : B} {c : K} (h : FSum.index v b = some c) : (c, b) ∈ v := by
  unfold FSum.index at h
  obtain ⟨x, hx, rfl⟩ := Option.map_eq_some_iff.mp h
  have h1 := List.mem_of_find?_eq_some hx
  have h2 := List.find?_some hx
  have : x.2 = b := by simpa using h2
  rw [← this]; exact h1

theorem filter_inc {v : FSum K B} (h : Inc v) (b : B) : (v.filter (fun x => decide (x.2 = b))).map (fun x => x.1) = (FSum.index v b).toList := by
  by_cases hb : ∃ x ∈ v, x.2 = b
  · obtain ⟨x, hx, rfl⟩ := hb
    rw [index_of_mem h hx]
    induction v with
    | nil => simp at hx
    | cons y v ih =>
      have hy := List.pairwise_cons.mp h
      rw [List.filter_cons]
      rcases List.mem_cons.mp hx with rfl | hx
      · rw [if_pos (by simp), List.filter_eq_nil_iff.mpr (fun z hz => by simpa using (hy.1 z hz).ne')]; rfl
      · rw [if_neg (by simpa using (hy.1 x hx).ne)]; exact ih hy.2 hx
  · push Not at hb
    rw [index_none hb, List.filter_eq_nil_iff.mpr (fun z hz => by simpa using hb z hz)]; rfl

/-- **C127**, sum of two: returned, with strictly increasing basis list, and what is listed for every basis element is exactly the floating-point sum of what the summands list
(nothing if that is zero). -/
theorem c127_add (v w : FSum F64 B) (hv : Inc v) (hw : Inc w) : ∃ r, add v w = some r ∧ Inc r ∧ ∀ b, FSum.index r b = addAt (FSum.index v b) (FSum.index w b) := by
  obtain ⟨l, h1, h2, h3, h4⟩ := sum_eq [v, w]
  -- the basis elements of the rounds are increasing
  have hinc : l.Pairwise (fun p q => p.2 < q.2) := by
    set one : FSum F64 B → FSum ℤ B := fun v => v.map (fun x => ((1 : ℤ), x.2)) with hone
    have hs : ∀ v : FSum F64 B, Inc v → Sorted (one v) := fun v hv => List.pairwise_map.mpr hv
    obtain ⟨r, k1, k2, k3, -⟩ := c25_add (one v) (one w) (hs v hv) (hs w hw)
    have k1' : FSum.sum ([v, w].map one) = some r := k1
    rw [FSum.sum, loop_rounds, streams_map (fun _ => (1 : ℤ)), sort_map, rounds_map, Option.map_map, Option.map_eq_some_iff] at k1'
    obtain ⟨l', k1', rfl⟩ := k1'
    have e : l' = l := by
      have : (([v, w].map one).map List.length).sum = ([v, w].map List.length).sum := by simp [hone]
      rw [this, h1] at k1'
      cases k1'; rfl
    subst e
    have hpos : ∀ cs : List F64, cs ≠ [] → foldNE (cs.map (fun _ => (1 : ℤ))) ≠ 0 := by
      intro cs hcs
      cases cs with
      | nil => exact absurd rfl hcs
      | cons c cs =>
        rw [List.map_cons, foldNE]
        have : ∀ (cs : List F64) (k : ℤ), 0 < k → 0 < (cs.map (fun _ => (1 : ℤ))).foldl (· + ·) k := by
          intro cs
          induction cs with
          | nil => intro k hk; exact hk
          | cons c cs ih => intro k hk; exact ih _ (show 0 < k + 1 by omega)
        exact (this cs 1 one_pos).ne'
    have key : (l'.map (fun p => (p.1.map (fun _ => (1 : ℤ)), p.2))).filterMap (fun p => if foldNE p.1 = 0 then none else some (foldNE p.1, p.2)) =
        l'.map (fun p => (foldNE (p.1.map (fun _ => (1 : ℤ))), p.2)) := by
      rw [List.filterMap_map, ← congrFun (List.filterMap_eq_map (f := fun p : List F64 × B => (foldNE (p.1.map (fun _ => (1 : ℤ))), p.2))) l']
      apply List.filterMap_congr
      intro p hp
      simp only [Function.comp]
      rw [if_neg (hpos p.1 (h4 p hp).1)]
    have k2' : ((l'.map (fun p => (p.1.map (fun _ => (1 : ℤ)), p.2))).filterMap (fun p => if foldNE p.1 = 0 then none else some (foldNE p.1, p.2))).Pairwise
        (fun x y => x.2 < y.2) := by simpa [Sorted, Function.comp_def] using k2
    rw [key, List.pairwise_map] at k2'
    exact k2'
  refine ⟨_, h2, ?_, fun b => ?_⟩
  · unfold Inc
    rw [List.pairwise_filterMap]
    refine hinc.imp (fun {p q} h x hx y hy => ?_)
    split_ifs at hx hy
    cases hx; cases hy
    exact h
  · have hinc' : Inc (l.filterMap (fun p => if isZero (foldNE p.1) then none else some (foldNE p.1, p.2))) := by
      unfold Inc
      rw [List.pairwise_filterMap]
      refine hinc.imp (fun {p q} h x hx y hy => ?_)
      split_ifs at hx hy
      cases hx; cases hy
      exact h
    -- coefficients at `b`
    have hp : (((used l).filter (fun x => decide (x.2 = b))).map (fun x => x.1)).Perm ((FSum.index v b).toList ++ (FSum.index w b).toList) := by
      have := (h3.filter (fun x => decide (x.2 = b))).map (fun x => x.1)
      rw [← filter_inc hv b, ← filter_inc hw b]
      simpa using this
    by_cases hb : ∃ p ∈ l, p.2 = b
    · obtain ⟨p, hpl, rfl⟩ := hb
      have hu : ((used l).filter (fun x => decide (x.2 = p.2))).map (fun x => x.1) = p.1 := by
        clear h1 h2 h3 h4 hinc' hp
        induction l with
        | nil => simp at hpl
        | cons q l ih =>
          have hq := List.pairwise_cons.mp hinc
          have e : used (q :: l) = q.1.map (fun c => (c, q.2)) ++ used l := rfl
          rw [e, List.filter_append, List.map_append]
          rcases List.mem_cons.mp hpl with rfl | hpl
          · rw [List.filter_eq_self.mpr (by simp), List.filter_eq_nil_iff.mpr (fun x hx => ?_)]
            · simp [Function.comp_def]
            · obtain ⟨q, hq', hx⟩ := List.mem_flatMap.mp hx
              obtain ⟨c, -, rfl⟩ := List.mem_map.mp hx
              simpa using (hq.1 q hq').ne'
          · rw [List.filter_eq_nil_iff.mpr (by simpa using fun c _ => (hq.1 p hpl).ne), ih hq.2 hpl]; rfl
      rw [hu] at hp
      have hres : FSum.index (l.filterMap (fun p => if isZero (foldNE p.1) then none else some (foldNE p.1, p.2))) p.2 =
          if isZero (foldNE p.1) then none else some (foldNE p.1) := by
        by_cases hz : isZero (foldNE p.1) = true
        · rw [if_pos hz]
          refine index_none (fun x hx e => ?_)
          obtain ⟨q, hq, hx⟩ := List.mem_filterMap.mp hx
          have hpq : q = p := by
            have hnd : (l.map (fun p => p.2)).Nodup := List.pairwise_map.mpr (hinc.imp (fun {a b} h => h.ne))
            refine List.inj_on_of_nodup_map hnd hq hpl ?_
            split_ifs at hx
            cases hx; exact e
          subst hpq
          rw [if_pos hz] at hx; cases hx
        · rw [if_neg hz]
          exact index_of_mem hinc' (x := (foldNE p.1, p.2)) (List.mem_filterMap.mpr ⟨p, hpl, by rw [if_neg hz]⟩)
      rw [hres]
      have hne := (h4 p hpl).1
      match hv' : FSum.index v p.2, hw' : FSum.index w p.2 with
      | none, none => rw [hv', hw'] at hp; exact absurd (List.perm_nil.mp hp) hne
      | some x, none =>
        rw [hv', hw'] at hp
        rw [List.perm_singleton.mp hp]; rfl
      | none, some y =>
        rw [hv', hw'] at hp
        rw [List.perm_singleton.mp hp]; rfl
      | some x, some y =>
        rw [hv', hw'] at hp
        have hp' : p.1.Perm [x, y] := hp
        have : foldNE p.1 = x + y := by
          have hl := hp'.length_eq
          match hp1 : p.1, hl with
          | [a, c], _ =>
            rw [hp1] at hp'
            show a + c = x + y
            rcases List.perm_pair.mp hp' with ⟨rfl, rfl⟩ | ⟨rfl, rfl⟩
            · rfl
            · exact FloatProps.add_comm' _ _
        rw [this]; rfl
    · push Not at hb
      have : (used l).filter (fun x => decide (x.2 = b)) = [] := by
        rw [List.filter_eq_nil_iff]
        intro x hx
        obtain ⟨q, hq, hx⟩ := List.mem_flatMap.mp hx
        obtain ⟨c, -, rfl⟩ := List.mem_map.mp hx
        simpa using hb q hq
      rw [this] at hp
      have h0 := List.nil_perm.mp hp
      rw [List.append_eq_nil_iff, Option.toList_eq_nil_iff, Option.toList_eq_nil_iff] at h0
      rw [h0.1, h0.2]
      refine index_none (fun x hx => ?_)
      obtain ⟨q, hq, hx⟩ := List.mem_filterMap.mp hx
      split_ifs at hx
      cases hx; exact hb q hq

/-- lists with increasing bases are determined by what they list -/
theorem inc_ext {v w : FSum F64 B} (hv : Inc v) (hw : Inc w) (h : ∀ b, FSum.index v b = FSum.index w b) : v = w := by
  have hnd : ∀ v : FSum F64 B, Inc v → v.Nodup := fun v hv => hv.imp (fun {a b} h => by rintro rfl; exact lt_irrefl _ h)
  have hsub : ∀ v w : FSum F64 B, Inc v → (∀ b, FSum.index v b = FSum.index w b) → ∀ x ∈ v, x ∈ w := by
    intro v w hv h x hx
    have := index_of_mem hv hx
    rw [h] at this
    exact mem_of_index this
  have hperm : v.Perm w := by
    rw [List.perm_ext_iff_of_nodup (hnd v hv) (hnd w hw)]
    exact fun x => ⟨hsub v w hv h x, hsub w v hw (fun b => (h b).symm) x⟩
  exact hperm.eq_of_pairwise (fun a b _ _ h1 h2 => absurd h1 (not_lt.mpr h2.le)) hv hw

/-- **C127**: the sum of two formal sums does not depend on the order, to the last bit. -/
theorem c127_comm (v w : FSum F64 B) (hv : Inc v) (hw : Inc w) : add v w = add w v := by
  obtain ⟨r, h1, h2, h3⟩ := c127_add v w hv hw
  obtain ⟨r', h1', h2', h3'⟩ := c127_add w v hw hv
  rw [h1, h1']
  congr 1
  refine inc_ext h2 h2' (fun b => ?_)
  rw [h3, h3']
  rcases FSum.index v b with _ | x <;> rcases FSum.index w b with _ | y <;> simp only [addAt]
  rw [FloatProps.add_comm']

/-- Specification: the value listed for `b`, zero if there is none. -/
def valAt (v : FSum F64 B) (b : B) : ℚ := ((FSum.index v b).map val).getD 0

/-- Specification: finite numbers of the format. -/
def Fin (v : FSum F64 B) : Prop := ∀ x ∈ v, Rep x.1 ∧ x.1.isFinite = true

theorem add_val {x y : F64} (hx : Rep x) (hy : Rep y) (fx : x.isFinite = true) (fy : y.isFinite = true) (hb : |val x + val y| < 2 ^ 1023) :
    (x + y).isFinite = true ∧ |val (x + y) - (val x + val y)| ≤ u * |val x + val y| ∧ (val (x + y) = 0 ↔ val x + val y = 0) := by
  obtain ⟨s, m, rfl⟩ := fin_iff.mp fx
  obtain ⟨t, n, rfl⟩ := fin_iff.mp fy
  have e : (num s m : F64) + num t n = ofExact (s && t) (val (num s m) + val (num t n)) := rfl
  have hf : ((num s m : F64) + num t n).isFinite = true := by rw [e]; exact ofExact_fin _ hb
  have he : |val ((num s m : F64) + num t n) - (val (num s m) + val (num t n))| ≤ u * |val (num s m) + val (num t n)| := by
    rw [e] at hf ⊢; exact ofExact_err_grid (grid_add (grid_val hx) (grid_val hy)) hf
  refine ⟨hf, he, fun h => ?_, fun h => ?_⟩
  · rw [h, zero_sub, abs_neg] at he
    have hu : u < 1 := lt_trans u_lt (by norm_num)
    have h0 := abs_nonneg (val (num s m) + val (num t n))
    by_contra hne
    have hpos := abs_pos.mpr hne
    nlinarith
  · rw [h, abs_zero, mul_zero, sub_zero] at he
    exact abs_nonpos_iff.mp he

/-- **C127**, values: if the coefficients are finite and their sums do not overflow, every coefficient of the sum is the exact one up to a relative error `u`, and a basis element is missing
in the result exactly if its exact coefficient is zero. -/
theorem c127_add_value (v w : FSum F64 B) (hv : Inc v) (hw : Inc w) (fv : Fin v) (fw : Fin w) (hb : ∀ b, |valAt v b + valAt w b| < 2 ^ 1023) :
    ∃ r, add v w = some r ∧ Inc r ∧ Fin r ∧ ∀ b, |valAt r b - (valAt v b + valAt w b)| ≤ u * |valAt v b + valAt w b| ∧
      (FSum.index r b = none ↔ valAt v b + valAt w b = 0) := by
  obtain ⟨r, h1, h2, h3⟩ := c127_add v w hv hw
  have hu := u_pos
  have key : ∀ b, (∀ c, FSum.index r b = some c → Rep c ∧ c.isFinite = true) ∧ |valAt r b - (valAt v b + valAt w b)| ≤ u * |valAt v b + valAt w b| ∧
      (FSum.index r b = none ↔ valAt v b + valAt w b = 0) := by
    intro b
    have hb' := hb b
    unfold valAt at hb' ⊢
    rw [h3]
    -- one coefficient
    have one : ∀ x : F64, Rep x → x.isFinite = true →
        (∀ c, (if isZero x then none else some x) = some c → Rep c ∧ c.isFinite = true) ∧ |(((if isZero x then none else some x) : Option F64).map val).getD 0 - val x| ≤ u * |val x| ∧
        (((if isZero x then none else some x) : Option F64) = none ↔ val x = 0) := by
      intro x rx fx
      have h0 := mul_nonneg hu.le (abs_nonneg (val x))
      by_cases hz : isZero x = true
      · simp only [if_pos hz]
        have := (isZero_iff fx).mp hz
        refine ⟨fun c h => (by cases h), ?_, by simp [this]⟩
        simp [this]
      · simp only [if_neg hz]
        refine ⟨fun c h => (by cases h; exact ⟨rx, fx⟩), by simpa using h0, ?_⟩
        simp only [reduceCtorEq, false_iff]
        exact fun h => hz ((isZero_iff fx).mpr h)
    rcases ev : FSum.index v b with _ | x <;> rcases ew : FSum.index w b with _ | y
    · simp [addAt]
    · obtain ⟨ry, fy⟩ := fw _ (mem_of_index ew)
      simpa [addAt] using one y ry fy
    · obtain ⟨rx, fx⟩ := fv _ (mem_of_index ev)
      simpa [addAt] using one x rx fx
    · obtain ⟨ry, fy⟩ := fw _ (mem_of_index ew)
      obtain ⟨rx, fx⟩ := fv _ (mem_of_index ev)
      rw [ev, ew] at hb'
      obtain ⟨k1, k2, k3⟩ := add_val rx ry fx fy (by simpa using hb')
      obtain ⟨m1, m2, m3⟩ := one (x + y) (rep_add x y) k1
      refine ⟨m1, ?_, ?_⟩
      · simp only [addAt, Option.map_some, Option.getD_some]
        by_cases hz : isZero (x + y) = true
        · rw [if_pos hz]
          have h0 := (isZero_iff k1).mp hz
          rw [h0] at k2
          simpa using k2
        · rw [if_neg hz]; simpa using k2
      · simp only [addAt, Option.map_some, Option.getD_some]
        rw [m3, k3]
  refine ⟨r, h1, h2, fun x hx => (key x.2).1 x.1 (index_of_mem h2 hx), fun b => (key b).2⟩

/-! ### negatives, differences, multiples, quotients -/

theorem mul_neg_one_eq {x : F64} (hr : Rep x) : x * -1 = -x := by
  cases x with
  | nan => rfl
  | inf s => cases s <;> rfl
  | num s m =>
    by_cases hm : m = 0
    · subst hm
      have e : (num s 0 : F64) * -1 = ofExact (xor s true) (val (num s 0) * val (num true 1)) := rfl
      have e2 : val (num s 0) * val (num true 1) = 0 := by cases s <;> simp [val]
      rw [e, e2]
      cases s <;> simp [ofExact, neg_def, F64.neg]
    · have := FloatGeom.mul_neg_one_num hr hm
      exact this

/-- **C127**: the negative is exact. -/
theorem c127_neg (v : FSum F64 B) (hr : ∀ x ∈ v, Rep x.1) : neg v = v.map (fun x => (-x.1, x.2)) := by
  unfold neg
  exact List.map_congr_left (fun x hx => by rw [mul_neg_one_eq (hr x hx)])

theorem inc_map {v : FSum F64 B} (h : Inc v) (f : F64 → F64) : Inc (v.map (fun x => (f x.1, x.2))) := List.pairwise_map.mpr h

theorem index_map (v : FSum F64 B) (f : F64 → F64) (b : B) : FSum.index (v.map (fun x => (f x.1, x.2))) b = (FSum.index v b).map f := by
  unfold FSum.index
  rw [List.find?_map, Option.map_map, Option.map_map]; rfl

/-- **C127**, differences: those of the coefficients, to the last bit; `v - v` is the zero vector for finite coefficients. -/
theorem c127_sub (v w : FSum F64 B) (hv : Inc v) (hw : Inc w) (hr : ∀ x ∈ w, Rep x.1) :
    (∃ r, sub v w = some r ∧ Inc r ∧ ∀ b, FSum.index r b = addAt (FSum.index v b) ((FSum.index w b).map (fun y => -y))) ∧ (Fin v → sub v v = some []) := by
  have gen : ∀ w : FSum F64 B, Inc w → (∀ x ∈ w, Rep x.1) →
      ∃ r, sub v w = some r ∧ Inc r ∧ ∀ b, FSum.index r b = addAt (FSum.index v b) ((FSum.index w b).map (fun y => -y)) := by
    intro w hw hr
    unfold sub
    rw [c127_neg w hr]
    obtain ⟨r, h1, h2, h3⟩ := c127_add v (w.map (fun x => (-x.1, x.2))) hv (inc_map hw _)
    exact ⟨r, h1, h2, fun b => by rw [h3, index_map w (fun y => -y)]⟩
  refine ⟨gen w hw hr, fun hf => ?_⟩
  obtain ⟨r, h1, h2, h3⟩ := gen v hv (fun x hx => (hf x hx).1)
  rw [h1]
  congr 1
  refine inc_ext h2 List.Pairwise.nil (fun b => ?_)
  rw [h3]
  rcases e : FSum.index v b with _ | x
  · rfl
  · obtain ⟨rx, fx⟩ := hf _ (mem_of_index e)
    have h0 : val x + val (-x) = 0 := by rw [val_neg]; ring
    obtain ⟨k1, -, k3⟩ := add_val rx (rep_neg rx) fx (by rw [fin_neg]; exact fx) (by rw [h0, abs_zero]; positivity)
    simp only [Option.map_some, addAt]
    rw [if_pos ((isZero_iff k1).mpr (k3.mpr h0))]; rfl

/-- **C127**, multiples and quotients: coefficient by coefficient; a multiple by zero is the zero vector whatever the coefficients are, a quotient by zero panics. -/
theorem c127_scale (v : FSum F64 B) (hv : Inc v) (c : F64) :
    (isZero c = true → smul v c = [] ∧ div v c = none) ∧
    (isZero c = false → Inc (smul v c) ∧ (∀ b, FSum.index (smul v c) b = (FSum.index v b).map (fun x => x * c)) ∧
      ∃ r, div v c = some r ∧ Inc r ∧ ∀ b, FSum.index r b = (FSum.index v b).map (fun x => x / c)) := by
  refine ⟨fun h => by simp [smul, div, h], fun h => ?_⟩
  have e1 : smul v c = v.map (fun x => (x.1 * c, x.2)) := by unfold smul; rw [if_neg (by simp [h])]
  have e2 : div v c = some (v.map (fun x => (x.1 / c, x.2))) := by unfold div; rw [if_neg (by simp [h])]
  rw [e1]
  exact ⟨inc_map hv (fun x => x * c), fun b => index_map v (fun x => x * c) b, _, e2, inc_map hv (fun x => x / c), fun b => index_map v (fun x => x / c) b⟩

/-! ### what fails -/

/-- **C127**: a multiple can underflow, and the zero coefficient stays in the list: `2^-600 * 2^-600` times a basis element is not equal to the zero vector; adding the zero vector to it is. -/
theorem c127_underflow : smul [(F64.num false (1 / 2 ^ 600), 0)] (F64.num false (1 / 2 ^ 600)) = [(F64.num false 0, (0 : ℕ))] ∧
    (add [(F64.num false 0, 0)] ([] : FSum F64 ℕ)) = some [] := by
  constructor <;> decide +kernel

/-- **C127**: addition is not associative: `(1 + 2^-53) + 2^-53` and `1 + (2^-53 + 2^-53)` differ. -/
theorem c127_assoc_false : ∃ a b c ab bc l r : FSum F64 ℕ, add a b = some ab ∧ add ab c = some l ∧ add b c = some bc ∧ add a bc = some r ∧ l ≠ r := by
  have inc1 : ∀ x : F64, Inc ([(x, 0)] : FSum F64 ℕ) := fun x => List.pairwise_singleton _ _
  have idx : ∀ x : F64, FSum.index ([(x, 0)] : FSum F64 ℕ) 0 = some x := fun x => rfl
  set o : F64 := F64.num false 1
  set t : F64 := F64.num false (1 / 2 ^ 53)
  obtain ⟨ab, h1, h2, h3⟩ := c127_add [(o, 0)] [(t, 0)] (inc1 _) (inc1 _)
  obtain ⟨bc, k1, k2, k3⟩ := c127_add [(t, 0)] [(t, 0)] (inc1 _) (inc1 _)
  obtain ⟨l, l1, l2, l3⟩ := c127_add ab [(t, 0)] h2 (inc1 _)
  obtain ⟨r, r1, r2, r3⟩ := c127_add [(o, 0)] bc (inc1 _) k2
  refine ⟨_, _, _, ab, bc, l, r, h1, l1, k1, r1, fun e => ?_⟩
  have e1 : FSum.index ab 0 = some o := by rw [h3, idx, idx]; decide +kernel
  have e2 : FSum.index bc 0 = some (F64.num false (1 / 2 ^ 52)) := by rw [k3, idx]; decide +kernel
  have e3 : FSum.index l 0 = some o := by rw [l3, e1, idx]; decide +kernel
  have e4 : FSum.index r 0 = some (F64.num false (1 + 1 / 2 ^ 52)) := by rw [r3, e2, idx]; decide +kernel
  rw [e, e4] at e3
  revert e3
  decide +kernel

/-- a case for sums of two -/
example : Inc ([(F64.num false 1, 0), (F64.num true 3, 2)] : FSum F64 ℕ) ∧ Fin ([(F64.num false 1, 0), (F64.num true 3, 2)] : FSum F64 ℕ) := by
  refine ⟨by simp [Inc], fun x hx => ?_⟩
  simp only [List.mem_cons, List.not_mem_nil, or_false] at hx
  rcases hx with rfl | rfl
  · exact ⟨⟨1, 0, by norm_num, by norm_num, by norm_num, by norm_num⟩, rfl⟩
  · exact ⟨⟨3, 0, by norm_num, by norm_num, by norm_num, by norm_num⟩, rfl⟩

end Toppo.FSumF
