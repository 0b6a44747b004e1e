import Verif.Props.Checked
import Verif.Props.FormalSum
set_option linter.unusedVariables false
set_option linter.unusedSectionVars false
/-!
# Formal sums with machine coefficients (C125)

`w` is the number of bits of the coefficients; `v.map (liftT w)` is the formal sum `v` with its coefficients stored as machine integers.
-/
namespace Toppo.FSum
open Toppo Toppo.CheckedProps Chk

variable {w : Nat} {B : Type} [LinearOrder B]

/-- a term with a machine coefficient -/
def liftT (w : Nat) (x : ℤ × B) : Chk w × B := (lit x.1, x.2)
/-- a formal sum with machine coefficients -/
abbrev lift (w : Nat) (v : FSum ℤ B) : FSum (Chk w) B := v.map (liftT w)

/-- all coefficients are representable -/
def Rep (w : Nat) (v : FSum ℤ B) : Prop := ∀ x ∈ v, InRange w x.1

/-! ### one round of the merge, for any coefficients -/

section generic
variable {K K' : Type}

/-- the streams after a round -/
def nextIters (s : Stream K B) (ss : List (Stream K B)) : List (Stream K B) :=
  let n := ((s :: ss).takeWhile (fun t => decide (t.1.2 = s.1.2))).length
  mergeBy ((s :: ss).drop n) (sortStreams (advance ((s :: ss).take n)))

/-- the streams whose coefficients are added in a round, without the first -/
def group (s : Stream K B) (ss : List (Stream K B)) : List (Stream K B) :=
  ss.take (((s :: ss).takeWhile (fun t => decide (t.1.2 = s.1.2))).length - 1)

theorem sumLoop_cons [Add K] [Zero K] [DecidableEq K] (fuel : Nat) (s : Stream K B) (ss : List (Stream K B)) (out : FSum K B) :
    sumLoop (fuel + 1) (s :: ss) out =
      let c := (group s ss).foldl (fun c t => c + t.1.1) s.1.1
      sumLoop fuel (nextIters s ss) (if c ≠ 0 then out ++ [(c, s.1.2)] else out) := rfl

/-- changing the coefficients of a stream -/
def mapS (φ : K → K') (s : Stream K B) : Stream K' B := ((φ s.1.1, s.1.2), s.2.map (fun x => (φ x.1, x.2)))

theorem sort_map (φ : K → K') (l : List (Stream K B)) : sortStreams (l.map (mapS φ)) = (sortStreams l).map (mapS φ) :=
  (List.map_mergeSort (r := fun x y : Stream K B => decide (x.1.2 ≤ y.1.2)) (s := fun x y : Stream K' B => decide (x.1.2 ≤ y.1.2)) (f := mapS φ) (l := l)
    (fun _ _ _ _ => rfl)).symm

theorem advance_map (φ : K → K') (l : List (Stream K B)) : advance (l.map (mapS φ)) = (advance l).map (mapS φ) := by
  unfold advance
  rw [List.filterMap_map, List.map_filterMap]
  apply List.filterMap_congr
  intro s _
  obtain ⟨x, _ | ⟨y, ys⟩⟩ := s <;> rfl

theorem mergeFrom_map (φ : K → K') (c : Stream K B) : ∀ i j : List (Stream K B),
    mergeFrom (mapS φ c) (i.map (mapS φ)) (j.map (mapS φ)) = (mergeFrom c i j).map (mapS φ)
  | [], j => rfl
  | x :: i, j => by
    rw [List.map_cons, mergeFrom, mergeFrom]
    by_cases h : c.1.2 < x.1.2
    · rw [if_pos h, if_pos (show (mapS φ c).1.2 < (mapS φ x).1.2 from h), mergeFrom_map φ x i j, List.map_cons]
    · rw [if_neg h, if_neg (show ¬ (mapS φ c).1.2 < (mapS φ x).1.2 from h), mergeFrom_map φ c i j, List.map_cons]
termination_by i => i.length

theorem mergeBy_map (φ : K → K') (i j : List (Stream K B)) : mergeBy (i.map (mapS φ)) (j.map (mapS φ)) = (mergeBy i j).map (mapS φ) := by
  cases j with
  | nil =>
    cases i with
    | nil => rfl
    | cons c i => exact mergeFrom_map φ c i []
  | cons n j => exact mergeFrom_map φ n i j

theorem takeWhile_map (φ : K → K') (s : Stream K B) (l : List (Stream K B)) :
    ((l.map (mapS φ)).takeWhile (fun t => decide (t.1.2 = (mapS φ s).1.2))).length = (l.takeWhile (fun t => decide (t.1.2 = s.1.2))).length := by
  rw [List.takeWhile_map, List.length_map]; rfl

theorem next_map (φ : K → K') (s : Stream K B) (ss : List (Stream K B)) : nextIters (mapS φ s) (ss.map (mapS φ)) = (nextIters s ss).map (mapS φ) := by
  unfold nextIters
  simp only
  rw [← List.map_cons, takeWhile_map, ← List.map_drop, ← List.map_take, advance_map, sort_map, mergeBy_map]

theorem group_map (φ : K → K') (s : Stream K B) (ss : List (Stream K B)) : group (mapS φ s) (ss.map (mapS φ)) = (group s ss).map (mapS φ) := by
  unfold group
  rw [← List.map_cons, takeWhile_map, ← List.map_take]

theorem streams_map (φ : K → K') (vs : List (FSum K B)) : streams (vs.map (fun v => v.map (fun x => (φ x.1, x.2)))) = (streams vs).map (mapS φ) := by
  unfold streams
  rw [List.filterMap_map, List.map_filterMap]
  apply List.filterMap_congr
  intro v _
  cases v <;> rfl

/-- what a round does to the streams: the remaining ones, and the tails of those used -/
theorem next_perm (s : Stream K B) (ss : List (Stream K B)) :
    ∃ rest, s :: ss = (s :: group s ss) ++ rest ∧ (∀ t ∈ group s ss, t.1.2 = s.1.2) ∧ (nextIters s ss).Perm (rest ++ advance (s :: group s ss)) := by
  have hg : (s :: ss).takeWhile (fun t => decide (t.1.2 = s.1.2)) = s :: ss.takeWhile (fun t => decide (t.1.2 = s.1.2)) := by simp
  have hgr : group s ss = ss.takeWhile (fun t => decide (t.1.2 = s.1.2)) := by
    have hpre' := List.takeWhile_prefix (fun t : Stream K B => decide (t.1.2 = s.1.2)) (l := ss)
    rw [group, hg]; simp only [List.length_cons, Nat.add_sub_cancel]
    exact (List.prefix_iff_eq_take.mp hpre').symm
  have hn : (s :: ss).take ((s :: ss).takeWhile (fun t => decide (t.1.2 = s.1.2))).length = s :: group s ss := by
    rw [hg, hgr, List.length_cons, List.take_succ_cons]
    exact congrArg _ (List.prefix_iff_eq_take.mp (List.takeWhile_prefix _)).symm
  refine ⟨(s :: ss).drop ((s :: ss).takeWhile (fun t => decide (t.1.2 = s.1.2))).length, ?_, fun t ht => ?_, ?_⟩
  · rw [← hn, List.take_append_drop]
  · rw [hgr] at ht
    simpa using List.mem_takeWhile_imp ht
  · unfold nextIters
    simp only
    rw [hn]
    exact (mergeBy_perm _ _).trans (List.Perm.append_left _ (sortStreams_perm _))

theorem length_next (s : Stream K B) (ss : List (Stream K B)) : (nextIters s ss).length ≤ ss.length + 1 := by
  obtain ⟨rest, e1, -, e2⟩ := next_perm s ss
  have h1 := congrArg List.length e1
  have h2 := e2.length_eq
  have h3 : (advance (s :: group s ss)).length ≤ (s :: group s ss).length := List.length_filterMap_le _ _
  simp only [List.length_append, List.length_cons] at h1 h2 h3
  omega

end generic

/-! ### simulation -/

/-- a coefficient has overflowed, or all are exact -/
def RelOut (oc : FSum (Chk w) B) (oi : FSum ℤ B) : Prop := (∃ x ∈ oc, x.1 = bad) ∨ oc = oi.map (liftT w)

theorem fold_cases (l : List (Stream ℤ B)) : ∀ k : ℤ, ((l.map (mapS (lit (w := w)))).foldl (fun c t => c + t.1.1) (lit k) = bad) ∨
    (l.map (mapS (lit (w := w)))).foldl (fun c t => c + t.1.1) (lit k) = lit (l.foldl (fun c t => c + t.1.1) k) := by
  induction l with
  | nil => intro k; exact Or.inr rfl
  | cons s l ih =>
    intro k
    rw [List.map_cons, List.foldl_cons, List.foldl_cons]
    have e : (lit k : Chk w) + (mapS (lit (w := w)) s).1.1 = chk (k + s.1.1) := rfl
    by_cases h : InRange w (k + s.1.1)
    · rw [e, ck_in h]; exact ih _
    · left
      rw [e, ck_out h]
      generalize List.map (mapS (lit (w := w))) l = l'
      clear ih
      induction l' with
      | nil => rfl
      | cons t l' ih => rw [List.foldl_cons]; exact ih

theorem bad_ne_zero : (bad : Chk w) ≠ 0 := by intro h; cases h

theorem lit_inj {a b : ℤ} : (lit a : Chk w) = lit b ↔ a = b := by
  constructor
  · intro h; injection h with h; injection h
  · rintro rfl; rfl

theorem sim : ∀ (fuel : Nat) (ss : List (Stream ℤ B)) (oc : FSum (Chk w) B) (oi r : FSum ℤ B), RelOut oc oi → sumLoop fuel ss oi = some r →
    ∃ rc, sumLoop fuel (ss.map (mapS lit)) oc = some rc ∧ RelOut rc r := by
  intro fuel
  induction fuel with
  | zero =>
    intro ss oc oi r h hr
    cases ss with
    | nil => rw [sumLoop] at hr; cases hr; exact ⟨oc, rfl, h⟩
    | cons s ss => cases hr
  | succ fuel ih =>
    intro ss oc oi r h hr
    cases ss with
    | nil => rw [sumLoop] at hr; cases hr; exact ⟨oc, rfl, h⟩
    | cons s ss =>
      rw [List.map_cons, sumLoop_cons]
      rw [sumLoop_cons] at hr
      simp only at hr ⊢
      rw [next_map, group_map]
      refine ih _ _ _ _ ?_ hr
      rcases h with ⟨x, hx, e⟩ | h
      · left
        refine ⟨x, ?_, e⟩
        split
        · exact List.mem_append_left _ hx
        · exact hx
      · rcases fold_cases (w := w) (group s ss) s.1.1 with hf | hf
        · left
          rw [show (mapS (lit (w := w)) s).1.1 = lit s.1.1 from rfl, hf, if_pos bad_ne_zero]
          exact ⟨_, List.mem_append_right _ (List.mem_singleton.mpr rfl), rfl⟩
        · right
          rw [show (mapS (lit (w := w)) s).1.1 = lit s.1.1 from rfl, hf, h]
          by_cases h0 : (group s ss).foldl (fun c t => c + t.1.1) s.1.1 = 0
          · rw [if_neg (by rw [h0]; simp; rfl), if_neg (by simpa using h0)]
          · have : (lit ((group s ss).foldl (fun c t => c + t.1.1) s.1.1) : Chk w) ≠ 0 := fun hh => h0 (lit_inj.mp hh)
            rw [if_pos this, if_pos h0, List.map_append]; rfl

/-- the outcome in terms of the relation -/
theorem run_rel {rc : FSum (Chk w) B} {r : FSum ℤ B} (h : RelOut rc r) : (run rc = none ∧ ∃ x ∈ rc, x.1 = bad) ∨ (run rc = some r ∧ rc = r.map (liftT w)) := by
  rcases h with ⟨x, hx, e⟩ | h
  · left
    exact ⟨View.mapM_none _ _ ⟨x, hx, by rw [e]; rfl⟩, x, hx, e⟩
  · right
    refine ⟨?_, h⟩
    rw [h, run, List.mapM_map, View.mapM_some _ ((fun x => Option.map (fun k => (k, x.2)) x.1.out) ∘ liftT w) id (fun x _ => rfl), List.map_id]

/-- no round overflows as long as an invariant of the streams excludes it -/
theorem noBad (I : List (Stream ℤ B) → Prop) (h1 : ∀ s ss, I (s :: ss) → (group s ss |>.map (mapS (lit (w := w)))).foldl (fun c t => c + t.1.1) (lit s.1.1) ≠ bad)
    (h2 : ∀ s ss, I (s :: ss) → I (nextIters s ss)) : ∀ (fuel : Nat) (ss : List (Stream ℤ B)) (oc rc : FSum (Chk w) B), I ss → (∀ x ∈ oc, x.1 ≠ bad) →
    sumLoop fuel (ss.map (mapS lit)) oc = some rc → ∀ x ∈ rc, x.1 ≠ bad := by
  intro fuel
  induction fuel with
  | zero =>
    intro ss oc rc hI ho hr
    cases ss with
    | nil => rw [List.map_nil, sumLoop] at hr; cases hr; exact ho
    | cons s ss => cases hr
  | succ fuel ih =>
    intro ss oc rc hI ho hr
    cases ss with
    | nil => rw [List.map_nil, sumLoop] at hr; cases hr; exact ho
    | cons s ss =>
      rw [List.map_cons, sumLoop_cons] at hr
      simp only at hr
      rw [next_map, group_map] at hr
      refine ih _ _ _ (h2 s ss hI) ?_ hr
      split
      · intro x hx
        rcases List.mem_append.mp hx with hx | hx
        · exact ho x hx
        · rw [List.mem_singleton] at hx; subst hx; exact h1 s ss hI
      · exact ho

theorem fold_range (l : List (Stream ℤ B)) : ∀ k : ℤ, InRange w k → ∀ z, (l.map (mapS (lit (w := w)))).foldl (fun c t => c + t.1.1) (lit k) = lit z → InRange w z := by
  induction l with
  | nil => intro k hk z hz; have := lit_inj.mp hz; subst this; exact hk
  | cons s l ih =>
    intro k hk z hz
    rw [List.map_cons, List.foldl_cons] at hz
    have e : (lit k : Chk w) + (mapS (lit (w := w)) s).1.1 = chk (k + s.1.1) := rfl
    by_cases h : InRange w (k + s.1.1)
    · rw [e, ck_in h] at hz; exact ih _ h z hz
    · exfalso
      rw [e, ck_out h] at hz
      have : ∀ l' : List (Stream (Chk w) B), l'.foldl (fun c t => c + t.1.1) bad = bad := by
        intro l'
        induction l' with
        | nil => rfl
        | cons t l' ih => rw [List.foldl_cons]; exact ih
      rw [this] at hz
      cases hz

/-- the coefficients of the result are representable -/
theorem rangeOut : ∀ (fuel : Nat) (ss : List (Stream ℤ B)) (oc rc : FSum (Chk w) B), (∀ s ∈ ss, ∀ x ∈ items s, InRange w x.1) →
    (∀ x ∈ oc, ∀ z, x.1 = lit z → InRange w z) → sumLoop fuel (ss.map (mapS lit)) oc = some rc → ∀ x ∈ rc, ∀ z, x.1 = lit z → InRange w z := by
  intro fuel
  induction fuel with
  | zero =>
    intro ss oc rc hI ho hr
    cases ss with
    | nil => rw [List.map_nil, sumLoop] at hr; cases hr; exact ho
    | cons s ss => cases hr
  | succ fuel ih =>
    intro ss oc rc hI ho hr
    cases ss with
    | nil => rw [List.map_nil, sumLoop] at hr; cases hr; exact ho
    | cons s ss =>
      rw [List.map_cons, sumLoop_cons] at hr
      simp only at hr
      rw [next_map, group_map] at hr
      refine ih _ _ _ ?_ ?_ hr
      · obtain ⟨rest, e1, -, e2⟩ := next_perm s ss
        intro t ht x hx
        rcases List.mem_append.mp (e2.mem_iff.mp ht) with ht | ht
        · exact hI t (by rw [e1]; exact List.mem_append_right _ ht) x hx
        · obtain ⟨u, hu, e⟩ := advance_sub ht
          exact hI u (by rw [e1]; exact List.mem_append_left _ hu) x (List.mem_cons_of_mem _ (by rw [e]; exact hx))
      · split
        · intro x hx z hz
          rcases List.mem_append.mp hx with hx | hx
          · exact ho x hx z hz
          · rw [List.mem_singleton] at hx; subst hx
            exact fold_range _ _ (hI s (List.mem_cons_self ..) s.1 (List.mem_cons_self ..)) z hz
        · exact ho

/-! ### theorems -/

theorem sum_lift (vs : List (FSum ℤ B)) : FSum.sum (vs.map (lift w)) = sumLoop (vs.map List.length).sum ((sortStreams (streams vs)).map (mapS (lit (w := w)))) [] := by
  rw [FSum.sum, show (vs.map (lift w)) = vs.map (fun v => v.map (fun x => ((lit x.1 : Chk w), x.2))) from rfl, streams_map, sort_map, List.map_map]
  congr 2
  simp [Function.comp_def]

/-- **C125**, sums of any number of formal sums: if the operation returns, the result is the one computed with unbounded integers (whose coefficients are exact, C26);
otherwise it panics. -/
theorem c125_sum (vs : List (FSum ℤ B)) : ∃ r, FSum.sum vs = some r ∧ (∀ b, coef r b = (vs.map (fun v => coef v b)).sum) ∧
    ∃ rc, FSum.sum (vs.map (lift w)) = some rc ∧ (run rc = none ∨ run rc = some r) := by
  obtain ⟨r, h1, h2, -⟩ := sum_spec vs
  obtain ⟨rc, h3, h4⟩ := sim (w := w) _ _ [] [] r (Or.inr rfl) h1
  refine ⟨r, h1, h2, rc, by rw [sum_lift]; exact h3, ?_⟩
  rcases run_rel h4 with ⟨h, -⟩ | ⟨h, -⟩
  · exact Or.inl h
  · exact Or.inr h

/-- the coefficients that are added in a merge of two streams are in range -/
def Pair2 (w : Nat) (s t : Stream ℤ B) : Prop := ∀ x ∈ items s, ∀ y ∈ items t, x.2 = y.2 → InRange w (x.1 + y.1)

theorem Pair2.symm {s t : Stream ℤ B} (h : Pair2 w s t) : Pair2 w t s := fun x hx y hy e => by rw [add_comm]; exact h y hy x hx e.symm

theorem pair2_next {s : Stream ℤ B} {ss : List (Stream ℤ B)} (h : (s :: ss).Pairwise (Pair2 w)) : (nextIters s ss).Pairwise (Pair2 w) := by
  obtain ⟨rest, e1, -, e2⟩ := next_perm s ss
  refine (e2.pairwise_iff (fun {a b} => Pair2.symm)).mpr ?_
  rw [e1] at h
  have h := List.pairwise_append.mp h
  refine List.pairwise_append.mpr ⟨h.2.1, ?_, fun a ha b hb => ?_⟩
  · unfold advance
    refine List.Pairwise.filterMap _ ?_ h.1
    rintro ⟨x, _ | ⟨x', xs⟩⟩ ⟨y, _ | ⟨y', ys⟩⟩ hab b hb b' hb'
    all_goals simp only [Option.mem_def, reduceCtorEq, Option.some.injEq] at hb hb'
    subst hb; subst hb'
    exact fun p hp q hq => hab p (List.mem_cons_of_mem _ hp) q (List.mem_cons_of_mem _ hq)
  · obtain ⟨u, hu, e⟩ := advance_sub hb
    exact fun p hp q hq eq => (h.2.2 u hu a ha).symm p hp q (List.mem_cons_of_mem _ (by rw [e]; exact hq)) eq

theorem coef_of_mem : ∀ (v : FSum ℤ B), Sorted v → ∀ x ∈ v, coef v x.2 = x.1 := by
  intro v hv
  induction v with
  | nil => simp
  | cons y ys ih =>
    intro x hx
    have hy := List.pairwise_cons.mp hv
    rw [coef_cons]
    rcases List.mem_cons.mp hx with rfl | hx
    · rw [if_pos rfl, coef_not_mem ys _ (fun z hz => (hy.1 z hz).ne'), add_zero]
    · rw [if_neg (hy.1 x hx).ne, ih hy.2 x hx, zero_add]

theorem coef_range {v : FSum ℤ B} (hs : Sorted v) (h : Rep w v) (b : B) : InRange w (coef v b) := by
  by_cases hb : ∃ x ∈ v, x.2 = b
  · obtain ⟨x, hx, rfl⟩ := hb
    rw [coef_of_mem v hs x hx]; exact h x hx
  · push Not at hb
    rw [coef_not_mem v b hb]; exact zero_inRange

/-- **C125**, sum of two: returned, exactly, if all coefficients of the exact sum are representable; otherwise the operation panics. -/
theorem c125_add (v u : FSum ℤ B) (hv : Sorted v) (hu : Sorted u) (rv : Rep w v) (ru : Rep w u) :
    ∃ r rc, FSum.add v u = some r ∧ FSum.add (lift w v) (lift w u) = some rc ∧ Outcome (run rc) (∀ b, InRange w (coef v b + coef u b)) r := by
  obtain ⟨r, h1, h2, h3, h4⟩ := c25_add v u hv hu
  have h1' : FSum.sum [v, u] = some r := h1
  obtain ⟨rc, h5, h6⟩ := sim (w := w) _ _ [] [] r (Or.inr rfl) h1'
  have h7 : FSum.add (lift w v) (lift w u) = some rc := by
    have := sum_lift (w := w) [v, u]
    rw [h5] at this
    exact this
  have hmem : ∀ s ∈ sortStreams (streams [v, u]), items s = v ∨ items s = u := by
    intro s hs
    have := streams_mem ((sortStreams_perm _).mem_iff.mp hs)
    simpa using this
  refine ⟨r, rc, h1, h7, fun hs => ?_, fun hs => ?_⟩
  · rcases run_rel h6 with ⟨-, x, hx, e⟩ | ⟨h, -⟩
    · exfalso
      refine noBad (fun ss => ss.length ≤ 2 ∧ ss.Pairwise (Pair2 w)) ?_ (fun s ss hI => ⟨(length_next s ss).trans (by simpa using hI.1), pair2_next hI.2⟩) _ _ [] rc
        ⟨?_, ?_⟩ (by simp) h5 x hx e
      · rintro s ss ⟨hl, hp⟩ hb
        obtain ⟨rest, e1, e3, -⟩ := next_perm s ss
        have hlen : (group s ss).length ≤ 1 := by
          have := congrArg List.length e1
          simp only [List.length_append, List.length_cons] at this hl
          omega
        match hg : group s ss with
        | [] => rw [hg] at hb; cases hb
        | [t] =>
          rw [hg] at hb e3 e1
          have hin : InRange w (s.1.1 + t.1.1) := by
            rw [e1] at hp
            have := (List.pairwise_cons.mp hp).1 t (by simp)
            exact this s.1 (List.mem_cons_self ..) t.1 (List.mem_cons_self ..) (e3 t (by simp)).symm
          have : (lit s.1.1 : Chk w) + lit t.1.1 = bad := hb
          rw [lit_add, ck_in hin] at this
          cases this
        | a :: b :: l => rw [hg] at hlen; simp at hlen
      · rw [(sortStreams_perm _).length_eq]
        exact (List.length_filterMap_le _ _).trans (by simp)
      · refine ((sortStreams_perm _).pairwise_iff (fun {a b} => Pair2.symm)).mpr ?_
        have key : ∀ x ∈ v, ∀ y ∈ u, x.2 = y.2 → InRange w (x.1 + y.1) := by
          intro x hx y hy e
          have := hs x.2
          rwa [coef_of_mem v hv x hx, e, coef_of_mem u hu y hy] at this
        cases v with
        | nil => cases u <;> simp [streams]
        | cons x v =>
          cases u with
          | nil => simp [streams]
          | cons y u =>
            simp only [streams, List.filterMap_cons, List.filterMap_nil, List.pairwise_cons, List.mem_singleton, forall_eq, List.not_mem_nil, false_imp_iff, implies_true,
              List.Pairwise.nil, and_true]
            exact key
    · exact h
  · rcases run_rel h6 with ⟨h, -⟩ | ⟨-, h⟩
    · exact h
    · exfalso
      apply hs
      intro b
      rw [← h4]
      refine coef_range h2 (fun x hx => ?_) b
      refine rangeOut _ _ [] rc ?_ (by simp) h5 (liftT w x) (by rw [h]; exact List.mem_map.mpr ⟨x, hx, rfl⟩) x.1 rfl
      intro s hs' y hy
      rcases hmem s hs' with e | e
      · rw [e] at hy; exact rv y hy
      · rw [e] at hy; exact ru y hy

theorem mul_neg_one_lit (x : ℤ) : (lit x : Chk w) * -1 = chk (-x) := by
  have hp : (0 : ℤ) < 2 ^ (w - 1) := by positivity
  have : (-1 : Chk w) = lit (-1) := ck_in ⟨by omega, by omega⟩
  rw [this, lit_mul, mul_neg_one]

theorem run_map (v : FSum ℤ B) (f : ℤ → ℤ) : Outcome (run (v.map (fun x => ((chk (f x.1) : Chk w), x.2)))) (∀ x ∈ v, InRange w (f x.1)) (v.map (fun x => (f x.1, x.2))) := by
  constructor
  · intro h
    rw [run, List.mapM_map, View.mapM_some _ _ (fun x => (f x.1, x.2)) (fun x hx => ?_)]
    simp only [Function.comp]
    rw [ck_in (h x hx)]; rfl
  · intro h
    push Not at h
    obtain ⟨x, hx, h⟩ := h
    rw [run, List.mapM_map]
    exact View.mapM_none _ _ ⟨x, hx, by simp only [Function.comp]; rw [ck_out h]; rfl⟩

/-- **C125**, multiples and negatives: exact, and panic exactly if a coefficient of the exact result is not representable. -/
theorem c125_scale (v : FSum ℤ B) (c : ℤ) :
    Outcome (run (FSum.smul (lift w v) (lit c))) (∀ x ∈ v, InRange w (x.1 * c)) (FSum.smul v c) ∧ Outcome (run (FSum.neg (lift w v))) (∀ x ∈ v, InRange w (-x.1)) (FSum.neg v) := by
  constructor
  · unfold FSum.smul
    by_cases h0 : c = 0
    · subst h0
      rw [if_pos (show (lit 0 : Chk w) = 0 from rfl), if_pos rfl]
      exact ⟨fun _ => rfl, fun h => absurd (fun x _ => by rw [mul_zero]; exact zero_inRange) h⟩
    · rw [if_neg (fun hh : (lit c : Chk w) = 0 => h0 (lit_inj.mp hh)), if_neg h0, List.map_map]
      exact run_map v (fun k => k * c)
  · unfold FSum.neg
    have e : ((lift w v).map (fun sb => (sb.1 * -1, sb.2))) = v.map (fun x => ((chk (-x.1) : Chk w), x.2)) := by
      rw [List.map_map]
      apply List.map_congr_left
      intro x _
      simp only [Function.comp, liftT, mul_neg_one_lit]
    have := run_map (w := w) v (fun k => -k)
    rw [e]
    simpa using this

/-- **C125**, difference of two: the code negates the coefficients of the subtrahend first and panics there if one of them is the least machine integer; otherwise the
difference is returned, exactly, if all its coefficients are representable, and the operation panics if not. -/
theorem c125_sub (v u : FSum ℤ B) (hv : Sorted v) (hu : Sorted u) (rv : Rep w v) (ru : Rep w u) :
    ((∃ x ∈ u, x.1 = -2 ^ (w - 1)) → run (FSum.neg (lift w u)) = none) ∧
    ((∀ x ∈ u, x.1 ≠ -2 ^ (w - 1)) → ∃ r rc, FSum.sub v u = some r ∧ (∀ b, coef r b = coef v b - coef u b) ∧ FSum.sub (lift w v) (lift w u) = some rc ∧
      Outcome (run rc) (∀ b, InRange w (coef v b - coef u b)) r) := by
  refine ⟨?_, fun h => ?_⟩
  · rintro ⟨x, hx, e⟩
    refine (c125_scale u 0).2.2 (fun hh => ?_)
    have := (hh x hx).2
    rw [e] at this
    omega
  · have hr : ∀ x ∈ u, InRange w (-x.1) := by
      intro x hx
      have h1 := ru x hx
      have h2 := h x hx
      have h3 := h1.1
      have h4 := h1.2
      constructor <;> omega
    have e : FSum.neg (lift w u) = lift w (FSum.neg u) := by
      unfold FSum.neg
      unfold lift
      rw [List.map_map, List.map_map]
      apply List.map_congr_left
      intro x hx
      simp only [Function.comp, liftT, mul_neg_one_lit, ck_in (hr x hx), mul_neg_one]
    have hs : Sorted (FSum.neg u) := by
      unfold FSum.neg
      exact List.pairwise_map.mpr hu
    have hrep : Rep w (FSum.neg u) := by
      intro y hy
      obtain ⟨x, hx, rfl⟩ := List.mem_map.mp hy
      simpa using hr x hx
    have hc : ∀ b, coef (FSum.neg u) b = - coef u b := (c27_neg u).1
    obtain ⟨r, rc, h1, h2, h3⟩ := c125_add v (FSum.neg u) hv hs rv hrep
    refine ⟨r, rc, h1, fun b => ?_, by unfold FSum.sub; rw [e]; exact h2, ?_⟩
    · obtain ⟨r', h1', -, -, h4⟩ := c25_add v (FSum.neg u) hv hs
      rw [h1] at h1'; cases h1'
      rw [h4, hc]; ring
    · simpa only [hc, ← sub_eq_add_neg] using h3

/-- **C125**: `-1 b - (-128 b) = 127 b` is representable with 8 bits, but the difference panics. -/
theorem c125_sub_min : run (FSum.neg (lift 8 [(-128, (0 : ℕ))])) = none := by decide +kernel

/-- absolute values of the coefficients of a stream -/
abbrev absS (s : Stream ℤ B) : Stream ℤ B := mapS (fun k => |k|) s

theorem coef_nonneg {v : FSum ℤ B} (h : ∀ x ∈ v, 0 ≤ x.1) (b : B) : 0 ≤ coef v b := by
  unfold coef
  refine List.sum_nonneg (fun k hk => ?_)
  obtain ⟨x, hx, rfl⟩ := List.mem_map.mp hk
  exact h x (List.mem_filter.mp hx).1

theorem absS_items {s : Stream ℤ B} {x : ℤ × B} (hx : x ∈ items (absS s)) : 0 ≤ x.1 := by
  rcases List.mem_cons.mp hx with rfl | hx
  · exact abs_nonneg _
  · obtain ⟨y, -, rfl⟩ := List.mem_map.mp hx
    exact abs_nonneg _

theorem total_nonneg (l : List (Stream ℤ B)) (b : B) : 0 ≤ total (l.map absS) b := by
  unfold total
  refine List.sum_nonneg (fun k hk => ?_)
  obtain ⟨s, hs, rfl⟩ := List.mem_map.mp hk
  obtain ⟨t, -, rfl⟩ := List.mem_map.mp hs
  exact coef_nonneg (fun x hx => absS_items hx) b

theorem total_append (l l' : List (Stream ℤ B)) (b : B) : total (l ++ l') b = total l b + total l' b := by
  simp [total]

/-- a round removes the absolute values of the coefficients it adds -/
theorem total_round (s : Stream ℤ B) (ss : List (Stream ℤ B)) (b : B) :
    total ((s :: ss).map absS) b = coef (((s :: group s ss).map absS).map (fun t => t.1)) b + total ((nextIters s ss).map absS) b := by
  obtain ⟨rest, e1, -, e2⟩ := next_perm s ss
  rw [total_perm (e2.map absS), List.map_append, total_append, ← advance_map, e1, List.map_append, total_append, advance_total ((s :: group s ss).map absS)]
  ring

theorem coef_heads (l : List (Stream ℤ B)) (b : B) (h : ∀ t ∈ l, t.1.2 = b) : coef ((l.map absS).map (fun t => t.1)) b = (l.map (fun t => |t.1.1|)).sum := by
  induction l with
  | nil => rfl
  | cons t l ih =>
    rw [List.map_cons, List.map_cons, coef_cons, ih (fun u hu => h u (List.mem_cons_of_mem _ hu)), List.map_cons, List.sum_cons, if_pos (show (absS t).1.2 = b from h t (List.mem_cons_self ..))]
    rfl

theorem fold_ok (l : List (Stream ℤ B)) : ∀ k : ℤ, |k| + (l.map (fun t => |t.1.1|)).sum < 2 ^ (w - 1) →
    (l.map (mapS (lit (w := w)))).foldl (fun c t => c + t.1.1) (lit k) ≠ bad := by
  induction l with
  | nil => intro k _ h; cases h
  | cons t l ih =>
    intro k h
    rw [List.map_cons, List.sum_cons] at h
    have h1 := abs_add_le k t.1.1
    have h2 : 0 ≤ (l.map (fun t => |t.1.1|)).sum := List.sum_nonneg (fun x hx => by obtain ⟨u, -, rfl⟩ := List.mem_map.mp hx; exact abs_nonneg _)
    have h3 := abs_le.mp (le_refl |k + t.1.1|)
    have e : (lit k : Chk w) + (mapS (lit (w := w)) t).1.1 = chk (k + t.1.1) := rfl
    rw [List.map_cons, List.foldl_cons, e, ck_in ⟨by omega, by omega⟩]
    exact ih _ (by omega)

/-- **C125**, a sufficient condition for sums of any number: no panic if for every basis element the absolute values of all its coefficients add up to less than
`2^(w-1)`. -/
theorem c125_sum_bound (vs : List (FSum ℤ B)) (h : ∀ b, (vs.map (fun v => coef (v.map (fun x => (|x.1|, x.2))) b)).sum < 2 ^ (w - 1)) :
    ∃ r rc, FSum.sum vs = some r ∧ FSum.sum (vs.map (lift w)) = some rc ∧ run rc = some r := by
  obtain ⟨r, h1, h2, -⟩ := sum_spec vs
  obtain ⟨rc, h3, h4⟩ := sim (w := w) _ _ [] [] r (Or.inr rfl) h1
  refine ⟨r, rc, h1, by rw [sum_lift]; exact h3, ?_⟩
  rcases run_rel h4 with ⟨-, x, hx, e⟩ | ⟨h, -⟩
  · exfalso
    refine noBad (fun ss => ∀ b, total (ss.map (mapS (fun k => |k|))) b < 2 ^ (w - 1)) ?_ ?_ _ _ [] rc ?_ (by simp) h3 x hx e
    · intro s ss hI
      obtain ⟨rest, e1, e3, -⟩ := next_perm s ss
      have := hI s.1.2
      rw [total_round, coef_heads _ _ (fun t ht => by
        rcases List.mem_cons.mp ht with rfl | ht
        · rfl
        · exact e3 t ht), List.map_cons, List.sum_cons] at this
      have h0 := total_nonneg (nextIters s ss) s.1.2
      exact fold_ok _ _ (by omega)
    · intro s ss hI b
      have := hI b
      rw [total_round] at this
      have h0 : 0 ≤ coef (((s :: group s ss).map absS).map (fun t => t.1)) b := by
        refine coef_nonneg (fun x hx => ?_) b
        obtain ⟨t, ht, rfl⟩ := List.mem_map.mp hx
        obtain ⟨u, -, rfl⟩ := List.mem_map.mp ht
        exact abs_nonneg _
      have h2 : total ((nextIters s ss).map absS) b < 2 ^ (w - 1) := by omega
      exact h2
    · intro b
      rw [← sort_map, total_perm (sortStreams_perm _), ← streams_map, streams_total, List.map_map]
      exact h b
  · exact h

/-! ### cases -/

/-- **C125**, the order of the summands matters: with 8 bits `100 b + 100 b - 100 b` panics, `100 b - 100 b + 100 b` is returned. -/
theorem c125_order : (FSum.sum ([[(100, 0)], [(100, 0)], [(-100, 0)]].map (lift 8)) = some [((⟨none⟩ : Chk 8), (0 : ℕ))]) ∧
    (FSum.sum ([[(100, 0)], [(-100, 0)], [(100, 0)]].map (lift 8)) = some [((lit 100 : Chk 8), (0 : ℕ))]) := by
  constructor
  · rw [sum_lift, sortStreams_of_sorted _ (by simp [streams])]; decide +kernel
  · rw [sum_lift, sortStreams_of_sorted _ (by simp [streams])]; decide +kernel

/-- a case for sums of two: `(100 b0 + 3 b2) + (27 b0 - 3 b2)` fits into 8 bits, with `28 b0` it does not -/
example : (∀ b, InRange 8 (coef ([(100, 0), (3, 2)] : FSum ℤ ℕ) b + coef [(27, 0), (-3, 2)] b)) ∧
    ¬ (∀ b, InRange 8 (coef ([(100, 0), (3, 2)] : FSum ℤ ℕ) b + coef [(28, 0), (-3, 2)] b)) := by
  constructor
  · intro b
    by_cases h0 : b = 0
    · subst h0; constructor <;> simp [coef]
    · by_cases h2 : b = 2
      · subst h2; constructor <;> simp [coef]
      · have e1 : (0 : ℕ) ≠ b := Ne.symm h0
        have e2 : (2 : ℕ) ≠ b := Ne.symm h2
        constructor <;> simp [coef, e1, e2]
  · intro h
    have := (h 0).2
    simp [coef] at this

end Toppo.FSum
