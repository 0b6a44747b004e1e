import Mathlib.Algebra.Ring.Basic
import Mathlib.Algebra.BigOperators.Group.List.Basic
import Mathlib.Data.List.Sort
import Mathlib.Data.List.TakeWhile
import Mathlib.Tactic.Ring
import Mathlib.Data.Int.Order.Basic
import Verif.Model.FormalSum
set_option linter.unusedSimpArgs false
set_option linter.unusedSectionVars false

/-! C25-C27: formal sums. -/
namespace Toppo
namespace FSum
variable {K B : Type} [CommRing K] [DecidableEq K] [LinearOrder B]

/-- Specification: the coefficient of `b` in a formal sum is the sum of the listed coefficients of `b`. -/
def coef (v : FSum K B) (b : B) : K := ((v.filter (fun ib => decide (ib.2 = b))).map (fun ib => ib.1)).sum

/-- Specification: a formal sum with strictly increasing basis list. -/
def Sorted (v : FSum K B) : Prop := v.Pairwise (fun x y => x.2 < y.2)

theorem coef_nil (b : B) : coef ([] : FSum K B) b = 0 := rfl

theorem coef_cons (x : K × B) (v : FSum K B) (b : B) :
    coef (x :: v) b = (if x.2 = b then x.1 else 0) + coef v b := by
  unfold coef
  rw [List.filter_cons]
  by_cases h : x.2 = b <;> simp [h]

theorem coef_append (v w : FSum K B) (b : B) : coef (v ++ w) b = coef v b + coef w b := by
  unfold coef; simp [List.filter_append]

theorem coef_not_mem (v : FSum K B) (b : B) (h : ∀ x ∈ v, x.2 ≠ b) : coef v b = 0 := by
  unfold coef
  rw [List.filter_eq_nil_iff.mpr (by intro x hx; simpa using h x hx)]; rfl

/-- All the items of a stream. -/
def items (s : Stream K B) : FSum K B := s.1 :: s.2

/-- Total coefficient over the streams. -/
def total (ss : List (Stream K B)) (b : B) : K := (ss.map (fun s => coef (items s) b)).sum

theorem total_perm {l m : List (Stream K B)} (h : l.Perm m) (b : B) : total l b = total m b :=
  (h.map _).sum_eq

def size (ss : List (Stream K B)) : Nat := (ss.map (fun s => s.2.length + 1)).sum

theorem size_perm {l m : List (Stream K B)} (h : l.Perm m) : size l = size m := (h.map _).sum_eq

omit [CommRing K] [DecidableEq K] in
theorem mergeFrom_perm (curr : Stream K B) : ∀ (i j : List (Stream K B)), (mergeFrom curr i j).Perm (curr :: i ++ j)
  | [], j => by simp [mergeFrom]
  | x :: i, j => by
    unfold mergeFrom
    split
    · exact ((mergeFrom_perm x i j)).cons curr
    · refine (mergeFrom_perm curr i j).cons x |>.trans ?_
      exact List.Perm.swap curr x (i ++ j)

omit [CommRing K] [DecidableEq K] in
theorem mergeBy_perm (i j : List (Stream K B)) : (mergeBy i j).Perm (i ++ j) := by
  unfold mergeBy
  split
  · rename_i n j
    refine (mergeFrom_perm n i j).trans ?_
    exact List.perm_middle.symm
  · split
    · simp
    · rename_i c i
      simpa using mergeFrom_perm c i []

omit [CommRing K] [DecidableEq K] in
theorem sortStreams_perm (l : List (Stream K B)) : (sortStreams l).Perm l := List.mergeSort_perm _ _

theorem sortStreams_sorted (l : List (Stream K B)) : (sortStreams l).Pairwise (fun x y => x.1.2 ≤ y.1.2) := by
  have := List.pairwise_mergeSort (le := fun (x y : Stream K B) => decide (x.1.2 ≤ y.1.2))
    (by intro a b c h1 h2; simp at *; exact h1.trans h2) (by intro a b; simp; exact le_total _ _) l
  exact this.imp (by intro a b h; simpa using h)

theorem advance_total (l : List (Stream K B)) (b : B) :
    total l b = coef (l.map (fun s => s.1)) b + total (advance l) b := by
  induction l with
  | nil => simp [total, advance, coef]
  | cons s ss ih =>
    have h1 : total (s :: ss) b = coef (items s) b + total ss b := by simp [total]
    rw [h1, ih, List.map_cons, coef_cons, items, coef_cons]
    obtain ⟨x, xs⟩ := s
    cases xs with
    | nil => simp only [advance, List.filterMap_cons, coef_nil]; ring
    | cons y ys =>
      have h2 : total (advance ((x, y :: ys) :: ss)) b = coef (y :: ys) b + total (advance ss) b := by
        simp [total, advance, items]
      rw [h2]; ring

theorem advance_size (l : List (Stream K B)) : size (advance l) + l.length = size l := by
  induction l with
  | nil => rfl
  | cons s ss ih =>
    obtain ⟨x, xs⟩ := s
    cases xs with
    | nil => simp [size, advance] at *; omega
    | cons y ys => simp [size, advance] at *; omega

/-- The group of streams consumed in one round. -/
theorem group_spec (s : Stream K B) (ss : List (Stream K B)) :
    let g := (s :: ss).takeWhile (fun t => decide (t.1.2 = s.1.2))
    0 < g.length ∧ (s :: ss).take g.length = g ∧ (s :: ss) = g ++ (s :: ss).drop g.length ∧
      (∀ t ∈ g, t.1.2 = s.1.2) ∧
      (ss.take (g.length - 1)).foldl (fun c t => c + t.1.1) s.1.1 = coef (g.map (fun t => t.1)) s.1.2 := by
  intro g
  have hg : g = s :: ss.takeWhile (fun t => decide (t.1.2 = s.1.2)) := by
    simp [g, List.takeWhile_cons]
  have hpre : g <+: (s :: ss) := List.takeWhile_prefix _
  have htake : (s :: ss).take g.length = g := (List.prefix_iff_eq_take.mp hpre).symm
  have hmem : ∀ t ∈ g, t.1.2 = s.1.2 := by
    intro t ht
    simpa using List.mem_takeWhile_imp ht
  have hfold : ∀ (l : List (Stream K B)) (c : K), l.foldl (fun c t => c + t.1.1) c = c + (l.map (fun t => t.1.1)).sum := by
    intro l
    induction l with
    | nil => simp
    | cons x xs ih => intro c; rw [List.foldl_cons, ih]; simp [add_assoc]
  refine ⟨by rw [hg]; simp, htake, ?_, hmem, ?_⟩
  · conv_lhs => rw [← List.take_append_drop g.length (s :: ss), htake]
  · have h1 : ss.take (g.length - 1) = ss.takeWhile (fun t => decide (t.1.2 = s.1.2)) := by
      have hpre' := List.takeWhile_prefix (fun t : Stream K B => decide (t.1.2 = s.1.2)) (l := ss)
      rw [hg]; simp only [List.length_cons, Nat.add_sub_cancel]
      exact (List.prefix_iff_eq_take.mp hpre').symm
    rw [h1, hfold]
    have h2 : ∀ l : List (Stream K B), (∀ t ∈ l, t.1.2 = s.1.2) →
        coef (l.map (fun t => t.1)) s.1.2 = (l.map (fun t => t.1.1)).sum := by
      intro l
      induction l with
      | nil => intro _; rfl
      | cons x xs ih =>
        intro h
        rw [List.map_cons, coef_cons, ih (fun t ht => h t (List.mem_cons_of_mem _ ht)),
          if_pos (h x List.mem_cons_self)]; simp
    rw [h2 g hmem, hg]; simp

/-- The loop returns, preserves the coefficients, and lists no zero coefficient. -/
theorem sumLoop_total : ∀ (fuel : Nat) (ss : List (Stream K B)) (out : FSum K B), size ss ≤ fuel →
    ∃ r, sumLoop fuel ss out = some r ∧ (∀ b, coef r b = coef out b + total ss b) ∧
      ((∀ x ∈ out, x.1 ≠ 0) → ∀ x ∈ r, x.1 ≠ 0) := by
  intro fuel
  induction fuel with
  | zero =>
    intro ss out h
    cases ss with
    | nil => exact ⟨out, rfl, by simp [total], fun h => h⟩
    | cons s ss => simp [size] at h
  | succ fuel ih =>
    intro ss out h
    cases ss with
    | nil => exact ⟨out, rfl, by simp [total], fun h => h⟩
    | cons s ss =>
      obtain ⟨g1, g2, g3, g4, g5⟩ := group_spec s ss
      unfold sumLoop
      simp only
      set g := (s :: ss).takeWhile (fun t => decide (t.1.2 = s.1.2)) with hg
      rw [g2, g5]
      set rest := (s :: ss).drop g.length with hrest
      set it := mergeBy rest (sortStreams (advance g)) with hit
      have hperm : it.Perm (rest ++ advance g) :=
        (mergeBy_perm _ _).trans (List.Perm.append_left _ (sortStreams_perm _))
      have hsize : size it ≤ fuel := by
        rw [size_perm hperm]
        have h1 : size (rest ++ advance g) = size rest + size (advance g) := by simp [size]
        have h2 : size (s :: ss) = size g + size rest := by rw [g3]; simp [size]
        have := advance_size g
        omega
      have htot : ∀ b, total (s :: ss) b = coef (g.map (fun t => t.1)) b + total it b := by
        intro b
        rw [total_perm hperm, g3]
        have h1 : total (g ++ rest) b = total g b + total rest b := by simp [total]
        have h2 : total (rest ++ advance g) b = total rest b + total (advance g) b := by simp [total]
        rw [h1, h2, advance_total g]; ring
      obtain ⟨r, h1, h2, h3⟩ := ih it (if coef (g.map (fun t => t.1)) s.1.2 ≠ 0 then
        out ++ [(coef (g.map (fun t => t.1)) s.1.2, s.1.2)] else out) hsize
      refine ⟨r, h1, ?_, ?_⟩
      · intro b
        rw [h2, htot]
        have hb : ∀ b, b ≠ s.1.2 → coef (g.map (fun t => t.1)) b = 0 := by
          intro b hb
          apply coef_not_mem
          intro x hx
          obtain ⟨t, ht, rfl⟩ := List.mem_map.mp hx
          rw [g4 t ht]; exact hb.symm
        by_cases hz : coef (g.map (fun t => t.1)) s.1.2 = 0
        · rw [if_neg (by simpa using hz)]
          by_cases hbs : b = s.1.2
          · subst hbs; rw [hz]; ring
          · rw [hb b hbs]; ring
        · rw [if_pos hz, coef_append, coef_cons, coef_nil]
          by_cases hbs : b = s.1.2
          · subst hbs; rw [if_pos rfl]; ring
          · rw [if_neg (by simpa using Ne.symm hbs), hb b hbs]; ring
      · intro hout
        apply h3
        split
        · rename_i hz
          intro x hx
          rcases List.mem_append.mp hx with hx | hx
          · exact hout x hx
          · rw [List.mem_singleton] at hx; subst hx; exact hz
        · exact hout

/-! ### sortedness -/

theorem mergeFrom_sorted (c : Stream K B) : ∀ (i j : List (Stream K B)),
    (j = [] ∨ i = []) → i.Pairwise (fun x y => x.1.2 ≤ y.1.2) → j.Pairwise (fun x y => x.1.2 ≤ y.1.2) →
    (∀ y ∈ j, c.1.2 ≤ y.1.2) →
    (mergeFrom c i j).Pairwise (fun x y => x.1.2 ≤ y.1.2)
  | [], j, _, _, hj, hc => by
    unfold mergeFrom
    exact List.pairwise_cons.mpr ⟨hc, hj⟩
  | x :: i, j, h, hi, hj, hc => by
    have hj' : j = [] := by rcases h with h | h; exact h; cases h
    subst hj'
    have hi' := List.pairwise_cons.mp hi
    unfold mergeFrom
    split
    · rename_i hlt
      refine List.pairwise_cons.mpr ⟨?_, mergeFrom_sorted x i [] (Or.inl rfl) hi'.2 hj (by simp)⟩
      intro y hy
      have := (mergeFrom_perm x i []).mem_iff.mp hy
      simp at this
      rcases this with rfl | h
      · exact hlt.le
      · exact hlt.le.trans (hi'.1 y h)
    · rename_i hlt
      refine List.pairwise_cons.mpr ⟨?_, mergeFrom_sorted c i [] (Or.inl rfl) hi'.2 hj (by simp)⟩
      intro y hy
      have := (mergeFrom_perm c i []).mem_iff.mp hy
      simp at this
      rcases this with rfl | h
      · exact not_lt.mp hlt
      · exact hi'.1 y h

theorem mergeBy_sorted (i j : List (Stream K B)) (h : j.length ≤ 1 ∨ i = [])
    (hi : i.Pairwise (fun x y => x.1.2 ≤ y.1.2)) (hj : j.Pairwise (fun x y => x.1.2 ≤ y.1.2)) :
    (mergeBy i j).Pairwise (fun x y => x.1.2 ≤ y.1.2) := by
  unfold mergeBy
  split
  · rename_i n j
    have hj' := List.pairwise_cons.mp hj
    apply mergeFrom_sorted n i j ?_ hi hj'.2 hj'.1
    rcases h with h | h
    · left; simpa using h
    · exact Or.inr h
  · split
    · exact List.Pairwise.nil
    · rename_i c i
      exact mergeFrom_sorted c i [] (Or.inl rfl) (List.pairwise_cons.mp hi).2 List.Pairwise.nil (by simp)

/-- A basis element that two streams share is the greatest of one of them. -/
def NoShare (s t : Stream K B) : Prop := ∀ x ∈ items s, ∀ y ∈ items t, x.2 = y.2 → (∀ z ∈ items s, z.2 ≤ x.2) ∨ (∀ z ∈ items t, z.2 ≤ x.2)

theorem NoShare.symm : Symmetric (NoShare (K := K) (B := B)) := fun a b hab x hx y hy e => by
  rw [e]; exact (hab y hy x hx e.symm).symm

/-- Situations in which the k-way merge keeps its streams ordered. -/
def Tame (ss : List (Stream K B)) : Prop := ss.length ≤ 2 ∨ ss.Pairwise NoShare

theorem advance_sub {l : List (Stream K B)} {t} (h : t ∈ advance l) : ∃ s ∈ l, s.2 = items t := by
  unfold advance at h
  obtain ⟨s, hs, e⟩ := List.mem_filterMap.mp h
  obtain ⟨x, xs⟩ := s
  cases xs with
  | nil => cases e
  | cons y ys => simp only [Option.some.injEq] at e; subst e; exact ⟨_, hs, rfl⟩

theorem sumLoop_sorted : ∀ (fuel : Nat) (ss : List (Stream K B)) (out r : FSum K B), Tame ss →
    ss.Pairwise (fun x y => x.1.2 ≤ y.1.2) → (∀ s ∈ ss, Sorted (items s)) → Sorted out →
    (∀ x ∈ out, ∀ s ∈ ss, x.2 < s.1.2) →
    sumLoop fuel ss out = some r → Sorted r := by
  intro fuel
  induction fuel with
  | zero =>
    intro ss out r _ _ _ hout _ h
    cases ss with
    | nil => unfold sumLoop at h; injection h with h; exact h ▸ hout
    | cons s ss => cases h
  | succ fuel ih =>
    intro ss out r ht hs hst hout hlt h
    cases ss with
    | nil => unfold sumLoop at h; injection h with h; exact h ▸ hout
    | cons s ss =>
      obtain ⟨g1, g2, g3, g4, g5⟩ := group_spec s ss
      unfold sumLoop at h
      simp only at h
      set g := (s :: ss).takeWhile (fun t => decide (t.1.2 = s.1.2)) with hg
      rw [g2, g5] at h
      set rest := (s :: ss).drop g.length with hrest
      set it := mergeBy rest (sortStreams (advance g)) with hit
      have hperm : it.Perm (rest ++ advance g) :=
        (mergeBy_perm _ _).trans (List.Perm.append_left _ (sortStreams_perm _))
      have hrsub : rest.Sublist (s :: ss) := List.drop_sublist _ _
      have hgsub : g.Sublist (s :: ss) := List.takeWhile_sublist _
      have hadv : (advance g).length ≤ g.length := by
        unfold advance; exact List.length_filterMap_le _ _
      have hcase : (advance g).length ≤ 1 ∨ rest = [] := by
        rcases ht with ht | ht
        · have hl : g.length + rest.length ≤ 2 := by
            have := congrArg List.length g3; simp at this ht ⊢; omega
          by_cases h1 : g.length = 1
          · left; omega
          · right; apply List.length_eq_zero_iff.mp; omega
        · left
          have hp : (advance g).Pairwise (fun _ _ => False) := by
            unfold advance
            rw [List.pairwise_filterMap]
            refine List.Pairwise.imp_of_mem ?_ (ht.sublist hgsub)
            intro a b ha hb hab a' ha' b' hb'
            have sa := hst a (hgsub.subset ha)
            have sb := hst b (hgsub.subset hb)
            have e := (g4 a ha).trans (g4 b hb).symm
            obtain ⟨x, xs⟩ := a
            obtain ⟨y, ys⟩ := b
            simp only at e
            cases xs with
            | nil => cases ha'
            | cons x' xs =>
              cases ys with
              | nil => cases hb'
              | cons y' ys =>
                rcases hab x (by simp [items]) y (by simp [items]) e with h | h
                · exact absurd (h x' (by simp [items])) (not_le.mpr ((List.pairwise_cons.mp sa).1 x' (by simp)))
                · refine absurd (h y' (by simp [items])) (not_le.mpr ?_)
                  rw [e]; exact (List.pairwise_cons.mp sb).1 y' (by simp)
          match hl : advance g, hp with
          | [], _ => simp
          | [a], _ => simp
          | a :: b :: l, hp => exact absurd ((List.pairwise_cons.mp hp).1 b (by simp)) id
      have hsorted : it.Pairwise (fun x y => x.1.2 ≤ y.1.2) := by
        apply mergeBy_sorted
        · rcases hcase with h | h
          · left; rw [(sortStreams_perm _).length_eq]; exact h
          · exact Or.inr h
        · exact hs.sublist hrsub
        · exact sortStreams_sorted _
      -- every remaining head is larger than the group's basis element
      have hgt : ∀ t ∈ it, s.1.2 < t.1.2 := by
        intro t htm
        rcases List.mem_append.mp (hperm.mem_iff.mp htm) with h' | h'
        · -- in the rest
          have hle : s.1.2 ≤ t.1.2 := by
            rcases List.mem_cons.mp (hrsub.subset h') with rfl | h''
            · exact le_refl _
            · exact (List.pairwise_cons.mp hs).1 t h''
          have hne : ∃ u us, rest = u :: us ∧ u.1.2 ≠ s.1.2 := by
            have hdw : rest = (s :: ss).dropWhile (fun t => decide (t.1.2 = s.1.2)) := by
              have e := List.takeWhile_append_dropWhile (p := fun t : Stream K B => decide (t.1.2 = s.1.2)) (l := s :: ss)
              have e2 : g ++ rest = g ++ (s :: ss).dropWhile (fun t => decide (t.1.2 = s.1.2)) := by
                rw [← g3]; exact e.symm
              exact List.append_cancel_left e2
            cases hr : rest with
            | nil => rw [hr] at h'; simp at h'
            | cons u us =>
              refine ⟨u, us, rfl, ?_⟩
              have := List.head_dropWhile_not (fun t : Stream K B => decide (t.1.2 = s.1.2)) (l := s :: ss)
                (by rw [← hdw, hr]; simp)
              simp only [← hdw, hr, List.head_cons] at this
              simpa using this
          obtain ⟨u, us, hu, hune⟩ := hne
          have hule : s.1.2 ≤ u.1.2 := by
            have hum : u ∈ s :: ss := hrsub.subset (by rw [hu]; simp)
            rcases List.mem_cons.mp hum with rfl | h''
            · exact le_refl _
            · exact (List.pairwise_cons.mp hs).1 u h''
          have hut : u.1.2 ≤ t.1.2 := by
            rw [hu] at h'
            rcases List.mem_cons.mp h' with rfl | h''
            · exact le_refl _
            · have := hs.sublist hrsub; rw [hu] at this
              exact (List.pairwise_cons.mp this).1 t h''
          exact lt_of_lt_of_le (lt_of_le_of_ne hule (Ne.symm hune)) hut
        · obtain ⟨u, hu, e⟩ := advance_sub h'
          have hsu := hst u (hgsub.subset hu)
          unfold Sorted items at hsu
          rw [e] at hsu
          have := (List.pairwise_cons.mp hsu).1 t.1 (by simp [items])
          rw [← g4 u hu]; exact this
      have hst' : ∀ t ∈ it, Sorted (items t) := by
        intro t htm
        rcases List.mem_append.mp (hperm.mem_iff.mp htm) with h' | h'
        · exact hst t (hrsub.subset h')
        · obtain ⟨u, hu, e⟩ := advance_sub h'
          have hsu := hst u (hgsub.subset hu)
          rw [← e]; exact (List.pairwise_cons.mp hsu).2
      have ht' : Tame it := by
        rcases ht with ht | ht
        · left
          rw [hperm.length_eq, List.length_append]
          have := congrArg List.length g3; simp at this ht; omega
        · right
          have hsymm := NoShare.symm (K := K) (B := B)
          refine (hperm.pairwise_iff (fun {a b} h => hsymm h)).mpr ?_
          rw [List.pairwise_append]
          refine ⟨ht.sublist hrsub, ?_, ?_⟩
          · unfold advance
            rw [List.pairwise_filterMap]
            refine (ht.sublist hgsub).imp ?_
            intro a b hab a' ha' b' hb'
            obtain ⟨x, xs⟩ := a
            obtain ⟨y, ys⟩ := b
            cases xs with
            | nil => cases ha'
            | cons x' xs =>
              cases ys with
              | nil => cases hb'
              | cons y' ys =>
                simp only [Option.some.injEq] at ha' hb'
                subst ha' hb'
                intro u hu w hw e
                exact (hab u (List.mem_cons_of_mem _ hu) w (List.mem_cons_of_mem _ hw) e).imp (fun h z hz => h z (List.mem_cons_of_mem _ hz))
                  (fun h z hz => h z (List.mem_cons_of_mem _ hz))
          · intro a ha b hb
            obtain ⟨u, hu, e⟩ := advance_sub hb
            rw [g3, List.pairwise_append] at ht
            have := hsymm (ht.2.2 u hu a ha)
            intro x hx y hy e'
            have hi : ∀ z ∈ items b, z ∈ items u := fun z hz => by
              have : z ∈ u.2 := by rw [e]; exact hz
              exact List.mem_cons_of_mem _ this
            exact (this x hx y (hi y hy) e').imp id (fun h z hz => h z (hi z hz))
      refine ih it _ r ht' hsorted hst' ?_ ?_ h
      · split
        · unfold Sorted
          rw [List.pairwise_append]
          refine ⟨hout, by simp, ?_⟩
          intro x hx y hy
          rw [List.mem_singleton] at hy; subst hy
          exact hlt x hx s (by simp)
        · exact hout
      · intro x hx t ht
        have hxt : ∀ x ∈ out, x.2 < t.1.2 := fun x hx => (hlt x hx s (by simp)).trans (hgt t ht)
        split at hx
        · rcases List.mem_append.mp hx with hx | hx
          · exact hxt x hx
          · rw [List.mem_singleton] at hx; subst hx; exact hgt t ht
        · exact hxt x hx

theorem streams_total (vs : List (FSum K B)) (b : B) : total (streams vs) b = (vs.map (fun v => coef v b)).sum := by
  induction vs with
  | nil => rfl
  | cons v vs ih =>
    cases v with
    | nil =>
      have : streams ([] :: vs) = streams vs := by simp [streams]
      rw [this, ih]; simp [coef_nil]
    | cons x xs =>
      have : streams ((x :: xs) :: vs) = (x, xs) :: streams vs := by simp [streams]
      rw [this]
      have h : total ((x, xs) :: streams vs) b = coef (x :: xs) b + total (streams vs) b := by simp [total, items]
      rw [h, ih]; simp

theorem streams_size (vs : List (FSum K B)) : size (streams vs) = (vs.map List.length).sum := by
  induction vs with
  | nil => rfl
  | cons v vs ih =>
    cases v with
    | nil =>
      have : streams ([] :: vs) = streams vs := by simp [streams]
      rw [this, ih]; simp
    | cons x xs =>
      have : streams ((x :: xs) :: vs) = (x, xs) :: streams vs := by simp [streams]
      rw [this]
      have h : size ((x, xs) :: streams vs) = (xs.length + 1) + size (streams vs) := by simp [size]
      rw [h, ih]; simp

theorem streams_mem {vs : List (FSum K B)} {s} (h : s ∈ streams vs) : items s ∈ vs := by
  unfold streams at h
  obtain ⟨v, hv, e⟩ := List.mem_filterMap.mp h
  cases v with
  | nil => cases e
  | cons x xs => simp only [Option.some.injEq] at e; subst e; exact hv

theorem sum_spec (vs : List (FSum K B)) : ∃ r, sum vs = some r ∧
    (∀ b, coef r b = (vs.map (fun v => coef v b)).sum) ∧ (∀ x ∈ r, x.1 ≠ 0) := by
  obtain ⟨r, h1, h2, h3⟩ := sumLoop_total (vs.map List.length).sum (sortStreams (streams vs)) []
    (by rw [size_perm (sortStreams_perm _), streams_size])
  refine ⟨r, h1, ?_, h3 (by simp)⟩
  intro b
  rw [h2, coef_nil, zero_add, total_perm (sortStreams_perm _), streams_total]

theorem sum_sorted (vs : List (FSum K B)) (hs : ∀ v ∈ vs, Sorted v)
    (ht : vs.length ≤ 2 ∨ vs.Pairwise (fun v w => ∀ x ∈ v, ∀ y ∈ w, x.2 = y.2 → (∀ z ∈ v, z.2 ≤ x.2) ∨ (∀ z ∈ w, z.2 ≤ x.2))) {r} (h : sum vs = some r) : Sorted r := by
  apply sumLoop_sorted _ _ [] r ?_ (sortStreams_sorted _) ?_ List.Pairwise.nil (by simp) h
  · rcases ht with ht | ht
    · left
      rw [(sortStreams_perm _).length_eq]
      exact (List.length_filterMap_le _ _).trans ht
    · right
      have hsymm := NoShare.symm (K := K) (B := B)
      refine ((sortStreams_perm _).pairwise_iff (fun {a b} h => hsymm h)).mpr ?_
      unfold streams
      rw [List.pairwise_filterMap]
      refine ht.imp ?_
      intro a b hab a' ha' b' hb'
      cases a with
      | nil => cases ha'
      | cons x xs =>
        cases b with
        | nil => cases hb'
        | cons y ys =>
          simp only [Option.some.injEq] at ha' hb'
          subst ha' hb'
          exact hab
  · intro s hs'
    exact hs _ (streams_mem ((sortStreams_perm _).mem_iff.mp hs'))

/-- C25: the sum of two formal sums with increasing bases: it is returned, its basis is strictly increasing, no coefficient
is zero, and the coefficient of every basis element is the sum of the coefficients. -/
theorem c25_add (v w : FSum K B) (hv : Sorted v) (hw : Sorted w) :
    ∃ r, add v w = some r ∧ Sorted r ∧ (∀ x ∈ r, x.1 ≠ 0) ∧ ∀ b, coef r b = coef v b + coef w b := by
  obtain ⟨r, h1, h2, h3⟩ := sum_spec [v, w]
  refine ⟨r, h1, sum_sorted [v, w] (by simp [hv, hw]) (Or.inl (by simp)) h1, h3, ?_⟩
  intro b; rw [h2]; simp

/-- Normal formal sums are determined by their coefficients, so `==` on them is equality of formal sums. -/
theorem c25_normal_form_unique (v w : FSum K B) (hv : Sorted v) (hw : Sorted w)
    (hv0 : ∀ x ∈ v, x.1 ≠ 0) (hw0 : ∀ x ∈ w, x.1 ≠ 0) : v = w ↔ ∀ b, coef v b = coef w b := by
  constructor
  · rintro rfl _; rfl
  · have hsub : ∀ (v w : FSum K B), Sorted v → Sorted w → (∀ x ∈ v, x.1 ≠ 0) → (∀ b, coef v b = coef w b) →
        ∀ x ∈ v, x ∈ w := by
      have hmem : ∀ (v : FSum K B), Sorted v → ∀ x ∈ v, coef v x.2 = x.1 := by
        intro v hv
        induction v with
        | nil => simp
        | cons y ys ih =>
          intro x hx
          have hy := List.pairwise_cons.mp hv
          rw [coef_cons]
          rcases List.mem_cons.mp hx with rfl | hx
          · rw [if_pos rfl, coef_not_mem, add_zero]
            intro z hz; exact (hy.1 z hz).ne'
          · rw [if_neg (hy.1 x hx).ne, zero_add]; exact ih hy.2 x hx
      intro v w hv hw hv0 e x hx
      have h1 := hmem v hv x hx
      rw [e] at h1
      have : ∃ y ∈ w, y.2 = x.2 := by
        by_contra hcon
        push Not at hcon
        rw [coef_not_mem w x.2 hcon] at h1
        exact hv0 x hx h1.symm
      obtain ⟨y, hy, e2⟩ := this
      have h2 := hmem w hw y hy
      rw [e2, h1] at h2
      have : x = y := Prod.ext h2 e2.symm
      rw [this]; exact hy
    intro e
    have hnd : ∀ v : FSum K B, Sorted v → v.Nodup := fun v hv => hv.imp (fun {a b} h => by rintro rfl; exact lt_irrefl _ h)
    have hperm : v.Perm w := by
      rw [List.perm_ext_iff_of_nodup (hnd v hv) (hnd w hw)]
      intro x
      exact ⟨hsub v w hv hw hv0 e x, hsub w v hw hv hw0 (fun b => (e b).symm) x⟩
    exact hperm.eq_of_pairwise (fun a b _ _ h1 h2 => absurd h1 (not_lt.mpr h2.le)) hv hw

example : Sorted ([(2, 0), (3, 1)] : FSum Int Nat) ∧ Sorted ([(-2, 0), (5, 4)] : FSum Int Nat) := by
  simp [Sorted]

/-- C26, for any list of formal sums: the sum is returned, no listed coefficient is zero, and the total coefficient of every
basis element is right.  Missing: the order of the result (false, `c26_sum_order_false`). -/
theorem c26_sum_coefficients_partial (vs : List (FSum K B)) :
    ∃ r, sum vs = some r ∧ (∀ b, coef r b = (vs.map (fun v => coef v b)).sum) ∧ (∀ x ∈ r, x.1 ≠ 0) := sum_spec vs

/-- C26, order of the result, for at most two summands, or if of any two summands that share a basis element one ends with it (in particular if no
two summands share a basis element, or if every summand is a multiple of a basis element). -/
theorem c26_sum_sorted_partial (vs : List (FSum K B)) (hs : ∀ v ∈ vs, Sorted v)
    (ht : vs.length ≤ 2 ∨ vs.Pairwise (fun v w => ∀ x ∈ v, ∀ y ∈ w, x.2 = y.2 → (∀ z ∈ v, z.2 ≤ x.2) ∨ (∀ z ∈ w, z.2 ≤ x.2))) :
    ∃ r, sum vs = some r ∧ Sorted r ∧ (∀ x ∈ r, x.1 ≠ 0) ∧ ∀ b, coef r b = (vs.map (fun v => coef v b)).sum := by
  obtain ⟨r, h1, h2, h3⟩ := sum_spec vs
  exact ⟨r, h1, sum_sorted vs hs ht h1, h3, h2⟩

/-- summands with at most one term -/
theorem terms_ok (vs : List (FSum K B)) (h1 : ∀ v ∈ vs, v.length ≤ 1) :
    vs.Pairwise (fun v w => ∀ x ∈ v, ∀ y ∈ w, x.2 = y.2 → (∀ z ∈ v, z.2 ≤ x.2) ∨ (∀ z ∈ w, z.2 ≤ x.2)) := by
  refine List.Pairwise.imp_of_mem (R := fun _ _ => True) ?_ (List.pairwise_of_forall (fun _ _ => trivial))
  intro v w hv hw _ x hx y hy e
  left
  match v, h1 v hv, hx with
  | [z], _, hx => simp at hx; subst hx; simp

/-- C26 for summands with at most one term each, however many and however often a basis element occurs: the sum is returned, in order, and right. -/
theorem c26_terms (vs : List (FSum K B)) (h1 : ∀ v ∈ vs, v.length ≤ 1) :
    ∃ r, sum vs = some r ∧ Sorted r ∧ (∀ x ∈ r, x.1 ≠ 0) ∧ ∀ b, coef r b = (vs.map (fun v => coef v b)).sum := by
  refine c26_sum_sorted_partial vs (fun v hv => ?_) (Or.inr (terms_ok vs h1))
  match v, h1 v hv with
  | [], _ => simp [Sorted]
  | [x], _ => simp [Sorted]

/-- five terms, three of them with the same basis element -/
example : ∀ v ∈ ([[(2, 7)], [(1, 0)], [(-5, 7)], [(3, 7)], [(4, 9)]] : List (FSum Int Nat)), v.length ≤ 1 := by decide

theorem sortStreams_of_sorted (l : List (Stream K B)) (h : l.Pairwise (fun x y => x.1.2 ≤ y.1.2)) : sortStreams l = l :=
  List.mergeSort_of_pairwise (h.imp (by intro a b h; simpa using h))

/-- The sum without the sorting calls, which leave these inputs unchanged. -/
theorem sum3 : sum [[(1, 0), (1, 1), (1, 4)], [(1, 0), (1, 2), (1, 3)], [(1, 3)]] =
    (some [(2, 0), (1, 1), (1, 3), (1, 2), (1, 3), (1, 4)] : Option (FSum Int Nat)) := by
  have s1 : streams [[(1, 0), (1, 1), (1, 4)], [(1, 0), (1, 2), (1, 3)], [(1, 3)]] =
    ([((1, 0), [(1, 1), (1, 4)]), ((1, 0), [(1, 2), (1, 3)]), ((1, 3), [])] : List (Stream Int Nat)) := rfl
  unfold sum
  rw [s1, sortStreams_of_sorted _ (by simp)]
  have nil : sortStreams ([] : List (Stream Int Nat)) = [] := sortStreams_of_sorted _ (by simp)
  have one : ∀ s : Stream Int Nat, sortStreams [s] = [s] := fun s => sortStreams_of_sorted _ (by simp)
  have two : sortStreams ([((1, 1), [(1, 4)]), ((1, 2), [(1, 3)])] : List (Stream Int Nat)) =
    [((1, 1), [(1, 4)]), ((1, 2), [(1, 3)])] := sortStreams_of_sorted _ (by simp)
  simp [sumLoop, advance, mergeBy, mergeFrom, nil, one, two]

/-- C26 is false of the code for three summands: with `a < b < c < d < e` (here 0..4), `(a+b+e) + (a+c+d) + d` is returned
with the basis order a, b, d, c, d, e: not sorted, and with `d` listed twice. -/
theorem c26_sum_order_false : ∃ vs : List (FSum Int Nat), (∀ v ∈ vs, Sorted v) ∧
    ∃ r, sum vs = some r ∧ ¬ Sorted r ∧ ¬ (r.map (fun x => x.2)).Nodup :=
  ⟨[[(1, 0), (1, 1), (1, 4)], [(1, 0), (1, 2), (1, 3)], [(1, 3)]], by simp [Sorted],
    _, sum3, by simp [Sorted], by decide⟩

/-- C27: `v * c` multiplies every coefficient by `c` and keeps the order of the basis; `v * 0` is the zero vector. -/
theorem c27_smul (v : FSum K B) (c : K) :
    (∀ b, coef (smul v c) b = c * coef v b) ∧ (Sorted v → Sorted (smul v c)) ∧ smul v 0 = zero := by
  refine ⟨?_, ?_, by simp [smul, zero]⟩
  · intro b
    unfold smul
    split
    · rename_i h; subst h; simp [coef_nil]
    · induction v with
      | nil => simp [coef_nil]
      | cons x xs ih =>
        rw [List.map_cons, coef_cons, ih, coef_cons]
        split <;> ring
  · intro h
    unfold smul
    split
    · exact List.Pairwise.nil
    · unfold Sorted; rw [List.pairwise_map]; exact h

/-- C27: `-v` negates every coefficient and keeps the order of the basis. -/
theorem c27_neg (v : FSum K B) : (∀ b, coef (neg v) b = - coef v b) ∧ (Sorted v → Sorted (neg v)) := by
  refine ⟨?_, ?_⟩
  · intro b
    unfold neg
    induction v with
    | nil => simp [coef_nil]
    | cons x xs ih =>
      rw [List.map_cons, coef_cons, ih, coef_cons]
      split <;> ring
  · intro h; unfold neg Sorted; rw [List.pairwise_map]; exact h

/-- C27: `v - v` is the zero vector. -/
theorem c27_sub_self (v : FSum K B) (hv : Sorted v) : sub v v = some zero := by
  obtain ⟨r, h1, h2, h3, h4⟩ := c25_add v (neg v) hv ((c27_neg v).2 hv)
  unfold sub; rw [h1]; congr 1
  rw [c25_normal_form_unique r zero h2 List.Pairwise.nil h3 (by simp [zero])]
  intro b; rw [h4, (c27_neg v).1, zero, coef_nil]; ring

/-- C25/C27: `v[&b]` is the coefficient when `b` is listed; it panics for every other basis element instead of returning
zero. -/
theorem c27_index (v : FSum K B) (hv : Sorted v) (b : B) :
    (∀ x ∈ v, x.2 = b → index v b = some (coef v b)) ∧ ((∀ x ∈ v, x.2 ≠ b) → index v b = none) := by
  constructor
  · intro x hx e
    induction v with
    | nil => simp at hx
    | cons y ys ih =>
      have hy := List.pairwise_cons.mp hv
      unfold index
      rw [List.find?_cons, coef_cons]
      by_cases h : y.2 = b
      · simp only [h, decide_true, Option.map_some, if_true]
        rw [coef_not_mem ys b (fun z hz => by rw [← h]; exact (hy.1 z hz).ne')]; simp
      · simp only [h, decide_false, if_false, zero_add]
        rcases List.mem_cons.mp hx with rfl | hx
        · exact absurd e h
        · exact ih hy.2 hx
  · intro h
    unfold index
    rw [List.find?_eq_none.mpr (by intro x hx; simpa using h x hx)]; rfl

example : neg ([(2, 0), (3, 1)] : FSum Int Nat) = [(-2, 0), (-3, 1)] ∧ smul ([(2, 0), (3, 1)] : FSum Int Nat) 2 = [(4, 0), (6, 1)] := by
  decide

end FSum
end Toppo
