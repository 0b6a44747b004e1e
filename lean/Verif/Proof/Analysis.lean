import Verif.Model.Analysis
import Verif.Props.FormalSum
import Mathlib.Analysis.SpecialFunctions.Pow.Deriv
import Mathlib.Analysis.SpecialFunctions.Trigonometric.Deriv
import Mathlib.Analysis.Calculus.Deriv.ZPow
set_option linter.unusedVariables false
set_option linter.unusedSectionVars false
/-! Sums of formal sums under evaluation, and the operators on expressions. -/
namespace Toppo.FSum
variable {K B : Type} [CommRing K] [DecidableEq K] [LinearOrder B]

section fold
variable {M : Type} [CommMonoid M] (E : K × B → M) (Q : K × B → Prop)

def foldE (v : FSum K B) : M := (v.map E).prod
def foldS (ss : List (Stream K B)) : M := (ss.map (fun s => foldE E (items s))).prod

theorem foldS_perm {l m : List (Stream K B)} (h : l.Perm m) : foldS E l = foldS E m := (h.map _).prod_eq

theorem foldS_append (l m : List (Stream K B)) : foldS E (l ++ m) = foldS E l * foldS E m := by simp [foldS]

theorem advance_fold (l : List (Stream K B)) : foldS E l = foldE E (l.map (fun s => s.1)) * foldS E (advance l) := by
  induction l with
  | nil => simp [foldS, advance, foldE]
  | cons s ss ih =>
    have h1 : foldS E (s :: ss) = foldE E (items s) * foldS E ss := by simp [foldS]
    rw [h1, ih]
    obtain ⟨x, xs⟩ := s
    cases xs with
    | nil => simp [items, foldE, advance, foldS, mul_assoc]
    | cons y ys =>
      simp only [items, foldE, advance, foldS, List.map_cons, List.prod_cons, List.filterMap_cons]
      simp only [mul_assoc, mul_left_comm, mul_comm]

theorem group_fold (hQ : ∀ c d b, Q (c, b) → Q (d, b) → Q (c + d, b)) (hE : ∀ c d b, Q (c, b) → Q (d, b) → E (c + d, b) = E (c, b) * E (d, b))
    (b : B) : ∀ (l : List (Stream K B)) (c : K), Q (c, b) → (∀ t ∈ l, t.1.2 = b ∧ Q t.1) →
      Q (l.foldl (fun c t => c + t.1.1) c, b) ∧ E (l.foldl (fun c t => c + t.1.1) c, b) = E (c, b) * foldE E (l.map (fun t => t.1)) := by
  intro l
  induction l with
  | nil => intro c hc _; simp [foldE, hc]
  | cons t ts ih =>
    intro c hc hl
    obtain ⟨h1, h2⟩ := hl t (List.mem_cons_self ..)
    have ht : Q (t.1.1, b) := by rw [← h1]; exact h2
    obtain ⟨g1, g2⟩ := ih (c + t.1.1) (hQ _ _ _ hc ht) (fun s hs => hl s (List.mem_cons_of_mem _ hs))
    rw [List.foldl_cons]
    refine ⟨g1, ?_⟩
    rw [g2, hE _ _ _ hc ht]
    have : E t.1 = E (t.1.1, b) := by rw [← h1]
    simp only [foldE, List.map_cons, List.prod_cons, this, mul_assoc]

theorem sumLoop_fold (hQ : ∀ c d b, Q (c, b) → Q (d, b) → Q (c + d, b)) (hE : ∀ c d b, Q (c, b) → Q (d, b) → E (c + d, b) = E (c, b) * E (d, b))
    (h0 : ∀ b, Q (0, b) → E (0, b) = 1) :
    ∀ (fuel : Nat) (ss : List (Stream K B)) (out r : FSum K B), sumLoop fuel ss out = some r →
    (∀ s ∈ ss, ∀ x ∈ items s, Q x) → (∀ x ∈ out, Q x) → (∀ x ∈ r, Q x) ∧ foldE E r = foldE E out * foldS E ss := by
  intro fuel
  induction fuel with
  | zero =>
    intro ss out r h hs ho
    cases ss with
    | nil => simp only [sumLoop, Option.some.injEq] at h; subst h; exact ⟨ho, by simp [foldS]⟩
    | cons s ss => simp [sumLoop] at h
  | succ fuel ih =>
    intro ss out r h hs ho
    cases ss with
    | nil => simp only [sumLoop, Option.some.injEq] at h; subst h; exact ⟨ho, by simp [foldS]⟩
    | cons s ss =>
      obtain ⟨g1, g2, g3, g4, g5⟩ := group_spec s ss
      unfold sumLoop at h
      simp only at h
      set g := (s :: ss).takeWhile (fun t => decide (t.1.2 = s.1.2)) with hg
      rw [g2] at h
      set rest := (s :: ss).drop g.length with hrest
      set it := mergeBy rest (sortStreams (advance g)) with hit
      have hperm : it.Perm (rest ++ advance g) :=
        (mergeBy_perm _ _).trans (List.Perm.append_left _ (sortStreams_perm _))
      have hgs : ∀ t ∈ g, t ∈ s :: ss := fun t ht => (List.takeWhile_prefix _).subset ht
      have hit' : ∀ t ∈ it, ∀ x ∈ items t, Q x := by
        intro t ht x hx
        rcases List.mem_append.mp (hperm.mem_iff.mp ht) with ht | ht
        · exact hs t (List.mem_of_mem_drop ht) x hx
        · obtain ⟨u, hu, e⟩ := advance_sub ht
          refine hs u (hgs u hu) x ?_
          unfold items
          rw [e]
          exact List.mem_cons_of_mem _ hx
      have hgc : g = s :: ss.take (g.length - 1) := by
        have : (s :: ss).take g.length = s :: ss.take (g.length - 1) := by
          obtain ⟨k, hk⟩ : ∃ k, g.length = k + 1 := ⟨g.length - 1, by omega⟩
          rw [hk]; simp
        rw [← this, g2]
      obtain ⟨k1, k2⟩ := group_fold E Q hQ hE s.1.2 (ss.take (g.length - 1)) s.1.1 (hs s (List.mem_cons_self ..) s.1 (List.mem_cons_self ..))
        (fun t ht => ⟨g4 t (by rw [hgc]; exact List.mem_cons_of_mem _ ht), hs t (List.mem_cons_of_mem _ (List.mem_of_mem_take ht)) t.1 (List.mem_cons_self ..)⟩)
      set c := (ss.take (g.length - 1)).foldl (fun c t => c + t.1.1) s.1.1 with hc
      have k3 : E (c, s.1.2) = foldE E (g.map (fun t => t.1)) := by
        have e : foldE E (g.map (fun t => t.1)) = foldE E ((s :: ss.take (g.length - 1)).map (fun t => t.1)) := by rw [← hgc]
        rw [k2, e]
        simp [foldE]
      have htot : foldS E (s :: ss) = E (c, s.1.2) * foldS E it := by
        rw [foldS_perm E hperm, foldS_append, k3, g3, foldS_append, advance_fold E g]
        rw [mul_comm (foldS E rest), mul_assoc]
      by_cases hz : c = 0
      · rw [if_neg (by simpa using hz)] at h
        obtain ⟨r1, r2⟩ := ih it out r h hit' ho
        refine ⟨r1, ?_⟩
        rw [r2, htot]
        rw [hz] at k1
        rw [hz, h0 _ k1, one_mul]
      · rw [if_pos hz] at h
        obtain ⟨r1, r2⟩ := ih it _ r h hit' (by
          intro x hx
          rcases List.mem_append.mp hx with hx | hx
          · exact ho x hx
          · rw [List.mem_singleton] at hx; rw [hx]; exact k1)
        refine ⟨r1, ?_⟩
        rw [r2, htot]
        simp [foldE, mul_assoc]

theorem streams_fold (vs : List (FSum K B)) : foldS E (streams vs) = (vs.map (foldE E)).prod := by
  induction vs with
  | nil => rfl
  | cons v vs ih =>
    cases v with
    | nil =>
      have : streams ([] :: vs) = streams vs := by simp [streams]
      rw [this, ih]; simp [foldE]
    | cons x xs =>
      have : streams ((x :: xs) :: vs) = (x, xs) :: streams vs := by simp [streams]
      rw [this]
      have h : foldS E ((x, xs) :: streams vs) = foldE E (x :: xs) * foldS E (streams vs) := by simp [foldS, items]
      rw [h, ih]; simp

theorem sum_fold (hQ : ∀ c d b, Q (c, b) → Q (d, b) → Q (c + d, b)) (hE : ∀ c d b, Q (c, b) → Q (d, b) → E (c + d, b) = E (c, b) * E (d, b))
    (h0 : ∀ b, Q (0, b) → E (0, b) = 1) (vs : List (FSum K B)) (hv : ∀ v ∈ vs, ∀ x ∈ v, Q x) {r : FSum K B} (h : sum vs = some r) :
    (∀ x ∈ r, Q x) ∧ foldE E r = (vs.map (foldE E)).prod := by
  obtain ⟨h1, h2⟩ := sumLoop_fold E Q hQ hE h0 _ _ _ _ h (by
    intro s hs x hx
    exact hv _ (streams_mem ((sortStreams_perm _).mem_iff.mp hs)) x hx) (by simp)
  refine ⟨h1, ?_⟩
  rw [h2, foldS_perm E (sortStreams_perm _), streams_fold]
  simp [foldE]
end fold

/-- the additive version -/
theorem sum_fold_add {M : Type} [AddCommMonoid M] (E : K × B → M) (Q : K × B → Prop) (hQ : ∀ c d b, Q (c, b) → Q (d, b) → Q (c + d, b))
    (hE : ∀ c d b, E (c + d, b) = E (c, b) + E (d, b))
    (h0 : ∀ b, E (0, b) = 0) (vs : List (FSum K B)) (hv : ∀ v ∈ vs, ∀ x ∈ v, Q x) {r : FSum K B} (h : sum vs = some r) :
    (∀ x ∈ r, Q x) ∧ (r.map E).sum = (vs.map (fun v => (v.map E).sum)).sum := by
  have := sum_fold (M := Multiplicative M) (fun x => Multiplicative.ofAdd (E x)) Q hQ (by intro c d b _ _; rw [hE]; rfl)
    (by intro b _; rw [h0]; rfl) vs hv h
  refine ⟨this.1, ?_⟩
  have h2 := this.2
  have conv : ∀ v : FSum K B, foldE (fun x => Multiplicative.ofAdd (E x)) v = Multiplicative.ofAdd (v.map E).sum := by
    intro v
    induction v with
    | nil => rfl
    | cons x xs ih =>
      unfold foldE at *
      rw [List.map_cons, List.prod_cons, ih, List.map_cons, List.sum_cons]
      rfl
  have conv2 : ∀ vs : List (FSum K B), (vs.map (foldE (fun x => Multiplicative.ofAdd (E x)))).prod = Multiplicative.ofAdd (vs.map (fun v => (v.map E).sum)).sum := by
    intro vs
    induction vs with
    | nil => rfl
    | cons x xs ih =>
      rw [List.map_cons, List.prod_cons, ih, conv, List.map_cons, List.sum_cons]
      rfl
  rw [conv, conv2] at h2
  exact Multiplicative.ofAdd.injective h2

end Toppo.FSum

namespace Toppo.Analysis
open Real

mutual
/-- where an expression is defined: bases of real powers positive, factors with a negative exponent nonzero -/
def Defined (x : Nat → ℝ) : Fn → Prop
  | .zero => True
  | .one => True
  | .proj _ => True
  | .rpow f _ => Defined x f ∧ 0 < eval x f
  | .sin f => Defined x f
  | .cos f => Defined x f
  | .sum v => DefSum x v
  | .prod v => DefProd x v
def DefSum (x : Nat → ℝ) : List (ℝ × Fn) → Prop
  | [] => True
  | (_, f) :: v => Defined x f ∧ DefSum x v
def DefProd (x : Nat → ℝ) : List (ℤ × Fn) → Prop
  | [] => True
  | (e, f) :: v => (Defined x f ∧ (e < 0 → eval x f ≠ 0)) ∧ DefProd x v
end

theorem defSum_iff {x : Nat → ℝ} {v : List (ℝ × Fn)} : DefSum x v ↔ ∀ p ∈ v, Defined x p.2 := by
  induction v with
  | nil => simp [DefSum]
  | cons p v ih => simp [DefSum, ih]

theorem defProd_iff {x : Nat → ℝ} {v : List (ℤ × Fn)} : DefProd x v ↔ ∀ p ∈ v, Defined x p.2 ∧ (p.1 < 0 → eval x p.2 ≠ 0) := by
  induction v with
  | nil => simp [DefProd]
  | cons p v ih => simp [DefProd, ih]

theorem evalSum_eq (x : Nat → ℝ) (v : List (ℝ × Fn)) : evalSum x v = (v.map (fun p => p.1 * eval x p.2)).sum := by
  induction v with
  | nil => simp [evalSum]
  | cons p v ih => simp [evalSum, ih]

theorem evalProd_eq (x : Nat → ℝ) (v : List (ℤ × Fn)) : evalProd x v = (v.map (fun p => eval x p.2 ^ p.1)).prod := by
  induction v with
  | nil => simp [evalProd]
  | cons p v ih => simp [evalProd, ih]

variable [LinearOrder Fn]

theorem vsum_some {K : Type} [CommRing K] [DecidableEq K] (vs : List (FSum K Fn)) : FSum.sum vs = some (vsum vs) ∧ ∀ p ∈ vsum vs, p.1 ≠ 0 := by
  obtain ⟨r, h1, -, h3⟩ := FSum.sum_spec vs
  unfold vsum
  rw [h1]
  exact ⟨rfl, h3⟩

theorem vsum_eval (x : Nat → ℝ) (vs : List (FSum ℝ Fn)) : evalSum x (vsum vs) = (vs.map (evalSum x)).sum := by
  have := (FSum.sum_fold_add (fun p : ℝ × Fn => p.1 * eval x p.2) (fun _ => True) (fun _ _ _ _ _ => trivial) (by intro c d b; simp only; ring)
    (by intro b; simp) vs (fun _ _ _ _ => trivial) (vsum_some vs).1).2
  rw [evalSum_eq, this]
  congr 1
  apply List.map_congr_left
  intro v _
  rw [evalSum_eq]

theorem vsum_def (x : Nat → ℝ) (vs : List (FSum ℝ Fn)) (h : ∀ v ∈ vs, DefSum x v) : DefSum x (vsum vs) := by
  rw [defSum_iff]
  exact (FSum.sum_fold_add (fun p : ℝ × Fn => p.1 * eval x p.2) (fun p => Defined x p.2) (fun _ _ _ h _ => h) (by intro c d b; simp only; ring)
    (by intro b; simp) vs (fun v hv => defSum_iff.mp (h v hv)) (vsum_some vs).1).1

theorem vprod_eval (x : Nat → ℝ) (vs : List (FSum ℤ Fn)) (h : ∀ v ∈ vs, DefProd x v) :
    evalProd x (vsum vs) = (vs.map (evalProd x)).prod ∧ DefProd x (vsum vs) := by
  have := FSum.sum_fold (fun p : ℤ × Fn => eval x p.2 ^ p.1) (fun p => Defined x p.2 ∧ (p.1 < 0 → eval x p.2 ≠ 0))
    (by
      rintro c d b ⟨h1, h2⟩ ⟨-, h3⟩
      refine ⟨h1, fun hlt => ?_⟩
      simp only at *
      by_cases hc : c < 0
      · exact h2 hc
      · exact h3 (by omega))
    (by
      rintro c d b ⟨h1, h2⟩ ⟨-, h3⟩
      simp only at *
      by_cases hb : eval x b = 0
      · have hc : 0 ≤ c := by by_contra hh; exact h2 (by omega) hb
        have hd : 0 ≤ d := by by_contra hh; exact h3 (by omega) hb
        obtain ⟨m, rfl⟩ := Int.eq_ofNat_of_zero_le hc
        obtain ⟨n, rfl⟩ := Int.eq_ofNat_of_zero_le hd
        rw [← Nat.cast_add, zpow_natCast, zpow_natCast, zpow_natCast, pow_add]
      · exact zpow_add₀ hb c d)
    (by intro b _; simp) vs (fun v hv => defProd_iff.mp (h v hv)) (vsum_some vs).1
  refine ⟨?_, defProd_iff.mpr this.1⟩
  rw [evalProd_eq]
  refine this.2.trans ?_
  congr 1
  apply List.map_congr_left
  intro v _
  rw [evalProd_eq]
  rfl

theorem eval_smul (x : Nat → ℝ) (f : Fn) (c : ℝ) : eval x (smul f c) = eval x f * c ∧ (Defined x f → Defined x (smul f c)) := by
  have hv : ∀ v : List (ℝ × Fn), evalSum x (v.map (fun p => (p.1 * c, p.2))) = evalSum x v * c ∧ (DefSum x v → DefSum x (v.map (fun p => (p.1 * c, p.2)))) := by
    intro v
    induction v with
    | nil => simp [evalSum, DefSum]
    | cons p v ih =>
      simp only [List.map_cons, evalSum, DefSum]
      exact ⟨by rw [ih.1]; ring, fun h => ⟨h.1, ih.2 h.2⟩⟩
  unfold smul
  split
  · rename_i h
    refine ⟨?_, fun _ => by simp [Defined]⟩
    rcases h with h | h
    · rw [h]; simp [eval]
    · rw [h]; simp [eval]
  · rename_i h
    push Not at h
    split
    · rename_i h1; rw [h1]; simp
    · split
      · simp only [eval, Defined]
        exact hv _
      · refine ⟨?_, ?_⟩
        · simp [eval, FSum.smul, FSum.single, evalSum, h.2, mul_comm]
        · intro hd
          simp [Defined, FSum.smul, FSum.single, DefSum, h.2, hd]

theorem eval_toSum (x : Nat → ℝ) (f : Fn) : evalSum x (toSum f) = eval x f ∧ (Defined x f → DefSum x (toSum f)) := by
  unfold toSum
  split
  · simp [eval, Defined]
  · simp [FSum.single, evalSum, DefSum]

theorem eval_fsum (x : Nat → ℝ) (l : List Fn) : eval x (fsum l) = (l.map (eval x)).sum ∧ ((∀ f ∈ l, Defined x f) → Defined x (fsum l)) := by
  have h1 := vsum_eval x ((l.filter (fun s => decide (s ≠ .zero))).map toSum)
  have h2 : (((l.filter (fun s => decide (s ≠ .zero))).map toSum).map (evalSum x)).sum = (l.map (eval x)).sum := by
    clear h1
    induction l with
    | nil => rfl
    | cons f l ih =>
      rw [List.filter_cons]
      by_cases hf : f = .zero
      · subst hf
        simp only [ne_eq, not_true, decide_false, Bool.false_eq_true, if_false, ih]
        simp [eval]
      · simp only [ne_eq, hf, not_false_iff, decide_true, if_true, List.map_cons, List.sum_cons, (eval_toSum x f).1]
        rw [← ih]
  have h3 : (∀ f ∈ l, Defined x f) → DefSum x (vsum ((l.filter (fun s => decide (s ≠ .zero))).map toSum)) := by
    intro hd
    apply vsum_def
    intro v hv
    obtain ⟨f, hf, rfl⟩ := List.mem_map.mp hv
    exact (eval_toSum x f).2 (hd f (List.mem_of_mem_filter hf))
  rw [h2] at h1
  unfold fsum
  generalize vsum ((l.filter (fun s => decide (s ≠ .zero))).map toSum) = out at *
  split
  · rename_i c b
    rw [(eval_smul x b c).1, ← h1]
    refine ⟨by simp [evalSum, mul_comm], fun hd => (eval_smul x b c).2 ?_⟩
    have := h3 hd
    simp only [DefSum] at this
    exact this.1
  · rw [← h1]; simp [eval, evalSum, Defined]
  · simp only [eval, Defined]
    exact ⟨h1, h3⟩

theorem eval_single_neg (x : Nat → ℝ) (v : List (ℝ × Fn)) : evalSum x (FSum.neg v) = -evalSum x v ∧ (DefSum x v → DefSum x (FSum.neg v)) := by
  unfold FSum.neg
  induction v with
  | nil => simp [evalSum, DefSum]
  | cons p v ih =>
    simp only [List.map_cons, evalSum, DefSum]
    exact ⟨by rw [ih.1]; ring, fun h => ⟨h.1, ih.2 h.2⟩⟩

theorem eval_single (x : Nat → ℝ) (f : Fn) : evalSum x (FSum.single f) = eval x f ∧ (Defined x f → DefSum x (FSum.single f)) := by
  simp [FSum.single, evalSum, DefSum]

theorem eval_vsum2 (x : Nat → ℝ) (v w : List (ℝ × Fn)) : evalSum x (vsum [v, w]) = evalSum x v + evalSum x w ∧ (DefSum x v → DefSum x w → DefSum x (vsum [v, w])) := by
  refine ⟨by rw [vsum_eval]; simp, fun h1 h2 => vsum_def x _ ?_⟩
  intro u hu
  simp only [List.mem_cons, List.not_mem_nil, or_false] at hu
  rcases hu with rfl | rfl
  · exact h1
  · exact h2

theorem eval_neg (x : Nat → ℝ) (f : Fn) : eval x (neg f) = -eval x f ∧ (Defined x f → Defined x (neg f)) := by
  unfold neg
  split
  · simp only [eval, Defined]
    exact eval_single_neg x _
  · simp only [eval, Defined, (eval_single_neg x _).1, (eval_single x _).1]
    exact ⟨trivial, fun h => (eval_single_neg x _).2 ((eval_single x _).2 h)⟩

theorem eval_sub (x : Nat → ℝ) (f g : Fn) : eval x (sub f g) = eval x f - eval x g ∧ (Defined x f → Defined x g → Defined x (sub f g)) := by
  unfold sub
  split
  · simp only [eval, Defined, (eval_vsum2 x _ _).1, (eval_single_neg x _).1]
    exact ⟨by ring, fun h1 h2 => (eval_vsum2 x _ _).2 h1 ((eval_single_neg x _).2 h2)⟩
  · simp only [eval, Defined, (eval_vsum2 x _ _).1, (eval_single_neg x _).1, (eval_single x _).1]
    exact ⟨by ring, fun h1 h2 => (eval_vsum2 x _ _).2 h1 ((eval_single_neg x _).2 ((eval_single x _).2 h2))⟩
  · simp only [eval, Defined, (eval_vsum2 x _ _).1, (eval_single_neg x _).1, (eval_single x _).1]
    exact ⟨by ring, fun h1 h2 => (eval_vsum2 x _ _).2 ((eval_single_neg x _).2 h2) ((eval_single x _).2 h1)⟩
  · simp only [eval, Defined, (eval_vsum2 x _ _).1, (eval_single_neg x _).1, (eval_single x _).1]
    exact ⟨by ring, fun h1 h2 => (eval_vsum2 x _ _).2 ((eval_single x _).2 h1) ((eval_single_neg x _).2 ((eval_single x _).2 h2))⟩

theorem evalProd_ne {x : Nat → ℝ} {v : List (ℤ × Fn)} (h : evalProd x v ≠ 0) : ∀ p ∈ v, p.1 ≠ 0 → eval x p.2 ≠ 0 := by
  induction v with
  | nil => simp
  | cons q v ih =>
    simp only [evalProd] at h
    intro p hp hne h0
    rcases List.mem_cons.mp hp with rfl | hp
    · exact h (by rw [h0, zero_zpow _ hne, zero_mul])
    · exact ih (right_ne_zero_of_mul h) p hp hne h0

theorem eval_powi (x : Nat → ℝ) (f : Fn) (e : ℤ) : eval x (powi f e) = eval x f ^ e ∧
    (Defined x f → (e < 0 → eval x f ≠ 0) → Defined x (powi f e)) := by
  have hv : ∀ v : List (ℤ × Fn), evalProd x (v.map (fun p => (p.1 * e, p.2))) = evalProd x v ^ e := by
    intro v
    induction v with
    | nil => simp [evalProd]
    | cons p v ih =>
      simp only [List.map_cons, evalProd]
      rw [ih, mul_zpow, zpow_mul]
  unfold powi
  split
  · rename_i h; subst h; simp
  · split
    · rename_i h; subst h; simp [eval, Defined]
    · rename_i h1 h0
      split
      · rename_i v
        simp only [eval, Defined, FSum.smul, if_neg h0]
        refine ⟨hv v, ?_⟩
        intro hd hne
        rw [defProd_iff] at hd ⊢
        intro p hp
        obtain ⟨q, hq, rfl⟩ := List.mem_map.mp hp
        refine ⟨(hd q hq).1, ?_⟩
        simp only
        intro hlt
        by_cases hq0 : q.1 < 0
        · exact (hd q hq).2 hq0
        · have he : e < 0 := by
            by_contra hh
            have := mul_nonneg (not_lt.mp hq0) (not_lt.mp hh)
            omega
          refine evalProd_ne (hne he) q hq ?_
          intro h0'
          rw [h0'] at hlt
          simp at hlt
      · simp only [eval, Defined, FSum.smul, if_neg h0, FSum.single, List.map_cons, List.map_nil, evalProd, DefProd, one_mul, mul_one]
        exact ⟨trivial, fun hd hne => ⟨⟨hd, hne⟩, trivial⟩⟩

theorem eval_toProd (x : Nat → ℝ) (f : Fn) : evalProd x (toProd f) = eval x f ∧ (Defined x f → DefProd x (toProd f)) := by
  unfold toProd
  split
  · simp [eval, Defined]
  · simp [FSum.single, evalProd, DefProd]

theorem eval_fprod (x : Nat → ℝ) (l : List Fn) (hd : ∀ f ∈ l, Defined x f) : eval x (fprod l) = (l.map (eval x)).prod ∧ Defined x (fprod l) := by
  have h0 : ∀ v ∈ (l.filter (fun s => decide (s ≠ .one))).map toProd, DefProd x v := by
    intro v hv
    obtain ⟨f, hf, rfl⟩ := List.mem_map.mp hv
    exact (eval_toProd x f).2 (hd f (List.mem_of_mem_filter hf))
  obtain ⟨h1, h3⟩ := vprod_eval x _ h0
  have hnz := (vsum_some ((l.filter (fun s => decide (s ≠ .one))).map toProd)).2
  have h2 : (((l.filter (fun s => decide (s ≠ .one))).map toProd).map (evalProd x)).prod = (l.map (eval x)).prod := by
    clear h1 h0 hd h3 hnz
    induction l with
    | nil => rfl
    | cons f l ih =>
      rw [List.filter_cons]
      by_cases hf : f = .one
      · subst hf
        simp only [ne_eq, not_true, decide_false, Bool.false_eq_true, if_false, ih]
        simp [eval]
      · simp only [ne_eq, hf, not_false_iff, decide_true, if_true, List.map_cons, List.prod_cons, (eval_toProd x f).1]
        rw [← ih]
  rw [h2] at h1
  unfold fprod
  simp only
  generalize vsum ((l.filter (fun s => decide (s ≠ .one))).map toProd) = out at *
  split
  · rename_i hz
    obtain ⟨p, hp, hpz⟩ := List.any_eq_true.mp hz
    rw [decide_eq_true_eq] at hpz
    refine ⟨?_, by simp [Defined]⟩
    by_contra hne
    simp only [eval] at hne
    refine evalProd_ne (x := x) (v := out) (by rw [h1]; exact Ne.symm hne) p hp (hnz p hp) ?_
    rw [hpz]; simp [eval]
  · split
    · rename_i e b _
      have hb := (defProd_iff.mp h3) (e, b) (List.mem_cons_self ..)
      refine ⟨?_, (eval_powi x b e).2 hb.1 hb.2⟩
      rw [(eval_powi x b e).1, ← h1]
      simp [evalProd]
    · rw [← h1]; simp [eval, evalProd, Defined]
    · simp only [eval, Defined]
      exact ⟨h1, h3⟩

theorem eval_mul (x : Nat → ℝ) (f g : Fn) (hf : Defined x f) (hg : Defined x g) : eval x (mul f g) = eval x f * eval x g ∧ Defined x (mul f g) := by
  fun_induction mul f g with
  | case1 f g h =>
    refine ⟨?_, by simp [Defined]⟩
    rcases h with rfl | rfl <;> simp [eval]
  | case2 => exact ⟨by simp [eval], hg⟩
  | case3 => exact ⟨by simp [eval], hf⟩
  | case4 c b g h h1 h2 ih =>
    simp only [Defined, DefSum, and_true] at hf
    obtain ⟨i1, i2⟩ := ih hf hg
    refine ⟨?_, (eval_smul x _ c).2 i2⟩
    rw [(eval_smul x _ c).1, i1]
    simp only [eval, evalSum]; ring
  | case5 v g =>
    have := eval_fprod x [.sum v, g] (by simp [hf, hg])
    simpa using this
  | case6 f c b h h1 h2 h3 h4 ih =>
    simp only [Defined, DefSum, and_true] at hg
    obtain ⟨i1, i2⟩ := ih hf hg
    refine ⟨?_, (eval_smul x _ c).2 i2⟩
    rw [(eval_smul x _ c).1, i1]
    simp only [eval, evalSum]; ring
  | case7 f g h h1 h2 h3 h4 h5 =>
    have := eval_fprod x [f, g] (by simp [hf, hg])
    simpa using this

theorem evalProd_append (x : Nat → ℝ) (v w : List (ℤ × Fn)) : evalProd x (v ++ w) = evalProd x v * evalProd x w := by
  simp [evalProd_eq]

theorem defProd_append {x : Nat → ℝ} {v w : List (ℤ × Fn)} : DefProd x (v ++ w) ↔ DefProd x v ∧ DefProd x w := by
  simp only [defProd_iff, List.mem_append]
  constructor
  · intro h; exact ⟨fun p hp => h p (Or.inl hp), fun p hp => h p (Or.inr hp)⟩
  · rintro ⟨h1, h2⟩ p (hp | hp)
    · exact h1 p hp
    · exact h2 p hp

theorem prodTerm_spec (x : Nat → ℝ) (clone : List (ℤ × Fn)) (e : ℤ) (f d : Fn) (hc : DefProd x clone) (hf : Defined x f)
    (hne : e < 0 → eval x f ≠ 0) (hd : Defined x d) :
    Defined x (prodTerm clone e f d) ∧ eval x (prodTerm clone e f d) = evalProd x clone * (e * eval x f ^ (e - 1) * eval x d) := by
  unfold prodTerm
  split
  · rename_i h; subst h; simp [eval, Defined]
  · split
    · rename_i c b hb
      simp only [Bool.and_eq_true, decide_eq_true_eq] at hb
      obtain ⟨rfl, rfl⟩ := hb
      have := (defProd_iff.mp hc) (c, b) (List.mem_cons_self ..)
      refine ⟨(eval_powi x b c).2 this.1 this.2, ?_⟩
      rw [(eval_powi x b c).1]
      simp [evalProd, eval]
    · rename_i clone _ _ _
      by_cases he : e = 0
      · subst he
        have : smul (mul (.prod clone) (powi f (0 - 1))) ((0 : ℤ) : ℝ) = .zero := by simp [smul]
        rw [this]
        unfold mul
        simp [eval, Defined]
      · have hp := (eval_powi x f (e - 1)).2 hf (fun h => hne (by omega))
        have hm := eval_mul x (.prod clone) (powi f (e - 1)) (by simpa [Defined] using hc) hp
        have hs := eval_smul x (mul (.prod clone) (powi f (e - 1))) (e : ℝ)
        have := eval_mul x _ d (hs.2 hm.2) hd
        refine ⟨this.2, ?_⟩
        rw [this.1, hs.1, hm.1, (eval_powi x f (e - 1)).1]
        simp only [eval]
        ring

/-- the derivative of an expression, of a formal sum and of a formal product -/
theorem pd_all (x : Nat → ℝ) (n : Nat) :
    (∀ f, Defined x f → Defined x (pd n f) ∧ HasDerivAt (fun t => eval (Function.update x n t) f) (eval x (pd n f)) (x n)) := by
  have key : ∀ k : ℕ,
      (∀ f : Fn, sizeOf f < k → Defined x f → Defined x (pd n f) ∧ HasDerivAt (fun t => eval (Function.update x n t) f) (eval x (pd n f)) (x n)) ∧
      (∀ v : List (ℝ × Fn), sizeOf v < k → DefSum x v → (∀ w ∈ pdSum n v, DefSum x w) ∧
        HasDerivAt (fun t => evalSum (Function.update x n t) v) ((pdSum n v).map (evalSum x)).sum (x n)) ∧
      (∀ v : List (ℤ × Fn), sizeOf v < k → DefProd x v → ∃ d, HasDerivAt (fun t => evalProd (Function.update x n t) v) d (x n) ∧
        ∀ pre, DefProd x pre → (∀ g ∈ pdProd n pre v, Defined x g) ∧ ((pdProd n pre v).map (eval x)).sum = evalProd x pre * d) := by
    intro k
    induction k with
    | zero => simp
    | succ k ih =>
      obtain ⟨i1, i2, i3⟩ := ih
      refine ⟨?_, ?_, ?_⟩
      · intro f hk hf
        cases f with
        | zero => simp only [pd, eval, Defined]; exact ⟨trivial, hasDerivAt_const _ _⟩
        | one => simp only [pd, eval, Defined]; exact ⟨trivial, hasDerivAt_const _ _⟩
        | proj m =>
          simp only [pd]
          by_cases h : n = m
          · subst h
            simp only [if_true, eval, Defined, Function.update_self]
            exact ⟨trivial, hasDerivAt_id _⟩
          · simp only [if_neg h, eval, Defined, Function.update_of_ne (Ne.symm h)]
            exact ⟨trivial, hasDerivAt_const _ _⟩
        | rpow f a =>
          simp only [Defined] at hf
          obtain ⟨d1, d2⟩ := i1 f (by simp only [Fn.rpow.sizeOf_spec] at hk; omega) hf.1
          have hm := eval_mul x (.rpow f (a - 1)) (pd n f) (by simp only [Defined]; exact hf) d1
          simp only [pd]
          refine ⟨(eval_smul x _ a).2 hm.2, ?_⟩
          rw [(eval_smul x _ a).1, hm.1]
          simp only [eval]
          have := d2.rpow_const (p := a) (Or.inl (by simp only [Function.update_eq_self]; exact hf.2.ne'))
          simp only [Function.update_eq_self] at this
          refine this.congr_deriv ?_
          ring
        | sin f =>
          simp only [Defined] at hf
          obtain ⟨d1, d2⟩ := i1 f (by simp only [Fn.sin.sizeOf_spec] at hk; omega) hf
          have hm := eval_mul x (.cos f) (pd n f) (by simp only [Defined]; exact hf) d1
          simp only [pd]
          refine ⟨hm.2, ?_⟩
          rw [hm.1]
          simp only [eval]
          have := d2.sin
          simp only [Function.update_eq_self] at this
          exact this
        | cos f =>
          simp only [Defined] at hf
          obtain ⟨d1, d2⟩ := i1 f (by simp only [Fn.cos.sizeOf_spec] at hk; omega) hf
          have hn := eval_neg x (.sin f)
          have hm := eval_mul x (neg (.sin f)) (pd n f) (hn.2 (by simp only [Defined]; exact hf)) d1
          simp only [pd]
          refine ⟨hm.2, ?_⟩
          rw [hm.1, hn.1]
          simp only [eval]
          have := d2.cos
          simp only [Function.update_eq_self] at this
          exact this
        | sum v =>
          simp only [Defined] at hf
          obtain ⟨d1, d2⟩ := i2 v (by simp only [Fn.sum.sizeOf_spec] at hk; omega) hf
          simp only [pd, add]
          have hs := eval_fsum x [.sum (vsum (pdSum n v)), .zero]
          refine ⟨hs.2 ?_, ?_⟩
          · simp only [List.mem_cons, List.not_mem_nil, or_false]
            rintro g (rfl | rfl)
            · simp only [Defined]; exact vsum_def x _ d1
            · simp [Defined]
          · rw [hs.1]
            simp only [List.map_cons, List.map_nil, List.sum_cons, List.sum_nil, eval, add_zero, vsum_eval]
            exact d2
        | prod v =>
          simp only [Defined] at hf
          obtain ⟨d, d1, d2⟩ := i3 v (by simp only [Fn.prod.sizeOf_spec] at hk; omega) hf
          obtain ⟨e1, e2⟩ := d2 [] (by simp [DefProd])
          simp only [pd]
          have hs := eval_fsum x ((pdProd n [] v).filter (fun f => decide (f ≠ .zero)))
          refine ⟨hs.2 (fun g hg => e1 g (List.mem_of_mem_filter hg)), ?_⟩
          have hz : ∀ l : List Fn, ((l.filter (fun f => decide (f ≠ .zero))).map (eval x)).sum = (l.map (eval x)).sum := by
            intro l
            induction l with
            | nil => rfl
            | cons g l ih =>
              rw [List.filter_cons]
              by_cases hg : g = .zero
              · subst hg
                simp only [ne_eq, not_true, decide_false, Bool.false_eq_true, if_false, ih]
                simp [eval]
              · simp only [ne_eq, hg, not_false_iff, decide_true, if_true, List.map_cons, List.sum_cons]
                rw [← ih]
          rw [hs.1, hz, e2]
          simp only [eval, evalProd, one_mul]
          exact d1
      · intro v hk hv
        cases v with
        | nil => simp only [pdSum, evalSum]; exact ⟨by simp, by simpa using hasDerivAt_const _ _⟩
        | cons p v =>
          obtain ⟨a, f⟩ := p
          simp only [DefSum] at hv
          simp only [List.cons.sizeOf_spec, Prod.mk.sizeOf_spec] at hk
          obtain ⟨d1, d2⟩ := i1 f (by omega) hv.1
          obtain ⟨e1, e2⟩ := i2 v (by omega) hv.2
          have := (d2.const_mul a).add e2
          simp only [evalSum, pdSum]
          split
          · rename_i hz
            refine ⟨e1, ?_⟩
            rw [hz] at this
            simp only [eval, mul_zero, zero_add] at this
            exact this
          · have hsm : evalSum x (FSum.smul (toSum (pd n f)) a) = a * eval x (pd n f) ∧ DefSum x (FSum.smul (toSum (pd n f)) a) := by
              have ht := eval_toSum x (pd n f)
              unfold FSum.smul
              split
              · rename_i h0
                subst h0
                simp [evalSum, DefSum]
              · rename_i h0
                refine ⟨?_, ?_⟩
                · rw [← ht.1, evalSum_eq, evalSum_eq, List.map_map, ← List.sum_map_mul_left]
                  congr 1
                  apply List.map_congr_left
                  intro p _
                  simp only [Function.comp]
                  ring
                · have := defSum_iff.mp (ht.2 d1)
                  rw [defSum_iff]
                  intro p hp
                  obtain ⟨q, hq, rfl⟩ := List.mem_map.mp hp
                  exact this q hq
            refine ⟨?_, ?_⟩
            · intro w hw
              rcases List.mem_cons.mp hw with rfl | hw
              · exact hsm.2
              · exact e1 w hw
            · rw [List.map_cons, List.sum_cons, hsm.1]
              exact this
      · intro v hk hv
        cases v with
        | nil => 
          refine ⟨0, by simp only [evalProd]; exact hasDerivAt_const _ _, fun pre _ => ?_⟩
          simp [pdProd]
        | cons p v =>
          obtain ⟨e, f⟩ := p
          simp only [DefProd] at hv
          simp only [List.cons.sizeOf_spec, Prod.mk.sizeOf_spec] at hk
          obtain ⟨d1, d2⟩ := i1 f (by omega) hv.1.1
          obtain ⟨d, e1, e2⟩ := i3 v (by omega) hv.2
          have hz : HasDerivAt (fun t => eval (Function.update x n t) f ^ e) (e * eval x f ^ (e - 1) * eval x (pd n f)) (x n) := by
            have h0 : HasDerivAt (fun y : ℝ => y ^ e) (e * (eval x f) ^ (e - 1)) (eval x f) := by
              apply hasDerivAt_zpow
              by_cases h : e < 0
              · exact Or.inl (hv.1.2 h)
              · exact Or.inr (not_lt.mp h)
            have h1 : eval (Function.update x n (x n)) f = eval x f := by rw [Function.update_eq_self]
            rw [← h1] at h0
            have := h0.comp (x n) d2
            rw [h1] at this
            exact this
          have hm := hz.mul e1
          simp only [Function.update_eq_self] at hm
          simp only [evalProd]
          refine ⟨_, hm, ?_⟩
          intro pre hpre
          obtain ⟨p1, p2⟩ := prodTerm_spec x (pre ++ v) e f (pd n f) (defProd_append.mpr ⟨hpre, hv.2⟩) hv.1.1 hv.1.2 d1
          obtain ⟨q1, q2⟩ := e2 (pre ++ [(e, f)]) (defProd_append.mpr ⟨hpre, by simp only [DefProd, and_true]; exact hv.1⟩)
          simp only [pdProd]
          refine ⟨?_, ?_⟩
          · intro g hg
            rcases List.mem_cons.mp hg with rfl | hg
            · exact p1
            · exact q1 g hg
          · rw [List.map_cons, List.sum_cons, p2, q2, evalProd_append, evalProd_append]
            simp only [evalProd, mul_one]
            ring
  intro f
  exact (key (sizeOf f + 1)).1 f (Nat.lt_succ_self _)

end Toppo.Analysis
