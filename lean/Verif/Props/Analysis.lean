import Verif.Proof.Analysis
import Verif.Props.Sparse
import Mathlib.SetTheory.Cardinal.Order
set_option linter.unusedVariables false
set_option linter.unusedSectionVars false

/-
C63, C64: symbolic functions.  `Defined x f` (Proof/Analysis.lean): at `x`, every base of a real power is positive and every factor with a
negative exponent is nonzero.  All statements hold for every linear order standing for the derived comparison of expressions.
-/
namespace Toppo.Analysis
variable [LinearOrder Fn]

/-- the derived comparison can be a linear order: there is one -/
noncomputable def anyOrder : LinearOrder Fn := IsWellOrder.linearOrder WellOrderingRel

/-- **C63**, linear operations: `+`, `-`, unary `-`, multiplication by a number and sums of lists evaluate to the operation on the values,
everywhere. -/
theorem c63_linear (x : Nat → ℝ) (f g : Fn) (c : ℝ) (l : List Fn) :
    eval x (add f g) = eval x f + eval x g ∧
    eval x (sub f g) = eval x f - eval x g ∧
    eval x (neg f) = - eval x f ∧
    eval x (smul f c) = eval x f * c ∧
    eval x (fsum l) = (l.map (eval x)).sum := by
  refine ⟨?_, (eval_sub x f g).1, (eval_neg x f).1, (eval_smul x f c).1, (eval_fsum x l).1⟩
  have := (eval_fsum x [f, g]).1
  simpa [add] using this

/-- **C63**, powers and compositions evaluate to the powers and compositions of the values, everywhere (the real power is the one of Lean's
reals, which agrees with the floating-point one on positive bases). -/
theorem c63_compose (x : Nat → ℝ) (f : Fn) (e : ℤ) (a : ℝ) (n : Nat) :
    eval x (.proj n) = x n ∧
    eval x (powi f e) = eval x f ^ e ∧
    eval x (powf f a) = eval x f ^ a ∧
    eval x (.sin f) = Real.sin (eval x f) ∧
    eval x (.cos f) = Real.cos (eval x f) := by
  refine ⟨by simp [eval], (eval_powi x f e).1, ?_, by simp [eval], by simp [eval]⟩
  unfold powf
  split
  · simp [eval]
  · rename_i h
    rw [not_not] at h
    rw [h, Real.rpow_one]

/-- **C63**, division by a number: panics exactly for `0`, otherwise divides the value. -/
theorem c63_sdiv (x : Nat → ℝ) (f : Fn) (c : ℝ) :
    (sdiv f c = none ↔ c = 0) ∧ ∀ g, sdiv f c = some g → eval x g = eval x f / c ∧ (Defined x f → Defined x g) := by
  have hv : ∀ v : List (ℝ × Fn), evalSum x (v.map (fun p => (p.1 / c, p.2))) = evalSum x v / c ∧ (DefSum x v → DefSum x (v.map (fun p => (p.1 / c, p.2)))) := by
    intro v
    induction v with
    | nil => simp [evalSum, DefSum]
    | cons p v ih =>
      simp only [List.map_cons, evalSum, DefSum]
      exact ⟨by rw [ih.1]; ring, fun h => ⟨h.1, ih.2 h.2⟩⟩
  unfold sdiv
  split
  · rename_i h; simp [h]
  · rename_i h
    split
    · rename_i h1
      refine ⟨by simp [h], ?_⟩
      intro g hg
      rw [Option.some.injEq] at hg
      subst hg h1
      simp [eval]
    · split
      · rename_i h1
        refine ⟨by simp [h], ?_⟩
        intro g hg
        rw [Option.some.injEq] at hg
        subst hg h1
        simp
      · split
        · refine ⟨by simp [h], ?_⟩
          intro g hg
          rw [Option.some.injEq] at hg
          subst hg
          simp only [eval, Defined]
          exact hv _
        · refine ⟨by simp [h], ?_⟩
          intro g hg
          rw [Option.some.injEq] at hg
          subst hg
          simp only [eval, Defined]
          obtain ⟨h1, h2⟩ := hv (FSum.single f)
          obtain ⟨h3, h4⟩ := eval_single x f
          rw [h3] at h1
          exact ⟨h1, fun hd => h2 (h4 hd)⟩

/-- **C63**, products: `*`, products of lists and `/` (by a function that does not vanish) evaluate to the operation on the values, wherever
the operands are defined. -/
theorem c63_mul (x : Nat → ℝ) (f g : Fn) (l : List Fn) (hf : Defined x f) (hg : Defined x g) (hl : ∀ h ∈ l, Defined x h) :
    eval x (mul f g) = eval x f * eval x g ∧
    eval x (fprod l) = (l.map (eval x)).prod ∧
    (eval x g ≠ 0 → eval x (div f g) = eval x f / eval x g) := by
  refine ⟨(eval_mul x f g hf hg).1, (eval_fprod x l hl).1, fun hne => ?_⟩
  unfold div
  have := eval_powi x g (-1)
  rw [(eval_mul x f _ hf (this.2 hg (fun _ => hne))).1, this.1, zpow_neg_one]
  rfl

/-- **C63**: the result of every operation is defined wherever its operands are (for negative powers and division: and nonzero; for real
powers: and positive). -/
theorem c63_defined (x : Nat → ℝ) (f g : Fn) (c : ℝ) (e : ℤ) (l : List Fn) (hf : Defined x f) (hg : Defined x g) (hl : ∀ h ∈ l, Defined x h) :
    Defined x (add f g) ∧ Defined x (sub f g) ∧ Defined x (neg f) ∧ Defined x (smul f c) ∧ Defined x (mul f g) ∧
    Defined x (fsum l) ∧ Defined x (fprod l) ∧ Defined x (.sin f) ∧ Defined x (.cos f) ∧
    (0 < eval x f → Defined x (powf f c)) ∧ ((0 ≤ e ∨ eval x f ≠ 0) → Defined x (powi f e)) ∧ (eval x g ≠ 0 → Defined x (div f g)) := by
  refine ⟨(eval_fsum x [f, g]).2 (by simp [hf, hg]), (eval_sub x f g).2 hf hg, (eval_neg x f).2 hf, (eval_smul x f c).2 hf,
    (eval_mul x f g hf hg).2, (eval_fsum x l).2 hl, (eval_fprod x l hl).2, by simpa [Defined] using hf, by simpa [Defined] using hf, ?_, ?_, ?_⟩
  · intro h
    unfold powf
    split
    · simp only [Defined]; exact ⟨hf, h⟩
    · exact hf
  · intro h
    refine (eval_powi x f e).2 hf (fun he => ?_)
    rcases h with h | h
    · omega
    · exact h
  · intro h
    unfold div
    exact (eval_mul x f _ hf ((eval_powi x g (-1)).2 hg (fun _ => h))).2

/-- a case: `x₀ · sin(x₁) / x₁ - 3·x₀` is defined at `(2, 1)` and evaluates as it should -/
theorem c63_case : Defined (fun i => 2 - (i : ℝ)) (sub (div (mul (.proj 0) (.sin (.proj 1))) (.proj 1)) (smul (.proj 0) 3)) ∧
    eval (fun i => 2 - (i : ℝ)) (sub (div (mul (.proj 0) (.sin (.proj 1))) (.proj 1)) (smul (.proj 0) 3)) = 2 * Real.sin 1 / 1 - 2 * 3 := by
  have d0 : Defined (fun i => 2 - (i : ℝ)) (.proj 0) := by simp [Defined]
  have d1 : Defined (fun i => 2 - (i : ℝ)) (.proj 1) := by simp [Defined]
  have d2 : Defined (fun i => 2 - (i : ℝ)) (.sin (.proj 1)) := by simp [Defined]
  have e0 : eval (fun i => 2 - (i : ℝ)) (.proj 0) = 2 := by simp [eval]
  have e1 : eval (fun i => 2 - (i : ℝ)) (.proj 1) = 1 := by simp only [eval]; norm_num
  have dm := (c63_defined _ _ _ 0 0 [] d0 d2 (by simp)).2.2.2.2.1
  have hne : eval (fun i => 2 - (i : ℝ)) (.proj 1) ≠ 0 := by rw [e1]; norm_num
  have dd := (c63_defined _ _ _ 0 0 [] dm d1 (by simp)).2.2.2.2.2.2.2.2.2.2.2 hne
  have ds := (c63_defined _ _ (.proj 0) 3 0 [] d0 d0 (by simp)).2.2.2.1
  refine ⟨(c63_defined _ _ _ 0 0 [] dd ds (by simp)).2.1, ?_⟩
  rw [(c63_linear _ _ _ 0 []).2.1, (c63_mul _ _ _ [] dm d1 (by simp)).2.2 hne, (c63_mul _ _ _ [] d0 d2 (by simp)).1,
    (c63_linear _ (.proj 0) .zero 3 []).2.2.2.1, e0, e1]
  simp only [eval]
  norm_num

/-- **C64**: wherever an expression is defined its partial derivative is defined, and evaluates to the derivative of the value of the
expression along the `n`-th coordinate. -/
theorem c64_derivative (x : Nat → ℝ) (n : Nat) (f : Fn) (hf : Defined x f) :
    Defined x (pd n f) ∧ HasDerivAt (fun t => eval (Function.update x n t) f) (eval x (pd n f)) (x n) := pd_all x n f hf

/-- **C64**: the jacobian of a single function is the row of its partial derivatives -/
theorem c64_row (f : Fn) (dim : Nat) : (jacobianRow f dim).length = dim ∧ ∀ j (h : j < dim), (jacobianRow f dim)[j]? = some (pd j f) := by
  refine ⟨by simp [jacobianRow], fun j h => ?_⟩
  simp [jacobianRow, h]

theorem posLt_iff (p q : Nat × Nat) : posLt p q = true ↔ p.1 < q.1 ∨ p.1 = q.1 ∧ p.2 < q.2 := by simp [posLt]

/-- bisection finds what is there, in an ordered list -/
theorem bisect_spec {α : Type} {l : List ((Nat × Nat) × α)} (hl : l.Pairwise (fun a b => posLt a.1 b.1 = true)) (k : Nat × Nat) :
    ∀ fuel lo hi, hi - lo ≤ fuel → hi ≤ l.length → (∀ (t : Nat) v, l[t]? = some (k, v) → lo ≤ t ∧ t < hi) →
      (∀ v, bisect l k fuel lo hi = some v → (k, v) ∈ l) ∧ (bisect l k fuel lo hi = none → ∀ v, (k, v) ∉ l) := by
  have none_left : ∀ lo hi : Nat, hi ≤ lo → (∀ (t : Nat) v, l[t]? = some (k, v) → lo ≤ t ∧ t < hi) → ∀ v, (k, v) ∉ l := by
    intro lo hi hle hin v hv
    obtain ⟨t, ht⟩ := List.mem_iff_getElem?.mp hv
    have := hin t v ht
    omega
  intro fuel
  induction fuel with
  | zero => intro lo hi h1 h2 h3; exact ⟨fun v h => by simp [bisect] at h, fun _ => none_left lo hi (by omega) h3⟩
  | succ fuel ih =>
    intro lo hi h1 h2 h3
    rw [bisect]
    by_cases hlt : lo < hi
    · rw [if_pos hlt]
      have hm : lo + (hi - lo) / 2 < l.length := by omega
      rw [List.getElem?_eq_getElem hm]
      simp only [Option.bind_eq_bind, Option.bind_some]
      have hord : ∀ (t : Nat) v, l[t]? = some (k, v) → (t < lo + (hi - lo) / 2 → posLt k l[lo + (hi - lo) / 2].1 = true) ∧
          (lo + (hi - lo) / 2 < t → posLt l[lo + (hi - lo) / 2].1 k = true) := by
        intro t v ht
        obtain ⟨ht1, ht2⟩ := List.getElem?_eq_some_iff.mp ht
        constructor
        · intro hlt
          have := List.pairwise_iff_getElem.mp hl t _ ht1 hm hlt
          rwa [ht2] at this
        · intro hlt
          have := List.pairwise_iff_getElem.mp hl _ t hm ht1 hlt
          rwa [ht2] at this
      have hat : ∀ (t : Nat) v, l[t]? = some (k, v) → t = lo + (hi - lo) / 2 → l[lo + (hi - lo) / 2].1 = k := by
        rintro t v ht rfl
        obtain ⟨ht1, ht2⟩ := List.getElem?_eq_some_iff.mp ht
        rw [ht2]
      by_cases c1 : posLt l[lo + (hi - lo) / 2].1 k = true
      · rw [if_pos c1]
        refine ih _ _ (by omega) h2 (fun t v ht => ?_)
        have a1 := h3 t v ht
        have a2 := hord t v ht
        have a3 := hat t v ht
        have : lo + (hi - lo) / 2 < t := by
          by_contra hc
          rcases Nat.lt_or_ge t (lo + (hi - lo) / 2) with h4 | h4
          · have := (posLt_iff _ _).mp (a2.1 h4)
            have := (posLt_iff _ _).mp c1
            omega
          · rw [a3 (by omega)] at c1
            have := (posLt_iff _ _).mp c1
            omega
        omega
      · rw [if_neg c1]
        by_cases c2 : posLt k l[lo + (hi - lo) / 2].1 = true
        · rw [if_pos c2]
          refine ih _ _ (by omega) (by omega) (fun t v ht => ?_)
          have a1 := h3 t v ht
          have a2 := hord t v ht
          have a3 := hat t v ht
          have : t < lo + (hi - lo) / 2 := by
            by_contra hc
            rcases Nat.lt_or_ge (lo + (hi - lo) / 2) t with h4 | h4
            · exact c1 (a2.2 h4)
            · rw [a3 (by omega)] at c2
              have := (posLt_iff _ _).mp c2
              omega
          omega
        · rw [if_neg c2]
          have e : l[lo + (hi - lo) / 2].1 = k := by
            rw [posLt_iff] at c1 c2
            apply Prod.ext <;> omega
          refine ⟨fun v hv => ?_, fun h => by simp at h⟩
          cases hv
          rw [← e]
          exact List.getElem_mem hm
    · rw [if_neg hlt]
      exact ⟨fun v h => by simp at h, fun _ => none_left lo hi (by omega) h3⟩

/-- searching the list of the entries of a grid, row by row -/
theorem bisect_grid {α : Type} (g : Nat → Nat → Option α) (n m i j : Nat) (hi : i < n) (hj : j < m) {l : List ((Nat × Nat) × α)}
    (hl : l = (List.range n).flatMap (fun i => (List.range m).filterMap (fun j => (g i j).map (fun v => ((i, j), v))))) : bisect l (i, j) l.length 0 l.length = g i j := by
  have hmem : ∀ a b v, ((a, b), v) ∈ l ↔ a < n ∧ b < m ∧ g a b = some v := by
    intro a b v
    rw [hl, List.mem_flatMap]
    constructor
    · rintro ⟨c, hc, h⟩
      obtain ⟨d, hd, h⟩ := List.mem_filterMap.mp h
      obtain ⟨w, hw, e⟩ := Option.map_eq_some_iff.mp h
      cases e
      exact ⟨List.mem_range.mp hc, List.mem_range.mp hd, hw⟩
    · rintro ⟨h1, h2, h3⟩
      exact ⟨a, List.mem_range.mpr h1, List.mem_filterMap.mpr ⟨b, List.mem_range.mpr h2, by rw [h3]; rfl⟩⟩
  have hp : l.Pairwise (fun a b => posLt a.1 b.1 = true) := by
    rw [hl, List.pairwise_flatMap]
    refine ⟨fun a _ => ?_, ?_⟩
    · rw [List.pairwise_filterMap]
      refine List.pairwise_lt_range.imp (fun {b c} hbc x hx y hy => ?_)
      obtain ⟨v, -, rfl⟩ := Option.map_eq_some_iff.mp hx
      obtain ⟨w, -, rfl⟩ := Option.map_eq_some_iff.mp hy
      exact (posLt_iff _ _).mpr (Or.inr ⟨rfl, hbc⟩)
    · refine List.pairwise_lt_range.imp (fun {a b} hab x hx y hy => ?_)
      obtain ⟨c, -, hc⟩ := List.mem_filterMap.mp hx
      obtain ⟨d, -, hd⟩ := List.mem_filterMap.mp hy
      obtain ⟨v, -, rfl⟩ := Option.map_eq_some_iff.mp hc
      obtain ⟨w, -, rfl⟩ := Option.map_eq_some_iff.mp hd
      exact (posLt_iff _ _).mpr (Or.inl hab)
  obtain ⟨h1, h2⟩ := bisect_spec hp (i, j) l.length 0 l.length (by omega) le_rfl (fun t v ht => ⟨Nat.zero_le _, (List.getElem?_eq_some_iff.mp ht).1⟩)
  cases hb : bisect l (i, j) l.length 0 l.length with
  | some v => exact ((hmem i j v).mp (h1 v hb)).2.2.symm
  | none =>
    cases hg : g i j with
    | none => rfl
    | some v => exact absurd ((hmem i j v).mpr ⟨hi, hj, hg⟩) (h2 hb v)

theorem jacobianEntry_eq (fns : List Fn) (dim i j : Nat) (hi : i < fns.length) (hj : j < dim) :
    jacobianEntry fns dim i j = if pd j fns[i] ≠ .zero then some (pd j fns[i]) else none := by
  have key := bisect_grid (fun i j => if h : i < fns.length then if pd j fns[i] ≠ .zero then some (pd j fns[i]) else none else none) fns.length dim i j hi hj
    (l := jacobianList fns dim) (by
      unfold jacobianList
      refine List.flatMap_congr (fun a ha => List.filterMap_congr (fun b hb => ?_))
      have ha := List.mem_range.mp ha
      have hb := List.mem_range.mp hb
      rw [List.getElem?_eq_getElem ha, dif_pos ha]
      simp only [Option.bind_eq_bind, Option.bind_some, (c64_row fns[a] dim).2 b hb]
      split <;> rfl)
  unfold jacobianEntry
  rw [key, dif_pos hi]

/-- **C64**: if some derivative is not `Zero`, the jacobian of a `MultiVarFn` is built without panic, and its entries are exactly the partial
derivatives that are not `Zero`. -/
theorem c64_jacobian (fns : List Fn) (dim : Nat) (hne : ∃ (i : Nat) (h : i < fns.length) (j : Nat), j < dim ∧ pd j fns[i] ≠ .zero) :
    ∃ J e, jacobian fns dim = some J ∧ Sparse.Represents J fns.length dim e ∧
      ∀ i (h : i < fns.length) j, j < dim → e i j = if pd j fns[i] ≠ .zero then some (pd j fns[i]) else none := by
  obtain ⟨i, hi, j, hj, h⟩ := hne
  obtain ⟨J, h1, h2⟩ := Sparse.c40_from_partial fns.length dim (jacobianEntry fns dim)
    ⟨i, j, pd j fns[i], hi, hj, by rw [jacobianEntry_eq fns dim i j hi hj, if_pos h]⟩
  exact ⟨J, _, h1, h2, fun i hi j hj => jacobianEntry_eq fns dim i j hi hj⟩

theorem mapM_some {α β : Type} (f : α → Option β) (g : α → β) (l : List α) (h : ∀ a ∈ l, f a = some (g a)) : l.mapM f = some (l.map g) := by
  induction l with
  | nil => rfl
  | cons a l ih =>
    rw [List.mapM_cons, h a (List.mem_cons_self ..), ih (fun b hb => h b (List.mem_cons_of_mem _ hb))]
    rfl

/-- evaluating a sparse matrix of functions evaluates the entries -/
theorem c64_eval_sparse (x : Nat → ℝ) {a : Sparse.SMat Fn} {n m : Nat} {e : Nat → Nat → Option Fn} (h : Sparse.Represents a n m e)
    (hne : ∃ i j v, i < n ∧ j < m ∧ e i j = some v) :
    ∃ b g, evalSparse x a = some b ∧ Sparse.Represents b n m g ∧ ∀ i j, i < n → j < m → g i j = (e i j).map (eval x) := by
  set rows : List (List ((Nat × Nat) × ℝ)) := (List.range n).map (fun i => (Sparse.rowLine m e i).map (fun p => ((i, p.1), eval x p.2))) with hrows
  have hr : (List.range a.size.1).mapM (evalRow x a) = some rows := by
    rw [h.size]
    apply mapM_some
    intro i hi
    have := List.mem_range.mp hi
    unfold evalRow
    rw [h.row i, if_pos this]
    rfl
  have hrow : ∀ i, i < n → ∀ j, j < m → evalEntry rows.flatten i j = (e i j).map (eval x) := by
    intro i hi j hj
    refine bisect_grid (fun i j => (e i j).map (eval x)) n m i j hi hj ?_
    rw [hrows, ← List.flatMap_def]
    refine List.flatMap_congr (fun c hc => ?_)
    unfold Sparse.rowLine
    rw [List.map_filterMap]
    refine List.filterMap_congr (fun k hk => ?_)
    cases e c k <;> rfl
  obtain ⟨i, j, v, hi, hj, hv⟩ := hne
  unfold evalSparse
  rw [hr]
  simp only [Option.bind_eq_bind, Option.bind_some]
  rw [h.size]
  obtain ⟨b, h1, h2⟩ := Sparse.c40_from_partial n m (evalEntry rows.flatten) ⟨i, j, eval x v, hi, hj, by rw [hrow i hi j hj, hv]; rfl⟩
  exact ⟨b, _, h1, h2, fun i j hi hj => hrow i hi j hj⟩

/-- **C64**: evaluating the jacobian gives the matrix of the partial derivatives of the values of the component functions, at every point where
they are defined, provided some derivative is not `Zero` (see `c64_constant_false`).  -/
theorem c64_jacobian_eval_partial (x : Nat → ℝ) (fns : List Fn) (dim : Nat) (hd : ∀ f ∈ fns, Defined x f)
    (hne : ∃ (i : Nat) (h : i < fns.length) (j : Nat), j < dim ∧ pd j fns[i] ≠ .zero) :
    ∃ J b g, jacobian fns dim = some J ∧ evalSparse x J = some b ∧ Sparse.Represents b fns.length dim g ∧
      ∀ i (h : i < fns.length) j, j < dim →
        HasDerivAt (fun t => eval (Function.update x j t) fns[i]) (Sparse.value g i j) (x j) := by
  obtain ⟨J, e, h1, h2, h3⟩ := c64_jacobian fns dim hne
  obtain ⟨i, hi, j, hj, h⟩ := hne
  obtain ⟨b, g, g1, g2, g3⟩ := c64_eval_sparse x h2 ⟨i, j, _, hi, hj, by rw [h3 i hi j hj, if_pos h]⟩
  refine ⟨J, b, g, h1, g1, g2, ?_⟩
  intro i hi j hj
  have := (c64_derivative x j fns[i] (hd _ (List.getElem_mem hi))).2
  convert this using 1
  unfold Sparse.value
  rw [g3 i j hi hj, h3 i hi j hj]
  split
  · rfl
  · rename_i hz
    rw [not_not] at hz
    rw [hz]
    simp [eval]

/-- what fails: if every derivative is `Zero` (constant functions) the jacobian is built, but evaluating it panics as soon as there is a row. -/
theorem c64_constant_false (x : Nat → ℝ) (fns : List Fn) (dim : Nat) (h0 : fns ≠ [])
    (hz : ∀ i (h : i < fns.length) j, j < dim → pd j fns[i] = .zero) :
    ∃ J, jacobian fns dim = some J ∧ evalSparse x J = none := by
  obtain ⟨J, h1, h2, h3⟩ := Sparse.c40_empty_false fns.length dim (jacobianEntry fns dim) (by
    intro i j hi hj
    rw [jacobianEntry_eq fns dim i j hi hj, hz i hi j hj]
    simp)
  refine ⟨J, h1, ?_⟩
  unfold evalSparse
  rw [h2]
  have : ∃ k, fns.length = k + 1 := ⟨fns.length - 1, by have := List.length_pos_iff.mpr h0; omega⟩
  obtain ⟨k, hk⟩ := this
  simp only [hk, List.range_succ_eq_map, List.mapM_cons]
  have : evalRow x J 0 = none := by unfold evalRow; rw [(h3 0).1]; rfl
  rw [this]
  rfl

/-- a case of `c64_constant_false`: the constant function `1` of one variable -/
theorem c64_constant_case (x : Nat → ℝ) : ∃ J, jacobian [.one] 1 = some J ∧ evalSparse x J = none :=
  c64_constant_false x [.one] 1 (by simp) (by
    intro i h j hj
    have : i = 0 := by simpa using h
    subst this
    simp [pd])

/-- a case: `(x₀², x₁^3.5)` at `(2, 1)` -/
theorem c64_case : ∃ J b g, jacobian [powi (.proj 0) 2, powf (.proj 1) 3.5] 2 = some J ∧ evalSparse (fun i => 2 - (i : ℝ)) J = some b ∧
    Sparse.Represents b 2 2 g ∧
    HasDerivAt (fun t : ℝ => t ^ 2) (Sparse.value g 0 0) 2 ∧ Sparse.value g 0 1 = 0 := by
  have hd : ∀ f ∈ [powi (.proj 0) 2, powf (.proj 1) 3.5], Defined (fun i => 2 - (i : ℝ)) f := by
    intro f hf
    simp only [List.mem_cons, List.not_mem_nil, or_false] at hf
    rcases hf with rfl | rfl
    · exact (c63_defined _ (.proj 0) .zero 0 2 [] (by simp [Defined]) (by simp [Defined]) (by simp)).2.2.2.2.2.2.2.2.2.2.1 (Or.inl (by norm_num))
    · exact (c63_defined _ (.proj 1) .zero 3.5 2 [] (by simp [Defined]) (by simp [Defined]) (by simp)).2.2.2.2.2.2.2.2.2.1 (by simp only [eval]; norm_num)
  have hne : pd 0 (powi (.proj 0) 2) ≠ .zero := by
    intro h
    have := (c64_derivative (fun i => 2 - (i : ℝ)) 0 _ (hd _ (List.mem_cons_self ..))).2
    rw [h] at this
    simp only [(c63_compose _ (.proj 0) 2 0 0).2.1, eval, Function.update_self] at this
    have h2 : HasDerivAt (fun t : ℝ => t ^ (2 : ℤ)) (2 * 2) 2 := by
      have := hasDerivAt_zpow (𝕜 := ℝ) 2 2 (Or.inr (by norm_num))
      norm_num at this ⊢
      exact this
    have h3 := this.unique (by simpa using h2)
    norm_num at h3
  obtain ⟨J, b, g, h1, h2, h3, h4⟩ := c64_jacobian_eval_partial (fun i => 2 - (i : ℝ)) _ 2 hd ⟨0, by simp, 0, by norm_num, hne⟩
  refine ⟨J, b, g, h1, h2, h3, ?_, ?_⟩
  · have := h4 0 (by simp) 0 (by norm_num)
    simp only [List.getElem_cons_zero, (c63_compose _ (.proj 0) 2 0 0).2.1, eval, Function.update_self] at this
    simpa using this
  · have := h4 0 (by simp) 1 (by norm_num)
    simp only [List.getElem_cons_zero, (c63_compose _ (.proj 0) 2 0 0).2.1, eval, Function.update_of_ne (show (0 : ℕ) ≠ 1 by norm_num)] at this
    exact this.unique (hasDerivAt_const _ _)

end Toppo.Analysis
