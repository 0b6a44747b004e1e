import Verif.Proof.FnShape
set_option linter.unusedVariables false
set_option linter.unusedSectionVars false

/-
C113: the derived comparison of symbolic functions and the structure documented at the declaration of `AtomicSmoothFn` (analysis/src/lib.rs:238-248).

The comments there say: the summands of a `Sum` and the factors of a `Product` are sorted at any time, a `Sum` does not directly contain a `Sum`,
a `Product` does not directly contain a `Product`, `Zero` or `One`.
-/
namespace Toppo.Analysis
open Toppo

/-! ### specification -/

/-- `g` occurs in `f` -/
inductive Occurs (g : Fn) : Fn → Prop
  | here : Occurs g g
  | rpow {f a} : Occurs g f → Occurs g (.rpow f a)
  | sin {f} : Occurs g f → Occurs g (.sin f)
  | cos {f} : Occurs g f → Occurs g (.cos f)
  | sum {v p} : p ∈ v → Occurs g p.2 → Occurs g (.sum v)
  | prod {v p} : p ∈ v → Occurs g p.2 → Occurs g (.prod v)

/-- no `Sum` directly in a `Sum`, no `Product` directly in a `Product` -/
def Unnested (f : Fn) : Prop :=
  (∀ v, Occurs (.sum v) f → ∀ c w, (c, Fn.sum w) ∉ v) ∧ (∀ v, Occurs (.prod v) f → ∀ c w, (c, Fn.prod w) ∉ v)

/-- summands and factors are listed in strictly increasing order -/
def InOrder (f : Fn) : Prop :=
  (∀ v, Occurs (.sum v) f → v.Pairwise (fun x y => cmp x.2 y.2 = .lt)) ∧ (∀ v, Occurs (.prod v) f → v.Pairwise (fun x y => cmp x.2 y.2 = .lt))

/-- no constant among the factors of a product -/
def NoConstants (f : Fn) : Prop := ∀ v, Occurs (.prod v) f → ∀ c, (c, Fn.zero) ∉ v ∧ (c, Fn.one) ∉ v

noncomputable section
section
variable [LinearOrder Fn]

/-- the expressions that can be built with the operators and functions of the crate -/
inductive Built : Fn → Prop
  | zero : Built .zero
  | one : Built .one
  | proj (n) : Built (.proj n)
  | sin {f} : Built f → Built (.sin f)
  | cos {f} : Built f → Built (.cos f)
  | powf {f} (a) : Built f → Built (powf f a)
  | powi {f} (e) : Built f → Built (powi f e)
  | smul {f} (c) : Built f → Built (smul f c)
  | sdiv {f g} (c) : Built f → sdiv f c = some g → Built g
  | neg {f} : Built f → Built (neg f)
  | add {f g} : Built f → Built g → Built (add f g)
  | sub {f g} : Built f → Built g → Built (sub f g)
  | mul {f g} : Built f → Built g → Built (mul f g)
  | div {f g} : Built f → Built g → Built (div f g)
  | fsum {l} : (∀ f ∈ l, Built f) → Built (fsum l)
  | fprod {l} : (∀ f ∈ l, Built f) → Built (fprod l)
  | pd {f} (n) : Built f → Built (pd n f)

/-- the expressions that can be built without derivatives and powers of or division by `Zero` and `One`, and with sums (products) of lists longer than two
only if no member is a `Sum` (a `Product`) -/
inductive Plain : Fn → Prop
  | zero : Plain .zero
  | one : Plain .one
  | proj (n) : Plain (.proj n)
  | sin {f} : Plain f → Plain (.sin f)
  | cos {f} : Plain f → Plain (.cos f)
  | powf {f} (a) : Plain f → Plain (powf f a)
  | powi {f} (e) : Plain f → f ≠ .zero → f ≠ .one → Plain (powi f e)
  | smul {f} (c) : Plain f → Plain (smul f c)
  | sdiv {f g} (c) : Plain f → sdiv f c = some g → Plain g
  | neg {f} : Plain f → Plain (neg f)
  | add {f g} : Plain f → Plain g → Plain (add f g)
  | sub {f g} : Plain f → Plain g → Plain (sub f g)
  | mul {f g} : Plain f → Plain g → Plain (mul f g)
  | div {f g} : Plain f → Plain g → g ≠ .zero → g ≠ .one → Plain (div f g)
  | fsum {l} : (∀ f ∈ l, Plain f) → (l.length ≤ 2 ∨ ∀ f ∈ l, ∀ v, f ≠ .sum v) → Plain (fsum l)
  | fprod {l} : (∀ f ∈ l, Plain f) → (∀ f ∈ l, f ≠ .zero) → (l.length ≤ 2 ∨ ∀ f ∈ l, ∀ v, f ≠ .prod v) → Plain (fprod l)

/-! ### proofs -/

theorem nf_occurs {N : Prop} {f g : Fn} (h : Occurs g f) : Nf N f → Nf N g := by
  induction h with
  | here => exact id
  | rpow _ ih => intro h; exact ih (by simpa [Nf] using h)
  | sin _ ih => intro h; exact ih (by simpa [Nf] using h)
  | cos _ ih => intro h; exact ih (by simpa [Nf] using h)
  | sum hp _ ih => intro h; exact ih ((nf_sum.mp h).2 _ hp).2
  | prod hp _ ih => intro h; exact ih ((nf_prod.mp h).2 _ hp).2.2

theorem nf_unnested {N : Prop} {f : Fn} (h : Nf N f) : Unnested f :=
  ⟨fun v ho c w hm => ((nf_sum.mp (nf_occurs ho h)).2 _ hm).1 w rfl, fun v ho c w hm => ((nf_prod.mp (nf_occurs ho h)).2 _ hm).1 w rfl⟩

theorem built_nf {f : Fn} (h : Built f) : Nf False f := by
  induction h with
  | zero => simp [Nf]
  | one => simp [Nf]
  | proj n => simp [Nf]
  | sin _ ih => simpa [Nf] using ih
  | cos _ ih => simpa [Nf] using ih
  | powf a _ ih => exact nf_powf ih a
  | powi e _ ih => exact nf_powi ih e False.elim
  | smul c _ ih => exact nf_smul ih c
  | sdiv c _ e ih => exact nf_sdiv ih c e
  | neg _ ih => exact nf_neg ih
  | add _ _ i1 i2 => exact nf_fsum False.elim (by simp [i1, i2])
  | sub _ _ i1 i2 => exact nf_sub i1 i2
  | mul _ _ i1 i2 => exact nf_mul i1 i2
  | div _ _ i1 i2 => exact nf_div i1 i2 False.elim
  | fsum _ ih => exact nf_fsum False.elim ih
  | fprod _ ih => exact nf_fprod False.elim ih
  | pd n _ ih => exact nf_pd n _ ih

theorem plain_nf {f : Fn} (h : Plain f) : Nf True f := by
  induction h with
  | zero => simp [Nf]
  | one => simp [Nf]
  | proj n => simp [Nf]
  | sin _ ih => simpa [Nf] using ih
  | cos _ ih => simpa [Nf] using ih
  | powf a _ ih => exact nf_powf ih a
  | powi e _ h0 h1 ih => exact nf_powi ih e (fun _ => Or.inl ⟨h0, h1⟩)
  | smul c _ ih => exact nf_smul ih c
  | sdiv c _ e ih => exact nf_sdiv ih c e
  | neg _ ih => exact nf_neg ih
  | add _ _ i1 i2 => exact nf_fsum (fun _ => by simp) (by simp [i1, i2])
  | sub _ _ i1 i2 => exact nf_sub i1 i2
  | mul _ _ i1 i2 => exact nf_mul i1 i2
  | div _ _ h0 h1 i1 i2 => exact nf_div i1 i2 (fun _ => ⟨h0, h1⟩)
  | fsum _ h ih => exact nf_fsum (fun _ => h) ih
  | fprod _ h0 h ih => exact nf_fprod (fun _ => ⟨h, h0⟩) ih

/-- **C113**: whatever the order on expressions, in every expression that can be built no `Sum` directly contains a `Sum` and no `Product` a `Product`. -/
theorem c113_unnested (f : Fn) (h : Built f) : Unnested f := nf_unnested (built_nf h)

end

/-- **C113**: the derived comparison is a total order that agrees with `==`: exactly one of `f < g`, `f == g`, `g < f` holds, and `<` is transitive. -/
theorem c113_order (f g h : Fn) :
    (cmp f g = .eq ↔ f = g) ∧ cmp g f = (cmp f g).swap ∧ (cmp f g = .lt → cmp g h = .lt → cmp f h = .lt) :=
  ⟨cmp_eq f g, cmp_swap f g, cmp_trans f g h⟩

/-- **C113**: expressions of different kinds compare as constants before coordinates, real powers, sines, cosines, sums and products, in this order. -/
theorem c113_kinds (n : Nat) (f g h : Fn) (a : ℝ) (v : List (ℝ × Fn)) (w : List (ℤ × Fn)) :
    [Fn.zero, .one, .proj n, .rpow f a, .sin g, .cos h, .sum v, .prod w].Pairwise (fun x y => cmp x y = .lt) := by
  simp [cmp, tag, Nat.compare_eq_lt]

/-- **C113**: expressions of the same kind compare by their parts, from left to right. -/
theorem c113_same (n m : Nat) (f g : Fn) (a b : ℝ) (k l : ℤ) (v v' : List (ℝ × Fn)) (w w' : List (ℤ × Fn)) :
    (n < m → cmp (.proj n) (.proj m) = .lt) ∧ (cmp f g = .lt → cmp (.rpow f a) (.rpow g b) = .lt) ∧ (a < b → cmp (.rpow f a) (.rpow f b) = .lt) ∧
    (cmp f g = .lt → cmp (.sin f) (.sin g) = .lt ∧ cmp (.cos f) (.cos g) = .lt) ∧
    (a < b → cmp (.sum ((a, f) :: v)) (.sum ((b, g) :: v')) = .lt) ∧ (cmp f g = .lt → cmp (.sum ((a, f) :: v)) (.sum ((a, g) :: v')) = .lt) ∧
    (cmp (.sum v) (.sum v') = .lt → cmp (.sum ((a, f) :: v)) (.sum ((a, f) :: v')) = .lt) ∧ cmp (.sum []) (.sum ((a, f) :: v)) = .lt ∧
    (k < l → cmp (.prod ((k, f) :: w)) (.prod ((l, g) :: w')) = .lt) ∧ (cmp f g = .lt → cmp (.prod ((k, f) :: w)) (.prod ((k, g) :: w')) = .lt) ∧
    (cmp (.prod w) (.prod w') = .lt → cmp (.prod ((k, f) :: w)) (.prod ((k, f) :: w')) = .lt) ∧ cmp (.prod []) (.prod ((k, f) :: w)) = .lt := by
  have e : cmp f f = .eq := (cmp_eq f f).mpr rfl
  refine ⟨fun h => ?_, fun h => ?_, fun h => ?_, fun h => ⟨?_, ?_⟩, fun h => ?_, fun h => ?_, fun h => ?_, ?_, fun h => ?_, fun h => ?_, fun h => ?_, ?_⟩ <;>
    simp_all [cmp, cmpSum, cmpProd, Nat.compare_eq_lt, compare_lt_iff_lt]
  · simp [compare_lt_iff_lt.mpr h, Ordering.then]
  · simp [compare_lt_iff_lt.mpr h, Ordering.then]

attribute [local instance] fnOrder

/-- **C113**: expressions that are built without derivatives and powers of or division by constants, and with sums and products of longer lists only if
their members are not themselves sums and products, have the documented structure.  The full claim, for everything in `Built`, is false: see below. -/
theorem c113_plain_partial (f : Fn) (h : Plain f) : Unnested f ∧ InOrder f ∧ NoConstants f := by
  have hn := plain_nf h
  refine ⟨nf_unnested hn, ⟨fun v ho => (nf_sum.mp (nf_occurs ho hn)).1 trivial, fun v ho => (nf_prod.mp (nf_occurs ho hn)).1 trivial⟩, ?_⟩
  intro v ho c
  have := (nf_prod.mp (nf_occurs ho hn)).2
  exact ⟨fun hm => ((this _ hm).2.1 trivial).1 rfl, fun hm => ((this _ hm).2.1 trivial).2 rfl⟩

/-- **C113** is false of the code: the powers of the constants are products containing them. -/
theorem c113_power_false : ∃ f g, Built f ∧ Built g ∧ f = .prod [(2, .zero)] ∧ g = .prod [(-1, .one)] ∧ ¬ NoConstants f ∧ ¬ NoConstants g := by
  refine ⟨powi .zero 2, powi .one (-1), .powi 2 .zero, .powi (-1) .one, ?_, ?_, ?_, ?_⟩
  · simp [powi, FSum.smul, FSum.single]
  · simp [powi, FSum.smul, FSum.single]
  · have : powi .zero 2 = .prod [(2, .zero)] := by simp [powi, FSum.smul, FSum.single]
    rw [this]
    exact fun h => (h _ .here 2).1 (by simp)
  · have : powi .one (-1) = .prod [(-1, .one)] := by simp [powi, FSum.smul, FSum.single]
    rw [this]
    exact fun h => (h _ .here (-1)).2 (by simp)

theorem proj_lt {n m : Nat} : (Fn.proj n < Fn.proj m) ↔ n < m := by
  show cmp _ _ = _ ↔ _
  simp only [cmp, cr_lt]

theorem proj_le {n m : Nat} : (Fn.proj n ≤ Fn.proj m) ↔ n ≤ m := by
  rw [← not_lt, proj_lt, not_lt]

/-- the sum `Σ c·xₙ` -/
def lin (l : List (ℝ × Nat)) : List (ℝ × Fn) := l.map (fun p => (p.1, .proj p.2))

theorem vsum3 : vsum [lin [(1, 0), (1, 1), (1, 4)], lin [(1, 0), (1, 2), (1, 3)], lin [(1, 3), (1, 5)]] =
    lin [(2, 0), (1, 1), (1, 3), (1, 2), (1, 3), (1, 4), (1, 5)] := by
  have nil : FSum.sortStreams ([] : List (FSum.Stream ℝ Fn)) = [] := FSum.sortStreams_of_sorted _ (by simp)
  have one : ∀ s : FSum.Stream ℝ Fn, FSum.sortStreams [s] = [s] := fun s => FSum.sortStreams_of_sorted _ (by simp)
  have two : ∀ s t : FSum.Stream ℝ Fn, s.1.2 ≤ t.1.2 → FSum.sortStreams [s, t] = [s, t] := fun s t h => FSum.sortStreams_of_sorted _ (by simpa using h)
  have three : ∀ s t u : FSum.Stream ℝ Fn, s.1.2 ≤ t.1.2 → t.1.2 ≤ u.1.2 → FSum.sortStreams [s, t, u] = [s, t, u] := fun s t u h k =>
    FSum.sortStreams_of_sorted _ (by simpa using ⟨⟨h, h.trans k⟩, k⟩)
  have a0 : FSum.advance ([] : List (FSum.Stream ℝ Fn)) = [] := rfl
  have a1 : ∀ (x : ℝ × Fn) (l : List (FSum.Stream ℝ Fn)), FSum.advance ((x, []) :: l) = FSum.advance l := fun _ _ => rfl
  have a2 : ∀ (x y : ℝ × Fn) (ys) (l : List (FSum.Stream ℝ Fn)), FSum.advance ((x, y :: ys) :: l) = (y, ys) :: FSum.advance l := fun _ _ _ _ => rfl
  unfold vsum FSum.sum
  simp only [lin, List.map_cons, List.map_nil, FSum.streams, List.filterMap_cons, List.filterMap_nil]
  rw [three _ _ _ (by simp [proj_le]) (by simp [proj_le])]
  norm_num [FSum.sumLoop, a0, a1, a2, FSum.mergeBy, FSum.mergeFrom, nil, one, two, proj_lt, proj_le, List.takeWhile_cons]

theorem vsum_two {K : Type} [CommRing K] [Nontrivial K] [DecidableEq K] {f g : Fn} (h : f < g) :
    vsum [[((1 : K), f)], [(1, g)]] = [(1, f), (1, g)] := by
  have nil : FSum.sortStreams ([] : List (FSum.Stream K Fn)) = [] := FSum.sortStreams_of_sorted _ (by simp)
  have two : ∀ s t : FSum.Stream K Fn, s.1.2 ≤ t.1.2 → FSum.sortStreams [s, t] = [s, t] := fun s t h => FSum.sortStreams_of_sorted _ (by simpa using h)
  have a0 : FSum.advance ([] : List (FSum.Stream K Fn)) = [] := rfl
  have a1 : ∀ (x : K × Fn) (l : List (FSum.Stream K Fn)), FSum.advance ((x, []) :: l) = FSum.advance l := fun _ _ => rfl
  unfold vsum FSum.sum
  simp only [FSum.streams, List.filterMap_cons, List.filterMap_nil]
  rw [two _ _ h.le]
  simp [FSum.sumLoop, a0, a1, FSum.mergeBy, FSum.mergeFrom, nil, List.takeWhile_cons, h.ne']

theorem vsum_three {f g k : Fn} (h : f < g) (h' : g < k) :
    vsum [[((1 : ℝ), f)], [(1, g)], [(1, k)]] = [(1, f), (1, g), (1, k)] := by
  have nil : FSum.sortStreams ([] : List (FSum.Stream ℝ Fn)) = [] := FSum.sortStreams_of_sorted _ (by simp)
  have three : ∀ s t u : FSum.Stream ℝ Fn, s.1.2 ≤ t.1.2 → t.1.2 ≤ u.1.2 → FSum.sortStreams [s, t, u] = [s, t, u] := fun s t u h k =>
    FSum.sortStreams_of_sorted _ (by simpa using ⟨⟨h, h.trans k⟩, k⟩)
  have a0 : FSum.advance ([] : List (FSum.Stream ℝ Fn)) = [] := rfl
  have a1 : ∀ (x : ℝ × Fn) (l : List (FSum.Stream ℝ Fn)), FSum.advance ((x, []) :: l) = FSum.advance l := fun _ _ => rfl
  unfold vsum FSum.sum
  simp only [FSum.streams, List.filterMap_cons, List.filterMap_nil]
  rw [three _ _ _ h.le h'.le]
  simp [FSum.sumLoop, a0, a1, FSum.mergeBy, FSum.mergeFrom, nil, List.takeWhile_cons, h.ne', h'.ne', (h.trans h').ne', h']

/-- the sum of three different expressions that are not sums, given in increasing order -/
theorem fsum_three {f g k : Fn} (h : f < g) (h' : g < k) (hf : f ≠ .zero) (hg : g ≠ .zero) (hk : k ≠ .zero) (sf : ∀ v, f ≠ .sum v) (sg : ∀ v, g ≠ .sum v)
    (sk : ∀ v, k ≠ .sum v) : fsum [f, g, k] = .sum [(1, f), (1, g), (1, k)] := by
  have t : ∀ f : Fn, (∀ v, f ≠ .sum v) → toSum f = [(1, f)] := by
    intro f hs
    unfold toSum
    split
    · exact absurd rfl (hs _)
    · rfl
  unfold fsum
  simp only [List.filter_cons, hf, hg, hk, ne_eq, not_false_eq_true, decide_true, if_true, List.filter_nil, List.map_cons, List.map_nil, t f sf, t g sg, t k sk,
    vsum_three h h']

/-- `x₉·(Σ ..)` -/
theorem mul_x9 (v : List (ℝ × Fn)) (hv : ∀ p, v ≠ [p]) : mul (.proj 9) (.sum v) = .prod [(1, .proj 9), (1, .sum v)] := by
  have hlt : Fn.proj 9 < Fn.sum v := by
    show cmp _ _ = _
    simp [cmp, tag, cr_lt]
  have hp : fprod [.proj 9, .sum v] = .prod [(1, .proj 9), (1, .sum v)] := by simp [fprod, toProd, FSum.single, vsum_two hlt]
  rw [← hp]
  match v, hv with
  | [], _ => unfold mul; simp
  | [p], hv => exact absurd rfl (hv p)
  | p :: q :: r, _ => unfold mul; simp

theorem pd_lin (l : List (ℝ × Nat)) (hl : ∀ p ∈ l, p.2 ≠ 9) : pd 9 (.sum (lin l)) = .zero := by
  have : pdSum 9 (lin l) = [] := by
    induction l with
    | nil => rfl
    | cons p l ih =>
      have hz : pd 9 (.proj p.2) = .zero := by simp only [pd]; rw [if_neg (fun h => hl p (List.mem_cons_self ..) h.symm)]
      have : lin (p :: l) = (p.1, .proj p.2) :: lin l := rfl
      rw [this, pdSum, if_pos hz]
      exact ih (fun q hq => hl q (List.mem_cons_of_mem _ hq))
  have v0 : vsum ([] : List (FSum ℝ Fn)) = [] := by
    have nil : FSum.sortStreams ([] : List (FSum.Stream ℝ Fn)) = [] := FSum.sortStreams_of_sorted _ (by simp)
    simp [vsum, FSum.sum, FSum.streams, nil, FSum.sumLoop]
  have v1 : vsum [([] : FSum ℝ Fn)] = [] := by
    have nil : FSum.sortStreams ([] : List (FSum.Stream ℝ Fn)) = [] := FSum.sortStreams_of_sorted _ (by simp)
    simp [vsum, FSum.sum, FSum.streams, nil, FSum.sumLoop]
  simp [pd, this, v0, add, fsum, toSum, v1]

theorem vsum_one {v : FSum ℝ Fn} (hz : ∀ p ∈ v, p.1 ≠ 0) : vsum [v] = v := by
  have nil : FSum.sortStreams ([] : List (FSum.Stream ℝ Fn)) = [] := FSum.sortStreams_of_sorted _ (by simp)
  have one : ∀ s : FSum.Stream ℝ Fn, FSum.sortStreams [s] = [s] := fun s => FSum.sortStreams_of_sorted _ (by simp)
  have key : ∀ (v : FSum ℝ Fn) (x : ℝ × Fn) (out : FSum ℝ Fn), (∀ p ∈ x :: v, p.1 ≠ 0) →
      FSum.sumLoop (v.length + 1) [(x, v)] out = some (out ++ x :: v) := by
    intro v
    induction v with
    | nil =>
      intro x out h
      have h0 := h x (by simp)
      simp [FSum.sumLoop, FSum.advance, FSum.mergeBy, nil, h0]
    | cons y v ih =>
      intro x out h
      have h0 := h x (by simp)
      have := ih y (out ++ [x]) (fun p hp => h p (List.mem_cons_of_mem _ hp))
      rw [List.length_cons, FSum.sumLoop]
      simp [FSum.advance, FSum.mergeBy, FSum.mergeFrom, one, h0, this]
  cases v with
  | nil => simp [vsum, FSum.sum, FSum.streams, nil, FSum.sumLoop]
  | cons x v =>
    have := key v x [] hz
    simp only [vsum, FSum.sum, FSum.streams, List.filterMap_cons, List.filterMap_nil, one, List.map_cons, List.map_nil, List.sum_cons, List.sum_nil, List.length_cons,
      Nat.add_zero, this, List.nil_append, Option.getD_some]

theorem pd_x9 (p q : ℝ × Nat) (l : List (ℝ × Nat)) (h9 : ∀ r ∈ p :: q :: l, r.2 ≠ 9) (h0 : ∀ r ∈ p :: q :: l, r.1 ≠ 0) :
    pd 9 (.prod [(1, .proj 9), (1, .sum (lin (p :: q :: l)))]) = .sum (lin (p :: q :: l)) := by
  have h1 : prodTerm [(1, .sum (lin (p :: q :: l)))] 1 (.proj 9) (pd 9 (.proj 9)) = .sum (lin (p :: q :: l)) := by
    have : pd 9 (.proj 9) = .one := by simp [pd]
    rw [this]
    simp [prodTerm, powi]
  have h2 : prodTerm [(1, .proj 9)] 1 (.sum (lin (p :: q :: l))) (pd 9 (.sum (lin (p :: q :: l)))) = .zero := by
    rw [pd_lin _ h9]
    simp [prodTerm]
  rw [pd, pdProd, pdProd, pdProd]
  simp only [List.nil_append, List.append_nil, h1, h2]
  have hv : vsum [lin (p :: q :: l)] = lin (p :: q :: l) := vsum_one (by
    intro r hr
    obtain ⟨t, ht, rfl⟩ := List.mem_map.mp hr
    exact h0 t ht)
  simp only [List.filter_cons, ne_eq, reduceCtorEq, not_false_eq_true, decide_true, if_true, not_true, decide_false, Bool.false_eq_true, if_false, List.filter_nil,
    fsum, List.map_cons, List.map_nil, toSum, hv]
  rfl

/-- `x₉·(x₀+x₁+x₄) + x₉·(x₀+x₂+x₃) + x₉·(x₃+x₅)` -/
def witness : Fn := .sum [(1, .prod [(1, .proj 9), (1, .sum (lin [(1, 0), (1, 1), (1, 4)]))]), (1, .prod [(1, .proj 9), (1, .sum (lin [(1, 0), (1, 2), (1, 3)]))]),
  (1, .prod [(1, .proj 9), (1, .sum (lin [(1, 3), (1, 5)]))])]

theorem fsum_lin3 : fsum [.proj 0, .proj 1, .proj 4] = .sum (lin [(1, 0), (1, 1), (1, 4)]) ∧ fsum [.proj 0, .proj 2, .proj 3] = .sum (lin [(1, 0), (1, 2), (1, 3)]) ∧
    add (.proj 3) (.proj 5) = .sum (lin [(1, 3), (1, 5)]) := by
  refine ⟨?_, ?_, ?_⟩
  · rw [fsum_three (by simp [proj_lt]) (by simp [proj_lt]) (by simp) (by simp) (by simp) (by simp) (by simp) (by simp)]
    rfl
  · rw [fsum_three (by simp [proj_lt]) (by simp [proj_lt]) (by simp) (by simp) (by simp) (by simp) (by simp) (by simp)]
    rfl
  · have := vsum_two (K := ℝ) (f := .proj 3) (g := .proj 5) (by simp [proj_lt])
    simp only [add, fsum, List.filter_cons, ne_eq, reduceCtorEq, not_false_eq_true, decide_true, if_true, List.filter_nil, List.map_cons, List.map_nil, toSum, FSum.single, this]
    rfl

theorem witness_built : Built witness := by
  have x9 := fun v hv => mul_x9 v hv
  obtain ⟨e1, e2, e3⟩ := fsum_lin3
  have p1 : Built (.prod [(1, .proj 9), (1, .sum (lin [(1, 0), (1, 1), (1, 4)]))]) := by
    rw [← mul_x9 _ (by simp [lin]), ← e1]
    exact .mul (.proj 9) (.fsum (by simp [Built.proj]))
  have p2 : Built (.prod [(1, .proj 9), (1, .sum (lin [(1, 0), (1, 2), (1, 3)]))]) := by
    rw [← mul_x9 _ (by simp [lin]), ← e2]
    exact .mul (.proj 9) (.fsum (by simp [Built.proj]))
  have p3 : Built (.prod [(1, .proj 9), (1, .sum (lin [(1, 3), (1, 5)]))]) := by
    rw [← mul_x9 _ (by simp [lin]), ← e3]
    exact .mul (.proj 9) (.add (.proj 3) (.proj 5))
  have l1 : Fn.prod [(1, .proj 9), (1, .sum (lin [(1, 0), (1, 1), (1, 4)]))] < .prod [(1, .proj 9), (1, .sum (lin [(1, 0), (1, 2), (1, 3)]))] := by
    show cmp _ _ = _
    simp [cmp, cmpProd, cmpSum, lin, then_lt_iff, then_eq_iff, cr_eq, cr_lt]
  have l2 : Fn.prod [(1, .proj 9), (1, .sum (lin [(1, 0), (1, 2), (1, 3)]))] < .prod [(1, .proj 9), (1, .sum (lin [(1, 3), (1, 5)]))] := by
    show cmp _ _ = _
    simp [cmp, cmpProd, cmpSum, lin, then_lt_iff, then_eq_iff, cr_eq, cr_lt]
  have := fsum_three l1 l2 (by simp) (by simp) (by simp) (by simp) (by simp) (by simp)
  unfold witness
  rw [← this]
  exact .fsum (by simp [p1, p2, p3])

theorem pd_witness : pd 9 witness = .sum (lin [(2, 0), (1, 1), (1, 3), (1, 2), (1, 3), (1, 4), (1, 5)]) := by
  have d1 := pd_x9 (1, 0) (1, 1) [(1, 4)] (by simp) (by simp)
  have d2 := pd_x9 (1, 0) (1, 2) [(1, 3)] (by simp) (by simp)
  have d3 := pd_x9 (1, 3) (1, 5) [] (by simp) (by simp)
  have one : ∀ v : FSum ℝ Fn, FSum.smul v 1 = v := by intro v; simp [FSum.smul]
  have : pdSum 9 [(1, Fn.prod [(1, .proj 9), (1, .sum (lin [(1, 0), (1, 1), (1, 4)]))]), (1, .prod [(1, .proj 9), (1, .sum (lin [(1, 0), (1, 2), (1, 3)]))]),
      (1, .prod [(1, .proj 9), (1, .sum (lin [(1, 3), (1, 5)]))])] = [lin [(1, 0), (1, 1), (1, 4)], lin [(1, 0), (1, 2), (1, 3)], lin [(1, 3), (1, 5)]] := by
    rw [pdSum, pdSum, pdSum, pdSum, d1, d2, d3]
    simp [toSum, one]
  unfold witness
  rw [pd, this, vsum3, add, fsum]
  have hv : vsum [lin [(2, 0), (1, 1), (1, 3), (1, 2), (1, 3), (1, 4), (1, 5)]] = lin [(2, 0), (1, 1), (1, 3), (1, 2), (1, 3), (1, 4), (1, 5)] :=
    vsum_one (by simp [lin])
  simp only [List.filter_cons, ne_eq, reduceCtorEq, not_false_eq_true, decide_true, if_true, not_true, decide_false, Bool.false_eq_true, if_false, List.filter_nil,
    List.map_cons, List.map_nil, toSum, hv]
  rfl

/-- **C113** is false of the code: the derivative of `x₉·(x₀+x₁+x₄) + x₉·(x₀+x₂+x₃) + x₉·(x₃+x₅)` by `x₉` is the sum
`2x₀ + x₁ + x₃ + x₂ + x₃ + x₄ + x₅`: not sorted, and with `x₃` twice. -/
theorem c113_derivative_false : ∃ f, Built f ∧ pd 9 f = .sum (lin [(2, 0), (1, 1), (1, 3), (1, 2), (1, 3), (1, 4), (1, 5)]) ∧ ¬ InOrder (pd 9 f) := by
  refine ⟨witness, witness_built, pd_witness, ?_⟩
  rw [pd_witness]
  intro h
  have := h.1 _ .here
  simp [lin, cmp, cr_lt] at this

/-- the same for the sum of three expressions by `.sum()` -/
theorem c113_sum_false : ∃ l : List Fn, (∀ f ∈ l, Built f ∧ InOrder f) ∧ ¬ InOrder (fsum l) := by
  obtain ⟨e1, e2, e3⟩ := fsum_lin3
  have ord : ∀ l : List (ℝ × Nat), l.Pairwise (fun x y => x.2 < y.2) → InOrder (.sum (lin l)) := by
    intro l hl
    have occ : ∀ g, Occurs g (.sum (lin l)) → g = .sum (lin l) ∨ ∃ n, g = .proj n := by
      intro g hg
      cases hg with
      | here => exact Or.inl rfl
      | sum hp ho =>
        obtain ⟨t, ht, rfl⟩ := List.mem_map.mp hp
        cases ho with
        | here => exact Or.inr ⟨_, rfl⟩
    refine ⟨fun v hv => ?_, fun v hv => ?_⟩
    · rcases occ _ hv with h | ⟨n, h⟩
      · simp only [Fn.sum.injEq] at h
        subst h
        unfold lin
        rw [List.pairwise_map]
        exact hl.imp (fun h => by simpa [cmp, cr_lt] using h)
      · simp at h
    · rcases occ _ hv with h | ⟨n, h⟩ <;> simp at h
  refine ⟨[.sum (lin [(1, 0), (1, 1), (1, 4)]), .sum (lin [(1, 0), (1, 2), (1, 3)]), .sum (lin [(1, 3), (1, 5)])], ?_, ?_⟩
  · simp only [List.forall_mem_cons, List.not_mem_nil, false_imp_iff, implies_true, and_true]
    refine ⟨⟨?_, ord _ (by simp)⟩, ⟨?_, ord _ (by simp)⟩, ⟨?_, ord _ (by simp)⟩⟩
    · rw [← e1]; exact .fsum (by simp [Built.proj])
    · rw [← e2]; exact .fsum (by simp [Built.proj])
    · rw [← e3]; exact .add (.proj 3) (.proj 5)
  · have : fsum [.sum (lin [(1, 0), (1, 1), (1, 4)]), .sum (lin [(1, 0), (1, 2), (1, 3)]), .sum (lin [(1, 3), (1, 5)])] =
        .sum (lin [(2, 0), (1, 1), (1, 3), (1, 2), (1, 3), (1, 4), (1, 5)]) := by
      simp only [fsum, List.filter_cons, ne_eq, reduceCtorEq, not_false_eq_true, decide_true, if_true, List.filter_nil, List.map_cons, List.map_nil, toSum, vsum3]
      rfl
    rw [this]
    intro h
    have := h.1 _ .here
    simp [lin, cmp, cr_lt] at this

/-- a case of `c113_plain_partial`: `(x₀ + x₁)·sin(x₀)² / x₁ - 3` -/
example : Plain (sub (div (mul (add (.proj 0) (.proj 1)) (powi (.sin (.proj 0)) 2)) (.proj 1)) (smul .one 3)) :=
  .sub (.div (.mul (.add (.proj 0) (.proj 1)) (.powi 2 (.sin (.proj 0)) (by simp) (by simp))) (.proj 1) (by simp) (by simp)) (.smul 3 .one)

end
end Toppo.Analysis
