import Verif.Props.FormalSum
import Verif.Model.FormalOps
import Mathlib.Data.Finsupp.Basic
import Mathlib.Data.Finsupp.SMul
import Mathlib.Algebra.Field.Basic
import Mathlib.Data.Finset.Sort
set_option linter.unusedSimpArgs false
set_option linter.unusedSectionVars false

/-! C126: formal sums are the free module on the basis type. -/
namespace Toppo
namespace FSum
variable {K B : Type} [CommRing K] [DecidableEq K] [LinearOrder B]

/-- Specification: the element of the free module which a list of terms stands for. -/
noncomputable def fs (v : FSum K B) : B →₀ K := (v.map (fun x => Finsupp.single x.2 x.1)).sum

/-- Specification: normal form. -/
def Normal (v : FSum K B) : Prop := Sorted v ∧ ∀ x ∈ v, x.1 ≠ 0

theorem fs_apply (v : FSum K B) (b : B) : fs v b = coef v b := by
  induction v with
  | nil => simp [fs, coef_nil]
  | cons x v ih =>
    rw [coef_cons, ← ih]
    simp only [fs, List.map_cons, List.sum_cons, Finsupp.add_apply, Finsupp.single_apply]

/-- **C126**: on normal forms `==` is equality in the free module. -/
theorem c126_eq (v w : FSum K B) (hv : Normal v) (hw : Normal w) : v = w ↔ fs v = fs w := by
  rw [c25_normal_form_unique v w hv.1 hw.1 hv.2 hw.2, Finsupp.ext_iff]
  simp only [fs_apply]

/-- **C126**: every element of the free module has a normal form, whose length is the number of its non-zero coefficients. -/
theorem c126_exists (f : B →₀ K) : ∃ v : FSum K B, Normal v ∧ fs v = f ∧ len v = f.support.card := by
  refine ⟨(f.support.sort (· ≤ ·)).map (fun b => (f b, b)), ⟨?_, ?_⟩, ?_, by simp [len]⟩
  · unfold Sorted
    rw [List.pairwise_map]
    exact (Finset.sortedLT_sort f.support).pairwise
  · intro x hx
    obtain ⟨b, hb, rfl⟩ := List.mem_map.mp hx
    exact Finsupp.mem_support_iff.mp ((Finset.mem_sort _).mp hb)
  · unfold fs
    rw [List.map_map]
    conv_rhs => rw [← Finsupp.sum_single f]
    unfold Finsupp.sum Finset.sum
    rw [← Multiset.sum_coe, ← Multiset.map_coe, Finset.sort_eq]
    rfl

/-- `len` of a normal form is the number of non-zero coefficients. -/
theorem c126_len (v : FSum K B) (hv : Normal v) : len v = (fs v).support.card := by
  obtain ⟨w, h1, h2, h3⟩ := c126_exists (fs v)
  rw [← h3, (c126_eq v w hv h1).mpr h2.symm]

theorem normal_zero : Normal (zero : FSum K B) := ⟨List.Pairwise.nil, by simp [zero]⟩

/-- **C126**: the zero vector and a single basis element. -/
theorem c126_single [Nontrivial K] (b : B) : Normal (single b : FSum K B) ∧ fs (single b : FSum K B) = Finsupp.single b 1 ∧
    fs (zero : FSum K B) = 0 := by
  refine ⟨⟨by simp [single, Sorted], by simp [single]⟩, by simp [single, fs], by simp [zero, fs]⟩

/-- **C126**: sums. -/
theorem c126_add (v w : FSum K B) (hv : Normal v) (hw : Normal w) : ∃ r, add v w = some r ∧ Normal r ∧ fs r = fs v + fs w := by
  obtain ⟨r, h1, h2, h3, h4⟩ := c25_add v w hv.1 hw.1
  refine ⟨r, h1, ⟨h2, h3⟩, Finsupp.ext (fun b => ?_)⟩
  rw [Finsupp.add_apply, fs_apply, fs_apply, fs_apply, h4]

/-- **C126**: negatives. -/
theorem c126_neg (v : FSum K B) (hv : Normal v) : Normal (neg v) ∧ fs (neg v) = - fs v := by
  refine ⟨⟨(c27_neg v).2 hv.1, fun x hx => ?_⟩, Finsupp.ext (fun b => ?_)⟩
  · obtain ⟨y, hy, rfl⟩ := List.mem_map.mp hx
    simpa using hv.2 y hy
  · rw [Finsupp.neg_apply, fs_apply, fs_apply, (c27_neg v).1]

/-- **C126**: differences. -/
theorem c126_sub (v w : FSum K B) (hv : Normal v) (hw : Normal w) : ∃ r, sub v w = some r ∧ Normal r ∧ fs r = fs v - fs w := by
  obtain ⟨h1, h2⟩ := c126_neg w hw
  obtain ⟨r, h3, h4, h5⟩ := c126_add v (neg w) hv h1
  exact ⟨r, h3, h4, by rw [h5, h2, sub_eq_add_neg]⟩

/-- **C126**: multiples, for coefficients without zero divisors. -/
theorem c126_smul [NoZeroDivisors K] (v : FSum K B) (c : K) (hv : Normal v) : Normal (smul v c) ∧ fs (smul v c) = c • fs v := by
  obtain ⟨h1, h2, -⟩ := c27_smul v c
  refine ⟨⟨h2 hv.1, fun x hx => ?_⟩, Finsupp.ext (fun b => ?_)⟩
  · unfold smul at hx
    split_ifs at hx with h
    · simp at hx
    · obtain ⟨y, hy, rfl⟩ := List.mem_map.mp hx
      exact mul_ne_zero (hv.2 y hy) h
  · rw [Finsupp.smul_apply, fs_apply, fs_apply, h1, smul_eq_mul]

/-- **C126**: operators with one or two basis elements. -/
theorem c126_basis [Nontrivial K] [NoZeroDivisors K] (v : FSum K B) (hv : Normal v) (a b : B) (c : K) :
    (∃ r, addBasis v b = some r ∧ Normal r ∧ fs r = fs v + Finsupp.single b 1) ∧ (∃ r, subBasis v b = some r ∧ Normal r ∧ fs r = fs v - Finsupp.single b 1) ∧
    (∃ r : FSum K B, basisAdd a b = some r ∧ Normal r ∧ fs r = Finsupp.single a 1 + Finsupp.single b 1) ∧
    (∃ r : FSum K B, basisSub a b = some r ∧ Normal r ∧ fs r = Finsupp.single a 1 - Finsupp.single b 1) ∧
    (∃ r, basisAddVec a v = some r ∧ Normal r ∧ fs r = Finsupp.single a 1 + fs v) ∧ (∃ r, basisSubVec a v = some r ∧ Normal r ∧ fs r = Finsupp.single a 1 - fs v) ∧
    (Normal (basisMul c b : FSum K B) ∧ fs (basisMul c b : FSum K B) = Finsupp.single b c) ∧
    (Normal (basisNeg b : FSum K B) ∧ fs (basisNeg b : FSum K B) = - Finsupp.single b 1) := by
  obtain ⟨a1, a2, -⟩ := c126_single (K := K) a
  obtain ⟨b1, b2, -⟩ := c126_single (K := K) b
  refine ⟨?_, ?_, ?_, ?_, ?_, ?_, ?_, ?_⟩
  · rw [← b2]; exact c126_add v _ hv b1
  · rw [← b2]; exact c126_sub v _ hv b1
  · rw [← a2, ← b2]; exact c126_add _ _ a1 b1
  · rw [← a2, ← b2]; exact c126_sub _ _ a1 b1
  · rw [← a2]; exact c126_add _ _ a1 hv
  · rw [← a2]; exact c126_sub _ _ a1 hv
  · obtain ⟨h1, h2⟩ := c126_smul (single b) c b1
    exact ⟨h1, by unfold basisMul; rw [h2, b2, Finsupp.smul_single, smul_eq_mul, mul_one]⟩
  · rw [← b2]; exact c126_neg _ b1

/-- **C126**: `remove(i)` takes out one term; it panics exactly if there is no such term. -/
theorem c126_remove (v : FSum K B) (hv : Normal v) (i : Nat) :
    (len v ≤ i → remove v i = none) ∧ (i < len v → ∃ x w, remove v i = some (x, w) ∧ v[i]? = some x ∧ Normal w ∧ fs v = fs w + Finsupp.single x.2 x.1 ∧ fs w x.2 = 0) := by
  constructor
  · intro h
    have : v[i]? = none := List.getElem?_eq_none h
    simp [remove, this]
  · intro h
    have hx : v[i]? = some v[i] := List.getElem?_eq_getElem h
    have hn : Normal (v.eraseIdx i) := ⟨hv.1.sublist (List.eraseIdx_sublist v i), fun x hx => hv.2 x ((List.eraseIdx_sublist v i).subset hx)⟩
    refine ⟨v[i], v.eraseIdx i, by simp [remove, hx], hx, hn, ?_, ?_⟩
    · unfold fs
      have := (List.getElem_cons_eraseIdx_perm h).map (fun x => Finsupp.single x.2 x.1)
      rw [← this.sum_eq, List.map_cons, List.sum_cons, add_comm]
    · rw [fs_apply]
      refine coef_not_mem _ _ (fun x hx e => ?_)
      have hp := ((List.getElem_cons_eraseIdx_perm h).pairwise_iff (R := fun x y : K × B => x.2 ≠ y.2) (fun {a b} h => h.symm)).mpr (hv.1.imp (fun {a b} h => h.ne))
      exact (List.pairwise_cons.mp hp).1 x hx e.symm

/-- **C126**: conversion of a list of basis elements: the element is right, the form is normal exactly if no element is repeated. -/
theorem c126_from [Nontrivial K] (l : List B) : fs (ofList l : FSum K B) = (l.map (fun b => Finsupp.single b (1 : K))).sum ∧ (Normal (ofList l : FSum K B) ↔ l.Nodup) := by
  have hp := List.mergeSort_perm l (fun x y => decide (x ≤ y))
  have hs : (l.mergeSort (fun x y => decide (x ≤ y))).Pairwise (· ≤ ·) := by
    have := List.pairwise_mergeSort (le := fun x y : B => decide (x ≤ y)) (fun a b c h1 h2 => by simp only [decide_eq_true_eq] at *; exact h1.trans h2)
      (fun a b => by simp only [Bool.or_eq_true, decide_eq_true_eq]; exact le_total a b) l
    exact this.imp (fun {a b} h => by simpa using h)
  refine ⟨?_, ?_⟩
  · unfold fs ofList
    rw [List.map_map]
    exact (hp.map _).sum_eq
  · rw [← hp.nodup_iff]
    unfold Normal Sorted ofList
    rw [List.pairwise_map]
    constructor
    · rintro ⟨h, -⟩
      exact h.imp (fun {a b} h => h.ne)
    · intro h
      refine ⟨?_, fun x hx => ?_⟩
      · exact (hs.and h).imp (fun {a b} h => lt_of_le_of_ne h.1 h.2)
      · obtain ⟨b, -, rfl⟩ := List.mem_map.mp hx
        exact one_ne_zero

end FSum

namespace FSum
variable {K B : Type} [Field K] [DecidableEq K] [LinearOrder B]

/-- **C126**: quotients, over a field; dividing by zero panics. -/
theorem c126_div (v : FSum K B) (hv : Normal v) (c : K) : (c = 0 → div v c = none) ∧
    (c ≠ 0 → ∃ r, div v c = some r ∧ Normal r ∧ fs r = c⁻¹ • fs v ∧ smul r c = v) := by
  refine ⟨fun h => by simp [div, h], fun h => ?_⟩
  have e : div v c = some (smul v c⁻¹) := by
    unfold div smul
    rw [if_neg h, if_neg (inv_ne_zero h)]
    simp only [div_eq_mul_inv]
  obtain ⟨h1, h2⟩ := c126_smul v c⁻¹ hv
  refine ⟨smul v c⁻¹, e, h1, h2, ?_⟩
  obtain ⟨h3, h4⟩ := c126_smul (smul v c⁻¹) c h1
  rw [c126_eq _ _ h3 hv, h4, h2, smul_smul, mul_inv_cancel₀ h, one_smul]

end FSum

namespace FSum
variable {K B : Type} [CommRing K] [DecidableEq K] [LinearOrder B]

/-- histories of operators on vectors (`from` of a list without repetitions included) -/
inductive Built (K B : Type) [CommRing K] [DecidableEq K] [LinearOrder B] : FSum K B → Prop
  | zero : Built K B FSum.zero
  | single (b) : Built K B (FSum.single b)
  | ofList (l) : l.Nodup → Built K B (FSum.ofList l)
  | add {v w r} : Built K B v → Built K B w → FSum.add v w = some r → Built K B r
  | sub {v w r} : Built K B v → Built K B w → FSum.sub v w = some r → Built K B r
  | smul {v} (c) : Built K B v → Built K B (FSum.smul v c)
  | neg {v} : Built K B v → Built K B (FSum.neg v)
  | remove {v i x w} : Built K B v → FSum.remove v i = some (x, w) → Built K B w

/-- **C126**: after any history of operators every vector is in normal form, so `==` is equality in the free module. -/
theorem c126_history [Nontrivial K] [NoZeroDivisors K] {v : FSum K B} (h : Built K B v) : Normal v := by
  induction h with
  | zero => exact normal_zero
  | single b => exact (c126_single b).1
  | ofList l h => exact (c126_from l).2.mpr h
  | add _ _ h ih1 ih2 =>
    obtain ⟨r, h1, h2, -⟩ := c126_add _ _ ih1 ih2
    rw [h] at h1; cases h1; exact h2
  | sub _ _ h ih1 ih2 =>
    obtain ⟨r, h1, h2, -⟩ := c126_sub _ _ ih1 ih2
    rw [h] at h1; cases h1; exact h2
  | smul c _ ih => exact (c126_smul _ c ih).1
  | neg _ ih => exact (c126_neg _ ih).1
  | @remove v i x w _ h ih =>
    rcases lt_or_ge i (len v) with hi | hi
    · obtain ⟨x', w', h1, -, h2, -⟩ := (c126_remove v ih i).2 hi
      rw [h] at h1; cases h1; exact h2
    · rw [(c126_remove v ih i).1 hi] at h; cases h

/-- a repeated basis element is not merged by `from`: `from([b, b])` differs from `b + b` -/
theorem c126_from_repeated : (ofList [0, 0] : FSum ℤ ℕ) ≠ [(2, 0)] ∧ fs (ofList [0, 0] : FSum ℤ ℕ) = fs [(2, 0)] := by
  constructor
  · intro h; have := congrArg List.length h; simp [ofList] at this
  · rw [(c126_from [0, 0]).1]
    simp only [fs, List.map_cons, List.map_nil, List.sum_cons, List.sum_nil, add_zero]
    rw [← Finsupp.single_add]; rfl

/-- a case: `3 * a + b` and `-a + b` of the library's own test, with `a = 0`, `b = 1` -/
example : Normal ([(3, 0), (1, 1)] : FSum ℤ ℕ) ∧ Normal ([(-1, 0), (1, 1)] : FSum ℤ ℕ) := by
  constructor <;> constructor <;> simp [Sorted]

end FSum
end Toppo
