import Verif.Props.Skeleton
import Verif.Props.SimpRank
set_option linter.unusedVariables false
set_option linter.unusedSectionVars false
/-!
# C154: discrete Morse theory: critical simplices bound the reported homology
-/
namespace Toppo.Simp
open Toppo Toppo.ModProps Module

section
variable {T : Type} [DecidableEq T]

/-- `Reduces K c`: the complex `K` can be taken apart completely by elementary collapses and by removals of single simplices that are not faces of others,
where `c i` removals are of simplices of dimension `i` (the critical simplices). -/
inductive Reduces : (Finset T → Prop) → (Nat → Nat) → Prop
  | empty {K : Finset T → Prop} : (∀ A, ¬ K A) → Reduces K (fun _ => 0)
  | collapse {K K' : Finset T → Prop} {F G : Finset T} {c : Nat → Nat} : Collapse K K' F G → Reduces K' c → Reduces K c
  | critical {K K' : Finset T → Prop} {S : Finset T} {d : Nat} {c : Nat → Nat} : K S → S.card = d + 1 → (∀ A, K A → S ⊆ A → A = S) →
      (∀ A, K' A ↔ K A ∧ A ≠ S) → Reduces K' c → Reduces K (Function.update c d (c d + 1))

theorem alt_bump (f : Nat → ℤ) (d i : Nat) (t : ℤ) : ∑ j ∈ Finset.range (i + 1), (-1 : ℤ) ^ (i + j) * (f j + if j = d then t else 0) =
    (∑ j ∈ Finset.range (i + 1), (-1 : ℤ) ^ (i + j) * f j) + if d ≤ i then (-1) ^ (i + d) * t else 0 := by
  simp only [mul_add, Finset.sum_add_distrib, mul_ite, mul_zero, Finset.sum_ite_eq', Finset.mem_range, Nat.lt_succ_iff]

/-- removing a simplex of dimension `i` does not hide torsion of dimension `i` -/
theorem torsion_step {K K' : Finset T → Prop} {r : T → ℤ} {S : Finset T} {i : Nat} (hS : S.card = i + 1) (hK : ∀ A, K' A ↔ K A ∧ A ≠ S)
    (hcl' : ∀ A B, K' A → B ⊆ A → B.Nonempty → K' B) (h : ∀ (m : ℤ) (x : SimpHom K' r i), m ≠ 0 → m • x = 0 → x = 0) (m : ℤ) (x : SimpHom K r i) (hm : m ≠ 0)
    (hx : m • x = 0) : x = 0 := by
  obtain ⟨⟨z, hz⟩, rfl⟩ := Submodule.Quotient.mk_surjective _ x
  have hb : Bounds K r i = Bounds K' r i := by
    unfold Bounds
    rw [skel_chains (L := K') (fun A hA => by
      rw [hK]
      exact ⟨fun a => ⟨a, fun e => by rw [e] at hA; omega⟩, fun a => a.1⟩)]
  have hmz : m • z ∈ Bounds K' r i := by
    rw [← hb]
    rw [← Submodule.Quotient.mk_smul] at hx
    exact (Submodule.Quotient.mk_eq_zero (p := (Bounds K r i).submoduleOf (Cycles K r i))).mp hx
  have hzc : z ∈ Chains K i := hz.1
  have e : z S = 0 := by
    have h1 := (Finsupp.mem_supported' ℤ _).mp (bdry_chains hcl' i hmz) S (fun q => ((hK S).mp q.1).2 rfl)
    rw [Finsupp.smul_apply, smul_eq_mul] at h1
    exact (mul_eq_zero.mp h1).resolve_left hm
  have hzc' : z ∈ Chains K' i := by
    refine (Finsupp.mem_supported' _ _).mpr (fun A hA => ?_)
    by_cases q : K A ∧ A.card = i + 1
    · have : A = S := by
        by_contra hne
        exact hA ⟨(hK A).mpr ⟨q.1, hne⟩, q.2⟩
      rw [this, e]
    · exact (Finsupp.mem_supported' _ _).mp hzc A q
  have hz' : z ∈ Cycles K' r i := ⟨hzc', hz.2⟩
  have h2 := h m (Submodule.Quotient.mk ⟨z, hz'⟩) hm (by
    rw [← Submodule.Quotient.mk_smul]
    exact (Submodule.Quotient.mk_eq_zero (p := (Bounds K' r i).submoduleOf (Cycles K' r i))).mpr hmz)
  have h3 : z ∈ Bounds K' r i := (Submodule.Quotient.mk_eq_zero (p := (Bounds K' r i).submoduleOf (Cycles K' r i))).mp h2
  rw [← hb] at h3
  exact (Submodule.Quotient.mk_eq_zero (p := (Bounds K r i).submoduleOf (Cycles K r i))).mpr h3

theorem collapse_closed {K K' : Finset T → Prop} {F G : Finset T} (h : Collapse K K' F G) (hcl : ∀ A B, K A → B ⊆ A → B.Nonempty → K B) :
    ∀ A B, K' A → B ⊆ A → B.Nonempty → K' B := by
  intro A B hA hB hne
  obtain ⟨h1, h2, h3⟩ := (h.rest A).mp hA
  refine (h.rest B).mpr ⟨hcl A B h1 hB hne, ?_, ?_⟩
  · rintro rfl
    exact (h.free A h1 hB).elim h2 h3
  · rintro rfl
    exact (h.free A h1 (h.sub.trans hB)).elim h2 h3

/-- what a reduction says about the homology of the complex -/
theorem Reduces.bound {K : Finset T → Prop} {c : Nat → Nat} (h : Reduces K c) {r : T → ℤ} (hfin : {A | K A}.Finite)
    (hcl : ∀ A B, K A → B ⊆ A → B.Nonempty → K B) (hr : ∀ A, K A → ∀ x ∈ A, ∀ y ∈ A, r x = r y → x = y) (i : Nat) :
    finrank ℤ (SimpHom K r i) ≤ c i ∧ (c i = 0 → Subsingleton (SimpHom K r i)) ∧
    (c (i + 1) = 0 → ∀ (m : ℤ) (x : SimpHom K r i), m ≠ 0 → m • x = 0 → x = 0) ∧
    (∑ j ∈ Finset.range (i + 1), (-1 : ℤ) ^ (i + j) * finrank ℤ (SimpHom K r j)) ≤ ∑ j ∈ Finset.range (i + 1), (-1 : ℤ) ^ (i + j) * c j := by
  induction h generalizing i with
  | @empty K hK =>
    have hs : ∀ j, Subsingleton (SimpHom K r j) := by
      intro j
      have hz : Cycles K r j = ⊥ := by
        rw [eq_bot_iff]
        intro z hz
        have h1 : z ∈ Chains K j := hz.1
        rw [Submodule.mem_bot]
        ext A
        exact (Finsupp.mem_supported' _ _).mp h1 A (fun q => hK A q.1)
      have : Subsingleton (Cycles K r j) := by rw [hz]; infer_instance
      infer_instance
    have hf : ∀ j, finrank ℤ (SimpHom K r j) = 0 := fun j => by
      have := hs j
      exact Module.finrank_zero_of_subsingleton
    refine ⟨(hf i).le, fun _ => hs i, fun _ m x _ _ => (hs i).elim _ _, ?_⟩
    simp [hf]
  | @collapse K K' F G c hc _ ih =>
    have hsub : {A | K' A} ⊆ {A | K A} := fun A hA => ((hc.rest A).mp hA).1
    obtain ⟨q1, q2, q3, q4⟩ := ih (hfin.subset hsub) (collapse_closed hc hcl) (fun A hA => hr A (hsub hA)) i
    have e : ∀ j, Nonempty (SimpHom K r j ≃+ SimpHom K' r j) := fun j => hc.hom hcl (hr G hc.mem) j
    have hf : ∀ j, finrank ℤ (SimpHom K r j) = finrank ℤ (SimpHom K' r j) := fun j => by
      obtain ⟨f⟩ := e j
      exact f.toIntLinearEquiv.finrank_eq
    obtain ⟨f⟩ := e i
    refine ⟨(hf i).le.trans q1, fun h0 => ?_, fun h0 m x hm hx => ?_, ?_⟩
    · have := q2 h0
      exact f.toEquiv.subsingleton
    · exact (AddEquiv.map_eq_zero_iff f).mp (q3 h0 m (f x) hm (by rw [← map_zsmul, hx, map_zero]))
    · simp only [hf]
      exact q4
  | @critical K K' S d c hS hd hfree hK' _ ih =>
    have hsub : {A | K' A} ⊆ {A | K A} := fun A hA => ((hK' A).mp hA).1
    have hcl' : ∀ A B, K' A → B ⊆ A → B.Nonempty → K' B := by
      intro A B hA hB hne
      obtain ⟨a1, a2⟩ := (hK' A).mp hA
      refine (hK' B).mpr ⟨hcl A B a1 hB hne, ?_⟩
      rintro rfl
      exact a2 (hfree A a1 hB)
    have ih := ih (hfin.subset hsub) hcl' (fun A hA => hr A (hsub hA))
    obtain ⟨q1, q2, q3, q4⟩ := ih i
    have hiff : ∀ A, K A ↔ K' A ∨ A = S := by
      intro A
      rw [hK']
      constructor
      · intro hA
        by_cases e : A = S
        · exact Or.inr e
        · exact Or.inl ⟨hA, e⟩
      · rintro (a | rfl)
        · exact a.1
        · exact hS
    have at1 := attach_rank (r := r) (hfin.subset hsub) hcl' hcl hr hd (fun q => ((hK' S).mp q).2 rfl) hiff
    have hcu : ∀ j, (Function.update c d (c d + 1) j : Nat) = c j + if j = d then 1 else 0 := by
      intro j
      by_cases e : j = d
      · subst e; rw [Function.update_self, if_pos rfl]
      · rw [Function.update_of_ne e, if_neg e, add_zero]
    have hcz : ∀ j, ((Function.update c d (c d + 1) j : Nat) : ℤ) = c j + if j = d then 1 else 0 := by
      intro j
      rw [hcu j]
      push_cast
      rfl
    simp only [hcz]
    rw [alt_bump, hcu, hcu]
    refine ⟨?_, fun h0 => ?_, fun h0 => ?_, ?_⟩
    · by_cases hcase : d = 0 ∨ (∃ n : ℤ, n ≠ 0 ∧ n • bdry r (Finsupp.single S 1) ∈ Bounds K' r (d - 1))
      · obtain ⟨u1, u2⟩ := at1.1 hcase
        by_cases e : i = d
        · subst e; rw [if_pos rfl, u1]; omega
        · rw [if_neg e, u2 i e]; omega
      · obtain ⟨u1, u2⟩ := at1.2 hcase
        by_cases e : i = d - 1
        · subst e; split_ifs <;> omega
        · rw [u2 i e]; split_ifs <;> omega
    · have hid : i ≠ d := fun e => by rw [if_pos e] at h0; omega
      rw [if_neg hid, add_zero] at h0
      have := q2 h0
      obtain ⟨f, hf⟩ := skel_quotient (K := K') (L := K) (r := r) (i := i) (fun A hA => by
        rw [hK']; exact ⟨fun a => a.1, fun a => ⟨a, fun e => by rw [e] at hA; omega⟩⟩) (fun A _ hA => ((hK' A).mp hA).1)
      exact hf.subsingleton
    · have hid : i + 1 ≠ d := fun e => by rw [if_pos e] at h0; omega
      rw [if_neg hid, add_zero] at h0
      by_cases e : i = d
      · subst e
        exact torsion_step hd hK' hcl' (q3 h0)
      · obtain ⟨f⟩ := skel_congr (K := K) (L := K') (r := r) (i := i) (fun A hA => by
          rw [hK']; exact ⟨fun a => ⟨a, fun e => by rw [e] at hA; omega⟩, fun a => a.1⟩) (fun A hA => by
          rw [hK']; exact ⟨fun a => ⟨a, fun e => by rw [e] at hA; omega⟩, fun a => a.1⟩)
        intro m x hm hx
        exact (AddEquiv.map_eq_zero_iff f).mp (q3 h0 m (f x) hm (by rw [← map_zsmul, hx, map_zero]))
    · by_cases hcase : d = 0 ∨ (∃ n : ℤ, n ≠ 0 ∧ n • bdry r (Finsupp.single S 1) ∈ Bounds K' r (d - 1))
      · obtain ⟨u1, u2⟩ := at1.1 hcase
        have : ∀ j, (finrank ℤ (SimpHom K r j) : ℤ) = finrank ℤ (SimpHom K' r j) + if j = d then 1 else 0 := by
          intro j
          by_cases e : j = d
          · subst e; rw [if_pos rfl, u1]; push_cast; rfl
          · rw [if_neg e, u2 j e, add_zero]
        simp only [this]
        rw [alt_bump]
        linarith
      · obtain ⟨u1, u2⟩ := at1.2 hcase
        have hd0 : d ≠ 0 := fun e => hcase (Or.inl e)
        obtain ⟨d, rfl⟩ : ∃ k, d = k + 1 := ⟨d - 1, by omega⟩
        rw [Nat.add_sub_cancel] at u1 u2
        have : ∀ j, (finrank ℤ (SimpHom K r j) : ℤ) = finrank ℤ (SimpHom K' r j) + if j = d then (-1 : ℤ) else 0 := by
          intro j
          by_cases e : j = d
          · subst e; rw [if_pos rfl, ← u1]; push_cast; ring
          · rw [if_neg e, u2 j e, add_zero]
        simp only [this]
        rw [alt_bump]
        have hp : (-1 : ℤ) ^ (i + (d + 1)) = -(-1) ^ (i + d) := by rw [← add_assoc, pow_succ]; ring
        rw [hp]
        rcases Nat.lt_trichotomy i d with hlt | rfl | hgt
        · rw [if_neg (by omega), if_neg (by omega)]; linarith
        · rw [if_pos le_rfl, if_neg (by omega)]
          have : (-1 : ℤ) ^ (i + i) = 1 := by rw [← two_mul, pow_mul]; norm_num
          rw [this]; linarith
        · rw [if_pos (by omega), if_pos (by omega)]; linarith

end

section
variable {T : Type} [DecidableEq T] [LinearOrder (Simplex T)]

/-- **C154**. If the listed simplices can be taken apart by elementary collapses and by removals of single simplices, `c i` of them of dimension `i`, then in every dimension `i` up to
the bound: the reported free rank is at most `c i`; nothing is reported if `c i = 0`; no torsion is reported if `c (i + 1) = 0`; and the alternating sum
`b i - b (i-1) + b (i-2) - …` of the reported free ranks is at most `c i - c (i-1) + c (i-2) - …`. -/
theorem c154_morse {h : List (List T)} (g : GoodHistory h) {maxDim : Option Nat} {bm res} (k : Computes h maxDim bm res) {c : Nat → Nat} (hc : Reduces (Listed bm) c)
    (i : Nat) (hi : ∀ d, maxDim = some d → i ≤ d) :
    (reportedMod res i).freeRank ≤ c i ∧ (c i = 0 → FreeOfRank (reportedMod res i) 0) ∧
    (c (i + 1) = 0 → FreeOfRank (reportedMod res i) (reportedMod res i).freeRank) ∧
    (∑ j ∈ Finset.range (i + 1), (-1 : ℤ) ^ (i + j) * (reportedMod res j).freeRank) ≤ ∑ j ∈ Finset.range (i + 1), (-1 : ℤ) ^ (i + j) * c j := by
  obtain ⟨-, -, -, -, a4, a6, a5⟩ := k.spec g
  obtain ⟨r, hr⟩ := order_exists h
  obtain ⟨b1, b2, b3⟩ := k.data g hr
  have hfin : {A | Listed bm A}.Finite := (Finset.finite_toSet _).subset b2
  obtain ⟨q1, q2, q3, q4⟩ := hc.bound hfin b1 b3 i
  have hrank : ∀ j, j ≤ i → finrank ℤ (SimpHom (Listed bm) r j) = (reportedMod res j).freeRank := by
    intro j hj
    obtain ⟨e⟩ := a5 r hr j (fun d hd => hj.trans (hi d hd))
    rw [← finrank_grp _ (a4 j).1]
    exact e.toIntLinearEquiv.finrank_eq
  obtain ⟨e⟩ := a5 r hr i hi
  refine ⟨(hrank i le_rfl) ▸ q1, fun h0 => ?_, fun h0 => ?_, ?_⟩
  · have := q2 h0
    exact a6 i 0 (of_subsingleton e.symm.toEquiv.subsingleton)
  · refine torsion_none (a4 i).1 (k.mult g i) (fun m x hm hx => ?_)
    exact (AddEquiv.map_eq_zero_iff e.symm).mp (q3 h0 m (e.symm x) hm (by rw [← map_zsmul, hx, map_zero]))
  · refine le_of_eq_of_le (Finset.sum_congr rfl (fun j hj => ?_)) q4
    rw [hrank j (by rw [Finset.mem_range] at hj; omega)]

/-- **C154, perfect**. If the dimensions of the critical simplices are never consecutive, the reported homology is determined: free of rank `c i` in every dimension. -/
theorem c154_gap {h : List (List T)} (g : GoodHistory h) {bm res} (k : Computes h none bm res) {c : Nat → Nat} (hc : Reduces (Listed bm) c)
    (hgap : ∀ i, c i = 0 ∨ c (i + 1) = 0) (i : Nat) : FreeOfRank (reportedMod res i) (c i) := by
  have M := fun j => c154_morse g k hc j (by simp)
  have hz : ∀ j, c j = 0 → (reportedMod res j).freeRank = 0 := fun j h0 => ((M j).2.1 h0).1
  -- the alternating sums agree
  have hS : ∀ j, (∑ l ∈ Finset.range (j + 1), (-1 : ℤ) ^ (j + l) * (reportedMod res l).freeRank) = ∑ l ∈ Finset.range (j + 1), (-1 : ℤ) ^ (j + l) * c l ∨ c j ≠ 0 := by
    intro j
    by_cases h0 : c j = 0
    · left
      rcases j with _ | j
      · simp [h0, hz 0 h0]
      · refine le_antisymm (M (j + 1)).2.2.2 ?_
        have := (M j).2.2.2
        rw [Finset.sum_range_succ, Finset.sum_range_succ _ (j + 1), h0, hz _ h0]
        have e : ∀ f : Nat → ℤ, ∑ l ∈ Finset.range (j + 1), (-1 : ℤ) ^ (j + 1 + l) * f l = -∑ l ∈ Finset.range (j + 1), (-1 : ℤ) ^ (j + l) * f l := by
          intro f
          rw [← Finset.sum_neg_distrib]
          refine Finset.sum_congr rfl (fun l _ => ?_)
          rw [show j + 1 + l = j + l + 1 by omega, pow_succ]
          ring
        rw [e, e]
        push_cast
        linarith
    · exact Or.inr h0
  by_cases h0 : c i = 0
  · rw [h0]; exact (M i).2.1 h0
  · have h1 : c (i + 1) = 0 := (hgap i).resolve_left h0
    have hrank : (reportedMod res i).freeRank = c i := by
      have a := (hS (i + 1)).resolve_right (by simpa using h1)
      rw [Finset.sum_range_succ, Finset.sum_range_succ _ (i + 1), h1, hz _ h1] at a
      simp only [Nat.cast_zero, mul_zero, add_zero] at a
      rw [Finset.sum_range_succ, Finset.sum_range_succ _ i] at a
      have e : ∑ l ∈ Finset.range i, (-1 : ℤ) ^ (i + 1 + l) * ((reportedMod res l).freeRank : ℤ) = ∑ l ∈ Finset.range i, (-1 : ℤ) ^ (i + 1 + l) * (c l : ℤ) := by
        rcases i with _ | i
        · simp
        · have b0 : c i = 0 := (hgap i).resolve_right h0
          have b := (hS i).resolve_right (by simpa using b0)
          have e : ∀ f : Nat → ℤ, ∑ l ∈ Finset.range (i + 1), (-1 : ℤ) ^ (i + 1 + 1 + l) * f l = ∑ l ∈ Finset.range (i + 1), (-1 : ℤ) ^ (i + l) * f l := by
            intro f
            refine Finset.sum_congr rfl (fun l _ => ?_)
            rw [show i + 1 + 1 + l = i + l + 2 by omega, pow_add]
            ring
          rw [e, e]
          exact b
      rw [e] at a
      have hp : (-1 : ℤ) ^ (i + 1 + i) = -1 := by
        rw [show i + 1 + i = 2 * i + 1 by omega, pow_succ, pow_mul]
        norm_num
      rw [hp] at a
      have : ((reportedMod res i).freeRank : ℤ) = c i := by linarith
      exact_mod_cast this
    have := (M i).2.2.1 h1
    rwa [hrank] at this

end

/-! ### certificates -/
section
variable {T : Type} [DecidableEq T]

/-- a list of steps: a simplex with a vertex stands for the collapse of the simplex and its extension by the vertex, a simplex without for its removal -/
def checkSteps : Finset (Finset T) → List (Finset T × Option T) → Bool
  | F, [] => decide (F = ∅)
  | F, (A, some v) :: l => decide (v ∉ A ∧ A.Nonempty ∧ insert v A ∈ F ∧ ∀ B ∈ F, A ⊆ B → B = A ∨ B = insert v A) && checkSteps ((F.erase A).erase (insert v A)) l
  | F, (A, none) :: l => decide (A ∈ F ∧ A.Nonempty ∧ ∀ B ∈ F, A ⊆ B → B = A) && checkSteps (F.erase A) l

/-- the number of removals of single simplices of dimension `i` -/
def critCount (l : List (Finset T × Option T)) (i : Nat) : Nat := (l.filter (fun s => decide (s.2 = none ∧ s.1.card = i + 1))).length

theorem checkSteps_reduces : ∀ (l : List (Finset T × Option T)) (F : Finset (Finset T)), checkSteps F l = true → Reduces (fun A => A ∈ F) (critCount l)
  | [], F, h => by
    have e : F = ∅ := by simpa [checkSteps] using h
    subst e
    have : critCount ([] : List (Finset T × Option T)) = fun _ => 0 := rfl
    rw [this]
    exact Reduces.empty (fun A hA => by simp at hA)
  | (A, some v) :: l, F, h => by
    unfold checkSteps at h
    rw [Bool.and_eq_true, decide_eq_true_eq] at h
    obtain ⟨⟨h1, h2, h3, h4⟩, h5⟩ := h
    have : critCount ((A, some v) :: l) = critCount l := by
      funext i
      unfold critCount
      rw [List.filter_cons_of_neg (by simp)]
    rw [this]
    refine Reduces.collapse (F := A) (G := insert v A) ⟨h3, ⟨v, h1, rfl⟩, h2, h4, fun B => ?_⟩ (checkSteps_reduces l _ h5)
    rw [Finset.mem_erase, Finset.mem_erase]
    tauto
  | (A, none) :: l, F, h => by
    unfold checkSteps at h
    rw [Bool.and_eq_true, decide_eq_true_eq] at h
    obtain ⟨⟨h1, h2, h3⟩, h4⟩ := h
    obtain ⟨d, hd⟩ : ∃ d, A.card = d + 1 := ⟨A.card - 1, by have := h2.card_pos; omega⟩
    have : critCount ((A, none) :: l) = Function.update (critCount l) d (critCount l d + 1) := by
      funext i
      by_cases e : i = d
      · subst e
        rw [Function.update_self]
        unfold critCount
        rw [List.filter_cons_of_pos (by simp [hd]), List.length_cons]
      · rw [Function.update_of_ne e]
        unfold critCount
        rw [List.filter_cons_of_neg (by simp [hd]; omega)]
    rw [this]
    refine Reduces.critical (S := A) (d := d) h1 hd h3 (fun B => ?_) (checkSteps_reduces l _ h4)
    rw [Finset.mem_erase]
    tauto

/-- **C154, certificates**. With at most 64 labels: a list of steps that takes all faces of the attached simplices apart bounds the reported homology, by counting its steps. -/
theorem c154_certificate [LinearOrder (Simplex T)] {h : List (List T)} (g : GoodHistory h) (hb : h.flatten.toFinset.card ≤ 64) {F : Finset (Finset T)} (hF : ∀ A, A ∈ F ↔ IsFace h A)
    {l : List (Finset T × Option T)} (hl : checkSteps F l = true) {bm res} (k : Computes h none bm res) (i : Nat) :
    (reportedMod res i).freeRank ≤ critCount l i ∧ (critCount l i = 0 → FreeOfRank (reportedMod res i) 0) ∧
    (critCount l (i + 1) = 0 → FreeOfRank (reportedMod res i) (reportedMod res i).freeRank) ∧
    (∑ j ∈ Finset.range (i + 1), (-1 : ℤ) ^ (i + j) * (reportedMod res j).freeRank) ≤ ∑ j ∈ Finset.range (i + 1), (-1 : ℤ) ^ (i + j) * critCount l j := by
  have hL : Listed bm = fun A => A ∈ F := by
    rw [(k.spec g).2.2.2.1 hb]
    funext A
    exact propext (hF A).symm
  exact c154_morse g k (hL ▸ checkSteps_reduces l F hl) i (by simp)

/-- the boundary of a tetrahedron: one triangle and one vertex are critical -/
def exSteps : List (Finset (Fin 4) × Option (Fin 4)) :=
  [({1, 2, 3}, none), ({1, 2}, some 0), ({1, 3}, some 0), ({2, 3}, some 0), ({1}, some 0), ({2}, some 0), ({3}, some 0), ({0}, none)]

/-- a case: the boundary of a tetrahedron has the homology of the sphere -/
theorem c154_sphere [LinearOrder (Simplex (Fin 4))] {bm res} (k : Computes exSphere none bm res) :
    FreeOfRank (reportedMod res 0) 1 ∧ FreeOfRank (reportedMod res 1) 0 ∧ FreeOfRank (reportedMod res 2) 1 := by
  have g : GoodHistory exSphere := exSphere_surface.1
  have hL : Listed bm = fun A => A ∈ faces exSphere := by
    rw [(k.spec g).2.2.2.1 (by decide)]
    funext A
    exact propext (mem_faces exSphere A).symm
  have R : Reduces (Listed bm) (critCount exSteps) := hL ▸ checkSteps_reduces exSteps (faces exSphere) (by decide +kernel)
  have c0 : critCount exSteps 0 = 1 := by decide +kernel
  have c1 : critCount exSteps 1 = 0 := by decide +kernel
  have c2 : critCount exSteps 2 = 1 := by decide +kernel
  have c3 : ∀ i, 3 ≤ i → critCount exSteps i = 0 := by
    intro i hi
    unfold critCount
    rw [List.length_eq_zero_iff, List.filter_eq_nil_iff]
    intro s hs e
    have e : s.2 = none ∧ s.1.card = i + 1 := by simpa using e
    have h3 : ∀ s ∈ exSteps, s.1.card ≤ 3 := by decide +kernel
    have := h3 s hs
    omega
  have hgap : ∀ i, critCount exSteps i = 0 ∨ critCount exSteps (i + 1) = 0 := by
    intro i
    rcases i with _ | _ | i
    · exact Or.inr c1
    · exact Or.inl c1
    · exact Or.inr (c3 _ (by omega))
  have M := c154_gap g k R hgap
  have m0 := M 0
  have m1 := M 1
  have m2 := M 2
  rw [c0] at m0
  rw [c1] at m1
  rw [c2] at m2
  exact ⟨m0, m1, m2⟩

end

end Toppo.Simp
