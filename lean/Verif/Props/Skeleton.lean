import Verif.Props.ManifoldCount
import Mathlib.Data.Nat.Choose.Sum
set_option linter.unusedVariables false
set_option linter.unusedSectionVars false
/-!
# C152: homology depends on a skeleton only; skeleta of a simplex
-/
namespace Toppo.Simp
open Toppo Toppo.ModProps

section
variable {T : Type} [DecidableEq T]

theorem skel_chains {K L : Finset T → Prop} {i : Nat} (h : ∀ A, A.card = i + 1 → (K A ↔ L A)) : Chains K i = Chains L i := by
  unfold Chains
  congr 1
  ext A
  simp only [Set.mem_setOf_eq]
  constructor
  · rintro ⟨a, b⟩; exact ⟨(h A b).mp a, b⟩
  · rintro ⟨a, b⟩; exact ⟨(h A b).mpr a, b⟩

theorem skel_mono {K L : Finset T → Prop} {i : Nat} (h : ∀ A, A.card = i + 1 → K A → L A) : Chains K i ≤ Chains L i := by
  unfold Chains
  refine Finsupp.supported_mono ?_
  rintro A ⟨a, b⟩
  exact ⟨h A b a, b⟩

theorem skel_cycles {K L : Finset T → Prop} {r : T → ℤ} {i : Nat} (h : ∀ A, A.card = i + 1 → (K A ↔ L A)) : Cycles K r i = Cycles L r i := by
  unfold Cycles
  rw [skel_chains h]

theorem skel_bounds {K L : Finset T → Prop} {r : T → ℤ} {i : Nat} (h : ∀ A, A.card = i + 2 → K A → L A) : Bounds K r i ≤ Bounds L r i :=
  Submodule.map_mono (skel_mono h)

/-- more simplices of the next dimension: the homology becomes a quotient -/
theorem skel_quotient {K L : Finset T → Prop} {r : T → ℤ} {i : Nat} (h1 : ∀ A, A.card = i + 1 → (K A ↔ L A)) (h2 : ∀ A, A.card = i + 2 → K A → L A) :
    ∃ f : SimpHom K r i →+ SimpHom L r i, Function.Surjective f := by
  unfold SimpHom
  rw [skel_cycles h1]
  have hle : (Bounds K r i).submoduleOf (Cycles L r i) ≤ (Bounds L r i).submoduleOf (Cycles L r i) := Submodule.comap_mono (skel_bounds h2)
  exact ⟨(Submodule.factor hle).toAddMonoidHom, Submodule.factor_surjective hle⟩

theorem skel_congr {K L : Finset T → Prop} {r : T → ℤ} {i : Nat} (h1 : ∀ A, A.card = i + 1 → (K A ↔ L A)) (h2 : ∀ A, A.card = i + 2 → (K A ↔ L A)) :
    Nonempty (SimpHom K r i ≃+ SimpHom L r i) := by
  unfold SimpHom
  rw [skel_cycles h1, show Bounds K r i = Bounds L r i from by unfold Bounds; rw [skel_chains h2]]
  exact ⟨AddEquiv.refl _⟩

variable [LinearOrder (Simplex T)]

/-- an order of the labels of both histories -/
theorem skel_order (h h' : List (List T)) : ∃ r : T → ℤ, (∀ x ∈ h.flatten, ∀ y ∈ h.flatten, r x = r y → x = y) ∧
    (∀ x ∈ h'.flatten, ∀ y ∈ h'.flatten, r x = r y → x = y) := by
  obtain ⟨r, hr⟩ := order_exists (h ++ h')
  refine ⟨r, fun x hx y hy => hr x ?_ y ?_, fun x hx y hy => hr x ?_ y ?_⟩ <;> rw [List.flatten_append, List.mem_append] <;> tauto

/-- **C152**. Two runs whose listed simplices with at most `i + 2` labels agree report, in dimension `i`, the same free rank and the same torsion coefficients
(coefficients ±1 left out). -/
theorem c152_depends {h h' : List (List T)} (g : GoodHistory h) (g' : GoodHistory h') {maxDim maxDim' : Option Nat} {bm bm' res res'}
    (k : Computes h maxDim bm res) (k' : Computes h' maxDim' bm' res') (i : Nat) (hi : ∀ d, maxDim = some d → i ≤ d) (hi' : ∀ d, maxDim' = some d → i ≤ d)
    (same : ∀ A, A.card ≤ i + 2 → (Listed bm A ↔ Listed bm' A)) :
    (reportedMod res i).freeRank = (reportedMod res' i).freeRank ∧
    (orders (reportedMod res i).divisors).filter (fun d => decide (d ≠ 1)) = (orders (reportedMod res' i).divisors).filter (fun d => decide (d ≠ 1)) := by
  obtain ⟨r, hr, hr'⟩ := skel_order h h'
  obtain ⟨-, -, -, -, a4, -, a5⟩ := k.spec g
  obtain ⟨-, -, -, -, b4, -, b5⟩ := k'.spec g'
  obtain ⟨e⟩ := a5 r hr i hi
  obtain ⟨e'⟩ := b5 r hr' i hi'
  obtain ⟨f⟩ := skel_congr (K := Listed bm) (L := Listed bm') (r := r) (i := i) (fun A hA => same A (by omega)) (fun A hA => same A (by omega))
  exact same_numbers (a4 i).1 (a4 i).2 (b4 i).1 (b4 i).2 (e.symm.trans (f.trans e'))

/-- **C152, more simplices**. If only the simplices with `i + 1` labels agree, and the second run lists at least the simplices with `i + 2` labels of the first, then the
group reported by the second in dimension `i` is a quotient of the one reported by the first. -/
theorem c152_quotient {h h' : List (List T)} (g : GoodHistory h) (g' : GoodHistory h') {maxDim maxDim' : Option Nat} {bm bm' res res'}
    (k : Computes h maxDim bm res) (k' : Computes h' maxDim' bm' res') (i : Nat) (hi : ∀ d, maxDim = some d → i ≤ d) (hi' : ∀ d, maxDim' = some d → i ≤ d)
    (same : ∀ A, A.card = i + 1 → (Listed bm A ↔ Listed bm' A)) (more : ∀ A, A.card = i + 2 → Listed bm A → Listed bm' A) :
    ∃ f : Grp (reportedMod res i) →+ Grp (reportedMod res' i), Function.Surjective f := by
  obtain ⟨r, hr, hr'⟩ := skel_order h h'
  obtain ⟨-, -, -, -, a4, -, a5⟩ := k.spec g
  obtain ⟨-, -, -, -, b4, -, b5⟩ := k'.spec g'
  obtain ⟨e⟩ := a5 r hr i hi
  obtain ⟨e'⟩ := b5 r hr' i hi'
  obtain ⟨f, hf⟩ := skel_quotient (K := Listed bm) (L := Listed bm') (r := r) (i := i) same more
  exact ⟨(e'.toAddMonoidHom.comp f).comp e.symm.toAddMonoidHom, e'.surjective.comp (hf.comp e.symm.surjective)⟩

/-! ### skeleta of a simplex -/

/-- the alternating number of non-empty subsets with at most `k + 1` elements -/
theorem skeleton_sum (S : Finset T) (N k : Nat) (hS : S.card = N + 1) {F : Finset (Finset T)} (hF : ∀ A, A ∈ F ↔ A.Nonempty ∧ A ⊆ S ∧ A.card ≤ k + 1) :
    ∑ A ∈ F, (-1 : ℤ) ^ (A.card - 1) = 1 + (-1) ^ k * (N.choose (k + 1)) := by
  have h := Int.alternating_sum_range_choose_eq_choose (n := N) (m := k + 1)
  rw [← Finset.sum_fiberwise_of_maps_to (s := F) (t := Finset.range (k + 1)) (g := fun A => A.card - 1)]
  · rw [Finset.sum_range_succ'] at h
    have e : ∀ m ∈ Finset.range (k + 1), ∑ A ∈ F.filter (fun A => A.card - 1 = m), (-1 : ℤ) ^ (A.card - 1) = -((-1) ^ (m + 1) * ((N + 1).choose (m + 1) : ℤ)) := by
      intro m hm
      rw [Finset.mem_range] at hm
      have : F.filter (fun A => A.card - 1 = m) = S.powersetCard (m + 1) := by
        ext A
        rw [Finset.mem_filter, hF, Finset.mem_powersetCard]
        constructor
        · rintro ⟨⟨a, b, c⟩, d⟩
          have := a.card_pos
          exact ⟨b, by omega⟩
        · rintro ⟨a, b⟩
          exact ⟨⟨Finset.card_pos.mp (by omega), a, by omega⟩, by omega⟩
      rw [Finset.sum_congr this (g := fun _ => (-1 : ℤ) ^ m) (fun A hA => by rw [(Finset.mem_powersetCard.mp hA).2, Nat.add_sub_cancel]), Finset.sum_const,
        Finset.card_powersetCard, hS, nsmul_eq_mul, pow_succ]
      ring
    rw [Finset.sum_congr rfl e, Finset.sum_neg_distrib]
    rw [pow_zero, Nat.choose_zero_right, one_mul, Nat.cast_one, pow_succ] at h
    linarith
  · intro A hA
    obtain ⟨a, b, c⟩ := (hF A).mp hA
    rw [Finset.mem_range]
    omega

/-- **C152, skeleta**. Attach simplices whose faces are exactly the non-empty sets of at most `k + 1` of `N + 1 ≤ 64` labels, `1 ≤ k ≤ N`. The reported homology is `ℤ` in dimension
zero, `ℤ^C` in dimension `k` with `C` the binomial coefficient of `N` and `k + 1`, and trivial elsewhere. -/
theorem c152_skeleton {h : List (List T)} (g : GoodHistory h) {S : Finset T} {N k : Nat} (hk : 1 ≤ k) (hN : N < 64) (hS : S.card = N + 1)
    (hA : ∀ A, IsFace h A ↔ A.Nonempty ∧ A ⊆ S ∧ A.card ≤ k + 1) {bm res} (c : Computes h none bm res) :
    FreeOfRank (reportedMod res 0) 1 ∧ FreeOfRank (reportedMod res k) (N.choose (k + 1)) ∧ ∀ i, i ≠ 0 → i ≠ k → FreeOfRank (reportedMod res i) 0 := by
  obtain ⟨v, hv⟩ := Finset.card_pos.mp (show 0 < S.card by omega)
  have hflat : h.flatten.toFinset ⊆ S := by
    intro x hx
    rw [List.mem_toFinset, List.mem_flatten] at hx
    obtain ⟨s, hs, hxs⟩ := hx
    have : IsFace h {x} := ⟨by simp, s, hs, by simpa using hxs⟩
    exact ((hA _).mp this).2.1 (by simp)
  have hb : h.flatten.toFinset.card ≤ 64 := (Finset.card_le_card hflat).trans (by omega)
  obtain ⟨a1, a2, a3, aL, a4, a6, a5⟩ := c.spec g
  have hL := aL hb
  have hLA : ∀ A, Listed bm A ↔ A.Nonempty ∧ A ⊆ S ∧ A.card ≤ k + 1 := by rw [hL]; exact hA
  obtain ⟨r, hr, hmin⟩ := first_order h v
  have h0 : FreeOfRank (reportedMod res 0) 1 := by
    obtain ⟨e⟩ := a5 r hr 0 (by simp)
    obtain ⟨z⟩ := connected_zero (K := Listed bm) (r := r) (fun A B => a1 A B) (fun x y hx hy => hr x ((a2 x).mpr hx) y ((a2 y).mpr hy)) v
      ((hLA _).mpr ⟨by simp, by simpa using hv, by simp⟩) (fun x hx => (hLA _).mpr ⟨by simp, by
        intro z hz
        rw [Finset.mem_insert, Finset.mem_singleton] at hz
        rcases hz with rfl | rfl
        · exact ((hLA _).mp hx).2.1 (by simp)
        · exact hv, (Finset.card_insert_le _ _).trans (by simp; omega)⟩)
    exact a6 0 1 ⟨e.symm.trans z⟩
  have hmid : ∀ i, i ≠ 0 → i ≠ k → FreeOfRank (reportedMod res i) 0 := by
    intro i i0 ik
    rcases Nat.lt_or_gt_of_ne ik with hlt | hgt
    · obtain ⟨e⟩ := a5 r hr i (by simp)
      have := cone_trivial (K := Listed bm) (r := r) (v := v) (fun A _ x _ => hmin x) (i := i) (by omega) (fun A hA hc _ => by
        obtain ⟨p1, p2, p3⟩ := (hLA A).mp hA
        exact (hLA _).mpr ⟨by simp, Finset.insert_subset hv p2, (Finset.card_insert_le _ _).trans (by omega)⟩)
      exact a6 i 0 (of_subsingleton e.symm.toEquiv.subsingleton)
    · exact c.none g i (by simp) (fun A hA => by have := ((hLA A).mp hA).2.2; omega)
  refine ⟨h0, ?_, hmid⟩
  have htop := c130_top g c k (by simp) (fun A hA => ((hLA A).mp hA).2.2)
  obtain ⟨c0, f0, e1, e2, h1⟩ := id c
  obtain ⟨c', bm', f1, res', q1, q2, q3, F, hF, q4⟩ := c116_history g hb
  rw [e1] at q1; cases q1
  rw [e2] at q2; cases q2
  have a := h1 (f0 + f1) (by omega)
  have b := q3 (f0 + f1) (by omega)
  rw [a] at b; cases b
  have hbet : ∀ i, Hom.betti res i = (reportedMod res i).freeRank := by
    intro i
    unfold Hom.betti reportedMod
    cases res[i]? <;> rfl
  have hsum := q4 (max bm.length (k + 1)) (le_max_left _ _)
  rw [skeleton_sum S N k hS (fun A => by rw [hF, hA])] at hsum
  rw [← Finset.sum_subset (s₁ := {0, k})] at hsum
  · rw [Finset.sum_pair (by omega), hbet, hbet, h0.1, pow_zero, one_mul, Nat.cast_one] at hsum
    have h3 : (-1 : ℤ) ^ k * ((reportedMod res k).freeRank : ℤ) = (-1) ^ k * (N.choose (k + 1) : ℤ) := by linarith
    have h4 : ((reportedMod res k).freeRank : ℤ) = (N.choose (k + 1) : ℤ) := by
      rcases neg_one_pow_eq_or ℤ k with q | q <;> rw [q] at h3 <;> linarith
    have h5 : (reportedMod res k).freeRank = N.choose (k + 1) := by exact_mod_cast h4
    rw [← h5]
    exact htop
  · intro i hi
    rw [Finset.mem_insert, Finset.mem_singleton] at hi
    rw [Finset.mem_range]
    have := le_max_right bm.length (k + 1)
    omega
  · intro i _ hi
    rw [Finset.mem_insert, Finset.mem_singleton, not_or] at hi
    rw [hbet, (hmid i hi.1 hi.2).1]
    simp

end

/-- the complete graph with five vertices -/
def exK5 : List (List (Fin 5)) := [[0, 1], [0, 2], [0, 3], [0, 4], [1, 2], [1, 3], [1, 4], [2, 3], [2, 4], [3, 4]]

/-- a case: the complete graph with five vertices has first homology of rank 6 -/
theorem c152_k5 [LinearOrder (Simplex (Fin 5))] {bm res} (c : Computes exK5 none bm res) :
    FreeOfRank (reportedMod res 0) 1 ∧ FreeOfRank (reportedMod res 1) 6 := by
  obtain ⟨a, b, -⟩ := c152_skeleton (h := exK5) ⟨by decide, by decide⟩ (S := Finset.univ) (N := 4) (k := 1) (by omega) (by omega) (by simp) (by
    intro A
    rw [← mem_faces]
    revert A
    decide +kernel) c
  exact ⟨a, b⟩

/-- a case of the hypotheses of `c152_depends`: adding a tetrahedron to its triangles changes no face with at most three labels -/
example : ∀ A : Finset (Fin 4), A.card ≤ 3 → (IsFace exSphere A ↔ IsFace [[0, 1, 2, 3]] A) := by
  intro A
  rw [← mem_faces, ← mem_faces]
  revert A
  decide +kernel

end Toppo.Simp
