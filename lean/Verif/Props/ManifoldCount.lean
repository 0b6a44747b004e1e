import Verif.Props.Boundary
import Mathlib.Combinatorics.Enumerative.DoubleCounting
set_option linter.unusedVariables false
set_option linter.unusedSectionVars false
/-!
# C151: numbers of cells of pseudomanifolds
-/
namespace Toppo.Simp
open Toppo Toppo.ModProps

section
variable {T : Type} [DecidableEq T] [LinearOrder (Simplex T)]

/-- the numbers of cells the program reports count the listed simplices -/
theorem ncells_listed {h : List (List T)} (g : GoodHistory h) : ∃ c bm, Cplx.build h = some c ∧ c.boundaryMap = some bm ∧
    ∀ i, ∃ S : Finset (Finset T), (∀ A, A ∈ S ↔ Listed bm A ∧ A.card = i + 1) ∧ c.nCellsOfDim i = some (S.card : Int) := by
  obtain ⟨c, bm, r0, e1, e2, hk⟩ := known g
  refine ⟨c, bm, e1, e2, fun i => ?_⟩
  obtain ⟨c', bm', q1, q2, q3, q4⟩ := c47_n_cells g i
  rw [e1] at q1; cases q1
  rw [e2] at q2; cases q2
  have hcard : ∀ (j : Nat) b, bm[j]? = some b → ∀ s ∈ b.basis, s.labels.toFinset.card = j + 1 := by
    intro j b hb s hs
    obtain ⟨k1, k2⟩ := (hk.basis j b hb).2 s hs
    rw [List.toFinset_card_of_nodup k2, k1]
  cases hb : bm[i]? with
  | none =>
    refine ⟨∅, fun A => ⟨fun hA => absurd hA (by simp), ?_⟩, by simpa using q4 (List.getElem?_eq_none_iff.mp hb)⟩
    rintro ⟨⟨b, hb', s, hs, rfl⟩, hc⟩
    obtain ⟨j, hj⟩ := List.mem_iff_getElem?.mp hb'
    rw [hcard j b hj s hs] at hc
    obtain rfl : j = i := by omega
    rw [hb] at hj; cases hj
  | some b =>
    refine ⟨(b.basis.map (fun s => s.labels.toFinset)).toFinset, fun A => ?_, ?_⟩
    · rw [List.mem_toFinset, List.mem_map]
      constructor
      · rintro ⟨s, hs, rfl⟩
        exact ⟨⟨b, List.mem_of_getElem? hb, s, hs, rfl⟩, hcard i b hb s hs⟩
      · rintro ⟨⟨b', hb', s, hs, rfl⟩, hc⟩
        obtain ⟨j, hj⟩ := List.mem_iff_getElem?.mp hb'
        rw [hcard j b' hj s hs] at hc
        obtain rfl : j = i := by omega
        rw [hb] at hj; cases hj
        exact ⟨s, hs, rfl⟩
    · rw [List.toFinset_card_of_nodup (hk.basis i b hb).1, List.length_map]
      exact q3 b hb

/-- pairs of a facet and a face of it -/
theorem count_pairs {K : Finset T → Prop} (hcl : ∀ A B, K A → B ⊆ A → B.Nonempty → K B) {n : Nat} (hn : 1 ≤ n) {S R : Finset (Finset T)}
    (hS : ∀ A, A ∈ S ↔ K A ∧ A.card = n + 1) (hR : ∀ A, A ∈ R ↔ K A ∧ A.card = n) :
    S.card * (n + 1) = ∑ B ∈ R, (S.filter (fun C => B ⊆ C)).card := by
  have h := Finset.sum_card_bipartiteAbove_eq_sum_card_bipartiteBelow (s := R) (t := S) (fun B C => B ⊆ C)
  have h2 : ∀ C ∈ S, (Finset.bipartiteBelow (fun B C => B ⊆ C) R C).card = n + 1 := by
    intro C hC
    obtain ⟨c1, c2⟩ := (hS C).mp hC
    have e : Finset.bipartiteBelow (fun B C => B ⊆ C) R C = C.powersetCard n := by
      ext B
      rw [Finset.mem_bipartiteBelow, Finset.mem_powersetCard, hR]
      constructor
      · rintro ⟨⟨a, b⟩, c⟩; exact ⟨c, b⟩
      · rintro ⟨a, b⟩; exact ⟨⟨hcl C B c1 a (Finset.card_pos.mp (by omega)), b⟩, a⟩
    rw [e, Finset.card_powersetCard, c2, Nat.choose_succ_self_right]
  rw [Finset.sum_congr rfl h2, Finset.sum_const, smul_eq_mul] at h
  rw [← h]
  rfl

/-- **C151, closed**. If the listed simplices form a closed pseudomanifold of dimension `n ≥ 1`, then `n + 1` times the reported number of cells of dimension `n` is twice the
reported number of cells of dimension `n - 1`. -/
theorem c151_closed {h : List (List T)} (g : GoodHistory h) : ∃ c bm, Cplx.build h = some c ∧ c.boundaryMap = some bm ∧
    ∀ n, 1 ≤ n → Pseudomanifold (Listed bm) n → ∃ a b : Int, c.nCellsOfDim n = some a ∧ c.nCellsOfDim (n - 1) = some b ∧ 0 < a ∧ (n + 1) * a = 2 * b := by
  obtain ⟨c, bm, e1, e2, hc⟩ := ncells_listed g
  refine ⟨c, bm, e1, e2, fun n hn M => ?_⟩
  obtain ⟨c', bm', q1, q2, -, -, hcl, -⟩ := c46_complex g
  rw [e1] at q1; cases q1
  rw [e2] at q2; cases q2
  obtain ⟨S, hS, eS⟩ := hc n
  obtain ⟨R, hR, eR⟩ := hc (n - 1)
  rw [Nat.sub_add_cancel hn] at hR
  refine ⟨_, _, eS, eR, ?_, ?_⟩
  · obtain ⟨A, hA⟩ := M.nonempty
    obtain ⟨C, hC, -⟩ := M.pure A hA
    exact_mod_cast Finset.card_pos.mpr ⟨C, (hS C).mpr hC⟩
  · have := count_pairs hcl hn hS hR
    rw [Finset.sum_congr rfl (g := fun _ => 2), Finset.sum_const, smul_eq_mul] at this
    · have : (S.card : ℤ) * (n + 1) = R.card * 2 := by exact_mod_cast this
      linarith
    · intro B hB
      obtain ⟨b1, b2⟩ := (hR B).mp hB
      obtain ⟨C, D, hCD, hE⟩ := M.two B b1 b2
      have : S.filter (fun C => B ⊆ C) = {C, D} := by
        ext E
        rw [Finset.mem_filter, hS, Finset.mem_insert, Finset.mem_singleton]
        exact hE E
      rw [this, Finset.card_pair hCD]

/-- **C151, with boundary**. With boundary it is less. -/
theorem c151_bounded {h : List (List T)} (g : GoodHistory h) : ∃ c bm, Cplx.build h = some c ∧ c.boundaryMap = some bm ∧
    ∀ n, 1 ≤ n → BoundedPseudomanifold (Listed bm) n → ∃ a b : Int, c.nCellsOfDim n = some a ∧ c.nCellsOfDim (n - 1) = some b ∧ 0 < a ∧ (n + 1) * a < 2 * b := by
  obtain ⟨c, bm, e1, e2, hc⟩ := ncells_listed g
  refine ⟨c, bm, e1, e2, fun n hn M => ?_⟩
  obtain ⟨c', bm', q1, q2, -, -, hcl, -⟩ := c46_complex g
  rw [e1] at q1; cases q1
  rw [e2] at q2; cases q2
  obtain ⟨S, hS, eS⟩ := hc n
  obtain ⟨R, hR, eR⟩ := hc (n - 1)
  rw [Nat.sub_add_cancel hn] at hR
  obtain ⟨B0, C0, hB0, hB0c, hE0⟩ := M.boundary
  refine ⟨_, _, eS, eR, ?_, ?_⟩
  · exact_mod_cast Finset.card_pos.mpr ⟨C0, (hS C0).mpr ((hE0 C0).mpr rfl).1⟩
  · have := count_pairs hcl hn hS hR
    have hlt : ∑ B ∈ R, (S.filter (fun C => B ⊆ C)).card < ∑ B ∈ R, 2 := by
      refine Finset.sum_lt_sum (fun B hB => ?_) ⟨B0, (hR B0).mpr ⟨hB0, hB0c⟩, ?_⟩
      · obtain ⟨b1, b2⟩ := (hR B).mp hB
        obtain ⟨C, D, hE⟩ := M.atMostTwo B b1 b2
        have : S.filter (fun C => B ⊆ C) ⊆ {C, D} := by
          intro E hE'
          rw [Finset.mem_filter, hS] at hE'
          rw [Finset.mem_insert, Finset.mem_singleton]
          exact hE E hE'.1 hE'.2
        exact (Finset.card_le_card this).trans Finset.card_le_two
      · have : S.filter (fun C => B0 ⊆ C) = {C0} := by
          ext E
          rw [Finset.mem_filter, hS, Finset.mem_singleton]
          exact hE0 E
        rw [this, Finset.card_singleton]
        norm_num
    rw [← this, Finset.sum_const, smul_eq_mul] at hlt
    have : (S.card : ℤ) * (n + 1) < R.card * 2 := by exact_mod_cast hlt
    linarith

end

/-- a case: the projective plane has 10 triangles and 15 edges -/
example : ((Cplx.build exPlane).bind (fun c => c.nCellsOfDim 2)) = some 10 ∧ ((Cplx.build exPlane).bind (fun c => c.nCellsOfDim 1)) = some 15 := by
  decide +kernel

end Toppo.Simp
