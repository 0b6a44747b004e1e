import Verif.Proof.SimpBoundary
import Verif.Props.Manifold
set_option linter.unusedVariables false
set_option linter.unusedSectionVars false
/-!
# C149: homology of pseudomanifolds with boundary
The notion `BoundedPseudomanifold` is that of the specification at the top of `Proof/SimpBoundary.lean`.
-/
namespace Toppo.Simp
open Toppo Toppo.ModProps

section
variable {T : Type} [DecidableEq T] [LinearOrder (Simplex T)]

/-- **C149**. If the listed simplices form a pseudomanifold of dimension `n ≥ 1` with boundary, then the program reports nothing in dimension `n`, no torsion in dimension
`n - 1`, and one free generator in dimension 0. -/
theorem c149_bounded {h : List (List T)} (g : GoodHistory h) {maxDim : Option Nat} {bm res} (k : Computes h maxDim bm res) {n : Nat} (hn : 1 ≤ n)
    (hd : ∀ d, maxDim = some d → n ≤ d) (M : BoundedPseudomanifold (Listed bm) n) :
    FreeOfRank (reportedMod res n) 0 ∧ FreeOfRank (reportedMod res (n - 1)) (reportedMod res (n - 1)).freeRank ∧ FreeOfRank (reportedMod res 0) 1 := by
  obtain ⟨B, C, hB, -, -⟩ := M.boundary
  have h0 := joined_zero g k hn ⟨B, hB⟩ M.pure M.connected
  obtain ⟨j, rfl⟩ : ∃ j, n = j + 1 := ⟨n - 1, by omega⟩
  obtain ⟨r, hr⟩ := order_exists h
  obtain ⟨-, -, -, -, a4, a6, a5⟩ := k.spec g
  obtain ⟨b1, b2, b3⟩ := k.data g hr
  obtain ⟨e⟩ := a5 r hr (j + 1) hd
  obtain ⟨f⟩ := bounded_top (r := r) M b1
  refine ⟨a6 _ _ ⟨e.symm.trans f⟩, ?_, h0⟩
  obtain ⟨e⟩ := a5 r hr j (fun d q => by have := hd d q; omega)
  rw [Nat.add_sub_cancel]
  refine torsion_none (a4 j).1 (k.mult g j) (fun m x hm hx => ?_)
  have := bounded_torsion (r := r) M b1 hm (e.symm x) (by rw [← map_zsmul, hx, map_zero])
  exact (AddEquiv.map_eq_zero_iff e.symm).mp this

/-- **C149, surfaces**. Attach, with at most 64 labels, simplices whose faces form a surface with boundary, with Euler characteristic `χ`: the reported homology is `ℤ, ℤ^(1-χ)`,
orientable or not. -/
theorem c149_surface {h : List (List T)} (g : GoodHistory h) (hb : h.flatten.toFinset.card ≤ 64) (M : BoundedPseudomanifold (IsFace h) 2) {F : Finset (Finset T)}
    (hF : ∀ A, A ∈ F ↔ IsFace h A) {bm res} (k : Computes h none bm res) :
    FreeOfRank (reportedMod res 0) 1 ∧ (∃ n : Nat, FreeOfRank (reportedMod res 1) n ∧ (n : ℤ) = 1 - ∑ A ∈ F, (-1 : ℤ) ^ (A.card - 1)) ∧
    ∀ i, 2 ≤ i → FreeOfRank (reportedMod res i) 0 := by
  have hL := (k.spec g).2.2.2.1 hb
  rw [← hL] at M
  obtain ⟨t2, t1, t0⟩ := c149_bounded g k (by omega) (by simp) M
  have hhigh : ∀ i, 2 ≤ i → FreeOfRank (reportedMod res i) 0 := by
    intro i hi
    rcases Nat.eq_or_lt_of_le hi with rfl | hi
    · exact t2
    · exact k.none g i (by simp) (fun A hA => by
        obtain ⟨C, hC, sC⟩ := M.pure A hA
        have := Finset.card_le_card sC
        rw [hC.2] at this
        omega)
  refine ⟨t0, ⟨_, t1, ?_⟩, hhigh⟩
  have := euler_two g hb hF k (fun i hi => (hhigh i (by omega)).1)
  have q0 := t0.1
  have q2 := t2.1
  rw [← this]
  show ((reportedMod res 1).freeRank : ℤ) = _
  omega

end

/-! ### the Möbius strip -/

/-- five triangles -/
def exStrip : List (List (Fin 5)) := [[0, 1, 2], [1, 2, 3], [2, 3, 4], [3, 4, 0], [4, 0, 1]]

theorem exStrip_bounded : GoodHistory exStrip ∧ BoundedPseudomanifold (IsFace exStrip) 2 := by
  have hfacet : ∀ C, Facet (IsFace exStrip) 2 C ↔ ∃ s ∈ exStrip, s.toFinset = C := by
    unfold Facet IsFace
    decide +kernel
  refine ⟨⟨by decide, by decide⟩, ?_, ?_, ?_, ?_⟩
  · intro A hA
    obtain ⟨-, s, hs, hsub⟩ := hA
    exact ⟨_, (hfacet _).mpr ⟨s, hs, rfl⟩, hsub⟩
  · have key : ∀ B : Finset (Fin 5), B.card = 2 → ∃ C ∈ exStrip, ∃ D ∈ exStrip, ∀ E ∈ exStrip, B ⊆ E.toFinset → E.toFinset = C.toFinset ∨ E.toFinset = D.toFinset := by
      decide +kernel
    intro B _ hB
    obtain ⟨C, -, D, -, h⟩ := key B hB
    refine ⟨C.toFinset, D.toFinset, fun E hE hBE => ?_⟩
    obtain ⟨s, hs, rfl⟩ := (hfacet E).mp hE
    exact h s hs hBE
  · refine ⟨{0, 2}, {0, 1, 2}, ⟨by simp, [0, 1, 2], by decide, by decide⟩, by decide, fun E => ?_⟩
    rw [hfacet]
    revert E
    decide +kernel
  · have key : ∀ C ∈ exStrip, ∀ D ∈ exStrip, C.toFinset = D.toFinset ∨ ∃ E ∈ exStrip, (E.toFinset = C.toFinset ∨ (C.toFinset ∩ E.toFinset).card = 2) ∧
        (E.toFinset ∩ D.toFinset).card = 2 := by decide +kernel
    intro C D hC hD
    obtain ⟨s, hs, rfl⟩ := (hfacet _).mp hC
    obtain ⟨t, ht, rfl⟩ := (hfacet _).mp hD
    rcases key s hs t ht with e | ⟨E, hE, e1, e2⟩
    · rw [e]
    · have fE := (hfacet _).mpr ⟨E, hE, rfl⟩
      rcases e1 with e1 | e1
      · rw [← e1]; exact Relation.ReflTransGen.single ⟨fE, hD, e2⟩
      · exact (Relation.ReflTransGen.single ⟨hC, fE, e1⟩).tail ⟨fE, hD, e2⟩

/-- **C149, the Möbius strip**: `ℤ, ℤ, 0`. -/
theorem c149_strip [LinearOrder (Simplex (Fin 5))] {bm res} (k : Computes exStrip none bm res) :
    FreeOfRank (reportedMod res 0) 1 ∧ FreeOfRank (reportedMod res 1) 1 ∧ FreeOfRank (reportedMod res 2) 0 := by
  obtain ⟨a, ⟨n, b1, b2⟩, c⟩ := c149_surface exStrip_bounded.1 (by decide) exStrip_bounded.2 (mem_faces exStrip) k
  rw [show (∑ A ∈ faces exStrip, (-1 : ℤ) ^ (A.card - 1)) = 0 by decide +kernel] at b2
  obtain rfl : n = 1 := by omega
  exact ⟨a, b1, c 2 le_rfl⟩

end Toppo.Simp
