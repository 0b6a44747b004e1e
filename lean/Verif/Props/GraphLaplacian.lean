import Verif.Props.MultiGraph
import Verif.Props.Laplacian
set_option linter.unusedVariables false
/-!
# C139: the Laplacian of a weighted graph and its components
-/
namespace Toppo.Lap
open Toppo Module Matrix Toppo.WGraphProps
open Toppo.LinAlg (mat)

theorem lap_quad {n : Nat} (w : Fin n → Fin n → ℝ) (hs : ∀ i j, w i j = w j i) (L : Matrix (Fin n) (Fin n) ℝ)
    (hd : ∀ i, L i i = ∑ j, w i j) (hw0 : ∀ i, w i i = 0) (ho : ∀ i j, i ≠ j → L i j = - w i j) (x : Fin n → ℝ) :
    2 * (x ⬝ᵥ L.mulVec x) = ∑ i, ∑ j, w i j * (x i - x j) ^ 2 := by
  have e : ∀ i j, L i j = (if i = j then ∑ k, w i k else 0) - w i j := by
    intro i j
    by_cases h : i = j
    · subst h; rw [hd, if_pos rfl, hw0, sub_zero]
    · rw [ho i j h, if_neg h, zero_sub]
  have h1 : x ⬝ᵥ L.mulVec x = ∑ i, ∑ j, (w i j * x i * x i - w i j * x i * x j) := by
    simp only [dotProduct, mulVec, e]
    refine Finset.sum_congr rfl (fun i _ => ?_)
    simp only [sub_mul, Finset.sum_sub_distrib, ite_mul, zero_mul, Finset.sum_ite_eq, Finset.mem_univ, if_true, mul_sub, Finset.mul_sum, Finset.sum_mul]
    congr 1
    · exact Finset.sum_congr rfl (fun j _ => by ring)
    · exact Finset.sum_congr rfl (fun j _ => by ring)
  have h2 : ∑ i, ∑ j, w i j * x i * x i = ∑ i, ∑ j, w i j * x j * x j := by
    rw [Finset.sum_comm]
    exact Finset.sum_congr rfl (fun i _ => Finset.sum_congr rfl (fun j _ => by rw [hs]))
  have h3 : ∑ i, ∑ j, w i j * (x i - x j) ^ 2 = ∑ i, ∑ j, w i j * x i * x i + ∑ i, ∑ j, w i j * x j * x j - 2 * ∑ i, ∑ j, w i j * x i * x j := by
    simp only [Finset.mul_sum, ← Finset.sum_add_distrib, ← Finset.sum_sub_distrib]
    exact Finset.sum_congr rfl (fun i _ => Finset.sum_congr rfl (fun j _ => by ring))
  rw [h1, h3, ← h2]
  simp only [Finset.sum_sub_distrib]
  ring

/-- the classes of a relation, counted: the components -/
noncomputable def components {n : Nat} (r : Fin n → Fin n → Prop) : Nat := Nat.card (Quot r)

theorem graph_lap {n : Nat} (w : Fin n → Fin n → ℝ) (hs : ∀ i j, w i j = w j i) (hp : ∀ i j, 0 ≤ w i j) (L : Matrix (Fin n) (Fin n) ℝ)
    (hd : ∀ i, L i i = ∑ j, w i j) (hw0 : ∀ i, w i i = 0) (ho : ∀ i j, i ≠ j → L i j = - w i j) :
    (∀ x, L.mulVec x = 0 ↔ ∀ i j, 0 < w i j → x i = x j) ∧
    ∃ ev : Fin n → ℝ, (∀ j, 0 ≤ ev j) ∧ L.charpoly = ∏ j, (Polynomial.X - Polynomial.C (ev j)) ∧
      (Finset.univ.filter (fun j => ev j = 0)).card = components (fun i j => 0 < w i j) := by
  have hq := lap_quad w hs L hd hw0 ho
  have hk : ∀ x, L.mulVec x = 0 ↔ ∀ i j, 0 < w i j → x i = x j := by
    intro x
    constructor
    · intro h i j hij
      have q := hq x
      rw [h, dotProduct_zero, mul_zero] at q
      have h1 := (Finset.sum_eq_zero_iff_of_nonneg (fun i _ => Finset.sum_nonneg (fun j _ => mul_nonneg (hp i j) (sq_nonneg _)))).mp q.symm i (Finset.mem_univ i)
      have h2 := (Finset.sum_eq_zero_iff_of_nonneg (fun j _ => mul_nonneg (hp i j) (sq_nonneg _))).mp h1 j (Finset.mem_univ j)
      rcases mul_eq_zero.mp h2 with h3 | h3
      · exact absurd h3 hij.ne'
      · exact sub_eq_zero.mp (by simpa using h3)
    · intro h
      funext i
      have e : ∀ j, L i j = (if i = j then ∑ k, w i k else 0) - w i j := by
        intro j
        by_cases h : i = j
        · subst h; rw [hd, if_pos rfl, hw0, sub_zero]
        · rw [ho i j h, if_neg h, zero_sub]
      simp only [mulVec, dotProduct, e, sub_mul, ite_mul, zero_mul, Finset.sum_sub_distrib, Finset.sum_ite_eq, Finset.mem_univ, if_true, Pi.zero_apply]
      rw [Finset.sum_mul, ← Finset.sum_sub_distrib]
      refine Finset.sum_eq_zero (fun j _ => ?_)
      rcases (hp i j).lt_or_eq with h1 | h1
      · rw [h i j h1, sub_self]
      · rw [← h1]; ring
  refine ⟨hk, ?_⟩
  have hH : L.IsHermitian := by
    ext i j
    rw [conjTranspose_apply, star_trivial]
    by_cases h : i = j
    · subst h; rfl
    · rw [ho i j h, ho j i (Ne.symm h), hs]
  have hP : L.PosSemidef := by
    refine PosSemidef.of_dotProduct_mulVec_nonneg hH (fun x => ?_)
    have := hq x
    have h0 : 0 ≤ ∑ i, ∑ j, w i j * (x i - x j) ^ 2 := Finset.sum_nonneg (fun i _ => Finset.sum_nonneg (fun j _ => mul_nonneg (hp i j) (sq_nonneg _)))
    have e : star x = x := by funext i; simp
    rw [e]
    linarith
  refine ⟨hP.1.eigenvalues, hP.eigenvalues_nonneg, by rw [hP.1.charpoly_eq]; rfl, ?_⟩
  have r := LinearMap.finrank_range_add_finrank_ker L.mulVecLin
  rw [Module.finrank_fin_fun] at r
  have r1 : finrank ℝ (LinearMap.range L.mulVecLin) = L.rank := rfl
  have r2 := hP.1.rank_eq_card_non_zero_eigs
  rw [Fintype.card_subtype] at r2
  have r3 := Finset.card_filter_add_card_filter_not (s := (Finset.univ : Finset (Fin n))) (fun j => hP.1.eigenvalues j = 0)
  rw [Finset.card_univ, Fintype.card_fin] at r3
  simp only [ne_eq] at r2
  have r4 : finrank ℝ (LinearMap.ker L.mulVecLin) = components (fun i j => 0 < w i j) := by
    let R : Fin n → Fin n → Prop := fun i j => 0 < w i j
    have : Fintype (Quot R) := Fintype.ofFinite _
    have e : LinearMap.ker L.mulVecLin ≃ₗ[ℝ] (Quot R → ℝ) :=
      { toFun := fun x => Quot.lift (fun i => x.1 i) (fun i j hij => (hk x.1).mp (LinearMap.mem_ker.mp x.2) i j hij)
        invFun := fun f => ⟨fun i => f (Quot.mk R i), LinearMap.mem_ker.mpr ((hk _).mpr (fun i j hij => by
          show f (Quot.mk R i) = f (Quot.mk R j)
          rw [Quot.sound (r := R) hij]))⟩
        map_add' := fun x y => by funext q; induction q using Quot.ind; rfl
        map_smul' := fun a x => by funext q; induction q using Quot.ind; rfl
        left_inv := fun x => by ext i; rfl
        right_inv := fun f => by funext q; induction q using Quot.ind; rfl }
    rw [e.finrank_eq, Module.finrank_fintype_fun_eq_card, components, Nat.card_eq_fintype_card]
  omega

variable {α : Type} [DecidableEq α]

theorem weight_nonneg {input : List (α × α × ℝ)} (hpos : ∀ e ∈ input, 0 ≤ e.2.2) (a b : α) : 0 ≤ weight input a b := by
  unfold weight
  split
  · next e he => exact hpos e (List.mem_reverse.mp (List.mem_of_find?_eq_some he))
  · exact le_refl _

/-- **C139.** The Laplacian of a graph built from a list of edges with weights that are not negative: its eigenvalues are not negative,
its null space consists of the functions that agree on any two vertices joined by an edge of positive weight, and the number of eigenvalues
zero, with multiplicity, is the number of components of the graph with the edges of positive weight. -/
theorem c139_graph (input : List (α × α × ℝ)) (hpos : ∀ e ∈ input, 0 ≤ e.2.2) (g : WGraph α ℝ) (hg : WGraph.ofEdges input = some g) :
    Spectrum g.labels.length (components (fun i j : Fin g.labels.length => 0 < weight input g.labels[i] g.labels[j])) ⟨g.labels.length, g.labels.length, g.laplacian⟩ ∧
    ∀ x : Fin g.labels.length → ℝ, (mat g.labels.length g.labels.length g.laplacian).mulVec x = 0 ↔
      ∀ i j : Fin g.labels.length, 0 < weight input g.labels[i] g.labels[j] → x i = x j := by
  obtain ⟨h1, h2, h3, h4⟩ := c61_laplacian input g hg
  obtain ⟨hiff, hspec⟩ := c61_from input
  obtain ⟨hne, hloop⟩ := hiff.mp (by rw [hg]; rfl)
  obtain ⟨k1, ev, k2, k3, k4⟩ := graph_lap (fun i j : Fin g.labels.length => weight input g.labels[i] g.labels[j]) (fun i j => weight_comm ..)
    (fun i j => weight_nonneg hpos _ _) (mat g.labels.length g.labels.length g.laplacian) (fun i => h2 i i.2) (fun i => weight_diag hloop ..)
    (fun i j hij => h1 i j i.2 j.2 (fun e => hij (Fin.ext e)))
  exact ⟨⟨rfl, rfl, ev, k2, k3, k4⟩, k1⟩

/-- with positive weights the components are those of the graph: two vertices are related exactly if some entry joins them -/
theorem c139_joined (input : List (α × α × ℝ)) (hpos : ∀ e ∈ input, 0 < e.2.2) (a b : α) :
    0 < weight input a b ↔ ∃ e ∈ input, (e.1 = a ∧ e.2.1 = b) ∨ (e.1 = b ∧ e.2.1 = a) := by
  unfold weight
  constructor
  · intro h
    split at h
    · next e he =>
      exact ⟨e, List.mem_reverse.mp (List.mem_of_find?_eq_some he), by simpa using List.find?_some he⟩
    · exact absurd h (lt_irrefl _)
  · rintro ⟨e, he, h⟩
    split
    · next e' he' => exact hpos e' (List.mem_reverse.mp (List.mem_of_find?_eq_some he'))
    · next hn =>
      rw [List.find?_eq_none] at hn
      exact absurd h (by simpa using hn e (List.mem_reverse.mpr he))

/-- the hypotheses of `c139_graph` are met by a graph with real weights -/
example : ∃ g, WGraph.ofEdges [("a", "b", (2 : ℝ)), ("c", "d", 3)] = some g := by
  have := (c61_from [("a", "b", (2 : ℝ)), ("c", "d", 3)]).1.mpr (by simp)
  exact Option.isSome_iff_exists.mp this

/-- a case: two components -/
example : (WGraph.ofEdges [("a", "b", (2 : Int)), ("c", "d", 3)]).map (fun g => (g.labels,
    (List.range 4).map (fun i => (List.range 4).map (g.laplacian i)))) =
    some (["a", "b", "c", "d"], [[2, -2, 0, 0], [-2, 2, 0, 0], [0, 0, 3, -3], [0, 0, -3, 3]]) := by decide +kernel

end Toppo.Lap
