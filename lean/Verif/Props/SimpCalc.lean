import Verif.Proof.SimpCalc
import Verif.Props.SimpHom
import Verif.Props.SimplicialCount
import Mathlib.LinearAlgebra.Finsupp.Pi
set_option linter.unusedVariables false
set_option linter.unusedSectionVars false
/-!
# C117: dimension zero and connectedness.  C118: cones and spheres.
-/
namespace Toppo.Simp
open Toppo Toppo.ModProps

/-- a module with the group `ℤ^n`: free rank `n`, and no torsion coefficient except units -/
def FreeOfRank (m : Mod) (n : Nat) : Prop := m.freeRank = n ∧ ∀ dk ∈ m.divisors, dk.1.natAbs = 1

theorem free_of_equiv {a : Mod} {n : Nat} (ha : ∀ dk ∈ a.divisors, dk.1 ≠ 0 ∧ 0 < dk.2) (ha' : a.divisors.Pairwise (fun x y => x.1 ∣ y.1))
    (e : Grp a ≃+ (Fin n → ℤ)) : FreeOfRank a n := by
  have e2 : (Fin n → ℤ) ≃+ Grp { freeRank := n, divisors := [] } :=
    { toFun := fun f => (f, fun i => i.elim0), invFun := fun p => p.1, left_inv := fun _ => rfl,
      right_inv := fun p => by ext i <;> [rfl; exact i.elim0], map_add' := fun _ _ => by ext i <;> [rfl; exact i.elim0] }
  obtain ⟨h1, h2⟩ := same_numbers (a := a) (b := { freeRank := n, divisors := [] }) (fun dk h => (ha dk h).1) ha' (by simp) (by simp) (e.trans e2)
  refine ⟨h1, fun dk hdk => ?_⟩
  by_contra hne
  have : dk.1.natAbs ∈ (orders a.divisors).filter (fun d => decide (d ≠ 1)) := by
    rw [List.mem_filter]
    refine ⟨?_, by simpa using hne⟩
    unfold orders
    rw [List.mem_flatMap]
    exact ⟨dk, hdk, List.mem_replicate.mpr ⟨by have := (ha dk hdk).2; omega, rfl⟩⟩
  rw [h2] at this
  simp [orders] at this

section
variable {T : Type} [DecidableEq T] [LinearOrder (Simplex T)]

/-- everything about one run of the program -/
theorem setup {history : List (List T)} (hh : GoodHistory history) (maxDim : Option Nat) :
    ∃ c bm f0 res, Cplx.build history = some c ∧ c.boundaryMap = some bm ∧ (∀ fuel, f0 ≤ fuel → Hom.new fuel bm maxDim = some res) ∧
      (∀ A B : Finset T, Listed bm A → B ⊆ A → B.Nonempty → Listed bm B) ∧ (∀ x, x ∈ history.flatten ↔ Listed bm {x}) ∧
      (∀ A, Listed bm A → IsFace history A) ∧
      (∀ (i : Nat) o, res[i]? = some o → ∀ n, Nonempty (Grp o.module ≃+ (Fin n → ℤ)) → FreeOfRank o.module n) ∧
      ∀ r : T → ℤ, (∀ x ∈ history.flatten, ∀ y ∈ history.flatten, r x = r y → x = y) → ∀ i,
        (∀ o, res[i]? = some o → Nonempty (SimpHom (Listed bm) r i ≃+ Grp o.module)) ∧
        (res[i]? = none → (∀ d, maxDim = some d → i ≤ d) → Subsingleton (SimpHom (Listed bm) r i)) := by
  obtain ⟨c, bm, r0, e1, e2, hk⟩ := known hh
  obtain ⟨c', bm', g1, g2, g3, g4, g5, g6⟩ := c46_complex hh
  rw [e1] at g1; cases g1
  rw [e2] at g2; cases g2
  obtain ⟨f0, res, h1, h2, h3, h4, -⟩ := Hom.c44_homology hk.cc maxDim
  obtain ⟨f1, res', k1, -, k2⟩ := reported hk maxDim
  have : res' = res := by
    have a := h1 (f0 + f1) (by omega)
    have b := k1 (f0 + f1) (by omega)
    rw [a] at b; exact (Option.some.inj b).symm
  subst this
  refine ⟨c, bm, f0, res', e1, e2, h1, g5, fun x => ⟨g6 x, fun h => by simpa using hk.subset h⟩, g4, ?_, ?_⟩
  · rintro i o ho n ⟨e⟩
    have hi : i < bm.length := by have := (List.getElem?_eq_some_iff.mp ho).1; omega
    have := (h2 i _ o (List.getElem?_eq_getElem hi) ho).torsion
    exact free_of_equiv (fun dk hd => (this.1 dk hd).2) this.2 e
  · intro r hr i
    have := k2 T id r (fun x _ y _ e => e) hr i
    rwa [renamed_id] at this

/-! ### C117 -/

/-- the connected components: labels, up to being in a common simplex -/
abbrev Components (history : List (List T)) (bm : List (Hom.BMap (Simplex T))) : Type :=
  Quot (fun x y : {x : T // x ∈ history.flatten} => Adjacent bm x.1 y.1)

/-- **C117**. For every history of `attach` calls the homology in dimension zero is reported; it is free, and its rank is the number of connected components. -/
theorem c117_components {history : List (List T)} (hh : GoodHistory history) (maxDim : Option Nat) :
    ∃ c bm f0 res o, Cplx.build history = some c ∧ c.boundaryMap = some bm ∧ (∀ fuel, f0 ≤ fuel → Hom.new fuel bm maxDim = some res) ∧
      res[0]? = some o ∧ Finite (Components history bm) ∧ FreeOfRank o.module (Nat.card (Components history bm)) := by
  obtain ⟨c, bm, f0, res, e1, e2, h1, hcl, hmem, hface, hfree, hiso⟩ := setup hh maxDim
  have hadj : ∀ x y : T, Adjacent bm x y ↔ Listed bm {x, y} := by
    intro x y
    constructor
    · rintro ⟨A, hA, hx, hy⟩
      exact hcl A _ hA (by intro z hz; simp at hz; rcases hz with rfl | rfl <;> assumption) (by simp)
    · intro h; exact ⟨_, h, by simp, by simp⟩
  let e : Components history bm ≃ Comp (Listed bm) :=
    Quot.congr (Equiv.subtypeEquivRight hmem) (fun x y => by exact hadj x.1 y.1)
  have hfin : Finite {x : T // x ∈ history.flatten} := List.finite_toSet history.flatten
  have hfC : Finite (Components history bm) := inferInstance
  let r : T → ℤ := fun x => (history.flatten.idxOf x : ℤ)
  have hr : ∀ x ∈ history.flatten, ∀ y ∈ history.flatten, r x = r y → x = y := by
    intro x hx y hy h
    have : history.flatten.idxOf x = history.flatten.idxOf y := Int.ofNat_inj.mp h
    exact (List.idxOf_inj hx).mp this
  obtain ⟨z⟩ := hom_zero (K := Listed bm) (r := r) (fun A B => hcl A B) (fun x y hx hy => hr x ((hmem x).mpr hx) y ((hmem y).mpr hy))
  have z2 : SimpHom (Listed bm) r 0 ≃+ (Fin (Nat.card (Components history bm)) → ℤ) := by
    have e3 : Comp (Listed bm) ≃ Fin (Nat.card (Components history bm)) := e.symm.trans (Finite.equivFin _)
    exact z.trans ((Finsupp.domLCongr (R := ℤ) (M := ℤ) e3).toAddEquiv.trans (Finsupp.linearEquivFunOnFinite ℤ ℤ _).toAddEquiv)
  cases ho : res[0]? with
  | some o =>
    refine ⟨c, bm, f0, res, o, e1, e2, h1, ho, hfC, ?_⟩
    obtain ⟨q⟩ := (hiso r hr 0).1 o ho
    exact hfree 0 o ho _ ⟨q.symm.trans z2⟩
  | none =>
    exfalso
    have hsub := (hiso r hr 0).2 ho (by simp)
    have hs2 : Subsingleton (Fin (Nat.card (Components history bm)) → ℤ) := z2.symm.toEquiv.subsingleton
    obtain ⟨s, hs⟩ := List.exists_mem_of_ne_nil _ hh.nonempty
    obtain ⟨x, hx⟩ := List.exists_mem_of_ne_nil _ (hh.simplices s hs).1
    have hne : Nonempty (Components history bm) := ⟨Quot.mk _ ⟨x, List.mem_flatten.mpr ⟨s, hs, hx⟩⟩⟩
    have hpos : 0 < Nat.card (Components history bm) := Nat.card_pos
    have := congrFun (hs2.elim (fun _ => 0) (fun _ => 1)) ⟨0, hpos⟩
    simp at this

/-- **C117 and C48**. `is_connected` is true exactly when the homology in dimension zero has rank one. -/
theorem c117_connected {history : List (List T)} (hh : GoodHistory history) (maxDim : Option Nat) :
    ∃ c bm f0 res o b, Cplx.build history = some c ∧ c.boundaryMap = some bm ∧ (∀ fuel, f0 ≤ fuel → Hom.new fuel bm maxDim = some res) ∧
      res[0]? = some o ∧ (∀ fuel, history.flatten.toFinset.card < fuel → c.isConnected fuel = some b) ∧ (b = true ↔ o.module.freeRank = 1) := by
  obtain ⟨c, bm, f0, res, o, e1, e2, h1, h2, h3, h4, -⟩ := c117_components hh maxDim
  obtain ⟨c', bm', b, g1, g2, g3, g4⟩ := c48_is_connected hh
  rw [e1] at g1; cases g1
  rw [e2] at g2; cases g2
  refine ⟨c, bm, f0, res, o, b, e1, e2, h1, h2, g3, ?_⟩
  rw [g4, h4]
  obtain ⟨c', bm', k1, k2, -, -, -, k3⟩ := c46_complex hh
  rw [e1] at k1; cases k1
  rw [e2] at k2; cases k2
  have hsymm : ∀ x y, Adjacent bm x y → Adjacent bm y x := fun x y ⟨A, h, hx, hy⟩ => ⟨A, h, hy, hx⟩
  have hin : ∀ x y, Adjacent bm x y → y ∈ history.flatten := by
    rintro x y ⟨A, hA, hx, hy⟩
    obtain ⟨c', bm', q1, q2, -, q3, -⟩ := c46_complex hh
    rw [e1] at q1; cases q1
    rw [e2] at q2; cases q2
    obtain ⟨-, s, hs, hsub⟩ := q3 A hA
    exact List.mem_flatten.mpr ⟨s, hs, by simpa using hsub hy⟩
  constructor
  · intro hall
    obtain ⟨s, hs⟩ := List.exists_mem_of_ne_nil _ hh.nonempty
    obtain ⟨x, hx⟩ := List.exists_mem_of_ne_nil _ (hh.simplices s hs).1
    have hxf : x ∈ history.flatten := List.mem_flatten.mpr ⟨s, hs, hx⟩
    rw [Nat.card_eq_one_iff_unique]
    refine ⟨⟨?_⟩, ⟨Quot.mk _ ⟨x, hxf⟩⟩⟩
    rintro ⟨y⟩ ⟨w⟩
    have path : ∀ w, Relation.ReflTransGen (Adjacent bm) y.1 w → ∀ hw : w ∈ history.flatten, (Quot.mk _ y : Components history bm) = Quot.mk _ ⟨w, hw⟩ := by
      intro w h
      induction h with
      | refl => intro hw; rfl
      | @tail p q hp hpq ih =>
        intro hw
        rw [ih (hin q p (hsymm p q hpq))]
        exact Quot.sound hpq
    exact path w.1 (hall _ y.2 _ w.2) w.2
  · intro h1' x hx y hy
    obtain ⟨hs, -⟩ := Nat.card_eq_one_iff_unique.mp h1'
    have := Quot.eqvGen_exact (hs.elim (Quot.mk _ ⟨x, hx⟩) (Quot.mk _ ⟨y, hy⟩))
    suffices ∀ u w : {x : T // x ∈ history.flatten}, Relation.EqvGen (fun x y : {x : T // x ∈ history.flatten} => Adjacent bm x.1 y.1) u w →
        Relation.ReflTransGen (Adjacent bm) u.1 w.1 from this _ _ ‹_›
    intro u w h
    induction h with
    | rel a b h => exact Relation.ReflTransGen.single h
    | refl a => exact Relation.ReflTransGen.refl
    | symm a b _ ih => have : Std.Symm (Adjacent bm) := ⟨fun x y h => hsymm x y h⟩; exact Relation.ReflTransGen.stdSymm.symm _ _ ih
    | trans a b c _ _ i1 i2 => exact i1.trans i2

/-! ### C118 -/

/-- an order of the labels in which `v` comes first -/
theorem first_order (history : List (List T)) (v : T) : ∃ r : T → ℤ, (∀ x ∈ history.flatten, ∀ y ∈ history.flatten, r x = r y → x = y) ∧
    ∀ x, x ≠ v → r v < r x := by
  refine ⟨fun x => if x = v then 0 else history.flatten.idxOf x + 1, ?_, ?_⟩
  · intro x hx y hy h
    simp only at h
    split_ifs at h with h1 h2 h2
    · rw [h1, h2]
    · omega
    · omega
    · have : history.flatten.idxOf x = history.flatten.idxOf y := by omega
      exact (List.idxOf_inj hx).mp this
  · intro x hx
    simp only [if_neg hx, if_true]
    omega

theorem connected_zero {K : Finset T → Prop} {r : T → ℤ} (hcl : ∀ A B, K A → B ⊆ A → B.Nonempty → K B) (hr : ∀ x y, K {x} → K {y} → r x = r y → x = y)
    (v : T) (hv : K {v}) (h : ∀ x, K {x} → K {x, v}) : Nonempty (SimpHom K r 0 ≃+ (Fin 1 → ℤ)) := by
  obtain ⟨z⟩ := hom_zero hcl hr
  have : ∀ q : Comp K, q = Quot.mk _ ⟨v, hv⟩ := by
    rintro ⟨x⟩
    exact Quot.sound (h x.1 x.2)
  let u : Unique (Comp K) := ⟨⟨Quot.mk _ ⟨v, hv⟩⟩, this⟩
  exact ⟨z.trans ((Finsupp.domLCongr (R := ℤ) (M := ℤ) (Equiv.ofUnique (Comp K) (Fin 1))).toAddEquiv.trans (Finsupp.linearEquivFunOnFinite ℤ ℤ _).toAddEquiv)⟩

theorem of_subsingleton {G : Type} [AddCommGroup G] (h : Subsingleton G) : Nonempty (G ≃+ (Fin 0 → ℤ)) :=
  ⟨{ toFun := fun _ => 0, invFun := fun _ => 0, left_inv := fun x => h.elim _ _, right_inv := fun x => Subsingleton.elim _ _,
     map_add' := fun _ _ => Subsingleton.elim _ _ }⟩

/-- **C118**. If every listed simplex can be extended by the label `v` (a cone with apex `v`), the homology is that of a point: dimension zero is reported and has
rank one, every other dimension, if reported, is trivial. -/
theorem c118_cone {history : List (List T)} (hh : GoodHistory history) (maxDim : Option Nat) :
    ∃ c bm f0 res, Cplx.build history = some c ∧ c.boundaryMap = some bm ∧ (∀ fuel, f0 ≤ fuel → Hom.new fuel bm maxDim = some res) ∧
      ∀ v, (∀ A, Listed bm A → Listed bm (insert v A)) →
        (∃ o, res[0]? = some o ∧ FreeOfRank o.module 1) ∧ ∀ (i : Nat) o, 0 < i → res[i]? = some o → FreeOfRank o.module 0 := by
  obtain ⟨c, bm, f0, res, e1, e2, h1, hcl, hmem, hface, hfree, hiso⟩ := setup hh maxDim
  refine ⟨c, bm, f0, res, e1, e2, h1, fun v hv => ?_⟩
  obtain ⟨r, hr, hmin⟩ := first_order history v
  have hvL : Listed bm {v} := by
    obtain ⟨s, hs⟩ := List.exists_mem_of_ne_nil _ hh.nonempty
    obtain ⟨x, hx⟩ := List.exists_mem_of_ne_nil _ (hh.simplices s hs).1
    have := hv _ ((hmem x).mp (List.mem_flatten.mpr ⟨s, hs, hx⟩))
    exact hcl _ _ this (by simp) (by simp)
  obtain ⟨z⟩ := connected_zero (K := Listed bm) (r := r) (fun A B => hcl A B) (fun x y hx hy => hr x ((hmem x).mpr hx) y ((hmem y).mpr hy)) v hvL
    (fun x hx => by have := hv _ hx; rwa [Finset.pair_comm] at this)
  constructor
  · cases ho : res[0]? with
    | some o =>
      obtain ⟨q⟩ := (hiso r hr 0).1 o ho
      exact ⟨o, rfl, hfree 0 o ho _ ⟨q.symm.trans z⟩⟩
    | none =>
      exfalso
      have hsub := (hiso r hr 0).2 ho (by simp)
      have hs2 : Subsingleton (Fin 1 → ℤ) := z.symm.toEquiv.subsingleton
      have := congrFun (hs2.elim (fun _ => 0) (fun _ => 1)) 0
      simp at this
  · intro i o hi ho
    obtain ⟨q⟩ := (hiso r hr i).1 o ho
    have := cone_trivial (K := Listed bm) (r := r) (v := v) (fun A _ x _ => hmin x) hi (fun A hA _ _ => hv A hA)
    exact hfree i o ho 0 (of_subsingleton q.symm.toEquiv.subsingleton)

/-- **C118** with at most 64 labels: a common label of all attached simplices is enough, for example a single simplex. -/
theorem c118_common_label {history : List (List T)} (hh : GoodHistory history) (hb : history.flatten.toFinset.card ≤ 64) (v : T) (hv : ∀ s ∈ history, v ∈ s)
    (maxDim : Option Nat) :
    ∃ c bm f0 res, Cplx.build history = some c ∧ c.boundaryMap = some bm ∧ (∀ fuel, f0 ≤ fuel → Hom.new fuel bm maxDim = some res) ∧
      (∃ o, res[0]? = some o ∧ FreeOfRank o.module 1) ∧ ∀ (i : Nat) o, 0 < i → res[i]? = some o → FreeOfRank o.module 0 := by
  obtain ⟨c, bm, f0, res, e1, e2, h1, h2⟩ := c118_cone hh maxDim
  refine ⟨c, bm, f0, res, e1, e2, h1, h2 v ?_⟩
  rw [listed_eq hh hb e1 e2]
  rintro A ⟨-, s, hs, hsub⟩
  exact ⟨by simp, s, hs, Finset.insert_subset (by simpa using hv s hs) hsub⟩

/-- **C118, spheres**. If the listed simplices are the proper faces of a simplex with `n + 2` labels, `n ≥ 1`, the homology is that of the sphere of dimension `n`:
dimensions 0 and `n` are reported (within the bound) with rank one, all others, if reported, are trivial. -/
theorem c118_sphere {history : List (List T)} (hh : GoodHistory history) (maxDim : Option Nat) :
    ∃ c bm f0 res, Cplx.build history = some c ∧ c.boundaryMap = some bm ∧ (∀ fuel, f0 ≤ fuel → Hom.new fuel bm maxDim = some res) ∧
      ∀ (S : Finset T) (n : Nat), 0 < n → S.card = n + 2 → (∀ A, Listed bm A ↔ A.Nonempty ∧ A ⊂ S) →
        (∃ o, res[0]? = some o ∧ FreeOfRank o.module 1) ∧ ((∀ d, maxDim = some d → n ≤ d) → ∃ o, res[n]? = some o ∧ FreeOfRank o.module 1) ∧
        ∀ (i : Nat) o, i ≠ 0 → i ≠ n → res[i]? = some o → FreeOfRank o.module 0 := by
  obtain ⟨c, bm, f0, res, e1, e2, h1, hcl, hmem, hface, hfree, hiso⟩ := setup hh maxDim
  refine ⟨c, bm, f0, res, e1, e2, h1, fun S n hn hc hS => ?_⟩
  have hK : Listed bm = Sphere S := by funext A; exact propext (hS A)
  have hss : ∀ A : Finset T, A ⊆ S → A.card < n + 2 → A ⊂ S := fun A hA hlt => Finset.ssubset_iff_subset_ne.mpr ⟨hA, fun e => by rw [e] at hlt; omega⟩
  have hSm : ∀ x ∈ S, x ∈ history.flatten := by
    intro x hx
    rw [hmem, hS]
    exact ⟨by simp, hss _ (by simpa using hx) (by simp)⟩
  obtain ⟨v, hv⟩ : S.Nonempty := Finset.card_pos.mp (by omega)
  obtain ⟨r, hr, hmin⟩ := first_order history v
  have hvL : Listed bm {v} := (hmem v).mp (hSm v hv)
  obtain ⟨z⟩ := connected_zero (K := Listed bm) (r := r) (fun A B => hcl A B) (fun x y hx hy => hr x ((hmem x).mpr hx) y ((hmem y).mpr hy)) v hvL
    (fun x hx => by
      rw [hS] at hx ⊢
      refine ⟨by simp, hss _ ?_ ?_⟩
      · exact Finset.insert_subset (by simpa using hx.2.subset) (by simpa using hv)
      · have := Finset.card_le_two (a := x) (b := v); omega)
  have one : ∀ i, Nonempty (SimpHom (Listed bm) r i ≃+ (Fin 1 → ℤ)) → (∀ d, maxDim = some d → i ≤ d) → ∃ o, res[i]? = some o ∧ FreeOfRank o.module 1 := by
    rintro i ⟨z⟩ hd
    cases ho : res[i]? with
    | some o =>
      obtain ⟨q⟩ := (hiso r hr i).1 o ho
      exact ⟨o, rfl, hfree i o ho _ ⟨q.symm.trans z⟩⟩
    | none =>
      exfalso
      have hsub := (hiso r hr i).2 ho hd
      have hs2 : Subsingleton (Fin 1 → ℤ) := z.symm.toEquiv.subsingleton
      have := congrFun (hs2.elim (fun _ => 0) (fun _ => 1)) 0
      simp at this
  refine ⟨one 0 ⟨z⟩ (by simp), fun hd => one n ?_ hd, ?_⟩
  · rw [hK]
    obtain ⟨t⟩ := sphere_top (r := r) (S := S) (fun x hx y hy => hr x (hSm x hx) y (hSm y hy)) hn hc
    exact ⟨t.trans (LinearEquiv.funUnique (Fin 1) ℤ ℤ).symm.toAddEquiv⟩
  · intro i o hi hin ho
    obtain ⟨q⟩ := (hiso r hr i).1 o ho
    have : Subsingleton (SimpHom (Listed bm) r i) := by
      rcases Nat.lt_or_gt_of_ne hin with hlt | hgt
      · refine cone_trivial (K := Listed bm) (r := r) (v := v) (fun A _ x _ => hmin x) (by omega) (fun A hA hcA hvA => ?_)
        rw [hS] at hA ⊢
        exact ⟨by simp, hss _ (Finset.insert_subset hv hA.2.subset) (by rw [Finset.card_insert_of_notMem hvA]; omega)⟩
      · refine cone_trivial (K := Listed bm) (r := r) (v := v) (fun A _ x _ => hmin x) (by omega) (fun A hA hcA hvA => ?_)
        rw [hS] at hA
        have := Finset.card_lt_card hA.2
        omega
    exact hfree i o ho 0 (of_subsingleton q.symm.toEquiv.subsingleton)

/-- **C118, spheres** with at most 64 labels: attaching the `l.length` faces of codimension one of the simplex with the labels `l`. -/
theorem c118_facets (l : List T) (hl : l.Nodup) (n : Nat) (hn : 0 < n) (hc : l.length = n + 2) (hb : l.length ≤ 64) (maxDim : Option Nat) :
    ∃ c bm f0 res, Cplx.build (l.map (fun x => l.erase x)) = some c ∧ c.boundaryMap = some bm ∧ (∀ fuel, f0 ≤ fuel → Hom.new fuel bm maxDim = some res) ∧
        (∃ o, res[0]? = some o ∧ FreeOfRank o.module 1) ∧ ((∀ d, maxDim = some d → n ≤ d) → ∃ o, res[n]? = some o ∧ FreeOfRank o.module 1) ∧
        ∀ (i : Nat) o, i ≠ 0 → i ≠ n → res[i]? = some o → FreeOfRank o.module 0 := by
  have hh : GoodHistory (l.map (fun x => l.erase x)) := by
    refine ⟨?_, ?_⟩
    · intro e
      rw [List.map_eq_nil_iff] at e
      rw [e] at hc; simp at hc
    · intro s hs
      obtain ⟨x, hx, rfl⟩ := List.mem_map.mp hs
      refine ⟨?_, hl.erase x⟩
      intro e
      have := List.length_erase_of_mem hx
      rw [e, hc] at this; simp at this
  have hf : ∀ x ∈ (l.map (fun x => l.erase x)).flatten, x ∈ l := by
    intro x hx
    obtain ⟨s, hs, hxs⟩ := List.mem_flatten.mp hx
    obtain ⟨y, hy, rfl⟩ := List.mem_map.mp hs
    exact List.mem_of_mem_erase hxs
  have hb' : (l.map (fun x => l.erase x)).flatten.toFinset.card ≤ 64 := by
    refine le_trans (Finset.card_le_card (t := l.toFinset) ?_) ((List.toFinset_card_le l).trans hb)
    intro x hx
    simpa using hf x (by simpa using hx)
  obtain ⟨c, bm, f0, res, e1, e2, h1, h2⟩ := c118_sphere hh maxDim
  refine ⟨c, bm, f0, res, e1, e2, h1, h2 l.toFinset n hn (by rw [List.toFinset_card_of_nodup hl, hc]) ?_⟩
  rw [listed_eq hh hb' e1 e2]
  intro A
  constructor
  · rintro ⟨hne, s, hs, hsub⟩
    obtain ⟨y, hy, rfl⟩ := List.mem_map.mp hs
    refine ⟨hne, Finset.ssubset_iff_subset_ne.mpr ⟨fun x hx => ?_, ?_⟩⟩
    · have := hsub hx
      simp only [List.mem_toFinset] at this ⊢
      exact List.mem_of_mem_erase this
    · rintro rfl
      have := hsub (by simpa using hy : y ∈ l.toFinset)
      simp [hl.mem_erase_iff] at this
  · rintro ⟨hne, hsub⟩
    obtain ⟨y, hy, hyA⟩ := Finset.exists_of_ssubset hsub
    refine ⟨hne, l.erase y, List.mem_map.mpr ⟨y, by simpa using hy, rfl⟩, fun x hx => ?_⟩
    have h1 := hsub.subset hx
    simp only [List.mem_toFinset] at h1 ⊢
    rw [hl.mem_erase_iff]
    exact ⟨fun e => hyA (e ▸ hx), h1⟩

end

/-! ### cases that meet the hypotheses -/

example : GoodHistory [[1, 2, 3], [3, 4], [3]] ∧ ([[1, 2, 3], [3, 4], [3]] : List (List Nat)).flatten.toFinset.card ≤ 64 ∧ ∀ s ∈ [[1, 2, 3], [3, 4], [3]], 3 ∈ s :=
  ⟨⟨by simp, by decide⟩, by decide, by decide⟩

example : [5, 2, 9, 4].Nodup ∧ [5, 2, 9, 4].length = 2 + 2 ∧ [5, 2, 9, 4].length ≤ 64 := by decide

end Toppo.Simp
