import Verif.Model.Module
import Mathlib.GroupTheory.SpecificGroups.Cyclic
import Mathlib.Data.ZMod.Basic
import Mathlib.LinearAlgebra.Pi
import Mathlib.LinearAlgebra.Prod
import Mathlib.Algebra.BigOperators.Fin
import Mathlib.Tactic.Linarith
set_option linter.unusedVariables false

/-
C43: `Module` (finitely generated abelian groups given by free rank and elementary divisors).
-/
namespace Toppo.ModProps
open Toppo

/-- The orders of the cyclic summands a divisor list stands for: `(d, k)` is `k` summands `ℤ/dℤ`. -/
def orders (l : List (Int × Nat)) : List Nat := l.flatMap (fun dk => List.replicate dk.2 dk.1.natAbs)

/-- The product of the cyclic groups of orders `l`. -/
abbrev Cyc (l : List Nat) : Type := (i : Fin l.length) → ZMod (l.get i)

/-- The abelian group a `Module` value stands for: `ℤ^r ⊕ ⨁ ℤ/d`. -/
abbrev Grp (a : Mod) : Type := (Fin a.freeRank → ℤ) × Cyc (orders a.divisors)

/-- Elementary divisors in the form the homology code produces: every divisor at least two, multiplicities positive, each
divisor properly divides the later ones. -/
def Canonical (a : Mod) : Prop :=
  (∀ dk ∈ a.divisors, 2 ≤ dk.1 ∧ 0 < dk.2) ∧ a.divisors.Pairwise (fun x y => x.1 ∣ y.1 ∧ x.1 ≠ y.1)

/-! ### counting homomorphisms into `ZMod n` -/

/-- homomorphisms out of `ZMod d` are the elements killed by `d` -/
def homZMod (d n : Nat) : (ZMod d →+ ZMod n) ≃ {x : ZMod n // d • x = 0} where
  toFun f := ⟨f 1, by rw [← map_nsmul]; simp⟩
  invFun x := ZMod.lift d ⟨zmultiplesHom _ x.1, by simpa using x.2⟩
  left_inv f := by
    apply AddMonoidHom.ext
    intro z
    obtain ⟨k, rfl⟩ := ZMod.intCast_surjective z
    simp only [ZMod.lift_coe, zmultiplesHom_apply]
    rw [← map_zsmul]; simp
  right_inv x := by
    apply Subtype.ext
    have : (1 : ZMod d) = ((1 : ℤ) : ZMod d) := by simp
    simp only
    rw [this, ZMod.lift_coe]; simp

theorem card_homZMod (d n : Nat) [NeZero n] : Nat.card (ZMod d →+ ZMod n) = n.gcd d := by
  rw [Nat.card_congr (homZMod d n)]
  have := IsAddCyclic.card_nsmulAddMonoidHom_ker (ZMod n) d
  rw [Nat.card_zmod] at this
  rw [← this]
  rfl

theorem card_cyc (n : Nat) [NeZero n] (l : List Nat) : Nat.card (Cyc l →+ ZMod n) = (l.map (fun d => n.gcd d)).prod := by
  have e : ((i : Fin l.length) → (ZMod (l.get i) →ₗ[ℤ] ZMod n)) ≃ (Cyc l →+ ZMod n) :=
    (LinearMap.lsum ℤ (fun i : Fin l.length => ZMod (l.get i)) ℤ).toEquiv.trans
      ⟨fun f => f.toAddMonoidHom, fun f => f.toIntLinearMap, fun _ => rfl, fun _ => rfl⟩
  have e2 : ∀ d : Nat, Nat.card (ZMod d →ₗ[ℤ] ZMod n) = n.gcd d := fun d => by
    rw [← card_homZMod d n]
    exact Nat.card_congr ⟨fun f => f.toAddMonoidHom, fun f => f.toIntLinearMap, fun _ => rfl, fun _ => rfl⟩
  rw [← Nat.card_congr e, Nat.card_pi]
  simp only [e2, List.get_eq_getElem]
  have := Fin.prod_univ_fun_getElem l (fun d => n.gcd d)
  simpa using this

theorem card_hom (n : Nat) [NeZero n] (a : Mod) :
    Nat.card (Grp a →+ ZMod n) = n ^ a.freeRank * ((orders a.divisors).map (fun d => n.gcd d)).prod := by
  have e : (((Fin a.freeRank → ℤ) →ₗ[ℤ] ZMod n) × (Cyc (orders a.divisors) →ₗ[ℤ] ZMod n)) ≃ (Grp a →+ ZMod n) :=
    (LinearMap.coprodEquiv ℤ).toEquiv.trans ⟨fun f => f.toAddMonoidHom, fun f => f.toIntLinearMap, fun _ => rfl, fun _ => rfl⟩
  rw [← Nat.card_congr e, Nat.card_prod, ← card_cyc]
  congr 1
  · rw [Nat.card_congr ((LinearMap.lsum ℤ (fun _ : Fin a.freeRank => ℤ) ℤ).symm.toEquiv), Nat.card_pi]
    have : Nat.card (ℤ →ₗ[ℤ] ZMod n) = n := by
      rw [Nat.card_congr (LinearMap.ringLmapEquivSelf ℤ ℤ (ZMod n)).toEquiv, Nat.card_zmod]
    simp [this]
  · exact Nat.card_congr ⟨fun f => f.toAddMonoidHom, fun f => f.toIntLinearMap, fun _ => rfl, fun _ => rfl⟩

/-! ### uniqueness of the orders -/

theorem gcd_prod_le (n : Nat) (l : List Nat) (hl : ∀ d ∈ l, 0 < d) : (l.map (fun d => n.gcd d)).prod ≤ l.prod := by
  induction l with
  | nil => simp
  | cons a l ih =>
    simp only [List.map_cons, List.prod_cons]
    exact Nat.mul_le_mul (Nat.gcd_le_right _ (hl a (by simp))) (ih (fun d hd => hl d (by simp [hd])))

theorem gcd_prod_pos (n : Nat) (l : List Nat) (hl : ∀ d ∈ l, 0 < d) : 0 < (l.map (fun d => n.gcd d)).prod := by
  induction l with
  | nil => simp
  | cons a l ih =>
    simp only [List.map_cons, List.prod_cons]
    exact Nat.mul_pos (Nat.gcd_pos_of_pos_right _ (hl a (by simp))) (ih (fun d hd => hl d (by simp [hd])))

theorem gcd_prod_eq (n : Nat) (l : List Nat) (h : ∀ d ∈ l, d ∣ n) : (l.map (fun d => n.gcd d)).prod = l.prod := by
  congr 1
  conv_rhs => rw [← List.map_id l]
  exact List.map_congr_left (fun d hd => Nat.gcd_eq_right (h d hd))

theorem dvd_of_gcd_prod_eq (n : Nat) (l : List Nat) (hl : ∀ d ∈ l, 0 < d) (h : (l.map (fun d => n.gcd d)).prod = l.prod) : ∀ d ∈ l, d ∣ n := by
  induction l with
  | nil => simp
  | cons a l ih =>
    have hl' : ∀ d ∈ l, 0 < d := fun d hd => hl d (by simp [hd])
    have h1 := gcd_prod_le n l hl'
    have h2 := Nat.gcd_le_right n (hl a (by simp))
    have h0 := gcd_prod_pos n l hl'
    simp only [List.map_cons, List.prod_cons] at h
    have h3 : n.gcd a = a := by
      by_contra hne
      have : n.gcd a < a := lt_of_le_of_ne h2 hne
      have := Nat.mul_lt_mul_of_lt_of_le this h1 (by omega)
      omega
    rw [h3] at h
    have h4 := Nat.eq_of_mul_eq_mul_left (hl a (by simp)) h
    intro d hd
    rcases List.mem_cons.mp hd with rfl | hd
    · exact Nat.gcd_eq_right_iff_dvd.mp h3
    · exact ih hl' h4 d hd

/-- divisibility chains, largest first, are determined by `n ↦ ∏ gcd(n, d)` -/
theorem chain_unique : ∀ (l l' : List Nat), (∀ d ∈ l, 2 ≤ d) → (∀ d ∈ l', 2 ≤ d) → l.Pairwise (fun x y => y ∣ x) → l'.Pairwise (fun x y => y ∣ x) →
    (∀ n, 0 < n → (l.map (fun d => n.gcd d)).prod = (l'.map (fun d => n.gcd d)).prod) → l = l'
  | [], [], _, _, _, _, _ => rfl
  | [], b :: l', _, h', _, p', h => by
    have := h b (by have := h' b (by simp); omega)
    rw [gcd_prod_eq b (b :: l') (by
      intro d hd
      rcases List.mem_cons.mp hd with rfl | hd
      · exact dvd_rfl
      · exact (List.pairwise_cons.mp p').1 d hd)] at this
    simp only [List.map_nil, List.prod_nil, List.prod_cons] at this
    have h2 := h' b (by simp)
    have := Nat.dvd_one.mp ⟨_, this⟩
    omega
  | a :: l, [], h', _, p', _, h => by
    have := h a (by have := h' a (by simp); omega)
    rw [gcd_prod_eq a (a :: l) (by
      intro d hd
      rcases List.mem_cons.mp hd with rfl | hd
      · exact dvd_rfl
      · exact (List.pairwise_cons.mp p').1 d hd)] at this
    simp only [List.map_nil, List.prod_nil, List.prod_cons] at this
    have h2 := h' a (by simp)
    have := Nat.dvd_one.mp ⟨_, this.symm⟩
    omega
  | a :: l, b :: l', h1, h2, p1, p2, h => by
    have pos1 : ∀ d ∈ a :: l, 0 < d := fun d hd => by have := h1 d hd; omega
    have pos2 : ∀ d ∈ b :: l', 0 < d := fun d hd => by have := h2 d hd; omega
    have d1 : ∀ d ∈ a :: l, d ∣ a := by
      intro d hd
      rcases List.mem_cons.mp hd with rfl | hd
      · exact dvd_rfl
      · exact (List.pairwise_cons.mp p1).1 d hd
    have d2 : ∀ d ∈ b :: l', d ∣ b := by
      intro d hd
      rcases List.mem_cons.mp hd with rfl | hd
      · exact dvd_rfl
      · exact (List.pairwise_cons.mp p2).1 d hd
    -- the two products agree
    have hab := h (a * b) (Nat.mul_pos (pos1 a (by simp)) (pos2 b (by simp)))
    rw [gcd_prod_eq _ _ (fun d hd => (d1 d hd).mul_right b), gcd_prod_eq _ _ (fun d hd => (d2 d hd).mul_left a)] at hab
    have ha := h a (pos1 a (by simp))
    rw [gcd_prod_eq _ _ d1, hab] at ha
    have hb := h b (pos2 b (by simp))
    rw [gcd_prod_eq _ _ d2, ← hab] at hb
    have e1 : b ∣ a := dvd_of_gcd_prod_eq a _ pos2 ha.symm b (by simp)
    have e2 : a ∣ b := dvd_of_gcd_prod_eq b _ pos1 hb a (by simp)
    have e : a = b := Nat.dvd_antisymm e2 e1
    subst e
    congr 1
    refine chain_unique l l' (fun d hd => h1 d (by simp [hd])) (fun d hd => h2 d (by simp [hd]))
      (List.pairwise_cons.mp p1).2 (List.pairwise_cons.mp p2).2 (fun n hn => ?_)
    have := h n hn
    simp only [List.map_cons, List.prod_cons] at this
    exact Nat.eq_of_mul_eq_mul_left (Nat.gcd_pos_of_pos_right _ (pos1 a (by simp))) this

theorem orders_cons (x : Int × Nat) (l : List (Int × Nat)) : orders (x :: l) = List.replicate x.2 x.1.natAbs ++ orders l := by simp [orders]

theorem mem_orders {l : List (Int × Nat)} {d : Nat} (h : d ∈ orders l) : ∃ x ∈ l, d = x.1.natAbs := by
  simp only [orders, List.mem_flatMap, List.mem_replicate] at h
  obtain ⟨x, h1, h2, h3⟩ := h
  exact ⟨x, h1, h3⟩

theorem orders_chain {a : Mod} (h : Canonical a) : (∀ d ∈ orders a.divisors, 2 ≤ d) ∧ (orders a.divisors).Pairwise (fun x y => x ∣ y) := by
  obtain ⟨r, l⟩ := a
  obtain ⟨h1, h2⟩ := h
  simp only at h1 h2 ⊢
  constructor
  · intro d hd
    obtain ⟨x, hx, rfl⟩ := mem_orders hd
    have := h1 x hx; omega
  · induction l with
    | nil => simp [orders]
    | cons x l ih =>
      rw [orders_cons, List.pairwise_append]
      refine ⟨?_, ih (fun y hy => h1 y (by simp [hy])) (List.pairwise_cons.mp h2).2, ?_⟩
      · rw [List.pairwise_replicate]; right; exact dvd_rfl
      · intro p hp q hq
        obtain ⟨y, hy, rfl⟩ := mem_orders hq
        rw [List.mem_replicate] at hp
        rw [hp.2]
        exact Int.natAbs_dvd_natAbs.mpr ((List.pairwise_cons.mp h2).1 y hy).1

theorem replicate_append_inj {x : Nat} {k k' : Nat} {t t' : List Nat} (h : List.replicate k x ++ t = List.replicate k' x ++ t')
    (ht : x ∉ t) (ht' : x ∉ t') : k = k' ∧ t = t' := by
  have hc := congrArg (List.count x) h
  simp only [List.count_append, List.count_replicate_self, List.count_eq_zero.mpr ht, List.count_eq_zero.mpr ht'] at hc
  have hk : k = k' := by omega
  subst hk
  exact ⟨rfl, List.append_cancel_left h⟩

theorem orders_inj : ∀ (l l' : List (Int × Nat)), (∀ dk ∈ l, 2 ≤ dk.1 ∧ 0 < dk.2) → (∀ dk ∈ l', 2 ≤ dk.1 ∧ 0 < dk.2) →
    l.Pairwise (fun x y => x.1 ∣ y.1 ∧ x.1 ≠ y.1) → l'.Pairwise (fun x y => x.1 ∣ y.1 ∧ x.1 ≠ y.1) → orders l = orders l' → l = l'
  | [], [], _, _, _, _, _ => rfl
  | [], y :: l', _, h, _, _, e => by
    rw [orders_cons] at e
    have := (h y (by simp)).2
    obtain ⟨k, hk⟩ := Nat.exists_eq_succ_of_ne_zero (by omega : y.2 ≠ 0)
    rw [hk, List.replicate_succ] at e
    simp [orders] at e
  | x :: l, [], h, _, _, _, e => by
    rw [orders_cons] at e
    have := (h x (by simp)).2
    obtain ⟨k, hk⟩ := Nat.exists_eq_succ_of_ne_zero (by omega : x.2 ≠ 0)
    rw [hk, List.replicate_succ] at e
    simp [orders] at e
  | x :: l, y :: l', h1, h2, p1, p2, e => by
    rw [orders_cons, orders_cons] at e
    have hx := h1 x (by simp)
    have hy := h2 y (by simp)
    have hxy : x.1.natAbs = y.1.natAbs := by
      obtain ⟨k, hk⟩ := Nat.exists_eq_succ_of_ne_zero (by omega : x.2 ≠ 0)
      obtain ⟨k', hk'⟩ := Nat.exists_eq_succ_of_ne_zero (by omega : y.2 ≠ 0)
      rw [hk, hk', List.replicate_succ, List.replicate_succ] at e
      exact (List.cons_eq_cons.mp e).1
    have hn : ∀ (z : Int × Nat) (t : List (Int × Nat)), 2 ≤ z.1 → (∀ dk ∈ t, 2 ≤ dk.1 ∧ 0 < dk.2) → (∀ u ∈ t, z.1 ∣ u.1 ∧ z.1 ≠ u.1) → z.1.natAbs ∉ orders t := by
      intro z t hz ht hu hm
      obtain ⟨u, h3, h4⟩ := mem_orders hm
      have := ht u h3
      exact (hu u h3).2 (by omega)
    have n1 := hn x l hx.1 (fun u hu => h1 u (by simp [hu])) (List.pairwise_cons.mp p1).1
    have n2 := hn y l' hy.1 (fun u hu => h2 u (by simp [hu])) (List.pairwise_cons.mp p2).1
    rw [hxy] at e n1
    obtain ⟨e1, e2⟩ := replicate_append_inj e n1 n2
    have : x = y := Prod.ext (by omega) e1
    rw [this, orders_inj l l' (fun u hu => h1 u (by simp [hu])) (fun u hu => h2 u (by simp [hu])) (List.pairwise_cons.mp p1).2 (List.pairwise_cons.mp p2).2 e2]

theorem orders_prod_dvd (l : List Nat) : ∀ d ∈ l, d ∣ l.prod := fun d hd => List.dvd_prod hd

theorem rank_unique {r r' : Nat} {P P' : Nat} (hP : 0 < P) (hP' : 0 < P')
    (h : ∀ t, 0 < t → (P * P' * t) ^ r * P = (P * P' * t) ^ r' * P') : r = r' := by
  have key : ∀ r r' P P' : Nat, 0 < P → 0 < P' → (∀ t, 0 < t → (P * P' * t) ^ r * P = (P * P' * t) ^ r' * P') → ¬ r < r' := by
    intro r r' P P' hP hP' h hlt
    have h1 := h (P + 1) (by omega)
    obtain ⟨k, rfl⟩ := Nat.exists_eq_add_of_lt hlt
    set q := P * P' * (P + 1) with hq
    have hqp : P < q := by
      rw [hq]
      have : 1 ≤ P * P' := Nat.mul_pos hP hP'
      nlinarith
    have hq0 : 0 < q := by omega
    rw [show r + k + 1 = r + (k + 1) by ring, Nat.pow_add, Nat.mul_assoc] at h1
    have h2 := Nat.eq_of_mul_eq_mul_left (Nat.pow_pos hq0) h1
    have h3 : q ≤ q ^ (k + 1) * P' := by
      rw [Nat.pow_succ]
      have : 1 ≤ q ^ k := Nat.pow_pos hq0
      nlinarith [Nat.mul_le_mul this (le_refl q)]
    omega
  have a1 := key r r' P P' hP hP' h
  have a2 := key r' r P' P hP' hP (fun t ht => by rw [Nat.mul_comm P' P]; exact (h t ht).symm)
  omega

/-- the core of C43: canonical data are determined by the group -/
theorem canonical_unique {a b : Mod} (ha : Canonical a) (hb : Canonical b) (e : Grp a ≃+ Grp b) : a = b := by
  obtain ⟨a1, a2⟩ := orders_chain ha
  obtain ⟨b1, b2⟩ := orders_chain hb
  have apos : ∀ d ∈ orders a.divisors, 0 < d := fun d hd => by have := a1 d hd; omega
  have bpos : ∀ d ∈ orders b.divisors, 0 < d := fun d hd => by have := b1 d hd; omega
  have hcount : ∀ n, 0 < n → n ^ a.freeRank * ((orders a.divisors).map (fun d => n.gcd d)).prod = n ^ b.freeRank * ((orders b.divisors).map (fun d => n.gcd d)).prod := by
    intro n hn
    have : NeZero n := ⟨by omega⟩
    rw [← card_hom, ← card_hom]
    exact Nat.card_congr ⟨fun f => f.comp e.symm.toAddMonoidHom, fun f => f.comp e.toAddMonoidHom,
      fun f => by ext1 x; simp, fun f => by ext1 x; simp⟩
  have hPa : 0 < (orders a.divisors).prod := List.prod_pos apos
  have hPb : 0 < (orders b.divisors).prod := List.prod_pos bpos
  have hr : a.freeRank = b.freeRank := by
    refine rank_unique hPa hPb (fun t ht => ?_)
    have := hcount ((orders a.divisors).prod * (orders b.divisors).prod * t) (Nat.mul_pos (Nat.mul_pos hPa hPb) ht)
    rw [gcd_prod_eq _ _ (fun d hd => ((orders_prod_dvd _ d hd).mul_right _).mul_right _),
      gcd_prod_eq _ _ (fun d hd => ((orders_prod_dvd _ d hd).mul_left _).mul_right _)] at this
    exact this
  have ho : orders a.divisors = orders b.divisors := by
    apply List.reverse_injective
    refine chain_unique _ _ (by simpa using a1) (by simpa using b1) (by rw [List.pairwise_reverse]; exact a2) (by rw [List.pairwise_reverse]; exact b2) (fun n hn => ?_)
    rw [List.map_reverse, List.map_reverse, List.prod_reverse, List.prod_reverse]
    have := hcount n hn
    rw [hr] at this
    exact Nat.eq_of_mul_eq_mul_left (Nat.pow_pos hn) this
  have hd := orders_inj _ _ ha.1 hb.1 ha.2 hb.2 ho
  cases a; cases b
  simp only at hr hd
  rw [hr, hd]

/-- **C43**, `is_isomorphic_to`: for modules given by canonical elementary divisors it decides isomorphism of the abelian groups. -/
theorem c43_is_isomorphic_to {a b : Mod} (ha : Canonical a) (hb : Canonical b) : a.isIsomorphicTo b = true ↔ Nonempty (Grp a ≃+ Grp b) := by
  constructor
  · intro h
    simp only [Mod.isIsomorphicTo, Bool.and_eq_true, beq_iff_eq] at h
    have : a = b := by cases a; cases b; simp only at h; rw [h.1, h.2]
    subst this
    exact ⟨AddEquiv.refl _⟩
  · rintro ⟨e⟩
    rw [canonical_unique ha hb e]
    simp [Mod.isIsomorphicTo]

/-! ### `new`, `is_zero`, `trivial` -/

/-- splitting off the first cyclic group -/
def cycCons (d : Nat) (l : List Nat) : Cyc (d :: l) ≃+ ZMod d × Cyc l where
  toFun f := (f ⟨0, by simp⟩, fun i => f i.succ)
  invFun p := Fin.cons (α := fun i => ZMod ((d :: l).get i)) p.1 p.2
  left_inv f := by
    funext i
    refine Fin.cases ?_ (fun i => ?_) i <;> rfl
  right_inv p := rfl
  map_add' f g := rfl

theorem cyc_ones (k : Nat) (l : List Nat) : Nonempty (Cyc (List.replicate k 1 ++ l) ≃+ Cyc l) := by
  induction k with
  | zero => exact ⟨AddEquiv.refl _⟩
  | succ k ih =>
    obtain ⟨e⟩ := ih
    exact ⟨(cycCons 1 (List.replicate k 1 ++ l)).trans (AddEquiv.uniqueProd.trans e)⟩

theorem cyc_append_congr (l : List Nat) {l1 l2 : List Nat} (h : Nonempty (Cyc l1 ≃+ Cyc l2)) : Nonempty (Cyc (l ++ l1) ≃+ Cyc (l ++ l2)) := by
  induction l with
  | nil => exact h
  | cons d l ih =>
    obtain ⟨e⟩ := ih
    exact ⟨(cycCons d (l ++ l1)).trans (((AddEquiv.refl _).prodCongr e).trans (cycCons d (l ++ l2)).symm)⟩

theorem cyc_cast {l l' : List Nat} (h : l = l') : Nonempty (Cyc l ≃+ Cyc l') := by subst h; exact ⟨AddEquiv.refl _⟩

theorem cyc_filter (l : List (Int × Nat)) : Nonempty (Cyc (orders (l.filter (fun dm => dm.1 != 1))) ≃+ Cyc (orders l)) := by
  induction l with
  | nil => exact ⟨AddEquiv.refl _⟩
  | cons x l ih =>
    obtain ⟨e0⟩ := cyc_cast (orders_cons x l)
    by_cases hx : x.1 = 1
    · obtain ⟨e1⟩ := cyc_cast (show orders ((x :: l).filter (fun dm => dm.1 != 1)) = orders (l.filter (fun dm => dm.1 != 1)) by simp [hx])
      obtain ⟨e⟩ := ih
      obtain ⟨e'⟩ := cyc_ones x.2 (orders l)
      obtain ⟨e2⟩ := cyc_cast (show List.replicate x.2 1 ++ orders l = List.replicate x.2 x.1.natAbs ++ orders l by simp [hx])
      exact ⟨((e1.trans e).trans (e'.symm.trans e2)).trans e0.symm⟩
    · obtain ⟨e1⟩ := cyc_cast (show orders ((x :: l).filter (fun dm => dm.1 != 1)) = List.replicate x.2 x.1.natAbs ++ orders (l.filter (fun dm => dm.1 != 1)) by
        simp [hx, orders_cons])
      obtain ⟨e⟩ := cyc_append_congr (List.replicate x.2 x.1.natAbs) ih
      exact ⟨(e1.trans e).trans e0.symm⟩

/-- **C43**, `new`: dropping the divisors equal to one does not change the group, and none is left. -/
theorem c43_new (r : Nat) (l : List (Int × Nat)) :
    Nonempty (Grp (Mod.new r l) ≃+ Grp ⟨r, l⟩) ∧ (∀ dk ∈ (Mod.new r l).divisors, dk.1 ≠ 1) ∧
    (∀ dk ∈ l, dk.1 ≠ 1 → dk ∈ (Mod.new r l).divisors) ∧ (Mod.new r l).divisors.Sublist l ∧ (Mod.new r l).freeRank = r := by
  refine ⟨?_, ?_, ?_, List.filter_sublist, rfl⟩
  · obtain ⟨e⟩ := cyc_filter l
    exact ⟨(AddEquiv.refl _).prodCongr e⟩
  · intro dk h
    simp only [Mod.new, List.mem_filter, bne_iff_ne, ne_eq] at h
    exact h.2
  · intro dk h h1
    simp only [Mod.new, List.mem_filter, bne_iff_ne, ne_eq]
    exact ⟨h, h1⟩

/-- **C43**, `is_zero`: true exactly for the trivial group, provided no divisor is a unit and no multiplicity is zero
(what is missing: the divisor `-1`, see `c43_unit_false`). -/
theorem c43_is_zero_partial (a : Mod) (h : ∀ dk ∈ a.divisors, dk.1.natAbs ≠ 1 ∧ 0 < dk.2) : a.isZero = true ↔ Subsingleton (Grp a) := by
  obtain ⟨r, l⟩ := a
  simp only [Mod.isZero, Bool.and_eq_true, beq_iff_eq, List.isEmpty_iff] at h ⊢
  constructor
  · rintro ⟨rfl, rfl⟩
    constructor
    rintro ⟨f, g⟩ ⟨f', g'⟩
    refine Prod.ext (funext fun i => i.elim0) (funext fun i => ?_)
    have := i.2
    simp [orders] at this
  · intro hs
    constructor
    · rcases Nat.eq_zero_or_pos r with h0 | h0
      · exact h0
      · exfalso
        have := hs.elim ((fun _ => 0, fun _ => 0) : Grp ⟨r, l⟩) (fun _ => 1, fun _ => 0)
        have := congrFun (congrArg Prod.fst this) ⟨0, h0⟩
        simp at this
    · cases l with
      | nil => rfl
      | cons x l =>
        exfalso
        obtain ⟨h1, h2⟩ := h x (by simp)
        obtain ⟨k, hk⟩ := Nat.exists_eq_succ_of_ne_zero (by omega : x.2 ≠ 0)
        have ho : orders (x :: l) = x.1.natAbs :: (List.replicate k x.1.natAbs ++ orders l) := by
          rw [orders_cons, hk, List.replicate_succ]; rfl
        have hs2 : Subsingleton (Cyc (orders (x :: l))) :=
          ⟨fun u v => congrArg Prod.snd (hs.elim ((fun _ => 0, u) : Grp ⟨r, x :: l⟩) (fun _ => 0, v))⟩
        rw [ho] at hs2
        have e := cycCons x.1.natAbs (List.replicate k x.1.natAbs ++ orders l)
        have : Nontrivial (ZMod x.1.natAbs) := ZMod.nontrivial_iff.mpr h1
        obtain ⟨u, v, huv⟩ := exists_pair_ne (ZMod x.1.natAbs)
        have := hs2.elim (e.symm (u, 0)) (e.symm (v, 0))
        exact huv (congrArg Prod.fst (e.symm.injective this))

/-- **C43 fails** for the unit `-1`, which Smith normal form can produce: `Module::new(0, [(-1, 1)])` is not reported as zero and is
not isomorphic to the zero module according to `is_isomorphic_to`, although its group is trivial. -/
theorem c43_unit_false : (Mod.new 0 [(-1, 1)]).isZero = false ∧ (Mod.new 0 [(-1, 1)]).isIsomorphicTo Mod.trivial = false ∧
    Subsingleton (Grp (Mod.new 0 [(-1, 1)])) := by
  refine ⟨by decide, by decide, ?_⟩
  constructor
  rintro ⟨f, g⟩ ⟨f', g'⟩
  refine Prod.ext (funext fun i => i.elim0) (funext fun i => ?_)
  have ho : orders (Mod.new 0 [(-1, 1)]).divisors = [1] := by decide
  have key : ∀ (l : List Nat), (∀ d ∈ l, d = 1) → ∀ (i : Fin l.length), Subsingleton (ZMod (l.get i)) := by
    intro l hl i
    rw [hl _ (l.get_mem i)]; infer_instance
  exact (key _ (by rw [ho]; simp) i).elim _ _

/-- **C43**, `trivial()`. -/
theorem c43_trivial : Mod.trivial.isZero = true ∧ Subsingleton (Grp Mod.trivial) :=
  ⟨by decide, (c43_is_zero_partial Mod.trivial (by simp [Mod.trivial])).mp (by decide)⟩

/-- a concrete case: `ℤ² ⊕ (ℤ/2)³ ⊕ ℤ/6` is canonical -/
example : Canonical ⟨2, [(2, 3), (6, 1)]⟩ := by constructor <;> simp
example : (Mod.new 2 [(1, 4), (2, 3), (6, 1)]).divisors = [(2, 3), (6, 1)] := by decide

end Toppo.ModProps
