import Verif.Proof.SimpManifold
import Verif.Props.SimpWedge
set_option linter.unusedVariables false
set_option linter.unusedSectionVars false
/-!
# C148: homology of closed pseudomanifolds: orientability is read off the report
The notions `Pseudomanifold` and `Oriented` are those of the specification at the top of `Proof/SimpManifold.lean`.
-/
namespace Toppo.Simp
open Toppo Toppo.ModProps

/-! ### torsion of a reported group -/

theorem unit_smul {l : List Nat} (i : Fin l.length) : ((l.get i : ℕ) : ℤ) • (Pi.single i 1 : Cyc l) = 0 := by
  rw [← Pi.single_smul, Nat.cast_smul_eq_nsmul, nsmul_eq_mul, mul_one, ZMod.natCast_self, Pi.single_zero]

theorem unit_ne {l : List Nat} {i : Fin l.length} (h : l.get i ≠ 1) : (Pi.single i 1 : Cyc l) ≠ 0 := by
  intro e
  have := congrFun e i
  rw [Pi.single_eq_same, Pi.zero_apply] at this
  have h2 : ((1 : Nat) : ZMod (l.get i)) = 0 := by exact_mod_cast this
  rw [ZMod.natCast_eq_zero_iff] at h2
  exact h (Nat.dvd_one.mp h2)

theorem order_pos {a : Mod} (ha : ∀ dk ∈ a.divisors, dk.1 ≠ 0) (i : Fin (orders a.divisors).length) : 0 < (orders a.divisors).get i := by
  obtain ⟨x, hx, e⟩ := mem_orders (List.get_mem (orders a.divisors) i)
  have := ha x hx
  omega

theorem torsion_none {a : Mod} (ha : ∀ dk ∈ a.divisors, dk.1 ≠ 0) (hm : ∀ dk ∈ a.divisors, 0 < dk.2)
    (h : ∀ (m : ℤ) (x : Grp a), m ≠ 0 → m • x = 0 → x = 0) : FreeOfRank a a.freeRank := by
  refine ⟨rfl, fun dk hdk => ?_⟩
  by_contra hne
  have hmem : dk.1.natAbs ∈ orders a.divisors := by
    unfold orders
    rw [List.mem_flatMap]
    exact ⟨dk, hdk, List.mem_replicate.mpr ⟨by have := hm dk hdk; omega, rfl⟩⟩
  obtain ⟨i, hi⟩ := List.get_of_mem hmem
  have p := order_pos ha i
  have := h ((orders a.divisors).get i : ℕ) (0, Pi.single i 1) (by omega) (by rw [Prod.smul_mk, unit_smul, smul_zero]; rfl)
  exact unit_ne (by rw [hi]; exact hne) (Prod.ext_iff.mp this).2

theorem one_two : ∀ (l : List Nat), (∃ i : Fin l.length, l.get i ≠ 1) → (∀ i j : Fin l.length, l.get i ≠ 1 → l.get j ≠ 1 → i = j) →
    (∀ i : Fin l.length, l.get i ≠ 1 → l.get i = 2) → l.filter (fun d => d ≠ 1) = [2]
  | [], h, _, _ => by obtain ⟨i, _⟩ := h; exact i.elim0
  | d :: l, h, hu, h2 => by
    by_cases hd : d = 1
    · subst hd
      rw [List.filter_cons_of_neg (by simp)]
      refine one_two l ?_ (fun i j a b => ?_) (fun i a => ?_)
      · obtain ⟨i, hi⟩ := h
        rcases Fin.eq_zero_or_eq_succ i with e | ⟨j, rfl⟩
        · subst e; exact absurd rfl hi
        · exact ⟨j, hi⟩
      · exact Fin.succ_injective _ (hu i.succ j.succ a b)
      · exact h2 i.succ a
    · have e2 : d = 2 := h2 ⟨0, by simp⟩ hd
      subst e2
      rw [List.filter_cons_of_pos (by simp)]
      congr 1
      rw [List.filter_eq_nil_iff]
      intro x hx
      obtain ⟨i, hi⟩ := List.get_of_mem hx
      by_contra hne
      have hne : x ≠ 1 := by simpa using hne
      have := hu ⟨0, by simp⟩ i.succ hd (by show l.get i ≠ 1; rw [hi]; exact hne)
      exact absurd (congrArg Fin.val this) (by simp)

theorem torsion_two {a : Mod} (ha : ∀ dk ∈ a.divisors, dk.1 ≠ 0) {τ : Grp a} (h0 : τ ≠ 0) (h1 : (2 : ℤ) • τ = 0)
    (h : ∀ (m : ℤ) (x : Grp a), m ≠ 0 → m • x = 0 → x = 0 ∨ x = τ) : (orders a.divisors).filter (fun d => d ≠ 1) = [2] := by
  have key : ∀ i, (orders a.divisors).get i ≠ 1 → τ.2 = Pi.single i 1 := by
    intro i hi
    have p := order_pos ha i
    rcases h ((orders a.divisors).get i : ℕ) (0, Pi.single i 1) (by omega) (by rw [Prod.smul_mk, unit_smul, smul_zero]; rfl) with e | e
    · exact absurd (Prod.ext_iff.mp e).2 (unit_ne hi)
    · exact (Prod.ext_iff.mp e).2.symm
  refine one_two _ ?_ ?_ ?_
  · by_contra hno
    have hno : ∀ i, (orders a.divisors).get i = 1 := by
      intro i
      by_contra hc
      exact hno ⟨i, hc⟩
    apply h0
    apply Prod.ext
    · ext i
      have := congrFun (Prod.ext_iff.mp h1).1 i
      have e : (2 : ℤ) * τ.1 i = 0 := this
      show τ.1 i = 0
      omega
    · funext i
      have : Subsingleton (ZMod ((orders a.divisors).get i)) := by rw [hno i]; infer_instance
      exact Subsingleton.elim _ _
  · intro i j hi hj
    by_contra hij
    have e := (key i hi).symm.trans (key j hj)
    have e2 := congrFun e i
    rw [Pi.single_eq_same, Pi.single_eq_of_ne hij] at e2
    have h2 : ((1 : Nat) : ZMod ((orders a.divisors).get i)) = 0 := by exact_mod_cast e2
    rw [ZMod.natCast_eq_zero_iff] at h2
    exact hi (Nat.dvd_one.mp h2)
  · intro i hi
    have e := congrFun (Prod.ext_iff.mp h1).2 i
    have e2 : (2 : ℤ) • (τ.2 i) = 0 := e
    rw [key i hi, Pi.single_eq_same] at e2
    have h2 : ((2 : Nat) : ZMod ((orders a.divisors).get i)) = 0 := by
      rw [zsmul_eq_mul, mul_one] at e2
      exact_mod_cast e2
    rw [ZMod.natCast_eq_zero_iff] at h2
    have p := order_pos ha i
    have := Nat.le_of_dvd (by omega) h2
    omega

/-! ### the theorems -/

section
variable {T : Type} [DecidableEq T] [LinearOrder (Simplex T)]

/-- what a run and an order of the labels give -/
theorem Computes.data {h : List (List T)} (g : GoodHistory h) {maxDim : Option Nat} {bm res} (k : Computes h maxDim bm res) {r : T → ℤ}
    (hr : ∀ x ∈ h.flatten, ∀ y ∈ h.flatten, r x = r y → x = y) :
    (∀ A B : Finset T, Listed bm A → B ⊆ A → B.Nonempty → Listed bm B) ∧ (∀ A, Listed bm A → A ∈ h.flatten.toFinset.powerset) ∧
    (∀ A, Listed bm A → ∀ x ∈ A, ∀ y ∈ A, r x = r y → x = y) := by
  obtain ⟨a1, a2, a3, -, -, -, -⟩ := k.spec g
  have hs : ∀ A, Listed bm A → ∀ x ∈ A, x ∈ h.flatten := by
    intro A hA x hx
    exact (a2 x).mpr (a1 A _ hA (by simpa using hx) (by simp))
  exact ⟨a1, fun A hA => Finset.mem_powerset.mpr (fun x hx => List.mem_toFinset.mpr (hs A hA x hx)),
    fun A hA x hx y hy => hr x (hs A hA x hx) y (hs A hA y hy)⟩

/-- **C148, orientable**. If the listed simplices form a closed pseudomanifold of dimension `n ≥ 1` that has an orientation, then the program reports
one free generator in dimension `n`, and no torsion in dimension `n - 1`. -/
theorem c148_orientable {h : List (List T)} (g : GoodHistory h) {maxDim : Option Nat} {bm res} (k : Computes h maxDim bm res) {n : Nat} (hn : 1 ≤ n)
    (hd : ∀ d, maxDim = some d → n ≤ d) (M : Pseudomanifold (Listed bm) n) {r : T → ℤ} (hr : ∀ x ∈ h.flatten, ∀ y ∈ h.flatten, r x = r y → x = y)
    (ho : ∃ o, Oriented (Listed bm) r n o) :
    FreeOfRank (reportedMod res n) 1 ∧ FreeOfRank (reportedMod res (n - 1)) (reportedMod res (n - 1)).freeRank := by
  obtain ⟨j, rfl⟩ : ∃ j, n = j + 1 := ⟨n - 1, by omega⟩
  obtain ⟨o, ho⟩ := ho
  obtain ⟨-, -, -, -, a4, a6, a5⟩ := k.spec g
  obtain ⟨b1, b2, b3⟩ := k.data g hr
  obtain ⟨e⟩ := a5 r hr (j + 1) hd
  obtain ⟨f⟩ := oriented_top M b1 _ b2 ho
  refine ⟨a6 _ _ ⟨e.symm.trans f⟩, ?_⟩
  obtain ⟨e⟩ := a5 r hr j (fun d q => by have := hd d q; omega)
  rw [Nat.add_sub_cancel]
  refine torsion_none (a4 j).1 (k.mult g j) (fun m x hm hx => ?_)
  have := oriented_torsion M b1 _ b2 ho hm (e.symm x) (by rw [← map_zsmul, hx, map_zero])
  exact (AddEquiv.map_eq_zero_iff e.symm).mp this

/-- **C148, not orientable**. If it has no orientation, the program reports nothing in dimension `n`, and the torsion it reports in dimension `n - 1` is one
summand `ℤ/2` (summands of order one left out). -/
theorem c148_nonorientable {h : List (List T)} (g : GoodHistory h) {maxDim : Option Nat} {bm res} (k : Computes h maxDim bm res) {n : Nat} (hn : 1 ≤ n)
    (hd : ∀ d, maxDim = some d → n ≤ d) (M : Pseudomanifold (Listed bm) n) {r : T → ℤ} (hr : ∀ x ∈ h.flatten, ∀ y ∈ h.flatten, r x = r y → x = y)
    (hno : ¬ ∃ o, Oriented (Listed bm) r n o) :
    FreeOfRank (reportedMod res n) 0 ∧ (orders (reportedMod res (n - 1)).divisors).filter (fun d => d ≠ 1) = [2] := by
  obtain ⟨j, rfl⟩ : ∃ j, n = j + 1 := ⟨n - 1, by omega⟩
  obtain ⟨-, -, -, -, a4, a6, a5⟩ := k.spec g
  obtain ⟨b1, b2, b3⟩ := k.data g hr
  obtain ⟨e⟩ := a5 r hr (j + 1) hd
  obtain ⟨f⟩ := nonoriented_top M b1 hno
  refine ⟨a6 _ _ ⟨e.symm.trans f⟩, ?_⟩
  obtain ⟨e⟩ := a5 r hr j (fun d q => by have := hd d q; omega)
  rw [Nat.add_sub_cancel]
  obtain ⟨τ, t0, t1, t2⟩ := nonoriented_torsion M b1 b3 _ b2 hno
  refine torsion_two (a4 j).1 (τ := e τ) (fun h0 => t0 ((AddEquiv.map_eq_zero_iff e).mp h0)) (by rw [← map_zsmul, t1, map_zero]) (fun m x hm hx => ?_)
  rcases t2 m (e.symm x) hm (by rw [← map_zsmul, hx, map_zero]) with q | q
  · exact Or.inl ((AddEquiv.map_eq_zero_iff e.symm).mp q)
  · right
    rw [← q, AddEquiv.apply_symm_apply]

/-- **C148, converse**: the report decides whether the pseudomanifold has an orientation. -/
theorem c148_decides {h : List (List T)} (g : GoodHistory h) {maxDim : Option Nat} {bm res} (k : Computes h maxDim bm res) {n : Nat} (hn : 1 ≤ n)
    (hd : ∀ d, maxDim = some d → n ≤ d) (M : Pseudomanifold (Listed bm) n) {r : T → ℤ} (hr : ∀ x ∈ h.flatten, ∀ y ∈ h.flatten, r x = r y → x = y) :
    (∃ o, Oriented (Listed bm) r n o) ↔ (reportedMod res n).freeRank = 1 := by
  constructor
  · intro ho
    exact (c148_orientable g k hn hd M hr ho).1.1
  · intro e
    by_contra hno
    have := (c148_nonorientable g k hn hd M hr hno).1.1
    omega

/-- a complex in which every simplex is a face of a facet, and whose facets are joined through faces, has one connected component -/
theorem joined_zero {h : List (List T)} (g : GoodHistory h) {maxDim : Option Nat} {bm res} (k : Computes h maxDim bm res) {n : Nat} (hn : 1 ≤ n)
    (hne : ∃ A, Listed bm A) (hpure : ∀ A, Listed bm A → ∃ C, Facet (Listed bm) n C ∧ A ⊆ C)
    (hconn : ∀ C D, Facet (Listed bm) n C → Facet (Listed bm) n D →
      Relation.ReflTransGen (fun C D => Facet (Listed bm) n C ∧ Facet (Listed bm) n D ∧ (C ∩ D).card = n) C D) : FreeOfRank (reportedMod res 0) 1 := by
  obtain ⟨r, hr⟩ := order_exists h
  obtain ⟨-, a2, -, -, a4, a6, a5⟩ := k.spec g
  obtain ⟨b1, b2, b3⟩ := k.data g hr
  obtain ⟨e⟩ := a5 r hr 0 (fun d _ => Nat.zero_le d)
  obtain ⟨f⟩ := hom_zero (K := Listed bm) (r := r) b1 (fun x y hx hy => hr x ((a2 x).mpr hx) y ((a2 y).mpr hy))
  have edge : ∀ (x y : Vtx (Listed bm)) A, Listed bm A → x.1 ∈ A → y.1 ∈ A → (Quot.mk _ x : Comp (Listed bm)) = Quot.mk _ y := by
    intro x y A hA hx hy
    refine Quot.sound (b1 A _ hA ?_ (by simp))
    intro z hz
    simp only [Finset.mem_insert, Finset.mem_singleton] at hz
    rcases hz with rfl | rfl <;> assumption
  have path : ∀ C D, Relation.ReflTransGen (fun C D => Facet (Listed bm) n C ∧ Facet (Listed bm) n D ∧ (C ∩ D).card = n) C D → Listed bm C →
      ∀ (x y : Vtx (Listed bm)), x.1 ∈ C → y.1 ∈ D → (Quot.mk _ x : Comp (Listed bm)) = Quot.mk _ y := by
    intro C D p hC
    induction p with
    | refl => intro x y hx hy; exact edge x y C hC hx hy
    | tail _ s ih =>
      intro x y hx hy
      obtain ⟨s1, s2, s3⟩ := s
      obtain ⟨z, hz⟩ := Finset.card_pos.mp (show 0 < _ by rw [s3]; omega)
      obtain ⟨z1, z2⟩ := Finset.mem_inter.mp hz
      exact (ih x ⟨z, b1 _ _ s1.1 (by simpa using z1) (by simp)⟩ hx z1).trans (edge _ _ _ s2.1 z2 hy)
  have hall : ∀ x y : Vtx (Listed bm), (Quot.mk _ x : Comp (Listed bm)) = Quot.mk _ y := by
    intro x y
    obtain ⟨C, hC, sC⟩ := hpure _ x.2
    obtain ⟨D, hD, sD⟩ := hpure _ y.2
    exact path C D (hconn C D hC hD) hC.1 x y (sC (by simp)) (sD (by simp))
  obtain ⟨A, hA⟩ := hne
  obtain ⟨C, hC, -⟩ := hpure A hA
  obtain ⟨v, hv⟩ := Finset.card_pos.mp (show 0 < C.card by rw [hC.2]; omega)
  have hv : Listed bm {v} := b1 _ _ hC.1 (by simpa using hv) (by simp)
  have : Unique (Comp (Listed bm)) := ⟨⟨Quot.mk _ ⟨v, hv⟩⟩, fun c => by
    induction c using Quot.ind with
    | mk x => exact hall _ _⟩
  refine a6 0 1 ⟨e.symm.trans (f.trans ?_)⟩
  exact { toFun := fun q _ => q default, invFun := fun q => Finsupp.single default (q 0)
          left_inv := fun q => by refine Finsupp.ext (fun c => ?_); rw [Unique.eq_default c]; exact Finsupp.single_eq_same
          right_inv := fun q => by funext i; rw [Fin.fin_one_eq_zero i]; exact Finsupp.single_eq_same
          map_add' := fun _ _ => rfl }

/-- a pseudomanifold has one connected component -/
theorem manifold_zero {h : List (List T)} (g : GoodHistory h) {maxDim : Option Nat} {bm res} (k : Computes h maxDim bm res) {n : Nat} (hn : 1 ≤ n)
    (M : Pseudomanifold (Listed bm) n) : FreeOfRank (reportedMod res 0) 1 := joined_zero g k hn M.nonempty M.pure M.connected

/-- **C148, circles**. In dimension one there is always an orientation: the reported homology is `ℤ, ℤ`. -/
theorem c148_circle {h : List (List T)} (g : GoodHistory h) {maxDim : Option Nat} {bm res} (k : Computes h maxDim bm res)
    (hd : ∀ d, maxDim = some d → 1 ≤ d) (M : Pseudomanifold (Listed bm) 1) : FreeOfRank (reportedMod res 0) 1 ∧ FreeOfRank (reportedMod res 1) 1 := by
  have h0 := manifold_zero g k le_rfl M
  obtain ⟨r, hr⟩ := order_exists h
  refine ⟨h0, (c148_orientable g k le_rfl hd M hr ?_).1⟩
  by_contra hno
  have h2 := (c148_nonorientable g k le_rfl hd M hr hno).2
  have hm : 2 ∈ (orders (reportedMod res (1 - 1)).divisors).filter (fun d => d ≠ 1) := by rw [h2]; simp
  obtain ⟨dk, hdk, e⟩ := mem_orders (List.mem_filter.mp hm).1
  have := h0.2 dk hdk
  omega

/-- the Euler characteristic, when nothing is reported above dimension two -/
theorem euler_two {h : List (List T)} (g : GoodHistory h) (hb : h.flatten.toFinset.card ≤ 64) {F : Finset (Finset T)}
    (hF : ∀ A, A ∈ F ↔ IsFace h A) {bm res} (k : Computes h none bm res) (hhigh : ∀ i, 3 ≤ i → (reportedMod res i).freeRank = 0) :
    ((reportedMod res 0).freeRank : ℤ) - (reportedMod res 1).freeRank + (reportedMod res 2).freeRank = ∑ A ∈ F, (-1 : ℤ) ^ (A.card - 1) := by
  obtain ⟨c, f0, e1, e2, h1⟩ := id k
  obtain ⟨c', bm', f1, res', q1, q2, q3, F', hF', q4⟩ := c116_history g hb
  rw [e1] at q1; cases q1
  rw [e2] at q2; cases q2
  have a := h1 (f0 + f1) (by omega)
  have b := q3 (f0 + f1) (by omega)
  rw [a] at b; cases b
  have hFF : F' = F := by ext A; rw [hF, hF']
  subst hFF
  have hbet : ∀ i, Hom.betti res i = (reportedMod res i).freeRank := by
    intro i
    unfold Hom.betti reportedMod
    cases res[i]? <;> rfl
  have hsum := q4 (max bm.length 3) (le_max_left _ _)
  rw [← Finset.sum_subset (Finset.range_mono (le_max_right bm.length 3))] at hsum
  · rw [← hsum, Finset.sum_range_succ, Finset.sum_range_succ, Finset.sum_range_succ, Finset.sum_range_zero, hbet, hbet, hbet]
    ring
  · intro i _ hi
    rw [Finset.mem_range, not_lt] at hi
    rw [hbet, hhigh i hi]
    simp

/-- **C148, surfaces**. Attach, with at most 64 labels, simplices whose faces form a closed surface (a two-dimensional pseudomanifold), with Euler characteristic `χ`. If it
has an orientation, the reported homology is `ℤ, ℤ^(2-χ), ℤ`; if not, it is `ℤ, ℤ^(1-χ) ⊕ ℤ/2, 0`. Nothing is reported above dimension two. -/
theorem c148_surface {h : List (List T)} (g : GoodHistory h) (hb : h.flatten.toFinset.card ≤ 64) (M : Pseudomanifold (IsFace h) 2) {F : Finset (Finset T)}
    (hF : ∀ A, A ∈ F ↔ IsFace h A) {r : T → ℤ} (hr : ∀ x ∈ h.flatten, ∀ y ∈ h.flatten, r x = r y → x = y) {bm res} (k : Computes h none bm res) :
    FreeOfRank (reportedMod res 0) 1 ∧ (∀ i, 3 ≤ i → FreeOfRank (reportedMod res i) 0) ∧
    ((∃ o, Oriented (IsFace h) r 2 o) → FreeOfRank (reportedMod res 2) 1 ∧
      ∃ n : Nat, FreeOfRank (reportedMod res 1) n ∧ (n : ℤ) = 2 - ∑ A ∈ F, (-1 : ℤ) ^ (A.card - 1)) ∧
    ((¬ ∃ o, Oriented (IsFace h) r 2 o) → FreeOfRank (reportedMod res 2) 0 ∧ (orders (reportedMod res 1).divisors).filter (fun d => d ≠ 1) = [2] ∧
      ((reportedMod res 1).freeRank : ℤ) = 1 - ∑ A ∈ F, (-1 : ℤ) ^ (A.card - 1)) := by
  have hL := (k.spec g).2.2.2.1 hb
  rw [← hL] at M ⊢
  have h0 := manifold_zero g k (by omega) M
  have hhigh : ∀ i, 3 ≤ i → FreeOfRank (reportedMod res i) 0 := fun i hi => k.none g i (by simp) (fun A hA => by
    obtain ⟨C, hC, sC⟩ := M.pure A hA
    have := Finset.card_le_card sC
    rw [hC.2] at this
    omega)
  have hχ := euler_two g hb hF k (fun i hi => (hhigh i hi).1)
  have e0 := h0.1
  refine ⟨h0, hhigh, fun ho => ?_, fun hno => ?_⟩
  · obtain ⟨t1, t2⟩ := c148_orientable g k (by omega) (by simp) M hr ho
    refine ⟨t1, _, t2, ?_⟩
    have := t1.1
    show ((reportedMod res 1).freeRank : ℤ) = _
    rw [← hχ]
    omega
  · obtain ⟨t1, t2⟩ := c148_nonorientable g k (by omega) (by simp) M hr hno
    refine ⟨t1, t2, ?_⟩
    have := t1.1
    rw [← hχ]
    omega

end

/-! ### two surfaces -/

/-- the boundary of a tetrahedron -/
def exSphere : List (List (Fin 4)) := [[0, 1, 2], [0, 1, 3], [0, 2, 3], [1, 2, 3]]

/-- the projective plane with six vertices -/
def exPlane : List (List (Fin 6)) :=
  [[0, 1, 2], [0, 2, 3], [0, 3, 4], [0, 4, 5], [0, 5, 1], [1, 2, 4], [2, 3, 5], [3, 4, 1], [4, 5, 2], [5, 1, 3]]

/-- a criterion that can be checked case by case -/
theorem manifold_of {T : Type} [DecidableEq T] {h : List (List T)} (n : Nat) (h0 : h ≠ []) (h3 : ∀ s ∈ h, s.toFinset.card = n + 1)
    (h2 : ∀ s ∈ h, ∀ B ⊆ s.toFinset, B.card = n → ∃ C ∈ h, ∃ D ∈ h, C.toFinset ≠ D.toFinset ∧ B ⊆ C.toFinset ∧ B ⊆ D.toFinset ∧
      ∀ E ∈ h, B ⊆ E.toFinset → E.toFinset = C.toFinset ∨ E.toFinset = D.toFinset)
    (h1 : ∀ C ∈ h, ∀ D ∈ h, C.toFinset = D.toFinset ∨ ∃ E ∈ h, (E.toFinset = C.toFinset ∨ (C.toFinset ∩ E.toFinset).card = n) ∧ (E.toFinset ∩ D.toFinset).card = n) :
    Pseudomanifold (IsFace h) n := by
  have hfacet : ∀ C, Facet (IsFace h) n C ↔ ∃ s ∈ h, s.toFinset = C := by
    intro C
    constructor
    · rintro ⟨⟨-, s, hs, hsub⟩, hc⟩
      exact ⟨s, hs, (Finset.eq_of_subset_of_card_le hsub (by rw [h3 s hs, hc])).symm⟩
    · rintro ⟨s, hs, rfl⟩
      exact ⟨⟨Finset.card_pos.mp (by rw [h3 s hs]; omega), s, hs, le_rfl⟩, h3 s hs⟩
  constructor
  · obtain ⟨s, hs⟩ := List.exists_mem_of_ne_nil _ h0
    exact ⟨s.toFinset, Finset.card_pos.mp (by rw [h3 s hs]; omega), s, hs, le_rfl⟩
  · rintro A ⟨-, s, hs, hsub⟩
    exact ⟨s.toFinset, (hfacet _).mpr ⟨s, hs, rfl⟩, hsub⟩
  · rintro B ⟨-, s, hs, hsub⟩ hc
    obtain ⟨C, hC, D, hD, hne, bC, bD, hE⟩ := h2 s hs B hsub hc
    refine ⟨_, _, hne, fun E => ⟨?_, ?_⟩⟩
    · rintro ⟨hE1, hE2⟩
      obtain ⟨t, ht, rfl⟩ := (hfacet _).mp hE1
      exact hE t ht hE2
    · rintro (rfl | rfl)
      · exact ⟨(hfacet _).mpr ⟨C, hC, rfl⟩, bC⟩
      · exact ⟨(hfacet _).mpr ⟨D, hD, rfl⟩, bD⟩
  · intro C D hC hD
    obtain ⟨s, hs, rfl⟩ := (hfacet _).mp hC
    obtain ⟨t, ht, rfl⟩ := (hfacet _).mp hD
    rcases h1 s hs t ht with e | ⟨E, hE, e1, e2⟩
    · rw [e]
    · have fE := (hfacet _).mpr ⟨E, hE, rfl⟩
      rcases e1 with e1 | e1
      · rw [← e1]; exact Relation.ReflTransGen.single ⟨fE, hD, e2⟩
      · exact (Relation.ReflTransGen.single ⟨hC, fE, e1⟩).tail ⟨fE, hD, e2⟩

/-- a hollow triangle is a circle -/
example : GoodHistory ([[0, 1], [1, 2], [2, 0]] : List (List (Fin 3))) ∧ Pseudomanifold (IsFace ([[0, 1], [1, 2], [2, 0]] : List (List (Fin 3)))) 1 :=
  ⟨⟨by decide, by decide⟩, manifold_of 1 (by decide) (by decide) (by decide +kernel) (by decide +kernel)⟩

theorem exSphere_surface : GoodHistory exSphere ∧ Pseudomanifold (IsFace exSphere) 2 :=
  ⟨⟨by decide, by decide⟩, manifold_of 2 (by decide) (by decide) (by decide +kernel) (by decide +kernel)⟩

theorem exPlane_surface : GoodHistory exPlane ∧ Pseudomanifold (IsFace exPlane) 2 :=
  ⟨⟨by decide, by decide⟩, manifold_of 2 (by decide) (by decide) (by decide +kernel) (by decide +kernel)⟩

theorem exSphere_oriented : ∃ o, Oriented (IsFace exSphere) (fun i => (i.val : ℤ)) 2 o := by
  refine ⟨fun A => if A = {0, 1, 3} ∨ A = {1, 2, 3} then -1 else 1, ?_, ?_⟩
  · intro A
    dsimp only
    split <;> simp
  · have key : ∀ (B : Finset (Fin 4)) (x y : Fin 4), B.card = 2 ∧ x ∉ B ∧ y ∉ B ∧ x ≠ y →
        (if insert x B = {0, 1, 3} ∨ insert x B = {1, 2, 3} then -1 else 1) * faceSign (fun i => (i.val : ℤ)) (insert x B) x +
          (if insert y B = {0, 1, 3} ∨ insert y B = {1, 2, 3} then -1 else 1) * faceSign (fun i => (i.val : ℤ)) (insert y B) y = 0 := by
      unfold faceSign
      decide +kernel
    intro B x y a b c d _ _
    exact key B x y ⟨a, b, c, d⟩

theorem exPlane_not_oriented : ¬ ∃ o, Oriented (IsFace exPlane) (fun i => (i.val : ℤ)) 2 o := by
  rintro ⟨o, h1, h2⟩
  have step : ∀ (C D B : Finset (Fin 6)) (x y : Fin 6) (s t : ℤ), (B.card = 2 ∧ x ∉ B ∧ y ∉ B ∧ x ≠ y ∧ insert x B = C ∧ insert y B = D ∧
      faceSign (fun i => (i.val : ℤ)) C x = s ∧ faceSign (fun i => (i.val : ℤ)) D y = t ∧ (∃ s ∈ exPlane, C ⊆ s.toFinset) ∧ (∃ s ∈ exPlane, D ⊆ s.toFinset)) →
      o C * s + o D * t = 0 := by
    rintro _ _ B x y _ _ ⟨q1, q2, q3, q4, rfl, rfl, rfl, rfl, q5, q6⟩
    exact h2 B x y q1 q2 q3 q4 ⟨by simp, q5⟩ ⟨by simp, q6⟩
  have s1 := step {0, 1, 2} {0, 1, 5} {0, 1} 2 5 (1) (1) (by decide +kernel)
  have s2 := step {0, 1, 2} {0, 2, 3} {0, 2} 1 3 (-1) (1) (by decide +kernel)
  have s3 := step {0, 2, 3} {0, 3, 4} {0, 3} 2 4 (-1) (1) (by decide +kernel)
  have s4 := step {0, 3, 4} {0, 4, 5} {0, 4} 3 5 (-1) (1) (by decide +kernel)
  have s5 := step {0, 4, 5} {0, 1, 5} {0, 5} 4 1 (-1) (-1) (by decide +kernel)
  have s6 := step {0, 1, 2} {1, 2, 4} {1, 2} 0 4 (1) (1) (by decide +kernel)
  have s7 := step {1, 3, 4} {1, 3, 5} {1, 3} 4 5 (1) (1) (by decide +kernel)
  have s8 := step {1, 2, 4} {1, 3, 4} {1, 4} 2 3 (-1) (-1) (by decide +kernel)
  have s9 := step {0, 1, 5} {1, 3, 5} {1, 5} 0 3 (1) (-1) (by decide +kernel)
  have s10 := step {0, 2, 3} {2, 3, 5} {2, 3} 0 5 (1) (1) (by decide +kernel)
  have s11 := step {1, 2, 4} {2, 4, 5} {2, 4} 1 5 (1) (1) (by decide +kernel)
  have s12 := step {2, 3, 5} {2, 4, 5} {2, 5} 3 4 (-1) (-1) (by decide +kernel)
  have s13 := step {0, 3, 4} {1, 3, 4} {3, 4} 0 1 (1) (1) (by decide +kernel)
  have s14 := step {2, 3, 5} {1, 3, 5} {3, 5} 2 1 (1) (1) (by decide +kernel)
  have s15 := step {0, 4, 5} {2, 4, 5} {4, 5} 0 2 (1) (1) (by decide +kernel)
  have := h1 {0, 1, 2}
  omega

section
variable {T : Type} [DecidableEq T]

/-- the faces of a history, listed -/
def faces (h : List (List T)) : Finset (Finset T) := (h.map (fun s => s.toFinset.powerset.filter (fun A => A.Nonempty))).foldr (· ∪ ·) ∅

theorem mem_faces (h : List (List T)) (A : Finset T) : A ∈ faces h ↔ IsFace h A := by
  unfold faces IsFace
  induction h with
  | nil => simp
  | cons s h ih =>
    rw [List.map_cons, List.foldr_cons, Finset.mem_union, ih, Finset.mem_filter, Finset.mem_powerset]
    constructor
    · rintro (⟨a, b⟩ | ⟨a, t, b, c⟩)
      · exact ⟨b, s, List.mem_cons_self, a⟩
      · exact ⟨a, t, List.mem_cons_of_mem _ b, c⟩
    · rintro ⟨a, t, b, c⟩
      rcases List.mem_cons.mp b with rfl | b
      · exact Or.inl ⟨c, a⟩
      · exact Or.inr ⟨a, t, b, c⟩

end

/-- **C148, the sphere**: the four triangles of a tetrahedron: `ℤ, 0, ℤ`. -/
theorem c148_sphere [LinearOrder (Simplex (Fin 4))] {bm res} (k : Computes exSphere none bm res) :
    FreeOfRank (reportedMod res 0) 1 ∧ FreeOfRank (reportedMod res 1) 0 ∧ FreeOfRank (reportedMod res 2) 1 := by
  obtain ⟨a, -, b, -⟩ := c148_surface exSphere_surface.1 (by decide) exSphere_surface.2 (mem_faces exSphere) (r := fun i => (i.val : ℤ))
    (fun x _ y _ e => Fin.ext (by exact_mod_cast e)) k
  obtain ⟨b1, n, b2, b3⟩ := b exSphere_oriented
  rw [show (∑ A ∈ faces exSphere, (-1 : ℤ) ^ (A.card - 1)) = 2 by decide +kernel] at b3
  obtain rfl : n = 0 := by omega
  exact ⟨a, b2, b1⟩

/-- **C148, the projective plane**: ten triangles on six vertices: `ℤ, ℤ/2, 0`. -/
theorem c148_projective_plane [LinearOrder (Simplex (Fin 6))] {bm res} (k : Computes exPlane none bm res) :
    FreeOfRank (reportedMod res 0) 1 ∧ (reportedMod res 1).freeRank = 0 ∧ (orders (reportedMod res 1).divisors).filter (fun d => d ≠ 1) = [2] ∧
    FreeOfRank (reportedMod res 2) 0 := by
  obtain ⟨a, -, -, b⟩ := c148_surface exPlane_surface.1 (by decide) exPlane_surface.2 (mem_faces exPlane) (r := fun i => (i.val : ℤ))
    (fun x _ y _ e => Fin.ext (by exact_mod_cast e)) k
  obtain ⟨b1, b2, b3⟩ := b exPlane_not_oriented
  rw [show (∑ A ∈ faces exPlane, (-1 : ℤ) ^ (A.card - 1)) = 1 by decide +kernel] at b3
  exact ⟨a, by omega, b2, b1⟩

end Toppo.Simp
