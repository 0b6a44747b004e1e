import Verif.Proof.SimpSum
import Verif.Props.SimpCalc
set_option linter.unusedVariables false
set_option linter.unusedSectionVars false
/-!
# C120: homology of disjoint unions.  C121: elementary collapses.
-/
namespace Toppo.Simp
open Toppo Toppo.ModProps

section
variable {T : Type} [DecidableEq T] [LinearOrder (Simplex T)]

/-- The program run on a history of `attach` calls lists the boundary maps `bm` and computes the homology `res` (with enough fuel). -/
def Computes (history : List (List T)) (maxDim : Option Nat) (bm : List (Hom.BMap (Simplex T))) (res : List (Hom.Out (Simplex T))) : Prop :=
  ∃ c f0, Cplx.build history = some c ∧ c.boundaryMap = some bm ∧ ∀ fuel, f0 ≤ fuel → Hom.new fuel bm maxDim = some res

/-- the module of dimension `i`; a dimension that is not reported counts as the trivial module -/
def reportedMod {B : Type} (res : List (Hom.Out B)) (i : Nat) : Mod := ((res[i]?).map (·.module)).getD ⟨0, []⟩

theorem computes_total {history : List (List T)} (hh : GoodHistory history) (maxDim : Option Nat) : ∃ bm res, Computes history maxDim bm res := by
  obtain ⟨c, bm, f0, res, e1, e2, h1, -⟩ := c115_homology hh maxDim
  exact ⟨bm, res, c, f0, e1, e2, h1⟩

theorem Computes.spec {history : List (List T)} {maxDim bm res} (h : Computes history maxDim bm res) (hh : GoodHistory history) :
    (∀ A B : Finset T, Listed bm A → B ⊆ A → B.Nonempty → Listed bm B) ∧ (∀ x, x ∈ history.flatten ↔ Listed bm {x}) ∧
    (∀ A, Listed bm A → IsFace history A) ∧ (history.flatten.toFinset.card ≤ 64 → Listed bm = IsFace history) ∧
    (∀ i, (∀ dk ∈ (reportedMod res i).divisors, dk.1 ≠ 0) ∧ (reportedMod res i).divisors.Pairwise (fun x y => x.1 ∣ y.1)) ∧
    (∀ i n, Nonempty (Grp (reportedMod res i) ≃+ (Fin n → ℤ)) → FreeOfRank (reportedMod res i) n) ∧
    ∀ r : T → ℤ, (∀ x ∈ history.flatten, ∀ y ∈ history.flatten, r x = r y → x = y) → ∀ i, (∀ d, maxDim = some d → i ≤ d) →
      Nonempty (SimpHom (Listed bm) r i ≃+ Grp (reportedMod res i)) := by
  obtain ⟨c, f0, e1, e2, h1⟩ := h
  obtain ⟨c', bm', f0', res', g1, g2, g3, g4, g5, g6, g7, g8⟩ := setup hh maxDim
  rw [e1] at g1; cases g1
  rw [e2] at g2; cases g2
  obtain ⟨-, -, -, -, -, hk⟩ := known hh
  have : res' = res := by
    have a := h1 (f0 + f0') (by omega)
    have b := g3 (f0 + f0') (by omega)
    rw [a] at b; exact (Option.some.inj b).symm
  subst this
  have hdiv : ∀ (i : Nat) o, res'[i]? = some o → (∀ dk ∈ o.module.divisors, dk.1 ≠ 0) ∧ o.module.divisors.Pairwise (fun x y => x.1 ∣ y.1) := by
    obtain ⟨c'', bm'', r0, q1, q2, hk⟩ := known hh
    rw [e1] at q1; cases q1
    rw [e2] at q2; cases q2
    obtain ⟨f1, res'', k1, k2, -⟩ := reported hk maxDim
    have a := h1 (f0 + f1) (by omega)
    have b := k1 (f0 + f1) (by omega)
    rw [a] at b; cases b
    exact k2
  have htriv : ∀ n, Nonempty (Grp { freeRank := 0, divisors := [] } ≃+ (Fin n → ℤ)) → FreeOfRank { freeRank := 0, divisors := [] } n := by
    rintro n ⟨e⟩
    exact free_of_equiv (by simp) (by simp) e
  refine ⟨g4, g5, g6, fun hb => listed_eq hh hb e1 e2, ?_, ?_, ?_⟩
  · intro i
    unfold reportedMod
    cases ho : res'[i]? with
    | none => exact ⟨by simp, by simp⟩
    | some o => exact hdiv i o ho
  · intro i n
    unfold reportedMod
    cases ho : res'[i]? with
    | none => exact htriv n
    | some o => exact g7 i o ho n
  · intro r hr i hi
    unfold reportedMod
    cases ho : res'[i]? with
    | none =>
      have hs := (g8 r hr i).2 ho hi
      obtain ⟨e⟩ := of_subsingleton hs
      refine ⟨e.trans ?_⟩
      exact { toFun := fun f => (f, fun i => i.elim0), invFun := fun p => p.1, left_inv := fun _ => rfl,
              right_inv := fun p => by ext i <;> [rfl; exact i.elim0], map_add' := fun _ _ => by ext i <;> [rfl; exact i.elim0] }
    | some o => exact (g8 r hr i).1 o ho

theorem order_exists (history : List (List T)) : ∃ r : T → ℤ, ∀ x ∈ history.flatten, ∀ y ∈ history.flatten, r x = r y → x = y := by
  rcases isEmpty_or_nonempty T with h | ⟨⟨v⟩⟩
  · exact ⟨fun _ => 0, fun x => h.elim x⟩
  · obtain ⟨r, hr, -⟩ := first_order history v
    exact ⟨r, hr⟩

/-! ### C120 -/

/-- free ranks of a direct sum -/
theorem rank_sum {m a b : Mod} (hm : ∀ dk ∈ m.divisors, dk.1 ≠ 0) (ha : ∀ dk ∈ a.divisors, dk.1 ≠ 0) (hb : ∀ dk ∈ b.divisors, dk.1 ≠ 0)
    (e : Grp m ≃+ Grp a × Grp b) : m.freeRank = a.freeRank + b.freeRank := by
  have pos : ∀ m : Mod, (∀ dk ∈ m.divisors, dk.1 ≠ 0) → 0 < (orders m.divisors).prod := by
    intro m hm
    refine List.prod_pos (fun d hd => ?_)
    obtain ⟨x, hx, rfl⟩ := mem_orders hd
    have := hm x hx
    omega
  have hcount : ∀ n, 0 < n → n ^ m.freeRank * ((orders m.divisors).map (fun d => n.gcd d)).prod =
      n ^ (a.freeRank + b.freeRank) * ((orders a.divisors ++ orders b.divisors).map (fun d => n.gcd d)).prod := by
    intro n hn
    have : NeZero n := ⟨by omega⟩
    have e1 : (Grp m →+ ZMod n) ≃ (Grp a →+ ZMod n) × (Grp b →+ ZMod n) :=
      { toFun := fun f => ((f.comp e.symm.toAddMonoidHom).comp (AddMonoidHom.inl _ _), (f.comp e.symm.toAddMonoidHom).comp (AddMonoidHom.inr _ _)),
        invFun := fun p => (AddMonoidHom.coprod p.1 p.2).comp e.toAddMonoidHom
        left_inv := fun f => by
          ext x
          have : f (e.symm (((e x).1, 0) + (0, (e x).2))) = f x := by simp
          rw [map_add, map_add] at this
          simpa using this
        right_inv := fun p => by
          apply Prod.ext
          · apply AddMonoidHom.ext; intro x; simp
          · apply AddMonoidHom.ext; intro x; simp }
    rw [← card_hom, Nat.card_congr e1, Nat.card_prod, card_hom, card_hom, List.map_append, List.prod_append, pow_add]
    ring
  have p1 := pos m hm
  have p2 : 0 < (orders a.divisors ++ orders b.divisors).prod := by rw [List.prod_append]; exact Nat.mul_pos (pos a ha) (pos b hb)
  refine rank_unique p1 p2 (fun t ht => ?_)
  have := hcount ((orders m.divisors).prod * (orders a.divisors ++ orders b.divisors).prod * t) (Nat.mul_pos (Nat.mul_pos p1 p2) ht)
  rw [gcd_prod_eq _ _ (fun d hd => ((orders_prod_dvd _ d hd).mul_right _).mul_right _),
    gcd_prod_eq _ _ (fun d hd => ((orders_prod_dvd _ d hd).mul_left _).mul_right _)] at this
  exact this

/-- **C120**. If the listed simplices of `h` are those of `h₁` and those of `h₂`, and `h₁` and `h₂` have no label in common, then in every dimension up to the bound
the homology reported for `h` is the direct sum of those reported for `h₁` and `h₂`; in particular the free ranks add up. -/
theorem c120_union {h h₁ h₂ : List (List T)} (g : GoodHistory h) (g₁ : GoodHistory h₁) (g₂ : GoodHistory h₂) {maxDim : Option Nat} {bm bm₁ bm₂ res res₁ res₂}
    (k : Computes h maxDim bm res) (k₁ : Computes h₁ maxDim bm₁ res₁) (k₂ : Computes h₂ maxDim bm₂ res₂)
    (hd : ∀ x ∈ h₁.flatten, x ∉ h₂.flatten) (hK : ∀ A, Listed bm A ↔ Listed bm₁ A ∨ Listed bm₂ A) (i : Nat) (hi : ∀ d, maxDim = some d → i ≤ d) :
    Nonempty (Grp (reportedMod res i) ≃+ Grp (reportedMod res₁ i) × Grp (reportedMod res₂ i)) ∧
    (reportedMod res i).freeRank = (reportedMod res₁ i).freeRank + (reportedMod res₂ i).freeRank := by
  obtain ⟨a1, a2, a3, -, a4, -, a5⟩ := k.spec g
  obtain ⟨b1, b2, b3, -, b4, -, b5⟩ := k₁.spec g₁
  obtain ⟨c1, c2, c3, -, c4, -, c5⟩ := k₂.spec g₂
  obtain ⟨r, hr⟩ := order_exists h
  have m1 : ∀ x ∈ h₁.flatten, x ∈ h.flatten := fun x hx => (a2 x).mpr ((hK _).mpr (Or.inl ((b2 x).mp hx)))
  have m2 : ∀ x ∈ h₂.flatten, x ∈ h.flatten := fun x hx => (a2 x).mpr ((hK _).mpr (Or.inr ((c2 x).mp hx)))
  obtain ⟨e⟩ := a5 r hr i hi
  obtain ⟨e₁⟩ := b5 r (fun x hx y hy => hr x (m1 x hx) y (m1 y hy)) i hi
  obtain ⟨e₂⟩ := c5 r (fun x hx y hy => hr x (m2 x hx) y (m2 y hy)) i hi
  have h12 : ∀ A, Listed bm₁ A → ¬ Listed bm₂ A := by
    intro A hA hA'
    obtain ⟨x, hx⟩ := (b3 A hA).1
    exact hd x ((b2 x).mpr (b1 A _ hA (by simpa using hx) (by simp))) ((c2 x).mpr (c1 A _ hA' (by simpa using hx) (by simp)))
  obtain ⟨s⟩ := hom_sum (r := r) hK h12 b1 c1 i
  have f := e.symm.trans (s.trans (AddEquiv.prodCongr e₁ e₂))
  exact ⟨⟨f⟩, rank_sum (a4 i).1 (b4 i).1 (c4 i).1 f⟩

/-- **C120** with at most 64 labels: one history after the other, without common labels. -/
theorem c120_append {h₁ h₂ : List (List T)} (g₁ : GoodHistory h₁) (g₂ : GoodHistory h₂) (hb : (h₁ ++ h₂).flatten.toFinset.card ≤ 64)
    (hd : ∀ x ∈ h₁.flatten, x ∉ h₂.flatten) (maxDim : Option Nat) :
    ∃ bm res bm₁ res₁ bm₂ res₂, Computes (h₁ ++ h₂) maxDim bm res ∧ Computes h₁ maxDim bm₁ res₁ ∧ Computes h₂ maxDim bm₂ res₂ ∧
      ∀ i, (∀ d, maxDim = some d → i ≤ d) → Nonempty (Grp (reportedMod res i) ≃+ Grp (reportedMod res₁ i) × Grp (reportedMod res₂ i)) ∧
        (reportedMod res i).freeRank = (reportedMod res₁ i).freeRank + (reportedMod res₂ i).freeRank := by
  have g : GoodHistory (h₁ ++ h₂) := ⟨by simp [g₁.nonempty], fun s hs => (List.mem_append.mp hs).elim (g₁.simplices s) (g₂.simplices s)⟩
  obtain ⟨bm, res, k⟩ := computes_total g maxDim
  obtain ⟨bm₁, res₁, k₁⟩ := computes_total g₁ maxDim
  obtain ⟨bm₂, res₂, k₂⟩ := computes_total g₂ maxDim
  refine ⟨bm, res, bm₁, res₁, bm₂, res₂, k, k₁, k₂, c120_union g g₁ g₂ k k₁ k₂ hd ?_⟩
  have l1 : h₁.flatten.toFinset ⊆ (h₁ ++ h₂).flatten.toFinset := fun x hx => by
    rw [List.mem_toFinset] at *; rw [List.flatten_append]; exact List.mem_append_left _ hx
  have l2 : h₂.flatten.toFinset ⊆ (h₁ ++ h₂).flatten.toFinset := fun x hx => by
    rw [List.mem_toFinset] at *; rw [List.flatten_append]; exact List.mem_append_right _ hx
  rw [(k.spec g).2.2.2.1 hb, (k₁.spec g₁).2.2.2.1 ((Finset.card_le_card l1).trans hb), (k₂.spec g₂).2.2.2.1 ((Finset.card_le_card l2).trans hb)]
  intro A
  unfold IsFace
  simp only [List.mem_append, or_and_right, exists_or, and_or_left]

/-- a case: two hollow triangles -/
example : GoodHistory [[0, 1], [1, 2], [2, 0]] ∧ GoodHistory [[3, 4], [4, 5], [5, 3]] ∧
    (∀ x ∈ [[0, 1], [1, 2], [2, 0]].flatten, x ∉ [[3, 4], [4, 5], [5, 3]].flatten) ∧ ([[0, 1], [1, 2], [2, 0]] ++ [[3, 4], [4, 5], [5, 3]]).flatten.toFinset.card ≤ 64 :=
  ⟨⟨by simp, by decide⟩, ⟨by simp, by decide⟩, by decide, by decide⟩

/-! ### C121 -/

/-- `K` collapses to `K'` by a sequence of elementary collapses -/
inductive Collapses (K : Finset T → Prop) : (Finset T → Prop) → Prop
  | refl : Collapses K K
  | step {K' K'' : Finset T → Prop} {F G : Finset T} : Collapses K K' → Collapse K' K'' F G → Collapses K K''

theorem Collapse.closed {K K' : Finset T → Prop} {F G : Finset T} (h : Collapse K K' F G) (hcl : ∀ A B, K A → B ⊆ A → B.Nonempty → K B) :
    ∀ A B, K' A → B ⊆ A → B.Nonempty → K' B := by
  intro A B hA hB hne
  obtain ⟨h1, h2, h3⟩ := (h.rest A).mp hA
  refine (h.rest B).mpr ⟨hcl A B h1 hB hne, ?_, ?_⟩
  · rintro rfl
    rcases h.free A h1 hB with e | e
    · exact h2 e
    · exact h3 e
  · rintro rfl
    rcases h.free A h1 (h.sub.trans hB) with e | e
    · exact h2 e
    · exact h3 e

theorem Collapses.hom {K K' : Finset T → Prop} (h : Collapses K K') (hcl : ∀ A B, K A → B ⊆ A → B.Nonempty → K B) {r : T → ℤ}
    (hr : ∀ x y, K {x} → K {y} → r x = r y → x = y) (i : Nat) :
    (∀ A B, K' A → B ⊆ A → B.Nonempty → K' B) ∧ (∀ A, K' A → K A) ∧ Nonempty (SimpHom K r i ≃+ SimpHom K' r i) := by
  induction h with
  | refl => exact ⟨hcl, fun _ h => h, ⟨AddEquiv.refl _⟩⟩
  | step h1 h2 ih =>
    obtain ⟨a, b, ⟨e⟩⟩ := ih
    have : ∀ x ∈ _, K {x} := fun x hx => b _ (a _ {x} h2.mem (by simpa using hx) (by simp))
    obtain ⟨e'⟩ := h2.hom (r := r) a (fun x hx y hy => hr x y (this x hx) (this y hy)) i
    exact ⟨h2.closed a, fun A hA => b A ((h2.rest A).mp hA).1, ⟨e.trans e'⟩⟩

/-- **C121**. If the simplices listed for `h₁` collapse to those listed for `h₂`, the two histories are reported to have isomorphic homology, with the same free
rank and, up to signs and units, the same torsion coefficients, in every dimension up to the bound. -/
theorem c121_collapse {h₁ h₂ : List (List T)} (g₁ : GoodHistory h₁) (g₂ : GoodHistory h₂) {maxDim : Option Nat} {bm₁ bm₂ res₁ res₂}
    (k₁ : Computes h₁ maxDim bm₁ res₁) (k₂ : Computes h₂ maxDim bm₂ res₂) (hc : Collapses (Listed bm₁) (Listed bm₂)) (i : Nat) (hi : ∀ d, maxDim = some d → i ≤ d) :
    Nonempty (Grp (reportedMod res₁ i) ≃+ Grp (reportedMod res₂ i)) ∧ (reportedMod res₁ i).freeRank = (reportedMod res₂ i).freeRank ∧
    (orders (reportedMod res₁ i).divisors).filter (fun d => decide (d ≠ 1)) = (orders (reportedMod res₂ i).divisors).filter (fun d => decide (d ≠ 1)) := by
  obtain ⟨b1, b2, b3, -, b4, -, b5⟩ := k₁.spec g₁
  obtain ⟨c1, c2, c3, -, c4, -, c5⟩ := k₂.spec g₂
  obtain ⟨r, hr⟩ := order_exists h₁
  obtain ⟨-, q, ⟨s⟩⟩ := hc.hom b1 (r := r) (fun x y hx hy => hr x ((b2 x).mpr hx) y ((b2 y).mpr hy)) i
  have m : ∀ x ∈ h₂.flatten, x ∈ h₁.flatten := fun x hx => (b2 x).mpr (q _ ((c2 x).mp hx))
  obtain ⟨e₁⟩ := b5 r hr i hi
  obtain ⟨e₂⟩ := c5 r (fun x hx y hy => hr x (m x hx) y (m y hy)) i hi
  have f := e₁.symm.trans (s.trans e₂)
  exact ⟨⟨f⟩, same_numbers (b4 i).1 (b4 i).2 (c4 i).1 (c4 i).2 f⟩

/-- **C121**: a complex that collapses to a point is reported to have the homology of a point. -/
theorem c121_collapsible {h : List (List T)} (g : GoodHistory h) {maxDim : Option Nat} {bm res} (k : Computes h maxDim bm res) (v : T)
    (hc : Collapses (Listed bm) (fun A => A = {v})) :
    FreeOfRank (reportedMod res 0) 1 ∧ ∀ i, 0 < i → (∀ d, maxDim = some d → i ≤ d) → FreeOfRank (reportedMod res i) 0 := by
  obtain ⟨b1, b2, b3, -, b4, b5, b6⟩ := k.spec g
  obtain ⟨r, hr⟩ := order_exists h
  have hr' : ∀ x y, Listed bm {x} → Listed bm {y} → r x = r y → x = y := fun x y hx hy => hr x ((b2 x).mpr hx) y ((b2 y).mpr hy)
  constructor
  · obtain ⟨a, q, ⟨s⟩⟩ := hc.hom b1 hr' 0
    obtain ⟨e⟩ := b6 r hr 0 (by simp)
    obtain ⟨z⟩ := connected_zero (K := fun A : Finset T => A = {v}) (r := r) a (fun x y hx hy _ => Finset.singleton_injective (hx.trans hy.symm)) v rfl
      (fun x hx => by rw [Finset.singleton_injective hx]; simp)
    exact b5 0 1 ⟨e.symm.trans (s.trans z)⟩
  · intro i hi0 hi
    obtain ⟨a, q, ⟨s⟩⟩ := hc.hom b1 hr' i
    obtain ⟨e⟩ := b6 r hr i hi
    have : Subsingleton (SimpHom (fun A : Finset T => A = {v}) r i) := by
      refine cone_trivial (v := v) (fun A hA x hx hne => ?_) hi0 (fun A hA hcard _ => ?_)
      · subst hA; simp at hx; exact absurd hx hne
      · subst hA; simp at hcard; omega
    exact b5 i 0 (of_subsingleton (e.symm.trans s).toEquiv.subsingleton)

/-- **C121** with at most 64 labels: removing a free face. If `F` is contained in no simplex of the complex generated by `h₁` except itself and `G = F ∪ {v}`, and `h₂`
generates the complex without `F` and `G`, the homology reported is the same. -/
theorem c121_free_face {h₁ h₂ : List (List T)} (g₁ : GoodHistory h₁) (g₂ : GoodHistory h₂) (l₁ : h₁.flatten.toFinset.card ≤ 64) (l₂ : h₂.flatten.toFinset.card ≤ 64)
    (F : Finset T) (v : T) (hF : F.Nonempty) (hv : v ∉ F) (hG : IsFace h₁ (insert v F)) (hfree : ∀ A, IsFace h₁ A → F ⊆ A → A = F ∨ A = insert v F)
    (hrest : ∀ A, IsFace h₂ A ↔ IsFace h₁ A ∧ A ≠ F ∧ A ≠ insert v F) (maxDim : Option Nat) :
    ∃ bm₁ res₁ bm₂ res₂, Computes h₁ maxDim bm₁ res₁ ∧ Computes h₂ maxDim bm₂ res₂ ∧ ∀ i, (∀ d, maxDim = some d → i ≤ d) →
      Nonempty (Grp (reportedMod res₁ i) ≃+ Grp (reportedMod res₂ i)) ∧ (reportedMod res₁ i).freeRank = (reportedMod res₂ i).freeRank ∧
      (orders (reportedMod res₁ i).divisors).filter (fun d => decide (d ≠ 1)) = (orders (reportedMod res₂ i).divisors).filter (fun d => decide (d ≠ 1)) := by
  obtain ⟨bm₁, res₁, k₁⟩ := computes_total g₁ maxDim
  obtain ⟨bm₂, res₂, k₂⟩ := computes_total g₂ maxDim
  refine ⟨bm₁, res₁, bm₂, res₂, k₁, k₂, c121_collapse g₁ g₂ k₁ k₂ ?_⟩
  rw [(k₁.spec g₁).2.2.2.1 l₁, (k₂.spec g₂).2.2.2.1 l₂]
  exact Collapses.step Collapses.refl ⟨hG, ⟨v, hv, rfl⟩, hF, hfree, hrest⟩

/-- a case: a triangle with a tail; the free face `{0, 1}` and the triangle are removed -/
example : GoodHistory [[0, 1, 2], [2, 3]] ∧ GoodHistory [[1, 2], [2, 0], [2, 3]] ∧ IsFace [[0, 1, 2], [2, 3]] (insert 2 {0, 1}) ∧
    (∀ A, IsFace [[0, 1, 2], [2, 3]] A → ({0, 1} : Finset Nat) ⊆ A → A = {0, 1} ∨ A = insert 2 {0, 1}) ∧
    ∀ A, IsFace [[1, 2], [2, 0], [2, 3]] A ↔ IsFace [[0, 1, 2], [2, 3]] A ∧ A ≠ {0, 1} ∧ A ≠ insert 2 {0, 1} := by
  have hp : ∀ A : Finset Nat, (IsFace [[0, 1, 2], [2, 3]] A ∨ IsFace [[1, 2], [2, 0], [2, 3]] A) → A ∈ ({0, 1, 2, 3} : Finset Nat).powerset := by
    intro A h
    rw [Finset.mem_powerset]
    rcases h with ⟨-, s, hs, hsub⟩ | ⟨-, s, hs, hsub⟩
    · refine hsub.trans ?_
      have : ∀ s ∈ [[0, 1, 2], [2, 3]], s.toFinset ⊆ ({0, 1, 2, 3} : Finset Nat) := by decide
      exact this s hs
    · refine hsub.trans ?_
      have : ∀ s ∈ [[1, 2], [2, 0], [2, 3]], s.toFinset ⊆ ({0, 1, 2, 3} : Finset Nat) := by decide
      exact this s hs
  refine ⟨⟨by simp, by decide⟩, ⟨by simp, by decide⟩, ⟨by simp, [0, 1, 2], by simp, by decide⟩, ?_, ?_⟩
  · intro A hA
    have : ∀ A ∈ ({0, 1, 2, 3} : Finset Nat).powerset, (A.Nonempty ∧ ∃ s ∈ [[0, 1, 2], [2, 3]], A ⊆ s.toFinset) → ({0, 1} : Finset Nat) ⊆ A →
      A = {0, 1} ∨ A = insert 2 {0, 1} := by decide +kernel
    exact this A (hp A (Or.inl hA)) hA
  · intro A
    have : ∀ A ∈ ({0, 1, 2, 3} : Finset Nat).powerset, ((A.Nonempty ∧ ∃ s ∈ [[1, 2], [2, 0], [2, 3]], A ⊆ s.toFinset) ↔
      (A.Nonempty ∧ ∃ s ∈ [[0, 1, 2], [2, 3]], A ⊆ s.toFinset) ∧ A ≠ {0, 1} ∧ A ≠ insert 2 {0, 1}) := by decide +kernel
    constructor
    · intro h
      exact (this A (hp A (Or.inr h))).mp h
    · intro h
      exact (this A (hp A (Or.inl h.1))).mpr h

end
end Toppo.Simp
