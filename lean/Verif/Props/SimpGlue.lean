import Verif.Proof.SimpGlue
import Verif.Props.SimpWedge
import Verif.Props.SimpCalc
set_option linter.unusedVariables false
set_option linter.unusedSectionVars false
/-!
# C144: homology of a union of two complexes whose common part has the homology of a point
-/
namespace Toppo.Simp
open Toppo Toppo.ModProps

/-- the homology of a point is reported: one free generator in dimension zero and nothing else up to the bound (the order of every other summand is one) -/
structure PointLike {B : Type} (maxDim : Option Nat) (res : List (Hom.Out B)) : Prop where
  zero : FreeOfRank (reportedMod res 0) 1
  pos : ∀ i, 0 < i → (∀ d, maxDim = some d → i ≤ d) → FreeOfRank (reportedMod res i) 0

theorem free_equiv {m : Mod} {n : Nat} (h : FreeOfRank m n) : Nonempty (Grp m ≃+ (Fin n → ℤ)) := by
  obtain ⟨rfl, h⟩ := h
  have hs : Subsingleton (Cyc (orders m.divisors)) := by
    refine ⟨fun f g => funext (fun i => ?_)⟩
    have h1 : (orders m.divisors).get i = 1 := by
      obtain ⟨x, hx, e⟩ := mem_orders (List.get_mem (orders m.divisors) i)
      have := h x hx
      omega
    have : Subsingleton (ZMod ((orders m.divisors).get i)) := by rw [h1]; infer_instance
    exact Subsingleton.elim _ _
  exact ⟨{ toFun := fun p => p.1, invFun := fun f => (f, 0), left_inv := fun p => Prod.ext rfl (Subsingleton.elim _ _), right_inv := fun _ => rfl, map_add' := fun _ _ => rfl }⟩

/-- `R × ℤ` is not cyclic unless `R` is trivial -/
theorem line_split {R : Type} [AddCommGroup R] (e : R × ℤ ≃+ (Fin 1 → ℤ)) : Subsingleton R := by
  have key : ∀ a : R, a = 0 := by
    intro a
    have h : (e (0, 1) 0) • ((a, 0) : R × ℤ) = (e (a, 0) 0) • ((0, 1) : R × ℤ) := by
      apply e.injective
      rw [map_zsmul, map_zsmul]
      funext i
      rw [Subsingleton.elim i 0]
      simp [mul_comm]
    have h2 := congrArg Prod.snd h
    simp only [Prod.smul_snd, smul_eq_mul, mul_one] at h2
    have h3 : e (a, 0) = 0 := by
      funext i
      rw [Subsingleton.elim i 0, ← h2, mul_zero]; rfl
    have := (AddEquiv.map_eq_zero_iff e).mp h3
    exact congrArg Prod.fst this
  exact ⟨fun a b => (key a).trans (key b).symm⟩

theorem le_of_trivial {V : Type} [AddCommGroup V] {Z B : Submodule ℤ V} (h : Subsingleton (Z ⧸ B.submoduleOf Z)) : Z ≤ B := by
  intro z hz
  have : (Submodule.Quotient.mk ⟨z, hz⟩ : Z ⧸ B.submoduleOf Z) = 0 := Subsingleton.elim _ _
  exact (Submodule.Quotient.mk_eq_zero (B.submoduleOf Z)).mp this

section
variable {T : Type} [DecidableEq T] [LinearOrder (Simplex T)]

theorem Computes.acyclic {history : List (List T)} {maxDim bm res} (h : Computes history maxDim bm res) (hh : GoodHistory history) {r : T → ℤ}
    (hr : ∀ x ∈ history.flatten, ∀ y ∈ history.flatten, r x = r y → x = y) (hp : PointLike maxDim res) (j : Nat) (hj : ∀ d, maxDim = some d → j ≤ d) :
    RedCycles (Listed bm) r j ≤ Bounds (Listed bm) r j := by
  obtain ⟨-, ⟨e0⟩, e1⟩ := h.red hh hr
  rcases Nat.eq_zero_or_pos j with rfl | h0
  · obtain ⟨f⟩ := free_equiv hp.zero
    exact le_of_trivial (line_split (e0.symm.trans f))
  · obtain ⟨e⟩ := e1 j h0 hj
    obtain ⟨f⟩ := free_equiv (hp.pos j h0 hj)
    have : Subsingleton (RedHom (Listed bm) r j) := (e.symm.trans f).toEquiv.subsingleton
    exact le_of_trivial this

/-- **C144**. If the listed simplices of `h` are those of `h₁` and those of `h₂`, those of `h₁₂` are the simplices listed for both, and the homology of a point is reported
for `h₁₂`, then in every positive dimension up to the bound the homology reported for `h` is the direct sum of those reported for `h₁` and `h₂`; in dimension zero the free
rank is one less than the sum. -/
theorem c144_glue {h h₁ h₂ h₁₂ : List (List T)} (g : GoodHistory h) (g₁ : GoodHistory h₁) (g₂ : GoodHistory h₂) (g₁₂ : GoodHistory h₁₂) {maxDim : Option Nat}
    {bm bm₁ bm₂ bm₁₂ res res₁ res₂ res₁₂} (k : Computes h maxDim bm res) (k₁ : Computes h₁ maxDim bm₁ res₁) (k₂ : Computes h₂ maxDim bm₂ res₂)
    (k₁₂ : Computes h₁₂ maxDim bm₁₂ res₁₂) (hK : ∀ A, Listed bm A ↔ Listed bm₁ A ∨ Listed bm₂ A) (hI : ∀ A, Listed bm₁₂ A ↔ Listed bm₁ A ∧ Listed bm₂ A)
    (hp : PointLike maxDim res₁₂) :
    (∀ i, 0 < i → (∀ d, maxDim = some d → i ≤ d) → Nonempty (Grp (reportedMod res i) ≃+ Grp (reportedMod res₁ i) × Grp (reportedMod res₂ i)) ∧
      (reportedMod res i).freeRank = (reportedMod res₁ i).freeRank + (reportedMod res₂ i).freeRank) ∧
    (reportedMod res 0).freeRank + 1 = (reportedMod res₁ 0).freeRank + (reportedMod res₂ 0).freeRank := by
  obtain ⟨a1, a2, a3, -, a4, -, a5⟩ := k.spec g
  obtain ⟨b1, b2, b3, -, b4, -, b5⟩ := k₁.spec g₁
  obtain ⟨c1, c2, c3, -, c4, -, c5⟩ := k₂.spec g₂
  obtain ⟨d1, d2, d3, -, -, -, -⟩ := k₁₂.spec g₁₂
  obtain ⟨r, hr⟩ := order_exists h
  have m1 : ∀ x ∈ h₁.flatten, x ∈ h.flatten := fun x hx => (a2 x).mpr ((hK _).mpr (Or.inl ((b2 x).mp hx)))
  have m2 : ∀ x ∈ h₂.flatten, x ∈ h.flatten := fun x hx => (a2 x).mpr ((hK _).mpr (Or.inr ((c2 x).mp hx)))
  have m3 : ∀ x ∈ h₁₂.flatten, x ∈ h.flatten := fun x hx => m1 x ((b2 x).mpr ((hI _).mp ((d2 x).mp hx)).1)
  obtain ⟨a6, ⟨a7⟩, a8⟩ := k.red g hr
  obtain ⟨-, ⟨b7⟩, b8⟩ := k₁.red g₁ (fun x hx y hy => hr x (m1 x hx) y (m1 y hy))
  obtain ⟨-, ⟨c7⟩, c8⟩ := k₂.red g₂ (fun x hx y hy => hr x (m2 x hx) y (m2 y hy))
  have hac := k₁₂.acyclic g₁₂ (fun x hx y hy => hr x (m3 x hx) y (m3 y hy)) hp
  obtain ⟨s0, hs0⟩ := List.exists_mem_of_ne_nil _ g₁₂.nonempty
  obtain ⟨v, hv⟩ := List.exists_mem_of_ne_nil _ (g₁₂.simplices s0 hs0).1
  have hvL : Listed bm₁₂ {v} := (d2 v).mp (List.mem_flatten.mpr ⟨s0, hs0, hv⟩)
  have s : ∀ i, (∀ d, maxDim = some d → i ≤ d) → _ := fun i hi =>
    glue_sum (r := r) hK hI hvL b1 c1 a6 i (fun j hj => hac j (fun d hd => hj.trans (hi d hd)))
  constructor
  · intro i h0 hi
    obtain ⟨e⟩ := a8 i h0 hi
    obtain ⟨e₁⟩ := b8 i h0 hi
    obtain ⟨e₂⟩ := c8 i h0 hi
    obtain ⟨s⟩ := s i hi
    have f := e.trans (s.trans (AddEquiv.prodCongr e₁.symm e₂.symm))
    exact ⟨⟨f⟩, rank_sum (a4 i).1 (b4 i).1 (c4 i).1 f⟩
  · obtain ⟨s⟩ := s 0 (by simp)
    obtain ⟨p⟩ := plus_equiv (reportedMod res 0)
    have f : Grp (plus (reportedMod res 0)) ≃+ Grp (reportedMod res₁ 0) × Grp (reportedMod res₂ 0) :=
      p.trans ((AddEquiv.prodCongr (a7.trans (AddEquiv.prodCongr s (AddEquiv.refl ℤ))) (AddEquiv.refl ℤ)).trans
        ((AddEquiv.prodAssoc (M := RedHom (Listed bm₁) r 0 × RedHom (Listed bm₂) r 0) (N := ℤ) (P := ℤ)).trans
          ((AddEquiv.prodProdProdComm _ _ ℤ ℤ).trans (AddEquiv.prodCongr b7.symm c7.symm))))
    exact rank_sum (m := plus (reportedMod res 0)) (a4 0).1 (b4 0).1 (c4 0).1 f

/-- **C144**, a part like a point glued on along a part like a point: nothing changes. -/
theorem c144_unchanged {h h₁ h₂ h₁₂ : List (List T)} (g : GoodHistory h) (g₁ : GoodHistory h₁) (g₂ : GoodHistory h₂) (g₁₂ : GoodHistory h₁₂) {maxDim : Option Nat}
    {bm bm₁ bm₂ bm₁₂ res res₁ res₂ res₁₂} (k : Computes h maxDim bm res) (k₁ : Computes h₁ maxDim bm₁ res₁) (k₂ : Computes h₂ maxDim bm₂ res₂)
    (k₁₂ : Computes h₁₂ maxDim bm₁₂ res₁₂) (hK : ∀ A, Listed bm A ↔ Listed bm₁ A ∨ Listed bm₂ A) (hI : ∀ A, Listed bm₁₂ A ↔ Listed bm₁ A ∧ Listed bm₂ A)
    (hp : PointLike maxDim res₁₂) (hp₂ : PointLike maxDim res₂) (i : Nat) (hi : ∀ d, maxDim = some d → i ≤ d) :
    Nonempty (Grp (reportedMod res i) ≃+ Grp (reportedMod res₁ i)) ∧ (reportedMod res i).freeRank = (reportedMod res₁ i).freeRank ∧
      (orders (reportedMod res i).divisors).filter (fun d => decide (d ≠ 1)) = (orders (reportedMod res₁ i).divisors).filter (fun d => decide (d ≠ 1)) := by
  obtain ⟨q1, q2⟩ := c144_glue g g₁ g₂ g₁₂ k k₁ k₂ k₁₂ hK hI hp
  obtain ⟨-, -, -, -, a4, -, -⟩ := k.spec g
  obtain ⟨-, -, -, -, b4, -, -⟩ := k₁.spec g₁
  have key : Nonempty (Grp (reportedMod res i) ≃+ Grp (reportedMod res₁ i)) := by
    rcases Nat.eq_zero_or_pos i with rfl | h0
    · have e : (reportedMod res 0).freeRank = (reportedMod res₁ 0).freeRank := by
        have := hp₂.zero.1
        omega
      obtain ⟨u⟩ := free_equiv (k.zero_free g)
      obtain ⟨w⟩ := free_equiv (n := (reportedMod res 0).freeRank) ⟨e.symm, (k₁.zero_free g₁).2⟩
      exact ⟨u.trans w.symm⟩
    · obtain ⟨⟨f⟩, -⟩ := q1 i h0 hi
      obtain ⟨u⟩ := free_equiv (hp₂.pos i h0 hi)
      have : Subsingleton (Grp (reportedMod res₂ i)) := u.toEquiv.subsingleton
      have : Unique (Grp (reportedMod res₂ i)) := ⟨⟨0⟩, fun _ => Subsingleton.elim _ _⟩
      exact ⟨f.trans AddEquiv.prodUnique⟩
  obtain ⟨f⟩ := key
  exact ⟨⟨f⟩, same_numbers (a4 i).1 (a4 i).2 (b4 i).1 (b4 i).2 f⟩

/-- **C144** with at most 64 labels: one history after the other; `h₁₂` generates the common part. -/
theorem c144_append {h₁ h₂ h₁₂ : List (List T)} (g₁ : GoodHistory h₁) (g₂ : GoodHistory h₂) (g₁₂ : GoodHistory h₁₂) (hb : (h₁ ++ h₂).flatten.toFinset.card ≤ 64)
    (hI : ∀ A, IsFace h₁₂ A ↔ IsFace h₁ A ∧ IsFace h₂ A) (maxDim : Option Nat) :
    ∃ bm res bm₁ res₁ bm₂ res₂ bm₁₂ res₁₂, Computes (h₁ ++ h₂) maxDim bm res ∧ Computes h₁ maxDim bm₁ res₁ ∧ Computes h₂ maxDim bm₂ res₂ ∧
      Computes h₁₂ maxDim bm₁₂ res₁₂ ∧ (PointLike maxDim res₁₂ →
        ((∀ i, 0 < i → (∀ d, maxDim = some d → i ≤ d) → Nonempty (Grp (reportedMod res i) ≃+ Grp (reportedMod res₁ i) × Grp (reportedMod res₂ i)) ∧
          (reportedMod res i).freeRank = (reportedMod res₁ i).freeRank + (reportedMod res₂ i).freeRank) ∧
        (reportedMod res 0).freeRank + 1 = (reportedMod res₁ 0).freeRank + (reportedMod res₂ 0).freeRank) ∧
        (PointLike maxDim res₂ → ∀ i, (∀ d, maxDim = some d → i ≤ d) →
          Nonempty (Grp (reportedMod res i) ≃+ Grp (reportedMod res₁ i)) ∧ (reportedMod res i).freeRank = (reportedMod res₁ i).freeRank ∧
          (orders (reportedMod res i).divisors).filter (fun d => decide (d ≠ 1)) = (orders (reportedMod res₁ i).divisors).filter (fun d => decide (d ≠ 1)))) := by
  have g : GoodHistory (h₁ ++ h₂) := ⟨by simp [g₁.nonempty], fun s hs => (List.mem_append.mp hs).elim (g₁.simplices s) (g₂.simplices s)⟩
  obtain ⟨bm, res, k⟩ := computes_total g maxDim
  obtain ⟨bm₁, res₁, k₁⟩ := computes_total g₁ maxDim
  obtain ⟨bm₂, res₂, k₂⟩ := computes_total g₂ maxDim
  obtain ⟨bm₁₂, res₁₂, k₁₂⟩ := computes_total g₁₂ maxDim
  have l1 : h₁.flatten.toFinset ⊆ (h₁ ++ h₂).flatten.toFinset := fun x hx => by
    rw [List.mem_toFinset] at *; rw [List.flatten_append]; exact List.mem_append_left _ hx
  have l2 : h₂.flatten.toFinset ⊆ (h₁ ++ h₂).flatten.toFinset := fun x hx => by
    rw [List.mem_toFinset] at *; rw [List.flatten_append]; exact List.mem_append_right _ hx
  have l3 : h₁₂.flatten.toFinset ⊆ (h₁ ++ h₂).flatten.toFinset := fun x hx => by
    rw [List.mem_toFinset] at hx
    obtain ⟨s, hs, hxs⟩ := List.mem_flatten.mp hx
    obtain ⟨⟨-, t, ht, hsub⟩, -⟩ := (hI {x}).mp ⟨by simp, s, hs, by simpa using hxs⟩
    exact l1 (List.mem_toFinset.mpr (List.mem_flatten.mpr ⟨t, ht, by simpa using hsub⟩))
  have hK : ∀ A, Listed bm A ↔ Listed bm₁ A ∨ Listed bm₂ A := by
    rw [(k.spec g).2.2.2.1 hb, (k₁.spec g₁).2.2.2.1 ((Finset.card_le_card l1).trans hb), (k₂.spec g₂).2.2.2.1 ((Finset.card_le_card l2).trans hb)]
    intro A
    unfold IsFace
    simp only [List.mem_append, or_and_right, exists_or, and_or_left]
  have hI' : ∀ A, Listed bm₁₂ A ↔ Listed bm₁ A ∧ Listed bm₂ A := by
    rw [(k₁₂.spec g₁₂).2.2.2.1 ((Finset.card_le_card l3).trans hb), (k₁.spec g₁).2.2.2.1 ((Finset.card_le_card l1).trans hb),
      (k₂.spec g₂).2.2.2.1 ((Finset.card_le_card l2).trans hb)]
    exact hI
  exact ⟨bm, res, bm₁, res₁, bm₂, res₂, bm₁₂, res₁₂, k, k₁, k₂, k₁₂, fun hp => ⟨c144_glue g g₁ g₂ g₁₂ k k₁ k₂ k₁₂ hK hI' hp,
    fun hp₂ i hi => c144_unchanged g g₁ g₂ g₁₂ k k₁ k₂ k₁₂ hK hI' hp hp₂ i hi⟩⟩

/-- an attached part in which all simplices have a label in common is like a point (C118) -/
theorem pointLike_common {h : List (List T)} (g : GoodHistory h) (hb : h.flatten.toFinset.card ≤ 64) (v : T) (hv : ∀ s ∈ h, v ∈ s) {maxDim : Option Nat} {bm res}
    (k : Computes h maxDim bm res) : PointLike maxDim res := by
  obtain ⟨c, bm', f0, res', e1, e2, h1, ⟨o, ho, hf⟩, h3⟩ := c118_common_label g hb v hv maxDim
  obtain ⟨c', f1, a1, a2, a3⟩ := k
  rw [e1] at a1; cases a1
  rw [e2] at a2; cases a2
  have a := h1 (f0 + f1) (by omega)
  have b := a3 (f0 + f1) (by omega)
  rw [a] at b; cases b
  refine ⟨by simpa [reportedMod, ho] using hf, fun i h0 hi => ?_⟩
  unfold reportedMod
  cases ho : res[i]? with
  | none => exact ⟨rfl, by simp⟩
  | some o => exact h3 i o h0 ho

/-- **C144**, one more simplex: if `s` is attached and its faces that were there before form a complex with the homology of a point (for example, all maximal ones have a label in
common), the reported homology does not change. -/
theorem c144_simplex {h h₁₂ : List (List T)} (g : GoodHistory h) (s : List T) (hs : s ≠ []) (hs' : s.Nodup) (g₁₂ : GoodHistory h₁₂)
    (hb : (h ++ [s]).flatten.toFinset.card ≤ 64) (hI : ∀ A, IsFace h₁₂ A ↔ IsFace h A ∧ A ⊆ s.toFinset) (maxDim : Option Nat) :
    ∃ bm res bm₁ res₁ bm₁₂ res₁₂, Computes (h ++ [s]) maxDim bm res ∧ Computes h maxDim bm₁ res₁ ∧ Computes h₁₂ maxDim bm₁₂ res₁₂ ∧
      (PointLike maxDim res₁₂ → ∀ i, (∀ d, maxDim = some d → i ≤ d) →
        Nonempty (Grp (reportedMod res i) ≃+ Grp (reportedMod res₁ i)) ∧ (reportedMod res i).freeRank = (reportedMod res₁ i).freeRank ∧
        (orders (reportedMod res i).divisors).filter (fun d => decide (d ≠ 1)) = (orders (reportedMod res₁ i).divisors).filter (fun d => decide (d ≠ 1))) := by
  have g₂ : GoodHistory [s] := ⟨by simp, fun t ht => by rw [List.mem_singleton.mp ht]; exact ⟨hs, hs'⟩⟩
  obtain ⟨bm, res, bm₁, res₁, bm₂, res₂, bm₁₂, res₁₂, k, k₁, k₂, k₁₂, hq⟩ := c144_append g g₂ g₁₂ hb (by
    intro A
    rw [hI A]
    refine ⟨fun ⟨h1, h2⟩ => ⟨h1, h1.1, s, List.mem_singleton_self s, h2⟩, fun h => ⟨h.1, ?_⟩⟩
    obtain ⟨h1, -, t, ht, h2⟩ := h
    rwa [List.mem_singleton.mp ht] at h2) maxDim
  refine ⟨bm, res, bm₁, res₁, bm₁₂, res₁₂, k, k₁, k₁₂, fun hp => (hq hp).2 ?_⟩
  obtain ⟨v, hv⟩ := List.exists_mem_of_ne_nil _ hs
  refine pointLike_common g₂ (le_trans (Finset.card_le_card (fun x hx => ?_)) hb) v (fun t ht => by rw [List.mem_singleton.mp ht]; exact hv) k₂
  rw [List.mem_toFinset] at *; rw [List.flatten_append]; exact List.mem_append_right _ hx

/-- a case: two hollow triangles with the common edge {1, 2} -/
example : GoodHistory [[0, 1], [1, 2], [2, 0]] ∧ GoodHistory [[1, 2], [2, 3], [3, 1]] ∧ GoodHistory ([[1, 2]] : List (List Nat)) ∧
    ([[0, 1], [1, 2], [2, 0]] ++ [[1, 2], [2, 3], [3, 1]] : List (List Nat)).flatten.toFinset.card ≤ 64 ∧
    (∀ A : Finset Nat, IsFace [[1, 2]] A ↔ IsFace [[0, 1], [1, 2], [2, 0]] A ∧ IsFace [[1, 2], [2, 3], [3, 1]] A) ∧ ∀ s ∈ ([[1, 2]] : List (List Nat)), 1 ∈ s := by
  refine ⟨⟨by simp, by decide⟩, ⟨by simp, by decide⟩, ⟨by simp, by decide⟩, by decide, fun A => ⟨?_, ?_⟩, by decide⟩
  · rintro ⟨h1, s, hs, h2⟩
    rw [List.mem_singleton.mp hs] at h2
    exact ⟨⟨h1, [1, 2], by simp, h2⟩, ⟨h1, [1, 2], by simp, h2⟩⟩
  · rintro ⟨⟨h1, s, hs, h2⟩, ⟨-, t, ht, h3⟩⟩
    refine ⟨h1, [1, 2], by simp, fun x hx => ?_⟩
    have a : x ∈ [0, 1, 2] := by
      have := h2 hx
      simp only [List.mem_cons, List.not_mem_nil, or_false] at hs
      rcases hs with rfl | rfl | rfl <;> simp at this ⊢ <;> omega
    have b : x ∈ [1, 2, 3] := by
      have := h3 hx
      simp only [List.mem_cons, List.not_mem_nil, or_false] at ht
      rcases ht with rfl | rfl | rfl <;> simp at this ⊢ <;> omega
    simp at a b ⊢; omega
end

end Toppo.Simp
