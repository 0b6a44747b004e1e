import Verif.Props.Stellar
import Mathlib.Data.Finset.Sum
import Mathlib.Data.Sum.Order
import Mathlib.SetTheory.Cardinal.Order
set_option linter.unusedVariables false
set_option linter.unusedSectionVars false
/-!
# C143: barycentric subdivision
-/
namespace Toppo.Simp
open Toppo Toppo.ModProps

/-! ### specification -/
section
variable {T T₂ : Type} [DecidableEq T] [DecidableEq T₂]

/-- the complex `K₂` is the barycentric subdivision of `K`: its vertices stand, by `φ`, for the simplices of `K`, one for each, and its simplices are the sets of vertices
that stand for simplices any two of which lie one in the other -/
structure Barycentric (K : Finset T → Prop) (K₂ : Finset T₂ → Prop) (φ : T₂ → Finset T) : Prop where
  inj : ∀ x y, K₂ {x} → K₂ {y} → φ x = φ y → x = y
  mem : ∀ x, K₂ {x} → K (φ x)
  onto : ∀ A, K A → ∃ x, K₂ {x} ∧ φ x = A
  simplices : ∀ D, K₂ D ↔ D.Nonempty ∧ (∀ x ∈ D, K₂ {x}) ∧ ∀ x ∈ D, ∀ y ∈ D, φ x ⊆ φ y ∨ φ y ⊆ φ x
end

/-! ### subdividing one simplex after the other -/
section
variable {T : Type} [DecidableEq T]

/-- the complex in which the simplices of `P` have been subdivided: a simplex `left` of `K` that is not in `P` (or none) together with a chain `right` of simplices of `P` that contain it -/
def Part (K : Finset T → Prop) (P : Finset (Finset T)) (A : Finset (T ⊕ Finset T)) : Prop :=
  A.Nonempty ∧ (∀ s ∈ A.toRight, s ∈ P) ∧ (∀ s ∈ A.toRight, ∀ t ∈ A.toRight, s ⊆ t ∨ t ⊆ s) ∧ (A.toLeft = ∅ ∨ K A.toLeft ∧ A.toLeft ∉ P) ∧ ∀ s ∈ A.toRight, A.toLeft ⊆ s

variable {K : Finset T → Prop} {P : Finset (Finset T)}

theorem part_closed (hcl : ∀ A B, K A → B ⊆ A → B.Nonempty → K B) (hup : ∀ s ∈ P, ∀ t, K t → s ⊆ t → t ∈ P) (hne : ∀ s ∈ P, s.Nonempty) :
    ∀ A B, Part K P A → B ⊆ A → B.Nonempty → Part K P B := by
  rintro A B ⟨h1, h2, h3, h4, h5⟩ hBA hB
  have hl : B.toLeft ⊆ A.toLeft := fun x hx => Finset.mem_toLeft.mpr (hBA (Finset.mem_toLeft.mp hx))
  have hr : B.toRight ⊆ A.toRight := fun x hx => Finset.mem_toRight.mpr (hBA (Finset.mem_toRight.mp hx))
  refine ⟨hB, fun s hs => h2 s (hr hs), fun s hs t ht => h3 s (hr hs) t (hr ht), ?_, fun s hs => hl.trans (h5 s (hr hs))⟩
  rcases Finset.eq_empty_or_nonempty B.toLeft with he | hn
  · exact Or.inl he
  · rcases h4 with h4 | ⟨h4, h6⟩
    · rw [h4] at hl
      exact absurd (hl hn.choose_spec) (Finset.notMem_empty _)
    · exact Or.inr ⟨hcl _ _ h4 hl hn, fun hm => h6 (hup _ hm _ h4 hl)⟩

theorem part_step (hcl : ∀ A B, K A → B ⊆ A → B.Nonempty → K B) (hup : ∀ s ∈ P, ∀ t, K t → s ⊆ t → t ∈ P) {σ : Finset T} (hσ : K σ) (hne : σ.Nonempty) (hP : σ ∉ P)
    (hmax : ∀ t, K t → σ ⊆ t → t ≠ σ → t ∈ P) : Part K (insert σ P) = Stellar (Part K P) (σ.map Function.Embedding.inl) (Sum.inr σ) := by
  funext A
  have hsub : ∀ A : Finset (T ⊕ Finset T), σ.map Function.Embedding.inl ⊆ A ↔ σ ⊆ A.toLeft := by
    intro A
    constructor
    · intro h x hx
      exact Finset.mem_toLeft.mpr (h (Finset.mem_map.mpr ⟨x, hx, rfl⟩))
    · intro h x hx
      obtain ⟨y, hy, rfl⟩ := Finset.mem_map.mp hx
      exact Finset.mem_toLeft.mp (h hy)
  have hL : (A.erase (Sum.inr σ) ∪ σ.map Function.Embedding.inl).toLeft = A.toLeft ∪ σ := by ext x; simp
  have hR : (A.erase (Sum.inr σ) ∪ σ.map Function.Embedding.inl).toRight = A.toRight.erase σ := by ext x; simp
  unfold Stellar
  rw [hsub]
  refine propext ⟨?_, ?_⟩
  · rintro ⟨h1, h2, h3, h4, h5⟩
    have hns : ¬ σ ⊆ A.toLeft := by
      intro hs
      rcases h4 with h4 | ⟨h4, h6⟩
      · rw [h4, Finset.subset_empty] at hs
        exact hne.ne_empty hs
      · exact h6 (Finset.mem_insert.mpr (or_iff_not_imp_left.mpr (fun h => hmax _ h4 hs h)))
    refine ⟨hns, ?_⟩
    by_cases hv : Sum.inr σ ∈ A
    · right
      refine ⟨hv, ⟨?_, ?_, ?_, ?_, ?_⟩⟩
      · exact (hne.map).mono Finset.subset_union_right
      · rw [hR]
        intro s hs
        exact Finset.mem_of_mem_insert_of_ne (h2 s (Finset.mem_of_mem_erase hs)) (Finset.ne_of_mem_erase hs)
      · rw [hR]
        exact fun s hs t ht => h3 s (Finset.mem_of_mem_erase hs) t (Finset.mem_of_mem_erase ht)
      · rw [hL, Finset.union_eq_right.mpr (h5 σ (Finset.mem_toRight.mpr hv))]
        exact Or.inr ⟨hσ, hP⟩
      · rw [hL, hR, Finset.union_eq_right.mpr (h5 σ (Finset.mem_toRight.mpr hv))]
        intro s hs
        have hsP := Finset.mem_of_mem_insert_of_ne (h2 s (Finset.mem_of_mem_erase hs)) (Finset.ne_of_mem_erase hs)
        exact (h3 σ (Finset.mem_toRight.mpr hv) s (Finset.mem_of_mem_erase hs)).resolve_right (fun h => hP (hup s hsP σ hσ h))
    · left
      refine ⟨hv, h1, fun s hs => ?_, h3, h4.imp_right (fun h => ⟨h.1, fun hm => h.2 (Finset.mem_insert_of_mem hm)⟩), h5⟩
      exact Finset.mem_of_mem_insert_of_ne (h2 s hs) (fun e => hv (e ▸ Finset.mem_toRight.mp hs))
  · rintro ⟨hns, ⟨hv, h1, h2, h3, h4, h5⟩ | ⟨hv, h1, h2, h3, h4, h5⟩⟩
    · refine ⟨h1, fun s hs => Finset.mem_insert_of_mem (h2 s hs), h3, h4.imp_right (fun h => ⟨h.1, fun hm => ?_⟩), h5⟩
      rcases Finset.mem_insert.mp hm with e | hm
      · exact hns e.ge
      · exact h.2 hm
    · rw [hR] at h2 h3 h5
      rw [hL] at h4 h5
      have hun : (A.toLeft ∪ σ).Nonempty := hne.mono Finset.subset_union_right
      have h4 := h4.resolve_left hun.ne_empty
      have e : A.toLeft ∪ σ = σ := by
        by_contra e
        exact h4.2 (hmax _ h4.1 Finset.subset_union_right e)
      have hls : A.toLeft ⊆ σ := Finset.union_eq_right.mp e
      rw [e] at h5
      refine ⟨⟨_, hv⟩, fun s hs => ?_, fun s hs t ht => ?_, ?_, fun s hs => ?_⟩
      · by_cases hsσ : s = σ
        · exact hsσ ▸ Finset.mem_insert_self _ _
        · exact Finset.mem_insert_of_mem (h2 s (Finset.mem_erase.mpr ⟨hsσ, hs⟩))
      · by_cases hsσ : s = σ
        · by_cases htσ : t = σ
          · left; rw [hsσ, htσ]
          · left; rw [hsσ]; exact h5 t (Finset.mem_erase.mpr ⟨htσ, ht⟩)
        · by_cases htσ : t = σ
          · right; rw [htσ]; exact h5 s (Finset.mem_erase.mpr ⟨hsσ, hs⟩)
          · exact h3 s (Finset.mem_erase.mpr ⟨hsσ, hs⟩) t (Finset.mem_erase.mpr ⟨htσ, ht⟩)
      · rcases Finset.eq_empty_or_nonempty A.toLeft with he | hn
        · exact Or.inl he
        · refine Or.inr ⟨hcl σ _ hσ hls hn, fun hm => ?_⟩
          rcases Finset.mem_insert.mp hm with e | hm
          · exact hns e.ge
          · exact hP (hup _ hm σ hσ hls)
      · by_cases hsσ : s = σ
        · rw [hsσ]; exact hls
        · exact hls.trans (h5 s (Finset.mem_erase.mpr ⟨hsσ, hs⟩))

/-- subdividing everything does not change the homology -/
theorem part_hom (hcl : ∀ A B, K A → B ⊆ A → B.Nonempty → K B) (hpos : ∀ A, K A → A.Nonempty) (Q : Finset (Finset T)) (hQ : ∀ A, A ∈ Q ↔ K A) {r : T ⊕ Finset T → ℤ}
    (hr : ∀ x y, (∀ a, x = Sum.inl a → K {a}) → (∀ a, y = Sum.inl a → K {a}) → (∀ s, x = Sum.inr s → K s) → (∀ s, y = Sum.inr s → K s) → r x = r y → x = y) (i : Nat) :
    ∀ (n : Nat) (P : Finset (Finset T)), (Q \ P).card = n → (∀ s ∈ P, K s) → (∀ s ∈ P, ∀ t, K t → s ⊆ t → t ∈ P) →
      Nonempty (SimpHom (Part K P) r i ≃+ SimpHom (Part K Q) r i) := by
  classical
  let _ : LinearOrder (Simplex (T ⊕ Finset T)) := linearOrderOfSTO WellOrderingRel
  intro n
  induction n with
  | zero =>
    intro P hn hPK hup
    have : P = Q := by
      apply Finset.Subset.antisymm (fun s hs => (hQ s).mpr (hPK s hs))
      exact Finset.sdiff_eq_empty_iff_subset.mp (Finset.card_eq_zero.mp hn)
    rw [this]
    exact ⟨AddEquiv.refl _⟩
  | succ n ih =>
    intro P hn hPK hup
    obtain ⟨σ, hσ, hm⟩ := (Q \ P).exists_max_image (fun s => s.card) (Finset.card_pos.mp (by omega))
    obtain ⟨hσQ, hσP⟩ := Finset.mem_sdiff.mp hσ
    have hσK := (hQ σ).mp hσQ
    have hne := hpos σ hσK
    have hmax : ∀ t, K t → σ ⊆ t → t ≠ σ → t ∈ P := by
      intro t ht hst hne
      by_contra htP
      have := hm t (Finset.mem_sdiff.mpr ⟨(hQ t).mpr ht, htP⟩)
      exact hne (Finset.eq_of_subset_of_card_le hst this).symm
    have hPne : ∀ s ∈ P, s.Nonempty := fun s hs => hpos s (hPK s hs)
    obtain ⟨e2⟩ := ih (insert σ P) (by rw [Finset.sdiff_insert, Finset.card_erase_of_mem hσ]; omega) (fun s hs => by
      rcases Finset.mem_insert.mp hs with rfl | hs
      · exact hσK
      · exact hPK s hs) (fun s hs t ht hst => by
      rcases Finset.mem_insert.mp hs with rfl | hs
      · by_cases e : t = s
        · exact e ▸ Finset.mem_insert_self _ _
        · exact Finset.mem_insert_of_mem (hmax t ht hst e)
      · exact Finset.mem_insert_of_mem (hup s hs t ht hst))
    have hc := part_closed hcl hup hPne
    set U : Finset (T ⊕ Finset T) := (Q.biUnion id).disjSum P with hU
    have hb : ∀ A, Part K P A → A ⊆ U := by
      rintro A ⟨h1, h2, h3, h4, h5⟩ x hx
      rcases x with a | s
      · have ha : a ∈ A.toLeft := Finset.mem_toLeft.mpr hx
        rcases h4 with h4 | h4
        · rw [h4] at ha; exact absurd ha (Finset.notMem_empty _)
        · exact Finset.inl_mem_disjSum.mpr (Finset.mem_biUnion.mpr ⟨_, (hQ _).mpr h4.1, ha⟩)
      · exact Finset.inr_mem_disjSum.mpr (h2 s (Finset.mem_toRight.mpr hx))
    have hv : (Sum.inr σ : T ⊕ Finset T) ∉ U := fun h => hσP (Finset.inr_mem_disjSum.mp h)
    have hleft : (σ.map (Function.Embedding.inl : T ↪ T ⊕ Finset T)).toLeft = σ := by ext x; simp
    have hright : (σ.map (Function.Embedding.inl : T ↪ T ⊕ Finset T)).toRight = ∅ := by ext x; simp
    have he : Part K P (σ.map Function.Embedding.inl) := by
      refine ⟨hne.map, ?_, ?_, ?_, ?_⟩
      · rw [hright]; simp
      · rw [hright]; simp
      · rw [hleft]; exact Or.inr ⟨hσK, hσP⟩
      · rw [hright]; simp
    have hB := bridge_closed (v := (Sum.inr σ : T ⊕ Finset T)) hc (hne.map (f := (Function.Embedding.inl : T ↪ T ⊕ Finset T)))
    have hr' : ∀ x y, Bridge (Part K P) (σ.map Function.Embedding.inl) (Sum.inr σ) {x} → Bridge (Part K P) (σ.map Function.Embedding.inl) (Sum.inr σ) {y} →
        r x = r y → x = y := by
      have key : ∀ x, Bridge (Part K P) (σ.map Function.Embedding.inl) (Sum.inr σ) {x} → (∀ a, x = Sum.inl a → K {a}) ∧ ∀ s, x = Sum.inr s → K s := by
        intro x hx
        constructor
        · rintro a rfl
          rcases hx with ⟨h1, h2⟩ | ⟨h1, h2⟩
          · rcases h2.2.2.2.1 with h3 | h3
            · have : a ∈ ({Sum.inl a} : Finset (T ⊕ Finset T)).toLeft := by simp
              rw [h3] at this
              exact absurd this (Finset.notMem_empty _)
            · exact hcl _ _ h3.1 (by simp) (by simp)
          · simp at h1
        · rintro s rfl
          by_cases e : s = σ
          · exact e ▸ hσK
          · rcases hx with ⟨h1, h2⟩ | ⟨h1, h2⟩
            · exact hPK s (h2.2.1 s (by simp))
            · simp at h1
              exact absurd h1.symm e
      intro x y hx hy
      exact hr x y (key x hx).1 (key y hy).1 (key x hx).2 (key y hy).2
    obtain ⟨-, -, ⟨s1⟩⟩ := (bridge_old hc hb hv he hne.map).hom hB hr' i
    obtain ⟨-, -, ⟨s2⟩⟩ := (bridge_new hc hb hv he hne.map).hom hB hr' i
    rw [← part_step hcl hup hσK hne hσP hmax] at s2
    exact ⟨s1.symm.trans (s2.trans e2)⟩

end

/-! ### C143 -/
section
variable {T T₂ : Type} [DecidableEq T] [LinearOrder (Simplex T)] [DecidableEq T₂] [LinearOrder (Simplex T₂)]

/-- what is reported is the homology of the renamed complex -/
theorem Computes.renamed {history : List (List T)} {maxDim bm res} (h : Computes history maxDim bm res) (hh : GoodHistory history) {T' : Type} [DecidableEq T'] (φ : T → T')
    (r : T' → ℤ) (hφ : ∀ x ∈ history.flatten, ∀ y ∈ history.flatten, φ x = φ y → x = y) (hr : ∀ x ∈ history.flatten, ∀ y ∈ history.flatten, r (φ x) = r (φ y) → x = y)
    (i : Nat) (hi : ∀ d, maxDim = some d → i ≤ d) : Nonempty (SimpHom (Renamed bm φ) r i ≃+ Grp (reportedMod res i)) := by
  obtain ⟨c, f0, e1, e2, h1⟩ := h
  obtain ⟨c', bm', r0, q1, q2, hk⟩ := known hh
  rw [e1] at q1; cases q1
  rw [e2] at q2; cases q2
  obtain ⟨f1, res', k1, k2, k3⟩ := reported hk maxDim
  have : res' = res := by
    have a := h1 (f0 + f1) (by omega)
    have b := k1 (f0 + f1) (by omega)
    rw [a] at b; exact (Option.some.inj b).symm
  subst this
  unfold reportedMod
  cases ho : res'[i]? with
  | none =>
    have hs := (k3 T' φ r hφ hr i).2 ho hi
    obtain ⟨e⟩ := of_subsingleton hs
    refine ⟨e.trans ?_⟩
    exact { toFun := fun f => (f, fun i => i.elim0), invFun := fun p => p.1, left_inv := fun _ => rfl,
            right_inv := fun p => by ext i <;> [rfl; exact i.elim0], map_add' := fun _ _ => by ext i <;> [rfl; exact i.elim0] }
  | some o => exact (k3 T' φ r hφ hr i).1 o ho

theorem int_order {α : Type} (F : Finset α) : ∃ r : α → ℤ, ∀ x ∈ F, ∀ y ∈ F, r x = r y → x = y := by
  classical
  refine ⟨fun x => if h : x ∈ F then ((F.equivFin ⟨x, h⟩).val : ℤ) else 0, fun x hx y hy e => ?_⟩
  simp only [hx, hy, dif_pos] at e
  have := F.equivFin.injective (Fin.ext (Int.ofNat_inj.mp e))
  exact congrArg Subtype.val this

/-- **C143**. A complex and its barycentric subdivision are reported to have the same homology. -/
theorem c143_barycentric {h₁ : List (List T)} {h₂ : List (List T₂)} (g₁ : GoodHistory h₁) (g₂ : GoodHistory h₂) {maxDim : Option Nat} {bm₁ bm₂ res₁ res₂}
    (k₁ : Computes h₁ maxDim bm₁ res₁) (k₂ : Computes h₂ maxDim bm₂ res₂) (φ : T₂ → Finset T) (hb : Barycentric (Listed bm₁) (Listed bm₂) φ)
    (i : Nat) (hi : ∀ d, maxDim = some d → i ≤ d) :
    Nonempty (Grp (reportedMod res₁ i) ≃+ Grp (reportedMod res₂ i)) ∧ (reportedMod res₁ i).freeRank = (reportedMod res₂ i).freeRank ∧
    (orders (reportedMod res₁ i).divisors).filter (fun d => decide (d ≠ 1)) = (orders (reportedMod res₂ i).divisors).filter (fun d => decide (d ≠ 1)) := by
  classical
  obtain ⟨b1, b2, b3, -, b4, -, -⟩ := k₁.spec g₁
  obtain ⟨d1, d2, d3, -, d4, -, -⟩ := k₂.spec g₂
  have hpos : ∀ A, Listed bm₁ A → A.Nonempty := fun A hA => (b3 A hA).1
  set Q : Finset (Finset T) := h₁.flatten.toFinset.powerset.filter (Listed bm₁) with hQd
  have hQ : ∀ A, A ∈ Q ↔ Listed bm₁ A := fun A => by
    rw [hQd, Finset.mem_filter, Finset.mem_powerset]
    exact ⟨fun h => h.2, fun h => ⟨listed_subset g₁ k₁ A h, h⟩⟩
  obtain ⟨r, hr⟩ := int_order (h₁.flatten.toFinset.disjSum Q)
  have hr' : ∀ x y : T ⊕ Finset T, (∀ a, x = Sum.inl a → Listed bm₁ {a}) → (∀ a, y = Sum.inl a → Listed bm₁ {a}) → (∀ s, x = Sum.inr s → Listed bm₁ s) →
      (∀ s, y = Sum.inr s → Listed bm₁ s) → r x = r y → x = y := by
    have key : ∀ x : T ⊕ Finset T, (∀ a, x = Sum.inl a → Listed bm₁ {a}) → (∀ s, x = Sum.inr s → Listed bm₁ s) → x ∈ h₁.flatten.toFinset.disjSum Q := by
      rintro (a | s) ha hs
      · exact Finset.inl_mem_disjSum.mpr (List.mem_toFinset.mpr ((b2 a).mpr (ha a rfl)))
      · exact Finset.inr_mem_disjSum.mpr ((hQ s).mpr (hs s rfl))
    intro x y h1 h2 h3 h4
    exact hr x (key x h1 h3) y (key y h2 h4)
  obtain ⟨s⟩ := part_hom b1 hpos Q hQ hr' i _ ∅ rfl (by simp) (by simp)
  -- the complex
  have p1 : Part (Listed bm₁) ∅ = Renamed bm₁ Sum.inl := by
    funext A
    refine propext ⟨fun ⟨h1, h2, h3, h4, h5⟩ => ?_, ?_⟩
    · have hA : A.toLeft.image Sum.inl = A := by
        ext x
        rcases x with a | s
        · simp
        · simp only [Finset.mem_image, reduceCtorEq, and_false, exists_false, false_iff]
          exact fun hs => absurd (h2 s (Finset.mem_toRight.mpr hs)) (Finset.notMem_empty _)
      refine ⟨A.toLeft, ?_, hA⟩
      rcases h4 with h4 | h4
      · rw [h4] at hA
        rw [← hA] at h1
        simp at h1
      · exact h4.1
    · rintro ⟨B, hB, rfl⟩
      have hl : (B.image (Sum.inl : T → T ⊕ Finset T)).toLeft = B := by ext x; simp
      have hrt : (B.image (Sum.inl : T → T ⊕ Finset T)).toRight = ∅ := by ext x; simp
      refine ⟨(hpos B hB).image _, ?_, ?_, ?_, ?_⟩
      · rw [hrt]; simp
      · rw [hrt]; simp
      · rw [hl]; exact Or.inr ⟨hB, by simp⟩
      · rw [hrt]; simp
  -- the subdivision
  have p2 : Part (Listed bm₁) Q = Renamed bm₂ (fun x => Sum.inr (φ x)) := by
    funext A
    refine propext ⟨fun ⟨h1, h2, h3, h4, h5⟩ => ?_, ?_⟩
    · have h4 := h4.resolve_right (fun h => h.2 ((hQ _).mpr h.1))
      have hch : ∀ s ∈ A.toRight, ∃ x, Listed bm₂ {x} ∧ φ x = s := fun s hs => hb.onto s ((hQ s).mp (h2 s hs))
      set D : Finset T₂ := h₂.flatten.toFinset.filter (fun x => φ x ∈ A.toRight) with hD
      have hDm : ∀ x, x ∈ D ↔ Listed bm₂ {x} ∧ φ x ∈ A.toRight := fun x => by rw [hD, Finset.mem_filter, List.mem_toFinset, d2]
      have hA : D.image (fun x => (Sum.inr (φ x) : T ⊕ Finset T)) = A := by
        ext x
        rw [Finset.mem_image]
        rcases x with a | s
        · simp only [reduceCtorEq, and_false, exists_false, false_iff]
          intro ha
          have := Finset.mem_toLeft.mpr ha
          rw [h4] at this
          exact absurd this (Finset.notMem_empty _)
        · constructor
          · rintro ⟨x, hx, e⟩
            rw [← e]
            exact Finset.mem_toRight.mp ((hDm x).mp hx).2
          · intro hs
            obtain ⟨x, hx, rfl⟩ := hch s (Finset.mem_toRight.mpr hs)
            exact ⟨x, (hDm x).mpr ⟨hx, Finset.mem_toRight.mpr hs⟩, rfl⟩
      refine ⟨D, (hb.simplices D).mpr ⟨?_, fun x hx => ((hDm x).mp hx).1, fun x hx y hy => h3 _ ((hDm x).mp hx).2 _ ((hDm y).mp hy).2⟩, hA⟩
      rw [← hA] at h1
      exact Finset.image_nonempty.mp h1
    · rintro ⟨D, hD, rfl⟩
      obtain ⟨q1, q2, q3⟩ := (hb.simplices D).mp hD
      have hl : (D.image (fun x => (Sum.inr (φ x) : T ⊕ Finset T))).toLeft = ∅ := by ext x; simp
      have hrt : ∀ s, s ∈ (D.image (fun x => (Sum.inr (φ x) : T ⊕ Finset T))).toRight ↔ ∃ x ∈ D, φ x = s := fun s => by simp
      refine ⟨q1.image _, fun s hs => ?_, fun s hs t ht => ?_, Or.inl hl, fun s hs => by rw [hl]; simp⟩
      · obtain ⟨x, hx, rfl⟩ := (hrt s).mp hs
        exact (hQ _).mpr (hb.mem x (q2 x hx))
      · obtain ⟨x, hx, rfl⟩ := (hrt s).mp hs
        obtain ⟨y, hy, rfl⟩ := (hrt t).mp ht
        exact q3 x hx y hy
  rw [p1, p2] at s
  obtain ⟨e1⟩ := k₁.renamed g₁ (T' := T ⊕ Finset T) Sum.inl r (fun x _ y _ e => Sum.inl_injective e) (fun x hx y hy e =>
    Sum.inl_injective (hr _ (Finset.inl_mem_disjSum.mpr (List.mem_toFinset.mpr hx)) _ (Finset.inl_mem_disjSum.mpr (List.mem_toFinset.mpr hy)) e)) i hi
  have hq : ∀ x ∈ h₂.flatten, (Sum.inr (φ x) : T ⊕ Finset T) ∈ h₁.flatten.toFinset.disjSum Q := fun x hx =>
    Finset.inr_mem_disjSum.mpr ((hQ _).mpr (hb.mem x ((d2 x).mp hx)))
  have hinj : ∀ x ∈ h₂.flatten, ∀ y ∈ h₂.flatten, (Sum.inr (φ x) : T ⊕ Finset T) = Sum.inr (φ y) → x = y := fun x hx y hy e =>
    hb.inj x y ((d2 x).mp hx) ((d2 y).mp hy) (Sum.inr_injective e)
  obtain ⟨e2⟩ := k₂.renamed g₂ (fun x => (Sum.inr (φ x) : T ⊕ Finset T)) r hinj (fun x hx y hy e => hinj x hx y hy (hr _ (hq x hx) _ (hq y hy) e)) i hi
  have f := e1.symm.trans (s.trans e2)
  exact ⟨⟨f⟩, same_numbers (b4 i).1 (b4 i).2 (d4 i).1 (d4 i).2 f⟩

/-- **C143** with at most 64 labels: the simplices are those generated by the calls of `attach`. -/
theorem c143_history {h₁ : List (List T)} {h₂ : List (List T₂)} (g₁ : GoodHistory h₁) (g₂ : GoodHistory h₂) (l₁ : h₁.flatten.toFinset.card ≤ 64)
    (l₂ : h₂.flatten.toFinset.card ≤ 64) (φ : T₂ → Finset T) (hb : Barycentric (IsFace h₁) (IsFace h₂) φ) (maxDim : Option Nat) :
    ∃ bm₁ res₁ bm₂ res₂, Computes h₁ maxDim bm₁ res₁ ∧ Computes h₂ maxDim bm₂ res₂ ∧ ∀ i, (∀ d, maxDim = some d → i ≤ d) →
      Nonempty (Grp (reportedMod res₁ i) ≃+ Grp (reportedMod res₂ i)) ∧ (reportedMod res₁ i).freeRank = (reportedMod res₂ i).freeRank ∧
      (orders (reportedMod res₁ i).divisors).filter (fun d => decide (d ≠ 1)) = (orders (reportedMod res₂ i).divisors).filter (fun d => decide (d ≠ 1)) := by
  obtain ⟨bm₁, res₁, k₁⟩ := computes_total g₁ maxDim
  obtain ⟨bm₂, res₂, k₂⟩ := computes_total g₂ maxDim
  refine ⟨bm₁, res₁, bm₂, res₂, k₁, k₂, fun i hi => c143_barycentric g₁ g₂ k₁ k₂ φ ?_ i hi⟩
  rw [(k₁.spec g₁).2.2.2.1 l₁, (k₂.spec g₂).2.2.2.1 l₂]
  exact hb

/-- a case: a triangle and the six triangles of its barycentric subdivision; the vertex `n` stands for the simplex of the binary digits of `n` -/
example : GoodHistory [[0, 1, 2]] ∧ GoodHistory [[1, 3, 7], [1, 5, 7], [2, 3, 7], [2, 6, 7], [4, 5, 7], [4, 6, 7]] ∧
    Barycentric (IsFace [[0, 1, 2]]) (IsFace [[1, 3, 7], [1, 5, 7], [2, 3, 7], [2, 6, 7], [4, 5, 7], [4, 6, 7]])
      (fun n : Nat => (Finset.range 3).filter (fun i => n.testBit i = true)) := by
  set h₂ : List (List Nat) := [[1, 3, 7], [1, 5, 7], [2, 3, 7], [2, 6, 7], [4, 5, 7], [4, 6, 7]] with hh
  have f1 : ∀ A : Finset Nat, IsFace [[0, 1, 2]] A → A ∈ (Finset.range 3).powerset ∧ A.Nonempty := by
    rintro A ⟨hA, s, hs, hsub⟩
    rw [List.mem_singleton.mp hs] at hsub
    exact ⟨Finset.mem_powerset.mpr (hsub.trans (by decide)), hA⟩
  have f2 : ∀ A : Finset Nat, A.Nonempty → A ⊆ Finset.range 3 → IsFace [[0, 1, 2]] A := fun A hA h => ⟨hA, [0, 1, 2], by simp, h.trans (by decide)⟩
  have v1 : ∀ x, IsFace h₂ {x} ↔ x ∈ Finset.Icc 1 7 := by
    intro x
    constructor
    · rintro ⟨-, s, hs, hsub⟩
      have : ∀ s ∈ h₂, s.toFinset ⊆ Finset.Icc 1 7 := by decide
      exact this s hs (hsub (by simp))
    · intro hx
      have : ∀ x ∈ Finset.Icc 1 7, ∃ s ∈ h₂, x ∈ s.toFinset := by decide
      obtain ⟨s, hs, hxs⟩ := this x hx
      exact ⟨by simp, s, hs, by simpa using hxs⟩
  refine ⟨⟨by simp, by decide⟩, ⟨by simp [hh], by decide⟩, ⟨?_, ?_, ?_, ?_⟩⟩
  · intro x y hx hy e
    have : ∀ x ∈ Finset.Icc 1 7, ∀ y ∈ Finset.Icc 1 7, (Finset.range 3).filter (fun i => Nat.testBit x i = true) = (Finset.range 3).filter (fun i => Nat.testBit y i = true) →
      x = y := by decide +kernel
    exact this x ((v1 x).mp hx) y ((v1 y).mp hy) e
  · intro x hx
    have : ∀ x ∈ Finset.Icc 1 7, ((Finset.range 3).filter (fun i => Nat.testBit x i = true)).Nonempty := by decide +kernel
    exact f2 _ (this x ((v1 x).mp hx)) (Finset.filter_subset _ _)
  · intro A hA
    have : ∀ A ∈ (Finset.range 3).powerset, A.Nonempty → ∃ x ∈ Finset.Icc 1 7, (Finset.range 3).filter (fun i => Nat.testBit x i = true) = A := by decide +kernel
    obtain ⟨x, hx, e⟩ := this A (f1 A hA).1 (f1 A hA).2
    exact ⟨x, (v1 x).mpr hx, e⟩
  · have : ∀ D ∈ (Finset.Icc 1 7).powerset, (∃ s ∈ h₂, D ⊆ s.toFinset) ↔ ∀ x ∈ D, ∀ y ∈ D, (Finset.range 3).filter (fun i => Nat.testBit x i = true) ⊆
        (Finset.range 3).filter (fun i => Nat.testBit y i = true) ∨ (Finset.range 3).filter (fun i => Nat.testBit y i = true) ⊆
        (Finset.range 3).filter (fun i => Nat.testBit x i = true) := by decide +kernel
    intro D
    constructor
    · rintro ⟨hD, s, hs, hsub⟩
      have h7 : ∀ s ∈ h₂, s.toFinset ⊆ Finset.Icc 1 7 := by decide
      exact ⟨hD, fun x hx => ⟨by simp, s, hs, by simpa using hsub hx⟩, (this D (Finset.mem_powerset.mpr (hsub.trans (h7 s hs)))).mp ⟨s, hs, hsub⟩⟩
    · rintro ⟨hD, h1, h2⟩
      obtain ⟨s, hs, hsub⟩ := (this D (Finset.mem_powerset.mpr (fun x hx => (v1 x).mp (h1 x hx)))).mpr h2
      exact ⟨hD, s, hs, hsub⟩

end
end Toppo.Simp
