import Verif.Props.SimpSum
set_option linter.unusedVariables false
set_option linter.unusedSectionVars false
/-!
# C140: stellar subdivisions.  C141: dominated vertices.
-/
namespace Toppo.Simp
open Toppo Toppo.ModProps

section
variable {T : Type} [DecidableEq T] [LinearOrder (Simplex T)]

theorem Collapses.trans {K K' K'' : Finset T → Prop} (h : Collapses K K') (h' : Collapses K' K'') : Collapses K K'' := by
  induction h' with
  | refl => exact h
  | step _ h2 ih => exact Collapses.step ih h2

/-- removing pairs `F`, `F ∪ {w}` of a finite upwards closed set of simplices, largest first -/
theorem collapses_pairs {w : T} : ∀ (n : Nat) (P : Finset (Finset T)) (L : Finset T → Prop), P.card = n → (∀ A B, L A → B ⊆ A → B.Nonempty → L B) →
    (∀ F ∈ P, w ∉ F ∧ F.Nonempty ∧ L (insert w F)) → (∀ F ∈ P, ∀ A, L A → F ⊆ A → w ∉ A → A ∈ P) →
    Collapses L (fun A => L A ∧ A.erase w ∉ P) := by
  intro n
  induction n with
  | zero =>
    intro P L hn hcl h1 h2
    obtain rfl := Finset.card_eq_zero.mp hn
    have : (fun A => L A ∧ A.erase w ∉ (∅ : Finset (Finset T))) = L := by funext A; simp
    rw [this]
    exact Collapses.refl
  | succ n ih =>
    intro P L hn hcl h1 h2
    have hne : P.Nonempty := Finset.card_pos.mp (by omega)
    obtain ⟨F, hF, hmax⟩ := P.exists_max_image (fun F => F.card) hne
    obtain ⟨hw, hF0, hG⟩ := h1 F hF
    have hfree : ∀ A, L A → F ⊆ A → A.erase w = F := by
      intro A hA hFA
      have hs : F ⊆ A.erase w := Finset.subset_erase.mpr ⟨hFA, hw⟩
      have hm := h2 F hF _ (hcl A _ hA (Finset.erase_subset _ _) (hF0.mono hs)) hs (Finset.notMem_erase _ _)
      exact (Finset.eq_of_subset_of_card_le hs (hmax _ hm)).symm
    have hcases : ∀ A, A.erase w = F ↔ A = F ∨ A = insert w F := by
      intro A
      constructor
      · intro e
        by_cases h : w ∈ A
        · right; rw [← e, Finset.insert_erase h]
        · left; rw [← e, Finset.erase_eq_of_notMem h]
      · rintro (rfl | rfl)
        · exact Finset.erase_eq_of_notMem hw
        · exact Finset.erase_insert hw
    have hcol : Collapse L (fun A => L A ∧ A ≠ F ∧ A ≠ insert w F) F (insert w F) :=
      ⟨hG, ⟨w, hw, rfl⟩, hF0, fun A hA hFA => (hcases A).mp (hfree A hA hFA), fun A => Iff.rfl⟩
    have := ih (P.erase F) (fun A => L A ∧ A ≠ F ∧ A ≠ insert w F) (by rw [Finset.card_erase_of_mem hF]; omega) (hcol.closed hcl) (fun F' hF' => ?_)
      (fun F' hF' A hA hs hwA => Finset.mem_erase.mpr ⟨hA.2.1, h2 F' (Finset.mem_of_mem_erase hF') A hA.1 hs hwA⟩)
    · refine (Collapses.step Collapses.refl hcol).trans ?_
      have e : (fun A => L A ∧ A.erase w ∉ P) = fun A => (L A ∧ A ≠ F ∧ A ≠ insert w F) ∧ A.erase w ∉ P.erase F := by
        funext A
        refine propext ⟨fun ⟨a, b⟩ => ?_, fun ⟨⟨a, b, c⟩, d⟩ => ⟨a, fun hm => ?_⟩⟩
        · have : A.erase w ≠ F := fun e => b (e ▸ hF)
          have h3 := mt (hcases A).mpr this
          push Not at h3
          exact ⟨⟨a, h3⟩, fun hm => b (Finset.mem_of_mem_erase hm)⟩
        · refine d (Finset.mem_erase.mpr ⟨fun e => ?_, hm⟩)
          rcases (hcases A).mp e with h | h
          · exact b h
          · exact c h
      rw [e]
      exact this
    · obtain ⟨hne', hm⟩ := Finset.mem_erase.mp hF'
      obtain ⟨a, b, c⟩ := h1 F' hm
      refine ⟨a, b, c, fun e => hw (e ▸ Finset.mem_insert_self _ _), fun e => hne' ?_⟩
      rw [← Finset.erase_insert a, e, Finset.erase_insert hw]

/-- the stellar subdivision of `K` at its simplex `e`, with the new vertex `v`: the simplices that do not contain `e`, and those with `v` whose other vertices form
with `e` a simplex of `K`, without containing `e` -/
def Stellar (K : Finset T → Prop) (e : Finset T) (v : T) (A : Finset T) : Prop :=
  ¬ e ⊆ A ∧ (v ∉ A ∧ K A ∨ v ∈ A ∧ K (A.erase v ∪ e))

/-- the complex that collapses to both -/
def Bridge (K : Finset T → Prop) (e : Finset T) (v : T) (A : Finset T) : Prop := v ∉ A ∧ K A ∨ v ∈ A ∧ K (A.erase v ∪ e)

variable {K : Finset T → Prop} {e : Finset T} {v : T}

theorem bridge_closed (hcl : ∀ A B, K A → B ⊆ A → B.Nonempty → K B) (he : e.Nonempty) : ∀ A B, Bridge K e v A → B ⊆ A → B.Nonempty → Bridge K e v B := by
  rintro A B (⟨h1, h2⟩ | ⟨h1, h2⟩) hBA hB
  · exact Or.inl ⟨fun h => h1 (hBA h), hcl A B h2 hBA hB⟩
  · by_cases h : v ∈ B
    · exact Or.inr ⟨h, hcl _ _ h2 (Finset.union_subset_union_left (Finset.erase_subset_erase _ hBA)) (he.mono Finset.subset_union_right)⟩
    · refine Or.inl ⟨h, hcl _ _ h2 ?_ hB⟩
      exact (Finset.subset_erase.mpr ⟨hBA, h⟩).trans Finset.subset_union_left

theorem bridge_old (hcl : ∀ A B, K A → B ⊆ A → B.Nonempty → K B) {U : Finset T} (hU : ∀ A, K A → A ⊆ U) (hv : v ∉ U) (he : K e) (hne : e.Nonempty) :
    Collapses (Bridge K e v) K := by
  classical
  obtain ⟨a, ha⟩ := hne
  have hav : v ≠ a := fun h => hv (h ▸ hU e he ha)
  have h := collapses_pairs (w := a) _ ((insert v U).powerset.filter (fun F => v ∈ F ∧ a ∉ F ∧ K (F.erase v ∪ e))) (Bridge K e v) rfl (bridge_closed hcl ⟨a, ha⟩) ?_ ?_
  · have e1 : (fun A => Bridge K e v A ∧ A.erase a ∉ (insert v U).powerset.filter (fun F => v ∈ F ∧ a ∉ F ∧ K (F.erase v ∪ e))) = K := by
      funext A
      refine propext ⟨fun ⟨h1, h2⟩ => ?_, fun h => ⟨Or.inl ⟨fun h' => hv (hU A h h'), h⟩, fun h' => ?_⟩⟩
      · rcases h1 with h1 | ⟨h1, h3⟩
        · exact h1.2
        · refine absurd ?_ h2
          have e2 : (A.erase a).erase v ∪ e = A.erase v ∪ e := by
            ext x
            simp only [Finset.mem_union, Finset.mem_erase]
            by_cases hx : x = a
            · subst hx; simp [ha]
            · simp [hx]
          rw [Finset.mem_filter, Finset.mem_powerset, e2]
          refine ⟨fun x hx => ?_, Finset.mem_erase.mpr ⟨hav, h1⟩, Finset.notMem_erase _ _, h3⟩
          by_cases hxv : x = v
          · exact hxv ▸ Finset.mem_insert_self _ _
          · exact Finset.mem_insert_of_mem (hU _ h3 (Finset.mem_union_left _ (Finset.mem_erase.mpr ⟨hxv, Finset.mem_of_mem_erase hx⟩)))
      · exact hv (hU A h (Finset.mem_of_mem_erase (Finset.mem_filter.mp h').2.1))
    rwa [e1] at h
  · intro F hF
    obtain ⟨-, h1, h2, h3⟩ := Finset.mem_filter.mp hF
    refine ⟨h2, ⟨v, h1⟩, Or.inr ⟨Finset.mem_insert_of_mem h1, ?_⟩⟩
    rw [Finset.erase_insert_of_ne (Ne.symm hav), Finset.insert_union, Finset.insert_eq_of_mem (Finset.mem_union_right _ ha)]
    exact h3
  · intro F hF A hA hFA haA
    obtain ⟨-, h1, h2, h3⟩ := Finset.mem_filter.mp hF
    rcases hA with hA | hA
    · exact absurd (hFA h1) hA.1
    · refine Finset.mem_filter.mpr ⟨Finset.mem_powerset.mpr (fun x hx => ?_), hA.1, haA, hA.2⟩
      by_cases hxv : x = v
      · exact hxv ▸ Finset.mem_insert_self _ _
      · exact Finset.mem_insert_of_mem (hU _ hA.2 (Finset.mem_union_left _ (Finset.mem_erase.mpr ⟨hxv, hx⟩)))

theorem bridge_new (hcl : ∀ A B, K A → B ⊆ A → B.Nonempty → K B) {U : Finset T} (hU : ∀ A, K A → A ⊆ U) (hv : v ∉ U) (he : K e) (hne : e.Nonempty) :
    Collapses (Bridge K e v) (Stellar K e v) := by
  classical
  have h := collapses_pairs (w := v) _ (U.powerset.filter (fun F => e ⊆ F ∧ K F)) (Bridge K e v) rfl (bridge_closed hcl hne) ?_ ?_
  · have e1 : (fun A => Bridge K e v A ∧ A.erase v ∉ U.powerset.filter (fun F => e ⊆ F ∧ K F)) = Stellar K e v := by
      have hve : v ∉ e := fun h => hv (hU e he h)
      funext A
      refine propext ⟨fun ⟨h1, h2⟩ => ⟨fun h3 => h2 ?_, h1⟩, fun ⟨h1, h2⟩ => ⟨h2, fun h3 => h1 ?_⟩⟩
      · have h4 : e ⊆ A.erase v := Finset.subset_erase.mpr ⟨h3, hve⟩
        have h5 : K (A.erase v) := by
          rcases h1 with h1 | h1
          · rw [Finset.erase_eq_of_notMem h1.1]; exact h1.2
          · have := h1.2
            rwa [Finset.union_eq_left.mpr h4] at this
        exact Finset.mem_filter.mpr ⟨Finset.mem_powerset.mpr (hU _ h5), h4, h5⟩
      · exact (Finset.mem_filter.mp h3).2.1.trans (Finset.erase_subset _ _)
    rwa [e1] at h
  · intro F hF
    obtain ⟨-, h1, h2⟩ := Finset.mem_filter.mp hF
    have hvF : v ∉ F := fun h => hv (hU F h2 h)
    refine ⟨hvF, hne.mono h1, Or.inr ⟨Finset.mem_insert_self _ _, ?_⟩⟩
    rw [Finset.erase_insert hvF, Finset.union_eq_left.mpr h1]
    exact h2
  · intro F hF A hA hFA hvA
    obtain ⟨-, h1, h2⟩ := Finset.mem_filter.mp hF
    rcases hA with hA | hA
    · exact Finset.mem_filter.mpr ⟨Finset.mem_powerset.mpr (hU _ hA.2), h1.trans hFA, hA.2⟩
    · exact absurd hA.1 hvA

/-- the two histories are reported to have isomorphic homology in every dimension up to the bound, with the same free rank and, up to signs and units, the same
torsion coefficients -/
def SameHomology (maxDim : Option Nat) (res₁ res₂ : List (Hom.Out (Simplex T))) : Prop :=
  ∀ i, (∀ d, maxDim = some d → i ≤ d) → Nonempty (Grp (reportedMod res₁ i) ≃+ Grp (reportedMod res₂ i)) ∧
    (reportedMod res₁ i).freeRank = (reportedMod res₂ i).freeRank ∧
    (orders (reportedMod res₁ i).divisors).filter (fun d => decide (d ≠ 1)) = (orders (reportedMod res₂ i).divisors).filter (fun d => decide (d ≠ 1))

/-- **C140**, expansions and collapses: two complexes to which one and the same complex on the labels collapses have the same homology. -/
theorem c140_expansion {h₁ h₂ : List (List T)} (g₁ : GoodHistory h₁) (g₂ : GoodHistory h₂) {maxDim : Option Nat} {bm₁ bm₂ res₁ res₂}
    (k₁ : Computes h₁ maxDim bm₁ res₁) (k₂ : Computes h₂ maxDim bm₂ res₂) (L : Finset T → Prop) (hcl : ∀ A B, L A → B ⊆ A → B.Nonempty → L B)
    (hL : ∀ x, L {x} → x ∈ h₁.flatten ∨ x ∈ h₂.flatten) (c₁ : Collapses L (Listed bm₁)) (c₂ : Collapses L (Listed bm₂)) : SameHomology maxDim res₁ res₂ := by
  intro i hi
  obtain ⟨b1, b2, b3, -, b4, -, b5⟩ := k₁.spec g₁
  obtain ⟨d1, d2, d3, -, d4, -, d5⟩ := k₂.spec g₂
  obtain ⟨r, hr⟩ := order_exists (h₁ ++ h₂)
  have hm : ∀ x, x ∈ h₁.flatten ∨ x ∈ h₂.flatten → x ∈ (h₁ ++ h₂).flatten := fun x hx => by rw [List.flatten_append]; exact List.mem_append.mpr hx
  have hr' : ∀ x y, L {x} → L {y} → r x = r y → x = y := fun x y hx hy => hr x (hm x (hL x hx)) y (hm y (hL y hy))
  obtain ⟨-, -, ⟨s₁⟩⟩ := c₁.hom hcl hr' i
  obtain ⟨-, -, ⟨s₂⟩⟩ := c₂.hom hcl hr' i
  obtain ⟨e₁⟩ := b5 r (fun x hx y hy => hr x (hm x (Or.inl hx)) y (hm y (Or.inl hy))) i hi
  obtain ⟨e₂⟩ := d5 r (fun x hx y hy => hr x (hm x (Or.inr hx)) y (hm y (Or.inr hy))) i hi
  have f := e₁.symm.trans (s₁.symm.trans (s₂.trans e₂))
  exact ⟨⟨f⟩, same_numbers (b4 i).1 (b4 i).2 (d4 i).1 (d4 i).2 f⟩

/-- **C140**. Subdividing a listed simplex `e` by a new vertex `v` does not change the homology that is reported. -/
theorem c140_stellar {h₁ h₂ : List (List T)} (g₁ : GoodHistory h₁) (g₂ : GoodHistory h₂) {maxDim : Option Nat} {bm₁ bm₂ res₁ res₂}
    (k₁ : Computes h₁ maxDim bm₁ res₁) (k₂ : Computes h₂ maxDim bm₂ res₂) (e : Finset T) (v : T) (he : Listed bm₁ e) (hv : v ∉ h₁.flatten)
    (hK : ∀ A, Listed bm₂ A ↔ Stellar (Listed bm₁) e v A) : SameHomology maxDim res₁ res₂ := by
  obtain ⟨b1, b2, b3, -, -, -, -⟩ := k₁.spec g₁
  obtain ⟨-, d2, -, -, -, -, -⟩ := k₂.spec g₂
  have hne : e.Nonempty := (b3 e he).1
  have hU : ∀ A, Listed bm₁ A → A ⊆ h₁.flatten.toFinset := by
    intro A hA x hx
    rw [List.mem_toFinset, b2]
    exact b1 A _ hA (by simpa using hx) (by simp)
  have hv' : v ∉ h₁.flatten.toFinset := by rwa [List.mem_toFinset]
  have e2 : Listed bm₂ = Stellar (Listed bm₁) e v := funext fun A => propext (hK A)
  refine c140_expansion g₁ g₂ k₁ k₂ (Bridge (Listed bm₁) e v) (bridge_closed b1 hne) ?_ (bridge_old b1 hU hv' he hne) (e2 ▸ bridge_new b1 hU hv' he hne)
  rintro x (⟨h1, h2⟩ | ⟨h1, h2⟩)
  · exact Or.inl ((b2 x).mpr h2)
  · refine Or.inr ((d2 x).mpr ((hK _).mpr ⟨fun h3 => hv ?_, Or.inr ⟨h1, h2⟩⟩))
    obtain ⟨a, ha⟩ := hne
    have e3 := Finset.mem_singleton.mp (h3 ha)
    rw [← Finset.mem_singleton.mp h1] at e3
    exact e3 ▸ ((b2 a).mpr (b1 e _ he (by simpa using ha) (by simp)))

theorem SameHomology.trans {maxDim : Option Nat} {r₁ r₂ r₃ : List (Hom.Out (Simplex T))} (h : SameHomology maxDim r₁ r₂) (h' : SameHomology maxDim r₂ r₃) :
    SameHomology maxDim r₁ r₃ := by
  intro i hi
  obtain ⟨⟨e⟩, a, b⟩ := h i hi
  obtain ⟨⟨e'⟩, a', b'⟩ := h' i hi
  exact ⟨⟨e.trans e'⟩, a.trans a', b.trans b'⟩

theorem SameHomology.refl (maxDim : Option Nat) (res : List (Hom.Out (Simplex T))) : SameHomology maxDim res res :=
  fun i hi => ⟨⟨AddEquiv.refl _⟩, rfl, rfl⟩

theorem Computes.unique {history : List (List T)} {maxDim bm res bm' res'} (h : Computes history maxDim bm res) (h' : Computes history maxDim bm' res') :
    bm = bm' ∧ res = res' := by
  obtain ⟨c, f, e1, e2, e3⟩ := h
  obtain ⟨c', f', e1', e2', e3'⟩ := h'
  rw [e1] at e1'; cases e1'
  rw [e2] at e2'; cases e2'
  have a := e3 (f + f') (by omega)
  rw [e3' (f + f') (by omega)] at a
  exact ⟨rfl, (Option.some.inj a).symm⟩

/-- an attached simplex `s` that contains `e` is replaced by the simplices in which `v` takes the place of one vertex of `e` -/
def replaceSimplex (e : Finset T) (v : T) (s : List T) : List (List T) :=
  if e ⊆ s.toFinset then (s.filter (fun x => x ∈ e)).map (fun x => s.filter (fun y => y ≠ x) ++ [v]) else [s]

/-- `h'` is the history `h` with every attached simplex subdivided at `e`; at most 64 labels -/
def Subdivided (h h' : List (List T)) : Prop :=
  ∃ (e : Finset T) (v : T), IsFace h e ∧ v ∉ h.flatten ∧ h' = h.flatMap (replaceSimplex e v) ∧ h'.flatten.toFinset.card ≤ 64

theorem subdivided_good {h : List (List T)} (g : GoodHistory h) {e : Finset T} {v : T} (he : IsFace h e) (hv : v ∉ h.flatten) :
    GoodHistory (h.flatMap (replaceSimplex e v)) := by
  obtain ⟨⟨a, ha⟩, s0, hs0, hsub⟩ := he
  refine ⟨fun h0 => ?_, fun s hs => ?_⟩
  · have h1 := List.flatMap_eq_nil_iff.mp h0 s0 hs0
    unfold replaceSimplex at h1
    rw [if_pos hsub, List.map_eq_nil_iff] at h1
    have : a ∈ s0.filter (fun x => x ∈ e) := List.mem_filter.mpr ⟨List.mem_toFinset.mp (hsub ha), by simpa using ha⟩
    rw [h1] at this
    simp at this
  · obtain ⟨t, ht, hst⟩ := List.mem_flatMap.mp hs
    obtain ⟨g1, g2⟩ := g.simplices t ht
    unfold replaceSimplex at hst
    split at hst
    · obtain ⟨x, hx, rfl⟩ := List.mem_map.mp hst
      refine ⟨by simp, ?_⟩
      rw [List.nodup_append]
      refine ⟨g2.filter _, by simp, fun y hy z hz => ?_⟩
      rintro rfl
      rw [List.mem_singleton.mp hz] at hy
      exact hv (List.mem_flatten.mpr ⟨t, ht, (List.mem_filter.mp hy).1⟩)
    · rw [List.mem_singleton.mp hst]; exact ⟨g1, g2⟩

theorem subdivided_faces {h : List (List T)} {e : Finset T} {v : T} (he : IsFace h e) (hv : v ∉ h.flatten) (A : Finset T) :
    IsFace (h.flatMap (replaceSimplex e v)) A ↔ Stellar (IsFace h) e v A := by
  have hve : v ∉ e := fun hm => by
    obtain ⟨-, s, hs, hsub⟩ := he
    exact hv (List.mem_flatten.mpr ⟨s, hs, List.mem_toFinset.mp (hsub hm)⟩)
  have hvs : ∀ s ∈ h, v ∉ s := fun s hs hm => hv (List.mem_flatten.mpr ⟨s, hs, hm⟩)
  constructor
  · rintro ⟨hA, s, hs, hsub⟩
    obtain ⟨t, ht, hst⟩ := List.mem_flatMap.mp hs
    unfold replaceSimplex at hst
    split at hst
    · rename_i het
      obtain ⟨x, hx, rfl⟩ := List.mem_map.mp hst
      obtain ⟨hxt, hxe⟩ := List.mem_filter.mp hx
      have hxe : x ∈ e := by simpa using hxe
      have hm : ∀ y ∈ A, y = v ∨ y ∈ t ∧ y ≠ x := fun y hy => by
        have := hsub hy
        simp only [List.mem_toFinset, List.mem_append, List.mem_filter, List.mem_singleton, decide_not, Bool.not_eq_true', decide_eq_false_iff_not] at this
        exact this.symm
      refine ⟨fun h3 => ?_, ?_⟩
      · rcases hm x (h3 hxe) with h4 | h4
        · exact hve (h4 ▸ hxe)
        · exact h4.2 rfl
      · by_cases hvA : v ∈ A
        · refine Or.inr ⟨hvA, ⟨x, Finset.mem_union_right _ hxe⟩, t, ht, Finset.union_subset (fun y hy => ?_) het⟩
          obtain ⟨h4, h5⟩ := Finset.mem_erase.mp hy
          exact List.mem_toFinset.mpr ((hm y h5).resolve_left h4).1
        · exact Or.inl ⟨hvA, hA, t, ht, fun y hy => List.mem_toFinset.mpr ((hm y hy).resolve_left (fun h4 => hvA (h4 ▸ hy))).1⟩
    · rename_i het
      rw [List.mem_singleton.mp hst] at hsub
      exact ⟨fun h3 => het (h3.trans hsub), Or.inl ⟨fun h3 => hvs t ht (List.mem_toFinset.mp (hsub h3)), hA, t, ht, hsub⟩⟩
  · rintro ⟨h1, h2⟩
    obtain ⟨x, hx, hxA⟩ := Finset.not_subset.mp h1
    have key : ∀ t ∈ h, e ⊆ t.toFinset → (∀ y ∈ A, y = v ∨ y ∈ t) → A.Nonempty → IsFace (h.flatMap (replaceSimplex e v)) A := by
      intro t ht het hA hne
      refine ⟨hne, t.filter (fun y => y ≠ x) ++ [v], List.mem_flatMap.mpr ⟨t, ht, ?_⟩, fun y hy => ?_⟩
      · unfold replaceSimplex
        rw [if_pos het]
        exact List.mem_map.mpr ⟨x, List.mem_filter.mpr ⟨List.mem_toFinset.mp (het hx), by simpa using hx⟩, rfl⟩
      · have hyx : y ≠ x := fun h => hxA (h ▸ hy)
        rcases hA y hy with h4 | h4
        · simp [h4]
        · simp [h4, hyx]
    rcases h2 with ⟨hvA, hne, t, ht, hsub⟩ | ⟨hvA, hne, t, ht, hsub⟩
    · by_cases het : e ⊆ t.toFinset
      · exact key t ht het (fun y hy => Or.inr (List.mem_toFinset.mp (hsub hy))) hne
      · refine ⟨hne, t, List.mem_flatMap.mpr ⟨t, ht, ?_⟩, hsub⟩
        unfold replaceSimplex
        rw [if_neg het]
        simp
    · refine key t ht (Finset.subset_union_right.trans hsub) (fun y hy => ?_) ⟨v, hvA⟩
      by_cases h4 : y = v
      · exact Or.inl h4
      · exact Or.inr (List.mem_toFinset.mp (hsub (Finset.mem_union_left _ (Finset.mem_erase.mpr ⟨h4, hy⟩))))

/-- **C140** with at most 64 labels: subdividing the attached simplices any number of times (for example into their barycentric subdivision) does not change the
homology that is reported. -/
theorem c140_iterated {h h' : List (List T)} (g : GoodHistory h) (hb : h.flatten.toFinset.card ≤ 64) (hs : Relation.ReflTransGen Subdivided h h') (maxDim : Option Nat) :
    GoodHistory h' ∧ ∃ bm res bm' res', Computes h maxDim bm res ∧ Computes h' maxDim bm' res' ∧ SameHomology maxDim res res' := by
  have : GoodHistory h' ∧ h'.flatten.toFinset.card ≤ 64 ∧
      ∃ bm res bm' res', Computes h maxDim bm res ∧ Computes h' maxDim bm' res' ∧ SameHomology maxDim res res' := by
    induction hs with
    | refl =>
      obtain ⟨bm, res, k⟩ := computes_total g maxDim
      exact ⟨g, hb, bm, res, bm, res, k, k, SameHomology.refl _ _⟩
    | tail _ h2 ih =>
      obtain ⟨g', hb', bm, res, bm', res', k, k', hh⟩ := ih
      obtain ⟨e, v, he, hv, rfl, hb''⟩ := h2
      have g'' := subdivided_good g' he hv
      obtain ⟨bm'', res'', k''⟩ := computes_total g'' maxDim
      have q1 := (k'.spec g').2.2.2.1 hb'
      have q2 := (k''.spec g'').2.2.2.1 hb''
      refine ⟨g'', hb'', bm, res, bm'', res'', k, k'', hh.trans (c140_stellar g' g'' k' k'' e v (q1 ▸ he) hv (fun A => ?_))⟩
      rw [q1, q2]
      exact subdivided_faces he hv A
  exact ⟨this.1, this.2.2⟩

/-- a case: a triangle is subdivided at its edge `{0, 1}` by `3` and then one of the halves by a point `4` in its middle -/
example : GoodHistory [[0, 1, 2]] ∧ [[0, 1, 2]].flatten.toFinset.card ≤ 64 ∧
    Relation.ReflTransGen Subdivided [[0, 1, 2]] [[1, 2, 3], [2, 3, 4], [0, 3, 4], [0, 2, 4]] := by
  refine ⟨⟨by simp, by decide⟩, by decide, Relation.ReflTransGen.trans (b := [[1, 2, 3], [0, 2, 3]]) (Relation.ReflTransGen.single ?_) (Relation.ReflTransGen.single ?_)⟩
  · exact ⟨{0, 1}, 3, ⟨by simp, [0, 1, 2], by simp, by decide⟩, by decide, by decide, by decide⟩
  · exact ⟨{0, 2, 3}, 4, ⟨by simp, [0, 2, 3], by simp, by decide⟩, by decide, by decide, by decide⟩

/-! ### C141 -/

/-- a vertex whose simplices all extend by one and the same other vertex can be removed -/
theorem dominated_collapses {K : Finset T → Prop} (hcl : ∀ A B, K A → B ⊆ A → B.Nonempty → K B) {U : Finset T} (hU : ∀ A, K A → A ⊆ U) {x y : T} (hxy : x ≠ y)
    (hd : ∀ A, K A → x ∈ A → K (insert y A)) : Collapses K (fun A => K A ∧ x ∉ A) := by
  classical
  have h := collapses_pairs (w := y) _ (U.powerset.filter (fun F => x ∈ F ∧ y ∉ F ∧ K F)) K rfl hcl ?_ ?_
  · have e1 : (fun A => K A ∧ A.erase y ∉ U.powerset.filter (fun F => x ∈ F ∧ y ∉ F ∧ K F)) = fun A => K A ∧ x ∉ A := by
      funext A
      refine propext ⟨fun ⟨h1, h2⟩ => ⟨h1, fun h3 => h2 ?_⟩, fun ⟨h1, h2⟩ => ⟨h1, fun h3 => h2 (Finset.mem_of_mem_erase (Finset.mem_filter.mp h3).2.1)⟩⟩
      have h4 : x ∈ A.erase y := Finset.mem_erase.mpr ⟨hxy, h3⟩
      have h5 := hcl A _ h1 (Finset.erase_subset y A) ⟨x, h4⟩
      exact Finset.mem_filter.mpr ⟨Finset.mem_powerset.mpr (hU _ h5), h4, Finset.notMem_erase _ _, h5⟩
    rwa [e1] at h
  · intro F hF
    obtain ⟨-, h1, h2, h3⟩ := Finset.mem_filter.mp hF
    exact ⟨h2, ⟨x, h1⟩, hd F h3 h1⟩
  · intro F hF A hA hFA hyA
    exact Finset.mem_filter.mpr ⟨Finset.mem_powerset.mpr (hU A hA), hFA (Finset.mem_filter.mp hF).2.1, hyA, hA⟩

theorem listed_subset {h : List (List T)} (g : GoodHistory h) {maxDim : Option Nat} {bm res} (k : Computes h maxDim bm res) (A : Finset T) (hA : Listed bm A) :
    A ⊆ h.flatten.toFinset := by
  obtain ⟨b1, b2, -⟩ := k.spec g
  intro x hx
  rw [List.mem_toFinset, b2]
  exact b1 A _ hA (by simpa using hx) (by simp)

/-- **C141**. If every listed simplex that contains the vertex `x` is still listed when the vertex `y` is added, removing `x` (and every simplex that contains it) does
not change the homology that is reported. -/
theorem c141_dominated {h₁ h₂ : List (List T)} (g₁ : GoodHistory h₁) (g₂ : GoodHistory h₂) {maxDim : Option Nat} {bm₁ bm₂ res₁ res₂}
    (k₁ : Computes h₁ maxDim bm₁ res₁) (k₂ : Computes h₂ maxDim bm₂ res₂) (x y : T) (hxy : x ≠ y) (hd : ∀ A, Listed bm₁ A → x ∈ A → Listed bm₁ (insert y A))
    (hK : ∀ A, Listed bm₂ A ↔ Listed bm₁ A ∧ x ∉ A) : SameHomology maxDim res₁ res₂ := by
  have e : Listed bm₂ = fun A => Listed bm₁ A ∧ x ∉ A := funext fun A => propext (hK A)
  exact c121_collapse g₁ g₂ k₁ k₂ (e ▸ dominated_collapses (k₁.spec g₁).1 (listed_subset g₁ k₁) hxy hd)

/-- **C141** with at most 64 labels: if every attached simplex with the vertex `x` also has the vertex `y`, leaving `x` out of all of them changes nothing. -/
theorem c141_history {h : List (List T)} (g : GoodHistory h) (hb : h.flatten.toFinset.card ≤ 64) (x y : T) (hxy : x ≠ y) (hd : ∀ s ∈ h, x ∈ s → y ∈ s) (maxDim : Option Nat) : GoodHistory (h.map (fun s => s.filter (fun z => z ≠ x))) ∧ ∃ bm res bm' res', Computes h maxDim bm res ∧
      Computes (h.map (fun s => s.filter (fun z => z ≠ x))) maxDim bm' res' ∧ SameHomology maxDim res res' := by
  have g' : GoodHistory (h.map (fun s => s.filter (fun z => z ≠ x))) := by
    refine ⟨by simp [g.nonempty], fun s hs => ?_⟩
    obtain ⟨t, ht, rfl⟩ := List.mem_map.mp hs
    obtain ⟨g1, g2⟩ := g.simplices t ht
    refine ⟨fun e => ?_, g2.filter _⟩
    by_cases hx : x ∈ t
    · have : y ∈ t.filter (fun z => z ≠ x) := List.mem_filter.mpr ⟨hd t ht hx, by simpa using Ne.symm hxy⟩
      rw [e] at this
      simp at this
    · obtain ⟨a, ha⟩ := List.exists_mem_of_ne_nil _ g1
      have : a ∈ t.filter (fun z => z ≠ x) := List.mem_filter.mpr ⟨ha, by simpa using fun h : a = x => hx (h ▸ ha)⟩
      rw [e] at this
      simp at this
  refine ⟨g', ?_⟩
  obtain ⟨bm, res, k⟩ := computes_total g maxDim
  obtain ⟨bm', res', k'⟩ := computes_total g' maxDim
  have hsub : (h.map (fun s => s.filter (fun z => z ≠ x))).flatten.toFinset ⊆ h.flatten.toFinset := by
    intro z hz
    obtain ⟨t', ht', hz'⟩ := List.mem_flatten.mp (List.mem_toFinset.mp hz)
    obtain ⟨t, ht, rfl⟩ := List.mem_map.mp ht'
    exact List.mem_toFinset.mpr (List.mem_flatten.mpr ⟨t, ht, (List.mem_filter.mp hz').1⟩)
  have q1 := (k.spec g).2.2.2.1 hb
  have q2 := (k'.spec g').2.2.2.1 ((Finset.card_le_card hsub).trans hb)
  refine ⟨bm, res, bm', res', k, k', c141_dominated g g' k k' x y hxy ?_ ?_⟩
  · rw [q1]
    rintro A ⟨hA, s, hs, hsA⟩ hx
    exact ⟨by simp, s, hs, Finset.insert_subset (List.mem_toFinset.mpr (hd s hs (List.mem_toFinset.mp (hsA hx)))) hsA⟩
  · rw [q1, q2]
    intro A
    constructor
    · rintro ⟨hA, s, hs, hsA⟩
      obtain ⟨t, ht, rfl⟩ := List.mem_map.mp hs
      refine ⟨⟨hA, t, ht, fun z hz => ?_⟩, fun hx => ?_⟩
      · exact List.mem_toFinset.mpr (List.mem_filter.mp (List.mem_toFinset.mp (hsA hz))).1
      · have := (List.mem_filter.mp (List.mem_toFinset.mp (hsA hx))).2
        simp at this
    · rintro ⟨⟨hA, s, hs, hsA⟩, hx⟩
      refine ⟨hA, _, List.mem_map_of_mem hs, fun z hz => ?_⟩
      exact List.mem_toFinset.mpr (List.mem_filter.mpr ⟨List.mem_toFinset.mp (hsA hz), by simpa using fun h : z = x => hx (h ▸ hz)⟩)

/-- a case: a hollow triangle with a filled triangle on one edge; the tip `3` is dominated by `1` -/
example : GoodHistory [[0, 1], [1, 2], [2, 0], [1, 2, 3]] ∧ [[0, 1], [1, 2], [2, 0], [1, 2, 3]].flatten.toFinset.card ≤ 64 ∧ (3 : Nat) ≠ 1 ∧
    (∀ s ∈ [[0, 1], [1, 2], [2, 0], [1, 2, 3]], 3 ∈ s → 1 ∈ s) :=
  ⟨⟨by simp, by decide⟩, by decide, by decide, by decide⟩

/-! ### C142 -/

/-- the simplex with the vertex `x` in place of `y` -/
def contracted (x y : T) (A : Finset T) : Finset T := A.image (fun z => if z = y then x else z)

/-- the complex that collapses to both: `K` and the sets of vertices that become a simplex when `x` and `y` are replaced by one of them -/
def Fill (K : Finset T → Prop) (x y : T) (A : Finset T) : Prop :=
  A.Nonempty ∧ (K A ∨ K (insert x ((A.erase x).erase y)) ∨ K (insert y ((A.erase x).erase y)))

section
variable {K : Finset T → Prop} {x y : T}

theorem fill_closed (hcl : ∀ A B, K A → B ⊆ A → B.Nonempty → K B) : ∀ A B, Fill K x y A → B ⊆ A → B.Nonempty → Fill K x y B := by
  rintro A B ⟨h1, h2⟩ hBA hB
  have hs : (B.erase x).erase y ⊆ (A.erase x).erase y := Finset.erase_subset_erase _ (Finset.erase_subset_erase _ hBA)
  refine ⟨hB, ?_⟩
  rcases h2 with h2 | h2 | h2
  · exact Or.inl (hcl A B h2 hBA hB)
  · exact Or.inr (Or.inl (hcl _ _ h2 (Finset.insert_subset_insert _ hs) (by simp)))
  · exact Or.inr (Or.inr (hcl _ _ h2 (Finset.insert_subset_insert _ hs) (by simp)))

theorem fill_bound {U : Finset T} (hU : ∀ A, K A → A ⊆ U) : ∀ A, Fill K x y A → A ⊆ insert x (insert y U) := by
  rintro A ⟨h1, h2⟩ z hz
  by_cases hx : z = x
  · simp [hx]
  by_cases hy : z = y
  · simp [hy]
  have hm : z ∈ (A.erase x).erase y := Finset.mem_erase.mpr ⟨hy, Finset.mem_erase.mpr ⟨hx, hz⟩⟩
  refine Finset.mem_insert_of_mem (Finset.mem_insert_of_mem ?_)
  rcases h2 with h2 | h2 | h2
  · exact hU _ h2 hz
  · exact hU _ h2 (Finset.mem_insert_of_mem hm)
  · exact hU _ h2 (Finset.mem_insert_of_mem hm)

theorem fill_old (hcl : ∀ A B, K A → B ⊆ A → B.Nonempty → K B) (hpos : ∀ A, K A → A.Nonempty) {U : Finset T} (hU : ∀ A, K A → A ⊆ U) (hxy : x ≠ y)
    (hl : ∀ A, x ∉ A → y ∉ A → K (insert x A) → K (insert y A) → K (insert x (insert y A))) : Collapses (Fill K x y) K := by
  classical
  have hrest : ∀ A : Finset T, ((insert x A).erase x).erase y = (A.erase x).erase y := fun A => by ext z; simp only [Finset.mem_erase, Finset.mem_insert]; tauto
  have hrest' : ∀ A : Finset T, ((insert y A).erase x).erase y = (A.erase x).erase y := fun A => by ext z; simp only [Finset.mem_erase, Finset.mem_insert]; tauto
  have hx : ∀ A : Finset T, x ∈ A → y ∉ A → insert x ((A.erase x).erase y) = A := fun A h1 h2 => by
    ext z; simp only [Finset.mem_erase, Finset.mem_insert]
    constructor
    · rintro (rfl | h) <;> tauto
    · intro h; by_cases e : z = x
      · exact Or.inl e
      · exact Or.inr ⟨fun e' => h2 (e' ▸ h), e, h⟩
  have hy : ∀ A : Finset T, y ∈ A → x ∉ A → insert y ((A.erase x).erase y) = A := fun A h1 h2 => by
    ext z; simp only [Finset.mem_erase, Finset.mem_insert]
    constructor
    · rintro (rfl | h) <;> tauto
    · intro h; by_cases e : z = y
      · exact Or.inl e
      · exact Or.inr ⟨e, fun e' => h2 (e' ▸ h), h⟩
  set P1 := (insert x (insert y U)).powerset.filter (fun F => y ∈ F ∧ x ∉ F ∧ ¬ K F ∧ Fill K x y F) with hP1
  set P2 := (insert x (insert y U)).powerset.filter (fun F => x ∈ F ∧ y ∉ F ∧ ¬ K F ∧ Fill K x y F) with hP2
  have m1 : ∀ F, F ∈ P1 ↔ y ∈ F ∧ x ∉ F ∧ ¬ K F ∧ Fill K x y F := fun F => by
    rw [hP1, Finset.mem_filter, Finset.mem_powerset]
    exact ⟨fun h => h.2, fun h => ⟨fill_bound hU F h.2.2.2, h⟩⟩
  have m2 : ∀ F, F ∈ P2 ↔ x ∈ F ∧ y ∉ F ∧ ¬ K F ∧ Fill K x y F := fun F => by
    rw [hP2, Finset.mem_filter, Finset.mem_powerset]
    exact ⟨fun h => h.2, fun h => ⟨fill_bound hU F h.2.2.2, h⟩⟩
  have c1 := collapses_pairs (w := x) _ P1 (Fill K x y) rfl (fill_closed hcl) ?_ ?_
  · have c2 := collapses_pairs (w := y) _ P2 (fun A => Fill K x y A ∧ A.erase x ∉ P1) rfl ?_ ?_ ?_
    · have e : (fun A => (Fill K x y A ∧ A.erase x ∉ P1) ∧ A.erase y ∉ P2) = K := by
        funext A
        refine propext ⟨fun ⟨⟨h1, h2⟩, h3⟩ => ?_, fun h => ⟨⟨⟨?_, Or.inl h⟩, fun h' => ?_⟩, fun h' => ?_⟩⟩
        · by_contra hK
          have hr := h1.2
          have hrx : ((A.erase x).erase y).erase x = (A.erase x).erase y := Finset.erase_eq_of_notMem (by simp)
          by_cases ka : K (insert x ((A.erase x).erase y))
          · by_cases kb : K (insert y ((A.erase x).erase y))
            · refine hK (hcl _ A (hl _ (by simp) (by simp) ka kb) (fun z hz => ?_) h1.1)
              simp only [Finset.mem_insert, Finset.mem_erase]
              by_cases e1 : z = x
              · exact Or.inl e1
              · by_cases e2 : z = y
                · exact Or.inr (Or.inl e2)
                · exact Or.inr (Or.inr ⟨e2, e1, hz⟩)
            · have hyA : y ∈ A := by
                by_contra hyA
                refine hK (hcl _ A ka (fun z hz => ?_) h1.1)
                simp only [Finset.mem_insert, Finset.mem_erase]
                by_cases e1 : z = x
                · exact Or.inl e1
                · exact Or.inr ⟨fun e2 => hyA (e2 ▸ hz), e1, hz⟩
              refine h2 ((m1 _).mpr ?_)
              have e1 : A.erase x = insert y ((A.erase x).erase y) := (Finset.insert_erase (Finset.mem_erase.mpr ⟨Ne.symm hxy, hyA⟩)).symm
              refine ⟨Finset.mem_erase.mpr ⟨Ne.symm hxy, hyA⟩, by simp, by rw [e1]; exact kb, ⟨y, Finset.mem_erase.mpr ⟨Ne.symm hxy, hyA⟩⟩, Or.inr (Or.inl ?_)⟩
              rw [Finset.erase_eq_of_notMem (Finset.notMem_erase x A)]
              exact ka
          · have kb : K (insert y ((A.erase x).erase y)) := by tauto
            have hxA : x ∈ A := by
              by_contra hxA
              refine hK (hcl _ A kb (fun z hz => ?_) h1.1)
              simp only [Finset.mem_insert, Finset.mem_erase]
              by_cases e1 : z = y
              · exact Or.inl e1
              · exact Or.inr ⟨e1, fun e2 => hxA (e2 ▸ hz), hz⟩
            refine h3 ((m2 _).mpr ?_)
            have hxe : x ∈ A.erase y := Finset.mem_erase.mpr ⟨hxy, hxA⟩
            have e1 : ((A.erase y).erase x).erase y = (A.erase x).erase y := by ext z; simp only [Finset.mem_erase]; tauto
            refine ⟨hxe, by simp, fun hk => ka ?_, ⟨x, hxe⟩, Or.inr (Or.inr ?_)⟩
            · rw [← hx _ hxe (by simp), e1] at hk; exact hk
            · rw [e1]; exact kb
        · exact hpos A h
        · obtain ⟨a, b, c, d⟩ := (m1 _).mp h'
          exact c (hcl A _ h (Finset.erase_subset _ _) ⟨y, a⟩)
        · obtain ⟨a, b, c, d⟩ := (m2 _).mp h'
          exact c (hcl A _ h (Finset.erase_subset _ _) ⟨x, a⟩)
      rw [e] at c2
      exact c1.trans c2
    · rintro A B ⟨h1, h2⟩ hBA hB
      refine ⟨fill_closed hcl A B h1 hBA hB, fun h3 => h2 ((m1 _).mpr ?_)⟩
      obtain ⟨a, b, c, d⟩ := (m1 _).mp h3
      have hs : B.erase x ⊆ A.erase x := Finset.erase_subset_erase _ hBA
      exact ⟨hs a, by simp, fun hk => c (hcl _ _ hk hs ⟨y, a⟩), fill_closed hcl A _ h1 (Finset.erase_subset _ _) ⟨y, hs a⟩⟩
    · intro F hF
      obtain ⟨a, b, c, d⟩ := (m2 F).mp hF
      have kb : K (insert y ((F.erase x).erase y)) := by
        have := d.2
        rw [hx F a b] at this
        tauto
      refine ⟨b, ⟨x, a⟩, ⟨by simp, Or.inr (Or.inr ?_)⟩, fun h3 => ((m1 _).mp h3).2.2.1 ?_⟩
      · rw [hrest']; exact kb
      · rw [Finset.erase_insert_of_ne (Ne.symm hxy), ← Finset.erase_eq_of_notMem (s := F.erase x) (a := y) (fun h => b (Finset.mem_of_mem_erase h))]; exact kb
    · rintro F hF A ⟨hA, -⟩ hFA hyA
      obtain ⟨a, b, c, d⟩ := (m2 F).mp hF
      exact (m2 A).mpr ⟨hFA a, hyA, fun hk => c (hcl A F hk hFA ⟨x, a⟩), hA⟩
  · intro F hF
    obtain ⟨a, b, c, d⟩ := (m1 F).mp hF
    have ka : K (insert x ((F.erase x).erase y)) := by
      have := d.2
      rw [hy F a b] at this
      tauto
    refine ⟨b, ⟨y, a⟩, by simp, Or.inr (Or.inl ?_)⟩
    rw [hrest]; exact ka
  · intro F hF A hA hFA hxA
    obtain ⟨a, b, c, d⟩ := (m1 F).mp hF
    exact (m1 A).mpr ⟨hFA a, hxA, fun hk => c (hcl A F hk hFA ⟨y, a⟩), hA⟩

theorem fill_new (hcl : ∀ A B, K A → B ⊆ A → B.Nonempty → K B) (hpos : ∀ A, K A → A.Nonempty) {U : Finset T} (hU : ∀ A, K A → A ⊆ U) (hxy : x ≠ y) :
    Collapses (Fill K x y) (fun A => ∃ B, K B ∧ A = contracted x y B) := by
  have h := dominated_collapses (K := Fill K x y) (fill_closed hcl) (fill_bound hU) (x := y) (y := x) (Ne.symm hxy) ?_
  · have e : (fun A => Fill K x y A ∧ y ∉ A) = fun A => ∃ B, K B ∧ A = contracted x y B := by
      funext A
      refine propext ⟨fun ⟨⟨h1, h2⟩, h3⟩ => ?_, fun ⟨B, hB, e⟩ => ?_⟩
      · have keep : ∀ B : Finset T, y ∉ B → contracted x y B = B := by
          intro B hB
          unfold contracted
          ext z
          rw [Finset.mem_image]
          constructor
          · rintro ⟨w, hw, rfl⟩
            rwa [if_neg (fun e : w = y => hB (e ▸ hw))]
          · intro hz
            exact ⟨z, hz, if_neg (fun e : z = y => hB (e ▸ hz))⟩
        have hA : K A → ∃ B, K B ∧ A = contracted x y B := fun h => ⟨A, h, (keep A h3).symm⟩
        rcases h2 with h2 | h2 | h2
        · exact hA h2
        · refine hA (hcl _ A h2 (fun z hz => ?_) h1)
          simp only [Finset.mem_insert, Finset.mem_erase]
          by_cases e1 : z = x
          · exact Or.inl e1
          · exact Or.inr ⟨fun e2 => h3 (e2 ▸ hz), e1, hz⟩
        · by_cases hxA : x ∈ A
          · refine ⟨_, h2, ?_⟩
            unfold contracted
            ext z
            simp only [Finset.mem_image, Finset.mem_insert, Finset.mem_erase]
            constructor
            · intro hz
              by_cases e1 : z = x
              · exact ⟨y, Or.inl rfl, by rw [if_pos rfl, e1]⟩
              · have e2 : z ≠ y := fun e2 => h3 (e2 ▸ hz)
                exact ⟨z, Or.inr ⟨e2, e1, hz⟩, if_neg e2⟩
            · rintro ⟨w, rfl | ⟨e2, e1, hw⟩, rfl⟩
              · rwa [if_pos rfl]
              · rwa [if_neg e2]
          · refine hA (hcl _ A h2 (fun z hz => ?_) h1)
            simp only [Finset.mem_insert, Finset.mem_erase]
            exact Or.inr ⟨fun e2 => h3 (e2 ▸ hz), fun e1 => hxA (e1 ▸ hz), hz⟩
      · subst e
        have hm : ∀ z, z ∈ contracted x y B ↔ (z = x ∧ y ∈ B) ∨ (z ≠ y ∧ z ∈ B) := by
          intro z
          unfold contracted
          rw [Finset.mem_image]
          constructor
          · rintro ⟨w, hw, rfl⟩
            by_cases e : w = y
            · rw [if_pos e]; exact Or.inl ⟨rfl, e ▸ hw⟩
            · rw [if_neg e]; exact Or.inr ⟨e, hw⟩
          · rintro (⟨rfl, hb⟩ | ⟨h, h'⟩)
            · exact ⟨y, hb, if_pos rfl⟩
            · exact ⟨z, h', if_neg h⟩
        refine ⟨⟨(hpos B hB).image _, ?_⟩, fun h => ?_⟩
        · by_cases hyB : y ∈ B
          · refine Or.inr (Or.inr (hcl B _ hB (fun z hz => ?_) (by simp)))
            simp only [Finset.mem_insert, Finset.mem_erase, hm] at hz
            rcases hz with rfl | ⟨e1, e2, h⟩
            · exact hyB
            · tauto
          · left
            have : contracted x y B = B := by
              ext z
              rw [hm]
              constructor
              · tauto
              · intro h; exact Or.inr ⟨fun e => hyB (e ▸ h), h⟩
            rwa [this]
        · rcases (hm y).mp h with ⟨h, -⟩ | ⟨h, -⟩
          · exact hxy h.symm
          · exact h rfl
    rwa [e] at h
  · rintro A ⟨h1, h2⟩ hyA
    have e : ((insert x A).erase x).erase y = (A.erase x).erase y := by ext z; simp only [Finset.mem_erase, Finset.mem_insert]; tauto
    refine ⟨by simp, Or.inr ?_⟩
    rw [e]
    rcases h2 with h2 | h2
    · refine Or.inr (hcl A _ h2 (fun z hz => ?_) (by simp))
      simp only [Finset.mem_insert, Finset.mem_erase] at hz
      rcases hz with rfl | ⟨-, -, h⟩
      · exact hyA
      · exact h
    · exact h2

end

/-- **C142**. Contracting a listed edge `x y` into the vertex `x` does not change the homology that is reported, if every set of other vertices (also the empty one) that forms a
listed simplex with `x` and one with `y` forms one with both. -/
theorem c142_contraction {h₁ h₂ : List (List T)} (g₁ : GoodHistory h₁) (g₂ : GoodHistory h₂) {maxDim : Option Nat} {bm₁ bm₂ res₁ res₂}
    (k₁ : Computes h₁ maxDim bm₁ res₁) (k₂ : Computes h₂ maxDim bm₂ res₂) (x y : T) (hxy : x ≠ y) (he : Listed bm₁ {x, y})
    (hl : ∀ A, x ∉ A → y ∉ A → Listed bm₁ (insert x A) → Listed bm₁ (insert y A) → Listed bm₁ (insert x (insert y A)))
    (hK : ∀ A, Listed bm₂ A ↔ ∃ B, Listed bm₁ B ∧ A = contracted x y B) : SameHomology maxDim res₁ res₂ := by
  obtain ⟨b1, b2, b3, -, -, -, -⟩ := k₁.spec g₁
  have hpos : ∀ A, Listed bm₁ A → A.Nonempty := fun A hA => (b3 A hA).1
  have hU := listed_subset g₁ k₁
  have e : Listed bm₂ = fun A => ∃ B, Listed bm₁ B ∧ A = contracted x y B := funext fun A => propext (hK A)
  refine c140_expansion g₁ g₂ k₁ k₂ (Fill (Listed bm₁) x y) (fill_closed b1) (fun z hz => Or.inl ?_) (fill_old b1 hpos hU hxy hl) (e ▸ fill_new b1 hpos hU hxy)
  have := fill_bound hU _ hz (Finset.mem_singleton_self z)
  rcases Finset.mem_insert.mp this with rfl | h
  · exact List.mem_toFinset.mp (hU _ he (by simp))
  · rcases Finset.mem_insert.mp h with rfl | h
    · exact List.mem_toFinset.mp (hU _ he (by simp))
    · exact List.mem_toFinset.mp h

/-- **C142** with at most 64 labels: `x` is written for `y` in every attached simplex (once, if it has both). -/
theorem c142_history {h : List (List T)} (g : GoodHistory h) (hb : h.flatten.toFinset.card ≤ 64) (x y : T) (hxy : x ≠ y) (he : IsFace h {x, y})
    (hl : ∀ A, x ∉ A → y ∉ A → IsFace h (insert x A) → IsFace h (insert y A) → IsFace h (insert x (insert y A))) (maxDim : Option Nat) :
    GoodHistory (h.map (fun s => (s.map (fun z => if z = y then x else z)).dedup)) ∧ ∃ bm res bm' res', Computes h maxDim bm res ∧
      Computes (h.map (fun s => (s.map (fun z => if z = y then x else z)).dedup)) maxDim bm' res' ∧ SameHomology maxDim res res' := by
  set h' := h.map (fun s => (s.map (fun z => if z = y then x else z)).dedup) with hh'
  have g' : GoodHistory h' := by
    refine ⟨by simp [hh', g.nonempty], fun s hs => ?_⟩
    obtain ⟨t, ht, rfl⟩ := List.mem_map.mp hs
    obtain ⟨g1, g2⟩ := g.simplices t ht
    refine ⟨fun e => ?_, List.nodup_dedup _⟩
    obtain ⟨a, ha⟩ := List.exists_mem_of_ne_nil _ g1
    have : (if a = y then x else a) ∈ (t.map (fun z => if z = y then x else z)).dedup := List.mem_dedup.mpr (List.mem_map.mpr ⟨a, ha, rfl⟩)
    rw [e] at this
    simp at this
  refine ⟨g', ?_⟩
  have hmem : ∀ t : List T, ∀ z, z ∈ (t.map (fun z => if z = y then x else z)).dedup ↔ ∃ w ∈ t, (if w = y then x else w) = z := fun t z => by
    rw [List.mem_dedup, List.mem_map]
  obtain ⟨bm, res, k⟩ := computes_total g maxDim
  obtain ⟨bm', res', k'⟩ := computes_total g' maxDim
  have hxm : x ∈ h.flatten := by
    obtain ⟨-, s, hs, hsub⟩ := he
    exact List.mem_flatten.mpr ⟨s, hs, List.mem_toFinset.mp (hsub (by simp))⟩
  have hsub : h'.flatten.toFinset ⊆ h.flatten.toFinset := by
    intro z hz
    obtain ⟨t', ht', hz'⟩ := List.mem_flatten.mp (List.mem_toFinset.mp hz)
    obtain ⟨t, ht, rfl⟩ := List.mem_map.mp ht'
    obtain ⟨w, hw, rfl⟩ := (hmem t z).mp hz'
    rw [List.mem_toFinset]
    split
    · exact hxm
    · exact List.mem_flatten.mpr ⟨t, ht, hw⟩
  have q1 := (k.spec g).2.2.2.1 hb
  have q2 := (k'.spec g').2.2.2.1 ((Finset.card_le_card hsub).trans hb)
  refine ⟨bm, res, bm', res', k, k', c142_contraction g g' k k' x y hxy (q1 ▸ he) (by rw [q1]; exact hl) ?_⟩
  rw [q1, q2]
  intro A
  constructor
  · rintro ⟨hA, s, hs, hsA⟩
    obtain ⟨t, ht, rfl⟩ := List.mem_map.mp hs
    have e : A = contracted x y (t.toFinset.filter (fun w => (if w = y then x else w) ∈ A)) := by
      unfold contracted
      ext z
      rw [Finset.mem_image]
      constructor
      · intro hz
        obtain ⟨w, hw, rfl⟩ := (hmem t z).mp (List.mem_toFinset.mp (hsA hz))
        exact ⟨w, Finset.mem_filter.mpr ⟨List.mem_toFinset.mpr hw, hz⟩, rfl⟩
      · rintro ⟨w, hw, rfl⟩
        exact (Finset.mem_filter.mp hw).2
    refine ⟨_, ⟨?_, t, ht, Finset.filter_subset _ _⟩, e⟩
    rw [e] at hA
    exact Finset.image_nonempty.mp hA
  · rintro ⟨B, ⟨hB, s, hs, hsB⟩, rfl⟩
    refine ⟨hB.image _, _, List.mem_map_of_mem hs, fun z hz => ?_⟩
    obtain ⟨w, hw, rfl⟩ := Finset.mem_image.mp hz
    exact List.mem_toFinset.mpr ((hmem s _).mpr ⟨w, List.mem_toFinset.mp (hsB hw), rfl⟩)

/-- a case: a circle of four edges becomes a hollow triangle when the edge `2 3` is contracted; a hollow triangle itself does not meet the condition -/
example : GoodHistory [[0, 1], [1, 2], [2, 3], [3, 0]] ∧ IsFace [[0, 1], [1, 2], [2, 3], [3, 0]] {2, 3} ∧
    (∀ A : Finset Nat, 2 ∉ A → 3 ∉ A → IsFace [[0, 1], [1, 2], [2, 3], [3, 0]] (insert 2 A) → IsFace [[0, 1], [1, 2], [2, 3], [3, 0]] (insert 3 A) →
      IsFace [[0, 1], [1, 2], [2, 3], [3, 0]] (insert 2 (insert 3 A))) ∧
    ¬ (∀ A : Finset Nat, 1 ∉ A → 2 ∉ A → IsFace [[0, 1], [1, 2], [2, 0]] (insert 1 A) → IsFace [[0, 1], [1, 2], [2, 0]] (insert 2 A) →
      IsFace [[0, 1], [1, 2], [2, 0]] (insert 1 (insert 2 A))) := by
  refine ⟨⟨by simp, by decide⟩, ⟨by simp, [2, 3], by simp, by decide⟩, ?_, fun hall => ?_⟩
  · intro A h2 h3 ha hb
    have hp : A ∈ ({0, 1, 2, 3} : Finset Nat).powerset := by
      rw [Finset.mem_powerset]
      obtain ⟨-, s, hs, hsub⟩ := ha
      have : ∀ s ∈ [[0, 1], [1, 2], [2, 3], [3, 0]], s.toFinset ⊆ ({0, 1, 2, 3} : Finset Nat) := by decide
      exact (Finset.subset_insert _ _).trans (hsub.trans (this s hs))
    have : ∀ A ∈ ({0, 1, 2, 3} : Finset Nat).powerset, 2 ∉ A → 3 ∉ A → ((insert 2 A).Nonempty ∧ ∃ s ∈ [[0, 1], [1, 2], [2, 3], [3, 0]], insert 2 A ⊆ s.toFinset) →
      ((insert 3 A).Nonempty ∧ ∃ s ∈ [[0, 1], [1, 2], [2, 3], [3, 0]], insert 3 A ⊆ s.toFinset) →
      ((insert 2 (insert 3 A)).Nonempty ∧ ∃ s ∈ [[0, 1], [1, 2], [2, 3], [3, 0]], insert 2 (insert 3 A) ⊆ s.toFinset) := by decide +kernel
    exact this A hp h2 h3 ha hb
  · obtain ⟨-, s, hs, hsub⟩ := hall {0} (by simp) (by simp) ⟨by simp, [0, 1], by simp, by decide⟩ ⟨by simp, [2, 0], by simp, by decide⟩
    have : ∀ s ∈ [[0, 1], [1, 2], [2, 0]], ¬ (insert 1 (insert 2 {0}) : Finset Nat) ⊆ s.toFinset := by decide
    exact this s hs hsub

end
end Toppo.Simp
