import Verif.Proof.Analysis
import Verif.Proof.FnOrder
set_option linter.unusedVariables false
set_option linter.unusedSectionVars false
/-! The structure of expressions under the operators. -/

namespace Toppo.FSum
variable {K B : Type} [CommRing K] [DecidableEq K] [LinearOrder B]

/-- every basis element of a sum comes from a summand -/
theorem sumLoop_bases (P : B → Prop) : ∀ (fuel : Nat) (l : List (Stream K B)) (out r : FSum K B), (∀ s ∈ l, ∀ q ∈ items s, P q.2) → (∀ p ∈ out, P p.2) →
    sumLoop fuel l out = some r → ∀ p ∈ r, P p.2 := by
  intro fuel
  induction fuel with
  | zero =>
    intro l out r hl ho h
    cases l with
    | nil => simp only [sumLoop, Option.some.injEq] at h; subst h; exact ho
    | cons s ss => simp [sumLoop] at h
  | succ fuel ih =>
    intro l out r hl ho h
    cases l with
    | nil => simp only [sumLoop, Option.some.injEq] at h; subst h; exact ho
    | cons s ss =>
      simp only [sumLoop] at h
      refine ih _ _ _ ?_ ?_ h
      · intro t ht q hq
        have hm := ((mergeBy_perm _ _).trans (List.Perm.append_left _ (sortStreams_perm _))).mem_iff.mp ht
        rcases List.mem_append.mp hm with hm | hm
        · exact hl t (List.mem_of_mem_drop hm) q hq
        · obtain ⟨u, hu, e⟩ := advance_sub hm
          refine hl u (List.mem_of_mem_take hu) q ?_
          unfold items
          rw [e]
          exact List.mem_cons_of_mem _ hq
      · intro p hp
        split at hp
        · rcases List.mem_append.mp hp with hp | hp
          · exact ho p hp
          · rw [List.mem_singleton] at hp
            subst hp
            exact hl s (List.mem_cons_self ..) s.1 (by unfold items; exact List.mem_cons_self ..)
        · exact ho p hp

theorem sum_bases (P : B → Prop) (vs : List (FSum K B)) (r : FSum K B) (h : sum vs = some r) (hv : ∀ v ∈ vs, ∀ q ∈ v, P q.2) : ∀ p ∈ r, P p.2 := by
  refine sumLoop_bases P _ _ _ _ ?_ (by simp) h
  intro s hs q hq
  have hs := (sortStreams_perm _).mem_iff.mp hs
  obtain ⟨v, hvm, e⟩ := List.mem_filterMap.mp hs
  cases v with
  | nil => simp at e
  | cons x xs =>
    simp only [Option.some.injEq] at e
    subst e
    exact hv _ hvm q hq

end Toppo.FSum

namespace Toppo.Analysis
noncomputable section
variable [LinearOrder Fn]

mutual
/-- no `Sum` directly in a `Sum` and no `Product` directly in a `Product`, at any depth; with `N` also: the lists are sorted and products have
neither `Zero` nor `One` among their factors -/
def Nf (N : Prop) : Fn → Prop
  | .zero => True
  | .one => True
  | .proj _ => True
  | .rpow f _ => Nf N f
  | .sin f => Nf N f
  | .cos f => Nf N f
  | .sum v => (N → FSum.Sorted v) ∧ NfSum N v
  | .prod v => (N → FSum.Sorted v) ∧ NfProd N v
/-- the summands of a sum -/
def NfSum (N : Prop) : List (ℝ × Fn) → Prop
  | [] => True
  | (_, f) :: v => ((∀ w, f ≠ .sum w) ∧ Nf N f) ∧ NfSum N v
/-- the factors of a product -/
def NfProd (N : Prop) : List (ℤ × Fn) → Prop
  | [] => True
  | (_, f) :: v => ((∀ w, f ≠ .prod w) ∧ (N → f ≠ .zero ∧ f ≠ .one) ∧ Nf N f) ∧ NfProd N v
end

variable {N : Prop}

theorem nfSum_iff {v : List (ℝ × Fn)} : NfSum N v ↔ ∀ p ∈ v, (∀ w, p.2 ≠ .sum w) ∧ Nf N p.2 := by
  induction v with
  | nil => simp [NfSum]
  | cons p v ih => obtain ⟨a, f⟩ := p; simp only [NfSum, ih, List.forall_mem_cons]

theorem nfProd_iff {v : List (ℤ × Fn)} : NfProd N v ↔ ∀ p ∈ v, (∀ w, p.2 ≠ .prod w) ∧ (N → p.2 ≠ .zero ∧ p.2 ≠ .one) ∧ Nf N p.2 := by
  induction v with
  | nil => simp [NfProd]
  | cons p v ih => obtain ⟨a, f⟩ := p; simp only [NfProd, ih, List.forall_mem_cons]

theorem nf_sum {v : List (ℝ × Fn)} : Nf N (.sum v) ↔ (N → FSum.Sorted v) ∧ ∀ p ∈ v, (∀ w, p.2 ≠ .sum w) ∧ Nf N p.2 := by
  rw [Nf, nfSum_iff]
theorem nf_prod {v : List (ℤ × Fn)} : Nf N (.prod v) ↔ (N → FSum.Sorted v) ∧ ∀ p ∈ v, (∀ w, p.2 ≠ .prod w) ∧ (N → p.2 ≠ .zero ∧ p.2 ≠ .one) ∧ Nf N p.2 := by
  rw [Nf, nfProd_iff]

theorem sorted_map {K : Type} {v : FSum K Fn} (g : K → K) (h : FSum.Sorted v) : FSum.Sorted (v.map (fun p => (g p.1, p.2))) := by
  unfold FSum.Sorted at *
  rw [List.pairwise_map]
  exact h

theorem nf_sum_map {v : List (ℝ × Fn)} (g : ℝ → ℝ) (h : Nf N (.sum v)) : Nf N (.sum (v.map (fun p => (g p.1, p.2)))) := by
  rw [nf_sum] at h ⊢
  refine ⟨fun n => sorted_map g (h.1 n), ?_⟩
  intro p hp
  obtain ⟨q, hq, rfl⟩ := List.mem_map.mp hp
  exact h.2 q hq
theorem nf_prod_map {v : List (ℤ × Fn)} (g : ℤ → ℤ) (h : Nf N (.prod v)) : Nf N (.prod (v.map (fun p => (g p.1, p.2)))) := by
  rw [nf_prod] at h ⊢
  refine ⟨fun n => sorted_map g (h.1 n), ?_⟩
  intro p hp
  obtain ⟨q, hq, rfl⟩ := List.mem_map.mp hp
  exact h.2 q hq

theorem nf_one {f : Fn} (hs : ∀ w, f ≠ .sum w) (h : Nf N f) (c : ℝ) : Nf N (.sum [(c, f)]) := by
  rw [nf_sum]; exact ⟨fun _ => by simp [FSum.Sorted], by simpa using ⟨hs, h⟩⟩

theorem nf_toSum {f : Fn} (h : Nf N f) : Nf N (.sum (toSum f)) := by
  unfold toSum
  split
  · exact h
  · rename_i hs
    exact nf_one (fun w e => hs w e) h 1

theorem nf_vsum {vs : List (FSum ℝ Fn)} (hN : N → vs.length ≤ 2 ∨ ∀ v ∈ vs, v.length ≤ 1) (h : ∀ v ∈ vs, Nf N (.sum v)) : Nf N (.sum (vsum vs)) := by
  have e := (vsum_some vs).1
  rw [nf_sum]
  refine ⟨fun n => FSum.sum_sorted vs (fun v hv => (nf_sum.mp (h v hv)).1 n) ((hN n).imp id (FSum.terms_ok vs)) e, ?_⟩
  exact FSum.sum_bases (fun f => (∀ w, f ≠ .sum w) ∧ Nf N f) vs _ e (fun v hv => (nf_sum.mp (h v hv)).2)

theorem nf_vprod {vs : List (FSum ℤ Fn)} (hN : N → vs.length ≤ 2 ∨ ∀ v ∈ vs, v.length ≤ 1) (h : ∀ v ∈ vs, Nf N (.prod v)) : Nf N (.prod (vsum vs)) := by
  have e := (vsum_some vs).1
  rw [nf_prod]
  refine ⟨fun n => FSum.sum_sorted vs (fun v hv => (nf_prod.mp (h v hv)).1 n) ((hN n).imp id (FSum.terms_ok vs)) e, ?_⟩
  exact FSum.sum_bases (fun f => (∀ w, f ≠ .prod w) ∧ (N → f ≠ .zero ∧ f ≠ .one) ∧ Nf N f) vs _ e (fun v hv => (nf_prod.mp (h v hv)).2)

theorem nf_smul {f : Fn} (h : Nf N f) (c : ℝ) : Nf N (smul f c) := by
  unfold smul
  split
  · simp [Nf]
  · split
    · exact h
    · split
      · exact nf_sum_map (fun a => a * c) h
      · rename_i h0 _ _ hs
        rw [not_or] at h0
        simp only [FSum.smul, if_neg h0.2, FSum.single, List.map_cons, List.map_nil]
        exact nf_one (fun w e => hs w e) h _

theorem nf_sdiv {f : Fn} (h : Nf N f) (c : ℝ) {g : Fn} (e : sdiv f c = some g) : Nf N g := by
  unfold sdiv at e
  split at e
  · simp at e
  · split at e
    · simp only [Option.some.injEq] at e; subst e; exact h
    · split at e
      · simp only [Option.some.injEq] at e; subst e; exact h
      · split at e
        · simp only [Option.some.injEq] at e; subst e
          exact nf_sum_map (fun a => a / c) h
        · rename_i hs
          simp only [Option.some.injEq] at e; subst e
          simp only [FSum.single, List.map_cons, List.map_nil]
          exact nf_one (fun w e => hs w e) h _

theorem nf_fsum {l : List Fn} (hN : N → l.length ≤ 2 ∨ ∀ f ∈ l, ∀ v, f ≠ .sum v) (h : ∀ f ∈ l, Nf N f) : Nf N (fsum l) := by
  have h1 : Nf N (.sum (vsum ((l.filter (fun s => decide (s ≠ .zero))).map toSum))) := by
    refine nf_vsum (fun n => ?_) ?_
    · refine (hN n).imp (fun h => ?_) (fun h v hv => ?_)
      · rw [List.length_map]
        exact (List.length_filter_le _ _).trans h
      · obtain ⟨f, hf, rfl⟩ := List.mem_map.mp hv
        have := h f (List.mem_of_mem_filter hf)
        cases f with
        | sum v => exact absurd rfl (this v)
        | _ => simp [toSum, FSum.single]
    · intro v hv
      obtain ⟨f, hf, rfl⟩ := List.mem_map.mp hv
      exact nf_toSum (h f (List.mem_of_mem_filter hf))
  unfold fsum
  generalize vsum ((l.filter (fun s => decide (s ≠ .zero))).map toSum) = out at *
  split
  · exact nf_smul ((nf_sum.mp h1).2 _ (List.mem_cons_self ..)).2 _
  · simp [Nf]
  · exact h1

theorem nf_neg {f : Fn} (h : Nf N f) : Nf N (neg f) := by
  unfold neg
  split
  · exact nf_sum_map (fun a => a * -1) h
  · rename_i hs
    simp only [FSum.neg, FSum.single, List.map_cons, List.map_nil]
    exact nf_one (fun w e => hs w e) h _

theorem nf_vneg {v : List (ℝ × Fn)} (h : Nf N (.sum v)) : Nf N (.sum (FSum.neg v)) := nf_sum_map (fun a => a * -1) h

theorem nf_sub {f g : Fn} (hf : Nf N f) (hg : Nf N g) : Nf N (sub f g) := by
  have two : ∀ v w : List (ℝ × Fn), Nf N (.sum v) → Nf N (.sum w) → Nf N (.sum (vsum [v, w])) := by
    intro v w hv hw
    refine nf_vsum (by simp) ?_
    simp [hv, hw]
  unfold sub
  split
  · exact two _ _ hf (nf_vneg hg)
  · rename_i hs
    exact two _ _ hf (nf_vneg (nf_one (fun w e => hs w e) hg 1))
  · rename_i hs
    exact two _ _ (nf_vneg hg) (nf_one (fun w e => hs w e) hf 1)
  · rename_i h1 h2 h3
    exact two _ _ (nf_one (fun w e => by first | exact h1 w e | exact h2 w e | exact h3 w e) hf 1)
      (nf_vneg (nf_one (fun w e => by first | exact h1 w e | exact h2 w e | exact h3 w e) hg 1))

theorem nf_powi {f : Fn} (h : Nf N f) (e : ℤ) (hc : N → (f ≠ .zero ∧ f ≠ .one) ∨ e = 0 ∨ e = 1) : Nf N (powi f e) := by
  unfold powi
  split
  · exact h
  · split
    · simp [Nf]
    · rename_i h1 h0
      split
      · simp only [FSum.smul, if_neg h0]
        exact nf_prod_map (fun a => a * e) h
      · rename_i hs
        simp only [FSum.smul, if_neg h0, FSum.single, List.map_cons, List.map_nil]
        rw [nf_prod]
        refine ⟨fun _ => by simp [FSum.Sorted], ?_⟩
        simp only [List.mem_singleton, forall_eq]
        refine ⟨fun w e => hs w e, fun n => ?_, h⟩
        rcases hc n with hh | hh | hh
        · exact hh
        · exact absurd hh h0
        · exact absurd hh h1

theorem nf_powf {f : Fn} (h : Nf N f) (a : ℝ) : Nf N (powf f a) := by
  unfold powf
  split
  · simpa [Nf] using h
  · exact h

theorem nf_toProd {f : Fn} (h : Nf N f) (hc : N → f ≠ .one) : Nf N (.prod (toProd f)) ∨ (N ∧ f = .zero) := by
  unfold toProd
  split
  · exact Or.inl h
  · rename_i hs
    by_cases hz : N ∧ f = .zero
    · exact Or.inr hz
    · left
      rw [nf_prod]
      refine ⟨fun _ => by simp [FSum.Sorted, FSum.single], ?_⟩
      simp only [FSum.single, List.mem_singleton, forall_eq]
      exact ⟨fun w e => hs w e, fun n => ⟨fun e => hz ⟨n, e⟩, hc n⟩, h⟩

theorem nf_fprod {l : List Fn} (hN : N → (l.length ≤ 2 ∨ ∀ f ∈ l, ∀ v, f ≠ .prod v) ∧ ∀ f ∈ l, f ≠ .zero) (h : ∀ f ∈ l, Nf N f) : Nf N (fprod l) := by
  have h1 : Nf N (.prod (vsum ((l.filter (fun s => decide (s ≠ .one))).map toProd))) := by
    refine nf_vprod (fun n => ?_) ?_
    · refine (hN n).1.imp (fun h => ?_) (fun h v hv => ?_)
      · rw [List.length_map]
        exact (List.length_filter_le _ _).trans h
      · obtain ⟨f, hf, rfl⟩ := List.mem_map.mp hv
        have := h f (List.mem_of_mem_filter hf)
        cases f with
        | prod v => exact absurd rfl (this v)
        | _ => simp [toProd, FSum.single]
    · intro v hv
      obtain ⟨f, hf, rfl⟩ := List.mem_map.mp hv
      have hm := List.mem_filter.mp hf
      rcases nf_toProd (h f hm.1) (fun _ => by simpa using hm.2) with r | ⟨n, r⟩
      · exact r
      · exact absurd r ((hN n).2 f hm.1)
  unfold fprod
  simp only
  generalize vsum ((l.filter (fun s => decide (s ≠ .one))).map toProd) = out at *
  split
  · simp [Nf]
  · split
    · have := (nf_prod.mp h1).2 _ (List.mem_cons_self ..)
      exact nf_powi this.2.2 _ (fun n => Or.inl (this.2.1 n))
    · simp [Nf]
    · exact h1

theorem nf_mul {f g : Fn} (hf : Nf N f) (hg : Nf N g) : Nf N (mul f g) := by
  fun_induction mul f g with
  | case1 f g h => simp [Nf]
  | case2 => exact hg
  | case3 => exact hf
  | case4 c b g h h1 h2 ih => exact nf_smul (ih ((nf_sum.mp hf).2 (c, b) (by simp)).2 hg) _
  | case5 v g hz _ _ _ => exact nf_fprod (fun n => ⟨by simp, by simpa [not_or] using (by assumption : ¬ (Fn.sum v = .zero ∨ g = .zero))⟩) (by simp [hf, hg])
  | case6 f c b h h1 h2 h3 h4 ih => exact nf_smul (ih hf ((nf_sum.mp hg).2 (c, b) (by simp)).2) _
  | case7 f g => exact nf_fprod (fun n => ⟨by simp, by simpa [not_or] using (by assumption : ¬ (f = .zero ∨ g = .zero))⟩) (by simp [hf, hg])

theorem nf_div {f g : Fn} (hf : Nf N f) (hg : Nf N g) (hc : N → g ≠ .zero ∧ g ≠ .one) : Nf N (div f g) :=
  nf_mul hf (nf_powi hg _ (fun n => Or.inl (hc n)))

theorem nf_prodTerm {clone : List (ℤ × Fn)} {e : ℤ} {f d : Fn} (hc : Nf False (.prod clone)) (hf : Nf False f) (hd : Nf False d) :
    Nf False (prodTerm clone e f d) := by
  unfold prodTerm
  split
  · simp [Nf]
  · split
    · exact nf_powi ((nf_prod.mp hc).2 _ (List.mem_cons_self ..)).2.2 _ False.elim
    · exact nf_mul (nf_smul (nf_mul hc (nf_powi hf _ False.elim)) _) hd

theorem nf_pd (n : Nat) : ∀ f, Nf False f → Nf False (pd n f) := by
  have key : ∀ k : ℕ,
      (∀ f : Fn, sizeOf f < k → Nf False f → Nf False (pd n f)) ∧
      (∀ v : List (ℝ × Fn), sizeOf v < k → Nf False (.sum v) → ∀ w ∈ pdSum n v, Nf False (.sum w)) ∧
      (∀ v : List (ℤ × Fn), sizeOf v < k → Nf False (.prod v) → ∀ pre, Nf False (.prod pre) → ∀ g ∈ pdProd n pre v, Nf False g) := by
    intro k
    induction k with
    | zero => simp
    | succ k ih =>
      obtain ⟨i1, i2, i3⟩ := ih
      refine ⟨?_, ?_, ?_⟩
      · intro f hk hf
        cases f with
        | zero => simp [pd, Nf]
        | one => simp [pd, Nf]
        | proj m => simp only [pd]; split <;> simp [Nf]
        | rpow f a =>
          simp only [Nf] at hf
          simp only [pd]
          exact nf_smul (nf_mul (by simpa [Nf] using hf) (i1 f (by simp only [Fn.rpow.sizeOf_spec] at hk; omega) hf)) _
        | sin f =>
          simp only [Nf] at hf
          simp only [pd]
          exact nf_mul (by simpa [Nf] using hf) (i1 f (by simp only [Fn.sin.sizeOf_spec] at hk; omega) hf)
        | cos f =>
          simp only [Nf] at hf
          simp only [pd]
          exact nf_mul (nf_neg (by simpa [Nf] using hf)) (i1 f (by simp only [Fn.cos.sizeOf_spec] at hk; omega) hf)
        | sum v =>
          simp only [pd, add]
          refine nf_fsum False.elim ?_
          have := nf_vsum (N := False) False.elim (i2 v (by simp only [Fn.sum.sizeOf_spec] at hk; omega) hf)
          simpa [Nf] using this
        | prod v =>
          simp only [pd]
          refine nf_fsum False.elim ?_
          intro g hg
          exact i3 v (by simp only [Fn.prod.sizeOf_spec] at hk; omega) hf [] (by simp [Nf, NfProd]) g (List.mem_of_mem_filter hg)
      · intro v hk hv w hw
        cases v with
        | nil => simp [pdSum] at hw
        | cons p v =>
          obtain ⟨a, f⟩ := p
          simp only [List.cons.sizeOf_spec, Prod.mk.sizeOf_spec] at hk
          rw [nf_sum] at hv
          have hv2 : Nf False (.sum v) := nf_sum.mpr ⟨False.elim, fun p hp => hv.2 p (List.mem_cons_of_mem _ hp)⟩
          simp only [pdSum] at hw
          split at hw
          · exact i2 v (by omega) hv2 w hw
          · rcases List.mem_cons.mp hw with rfl | hw
            · have := nf_toSum (i1 f (by omega) (hv.2 (a, f) (List.mem_cons_self ..)).2)
              unfold FSum.smul
              split
              · simp [Nf, NfSum]
              · exact nf_sum_map (fun b => b * a) this
            · exact i2 v (by omega) hv2 w hw
      · intro v hk hv pre hpre g hg
        cases v with
        | nil => simp [pdProd] at hg
        | cons p v =>
          obtain ⟨e, f⟩ := p
          simp only [List.cons.sizeOf_spec, Prod.mk.sizeOf_spec] at hk
          rw [nf_prod] at hv
          have hv2 : Nf False (.prod v) := nf_prod.mpr ⟨False.elim, fun p hp => hv.2 p (List.mem_cons_of_mem _ hp)⟩
          have hf := hv.2 (e, f) (List.mem_cons_self ..)
          have app : ∀ w, Nf False (.prod w) → Nf False (.prod (pre ++ w)) := fun w hw => nf_prod.mpr ⟨False.elim, fun p hp => by
            rcases List.mem_append.mp hp with hp | hp
            · exact (nf_prod.mp hpre).2 p hp
            · exact (nf_prod.mp hw).2 p hp⟩
          simp only [pdProd] at hg
          rcases List.mem_cons.mp hg with rfl | hg
          · exact nf_prodTerm (app v hv2) hf.2.2 (i1 f (by omega) hf.2.2)
          · exact i3 v (by omega) hv2 _ (app [(e, f)] (nf_prod.mpr ⟨False.elim, by simpa using hf⟩)) g hg
  intro f hf
  exact (key (sizeOf f + 1)).1 f (by omega) hf

end
end Toppo.Analysis
