import Verif.Proof.SmithMain
set_option linter.unusedVariables false

namespace Toppo.Smith
open Toppo Toppo.PIDProps

variable {n m R : Nat} {A0 : M}

/-- diagonal shape with `R` non-zero entries in front -/
structure DiagS (n m R : Nat) (a : M) : Prop where
  hn : R ≤ n
  hm : R ≤ m
  nz : ∀ r < R, a r r ≠ 0
  off : ∀ r c, r < n → c < m → r ≠ c → a r c = 0
  zr : ∀ r, R ≤ r → r < n → r < m → a r r = 0

theorem piv_ge {piv : Nat → Nat} (h : ∀ r r', r < r' → r' < R → piv r < piv r') : ∀ r < R, r ≤ piv r := by
  intro r
  induction r with
  | zero => intro _; omega
  | succ r ih => intro hr; have := ih (by omega); have := h r (r + 1) (by omega) hr; omega

theorem ech_diag {st : St} {piv : Nat → Nat} (h : Ech n m R A0 piv st) (hp : ∀ r < R, piv r = r) : DiagS n m R st.a := by
  refine ⟨h.hR, ?_, ?_, ?_, ?_⟩
  · by_contra hh
    have := h.lt m (by omega)
    rw [hp m (by omega)] at this; omega
  · intro r hr
    have := h.nz r hr; rwa [hp r hr] at this
  · intro r c hr hc hne
    by_cases hrR : r < R
    · exact h.zz r hrR c hc (by rw [hp r hrR]; exact Ne.symm hne)
    · exact h.zr r (by omega) hr c hc
  · intro r h1 h2 h3
    exact h.zr r h1 h2 r h3

theorem diagLoop_spec : ∀ (d r : Nat) (piv : Nat → Nat) (st : St), min n m - r = d → r ≤ min n m → Ech n m R A0 piv st → (∀ q < r, q < R → piv q = q) →
    DiagS n m R (diagLoop m (rng r (min n m)) st).a ∧ Sync n m A0 (diagLoop m (rng r (min n m)) st) := by
  intro d
  induction d with
  | zero =>
    intro r piv st hd hr h hp
    have hr' : r = min n m := by omega
    rw [rng_nil (by omega)]
    refine ⟨ech_diag h ?_, h.sync⟩
    intro q hq
    by_cases hqr : q < r
    · exact hp q hqr hq
    · have h1 := piv_ge h.mono q hq
      have h2 := h.lt q hq
      have := h.hR
      omega
  | succ d ih =>
    intro r piv st hd hr h hp
    have hrlt : r < min n m := by omega
    have hrn : r < n := by omega
    have hrm : r < m := by omega
    rw [rng_cons hrlt]
    by_cases hz : st.a r r = 0
    · cases hf : (rng (r + 1) m).find? (fun s => st.a r s != 0) with
      | none =>
        have hRr : R ≤ r := by
          by_contra hh
          have hrR : r < R := by omega
          have h1 := piv_ge h.mono r hrR
          have h2 := h.nz r hrR
          have hne : piv r ≠ r := by intro e; rw [e] at h2; exact h2 hz
          rw [List.find?_eq_none] at hf
          have := hf (piv r) (mem_rng.mpr ⟨by omega, h.lt r hrR⟩)
          simp at this
          exact h2 this
        have e : diagLoop m (r :: rng (r + 1) (min n m)) st = st := by simp [diagLoop, hz, hf]
        rw [e]
        exact ⟨ech_diag h (fun q hq => hp q (by omega) hq), h.sync⟩
      | some s =>
        have hs := mem_rng.mp (List.mem_of_find?_eq_some hf)
        have hs' : st.a r s ≠ 0 := by simpa using List.find?_some hf
        have hrR : r < R := by
          by_contra hh
          exact hs' (h.zr r (by omega) hrn s hs.2)
        have hps : piv r = s := by
          by_contra hne
          exact hs' (h.zz r hrR s hs.2 (Ne.symm hne))
        have hcr : ∀ x, x < n → x ≠ r → st.a x r = 0 := by
          intro x hx hxr
          by_cases hxR : x < R
          · refine h.zz x hxR r hrm ?_
            rcases Nat.lt_or_gt_of_ne hxr with hlt | hgt
            · rw [hp x hlt hxR]; exact Ne.symm hxr
            · have := h.mono r x hgt hxR; omega
          · exact h.zr x (by omega) hx r hrm
        have hcs : ∀ x, x < n → x ≠ r → st.a x s = 0 := by
          intro x hx hxr
          by_cases hxR : x < R
          · refine h.zz x hxR s hs.2 ?_
            rcases Nat.lt_or_gt_of_ne hxr with hlt | hgt
            · have := h.mono x r hlt hrR; omega
            · have := h.mono r x hgt hxR; omega
          · exact h.zr x (by omega) hx s hs.2
        set st' : St := { st with
          a := fun i j => if i = r ∧ j = s then 0 else if i = r ∧ j = r then st.a r s else st.a i j
          q := swapCols st.q r s
          qinv := swapRows st.qinv s r } with hst
        have e : diagLoop m (r :: rng (r + 1) (min n m)) st = diagLoop m (rng (r + 1) (min n m)) st' := by simp [diagLoop, hz, hf, hst]
        rw [e]
        have hrs : r ≠ s := by omega
        have harr : st'.a r r = st.a r s := by simp [hst, hrs]
        have hars : st'.a r s = 0 := by simp [hst]
        have hoth : ∀ x c, (x ≠ r ∨ (c ≠ r ∧ c ≠ s)) → st'.a x c = st.a x c := by
          intro x c hh
          simp only [hst]
          rw [if_neg (by omega), if_neg (by omega)]
        have hT : ColT n r s 0 1 1 0 st.a st'.a := by
          refine ⟨fun x hx => ?_, fun x hx => ?_, fun c h1 h2 x hx => hoth x c (Or.inr ⟨h1, h2⟩)⟩
          · by_cases hxr : x = r
            · subst hxr; rw [harr]; ring
            · rw [hoth x r (Or.inl hxr), hcr x hx hxr, hcs x hx hxr]; ring
          · by_cases hxr : x = r
            · subst hxr; rw [hars, hz]; ring
            · rw [hoth x s (Or.inl hxr), hcr x hx hxr, hcs x hx hxr]; ring
        have hstep : ColStep n m r s st st' :=
          ⟨0, 1, 1, 0, 0, 1, 1, 0, ⟨by ring, by ring, by ring, by ring⟩, hT, swapCols_colT hrs,
            by simp only [hst]; rw [swapRows_comm]; exact swapRows_rowT hrs, rfl, rfl⟩
        have hsync := h.sync.col hrs hrm hs.2 hstep
        refine ih (r + 1) (fun q => if q = r then r else piv q) st' (by omega) (by omega) ?_ ?_
        · refine ⟨h.hR, ?_, ?_, ?_, ?_, ?_, hsync⟩
          · intro q hq
            by_cases e : q = r
            · simp only [e, if_true]; exact hrm
            · simp only [e, if_false]; exact h.lt q hq
          · intro q hq
            by_cases e : q = r
            · subst e; simp only [if_true]; rw [harr]; exact hs'
            · simp only [e, if_false]; rw [hoth q _ (Or.inl e)]; exact h.nz q hq
          · intro q hq c hc hne
            by_cases e : q = r
            · subst e; simp only [if_true] at hne
              by_cases ec : c = s
              · rw [ec]; exact hars
              · rw [hoth q c (Or.inr ⟨hne, ec⟩)]; exact h.zz q hq c hc (by rw [hps]; exact ec)
            · simp only [e, if_false] at hne
              rw [hoth q c (Or.inl e)]; exact h.zz q hq c hc hne
          · intro q hq1 hq2 c hc
            rw [hoth q c (Or.inl (by omega))]; exact h.zr q hq1 hq2 c hc
          · intro x y hxy hy
            by_cases ex : x = r
            · have ey : y ≠ r := by omega
              simp only [ex, ey, if_true, if_false]
              have := h.mono r y (by omega) hy; omega
            · by_cases ey : y = r
              · simp only [ex, ey, if_true, if_false]
                rw [hp x (by omega) (by omega)]; omega
              · simp only [ex, ey, if_false]; exact h.mono x y hxy hy
        · intro q hq hqR
          by_cases e : q = r
          · simp [e]
          · simp only [e, if_false]; exact hp q (by omega) hqR
    · have hrR : r < R := by
        by_contra hh; exact hz (h.zr r (by omega) hrn r hrm)
      have hpr : piv r = r := by
        by_contra hne; exact hz (h.zz r hrR r hrm (Ne.symm hne))
      have e : diagLoop m (r :: rng (r + 1) (min n m)) st = diagLoop m (rng (r + 1) (min n m)) st := by simp [diagLoop, hz]
      rw [e]
      refine ih (r + 1) piv st (by omega) (by omega) h ?_
      intro q hq hqR
      by_cases e : q = r
      · rw [e]; exact hpr
      · exact hp q (by omega) hqR

theorem rankOf_eq {a : M} (h : DiagS n m R a) : rankOf n m a = R := by
  have hR : R ≤ min n m := by have := h.hn; have := h.hm; omega
  rw [rankOf]
  cases hf : (rng 0 (min n m)).find? (fun r => a r r == 0) with
  | none =>
    rw [List.find?_eq_none] at hf
    by_contra hne
    simp only at hne
    have hlt : R < min n m := by omega
    have := hf R (mem_rng.mpr ⟨by omega, hlt⟩)
    simp at this
    exact this (h.zr R (le_refl _) (by omega) (by omega))
  | some r =>
    have hz : a r r = 0 := by simpa using List.find?_some hf
    have hm := mem_rng.mp (List.mem_of_find?_eq_some hf)
    simp only
    have h1 : R ≤ r := by
      by_contra hh; exact h.nz r (by omega) hz
    by_contra hne
    have hlt : R < r := by omega
    rw [List.find?_eq_some_iff_append] at hf
    obtain ⟨_, as, bs, heq, hno⟩ := hf
    have hmem : R ∈ rng 0 (min n m) := mem_rng.mpr ⟨by omega, by omega⟩
    rw [heq] at hmem
    have hs : (as ++ r :: bs).Pairwise (· < ·) := by rw [← heq]; exact List.pairwise_lt_range'
    rcases List.mem_append.mp hmem with h' | h'
    · have := hno R h'
      simp at this
      exact this (h.zr R (le_refl _) (by omega) (by omega))
    · rcases List.mem_cons.mp h' with h' | h'
      · omega
      · have := (List.pairwise_cons.mp (List.pairwise_append.mp hs).2.1).1 R h'
        omega

/-! ### the divisibility phase -/

/-- what the divisibility phase keeps: the product equation and `P * P⁻¹ = 1` -/
structure SyncW (n m : Nat) (A0 : M) (st : St) : Prop where
  eq : ∀ i j, i < n → j < m → mul m (mul n st.p A0) st.q i j = st.a i j
  invP : Inv n st.p st.pinv
  unimQ : ∃ g, Inv m g st.q

theorem fixStep_dvd {st : St} {r s : Nat} (h0 : st.a r r ≠ 0) (hd : st.a r r ∣ st.a s s) : fixStep r st s = some st := by
  simp [fixStep, c10_divides, h0, hd]

/-- one repair: the result and the entries -/
theorem fixStep_spec {st : St} {r s : Nat} (hD : DiagS n m R st.a) (hS : SyncW n m A0 st) (hrs : r < s) (hs : s < R) (hnd : ¬ st.a r r ∣ st.a s s) :
    ∃ st' g z w y, fixStep r st s = some st' ∧ SyncW n m A0 st' ∧ g ≠ 0 ∧ z ≠ 0 ∧ w * y ≠ 0 ∧ g ∣ st.a r r ∧ g ∣ st.a s s ∧
      (∀ d, d ∣ st.a r r → d ∣ st.a s s → d ∣ g) ∧
      (∀ t c, t < n → c < m → st'.a t c = if t = c then (if t = r then g else if t = s then z * st.a s s else st.a t t) else 0) ∧
      st'.q = colOp (colOp st.q r s 1) s r (-w * y) ∧ st'.qinv = rowOp (rowOp st.qinv s r (-1)) s r (w * y) := by
  have hn := hD.hn
  have hm := hD.hm
  have hne : r ≠ s := by omega
  have h0 := hD.nz r (by omega)
  have h0s := hD.nz s (by omega)
  obtain ⟨g, x, y, z, w, e1, e2, hb, hz, hw, hz', hw', hu, hg, hgx, hlt⟩ := bezout_step h0 hnd
  have hz0 : z ≠ 0 := by rintro rfl; rw [zero_mul] at hz'; exact h0 hz'
  have hw0 : w ≠ 0 := by rintro rfl; rw [zero_mul] at hw'; exact h0s hw'
  have hy0 : y ≠ 0 := by
    rintro rfl
    apply hnd
    have : st.a r r ∣ g := ⟨x, by linear_combination -hgx⟩
    exact this.trans ⟨w, by rw [hw']; ring⟩
  set a1 := colOp st.a r s 1 with ha1
  have a1rr : a1 r r = st.a r r := by
    simp only [ha1, colOp, if_true]; rw [hD.off r s (by omega) (by omega) hne]; ring
  have a1sr : a1 s r = st.a s s := by
    simp only [ha1, colOp, if_true]; rw [hD.off s r (by omega) (by omega) hne.symm]; ring
  have a1o : ∀ t c, c ≠ r → a1 t c = st.a t c := by intro t c hc; simp [ha1, colOp, hc]
  have a1r : ∀ t, t < n → t ≠ r → t ≠ s → a1 t r = 0 := by
    intro t ht h1 h2
    simp only [ha1, colOp, if_true]
    rw [hD.off t r ht (by omega) h1, hD.off t s ht (by omega) h2]; ring
  set a2 := mixRows a1 r s 0 x y (-w) z with ha2
  have hT1 : ColT n r s 1 1 0 1 st.a a1 := colOp_colT' hne
  have hT2 : RowT m r s x y (-w) z a1 a2 := mixRows_rowT hne (fun c _ h => absurd h (Nat.not_lt_zero _))
  have hT3 : ColT n r s 1 0 (-w * y) 1 a2 (colOp a2 s r (-w * y)) := colOp_colT hne
  set st' : St := {
      a := colOp a2 s r (-w * y)
      p := mixRows st.p r s 0 x y (-w) z
      pinv := mixCols st.pinv r s 0 z w (-y) x
      q := colOp (colOp st.q r s 1) s r (-w * y)
      qinv := rowOp (rowOp st.qinv s r (-1)) s r (w * y) } with hst
  have hTp : RowT n r s x y (-w) z st.p st'.p := mixRows_rowT hne (fun c _ h => absurd h (Nat.not_lt_zero _))
  have hTpi : ColT n r s z w (-y) x st.pinv st'.pinv := mixCols_colT hne (fun c _ h => absurd h (Nat.not_lt_zero _))
  have hTq1 : ColT m r s 1 1 0 1 st.q (colOp st.q r s 1) := colOp_colT' hne
  have hTq2 : ColT m r s 1 0 (-w * y) 1 (colOp st.q r s 1) st'.q := colOp_colT hne
  have hS' : SyncW n m A0 st' := by
    refine ⟨?_, inv_step hne (by omega) (by omega) ⟨by linear_combination hu, by ring, by ring, by linear_combination hu⟩ hTp hTpi hS.invP, ?_⟩
    have h1 := eq_col (by omega) (by omega) hT1 hTq1 hS.eq
    have h2 := eq_row (by omega) (by omega) hT2 hTp h1
    · exact eq_col (by omega) (by omega) hT3 hTq2 h2
    · obtain ⟨qi, hqi⟩ := hS.unimQ
      have h1 := inv_step hne (by omega) (by omega) (show Blk 1 (0:Int) (-1) 1 1 1 0 1 by unfold Blk; norm_num) (rowOp_rowT (a := qi) hne) hTq1 hqi
      exact ⟨_, inv_step hne (by omega) (by omega) (show Blk 1 (w * y) 0 1 1 0 (-w * y) 1 by unfold Blk; refine ⟨?_, ?_, ?_, ?_⟩ <;> ring)
        (rowOp_rowT' (c := w * y) hne) hTq2 h1⟩
  -- entries of a2
  have a2r : ∀ c < m, a2 r c = x * a1 r c + y * a1 s c := fun c hc => hT2.fst c hc
  have a2s : ∀ c < m, a2 s c = -w * a1 r c + z * a1 s c := fun c hc => hT2.snd c hc
  have a2o : ∀ t, t ≠ r → t ≠ s → ∀ c < m, a2 t c = a1 t c := fun t h1 h2 c hc => hT2.oth t h1 h2 c hc
  have a2rr : a2 r r = g := by rw [a2r r (by omega), a1rr, a1sr]; linear_combination hgx
  have a2sr : a2 s r = 0 := by rw [a2s r (by omega), a1rr, a1sr, hz', hw']; ring
  have a2rs : a2 r s = y * st.a s s := by
    rw [a2r s (by omega), a1o r s hne.symm, a1o s s hne.symm, hD.off r s (by omega) (by omega) hne]; ring
  have a2ss : a2 s s = z * st.a s s := by
    rw [a2s s (by omega), a1o r s hne.symm, a1o s s hne.symm, hD.off r s (by omega) (by omega) hne]; ring
  have hent : ∀ t c, t < n → c < m → st'.a t c = if t = c then (if t = r then g else if t = s then z * st.a s s else st.a t t) else 0 := by
    intro t c ht hc
    by_cases c2 : c = s
    · subst c2
      have e : st'.a t c = a2 t c + a2 t r * (-w * y) := by simp [hst, colOp]
      rw [e]
      by_cases t1 : t = r
      · subst t1; rw [a2rs, a2rr, if_neg hne, hw']; ring
      · by_cases t2 : t = c
        · subst t2; rw [a2ss, a2sr, if_pos rfl, if_neg t1, if_pos rfl]; ring
        · rw [a2o t t1 t2 c hc, a2o t t1 t2 r (by omega), a1o t c hne.symm, a1r t ht t1 t2, hD.off t c ht hc t2, if_neg t2]; ring
    · have e : st'.a t c = a2 t c := by simp [hst, colOp, c2]
      rw [e]
      by_cases c1 : c = r
      · subst c1
        by_cases t1 : t = c
        · subst t1; rw [a2rr]; simp
        · rw [if_neg t1]
          by_cases t2 : t = s
          · subst t2; exact a2sr
          · rw [a2o t t1 t2 c hc]; exact a1r t ht t1 t2
      · by_cases t1 : t = r
        · subst t1
          rw [a2r c hc, a1o t c c1, a1o s c c1, hD.off t c ht hc (Ne.symm c1), hD.off s c (by omega) hc (Ne.symm c2), if_neg (Ne.symm c1)]; ring
        · by_cases t2 : t = s
          · subst t2
            rw [a2s c hc, a1o r c c1, a1o t c c1, hD.off r c (by omega) hc (Ne.symm c1), hD.off t c ht hc (Ne.symm c2), if_neg (Ne.symm c2)]; ring
          · rw [a2o t t1 t2 c hc, a1o t c c1]
            by_cases htc : t = c
            · subst htc; simp [t1, t2]
            · rw [if_neg htc]; exact hD.off t c ht hc htc
  refine ⟨st', g, z, w, y, ?_, hS', hg, hz0, mul_ne_zero hw0 hy0, ⟨z, by rw [hz']; ring⟩, ⟨w, by rw [hw']; ring⟩, ?_, hent, rfl, rfl⟩
  · have c1 : st'.a r r = g := by rw [hent r r (by omega) (by omega)]; simp
    have c2 : st'.a r s = 0 := by rw [hent r s (by omega) (by omega), if_neg hne]
    have c3 : st'.a s r = 0 := by rw [hent s r (by omega) (by omega), if_neg hne.symm]
    simp only [fixStep, c10_divides, if_neg h0, Option.bind_eq_bind, Option.bind_some, decide_eq_true_eq, if_neg hnd, ← ha1, a1rr, a1sr, hb, hz, hw]
    rw [if_pos ⟨c1, c2, c3⟩]; rfl
  · intro d h1 h2
    rw [← hgx]; exact Dvd.dvd.add (Dvd.dvd.mul_right h1 _) (Dvd.dvd.mul_right h2 _)

/-- one step of the divisibility loop, both cases -/
theorem fixStep_inv {st : St} {r s : Nat} (hD : DiagS n m R st.a) (hS : SyncW n m A0 st) (hrs : r < s) (hs : s < R) :
    ∃ st', fixStep r st s = some st' ∧ DiagS n m R st'.a ∧ SyncW n m A0 st' ∧ (∀ t, t ≠ r → t ≠ s → t < R → st'.a t t = st.a t t) ∧
      st'.a r r ∣ st.a r r ∧ st'.a r r ∣ st'.a s s ∧ st.a s s ∣ st'.a s s ∧ (∀ d, d ∣ st.a r r → d ∣ st.a s s → d ∣ st'.a r r) := by
  have hn := hD.hn
  have hm := hD.hm
  by_cases hd : st.a r r ∣ st.a s s
  · exact ⟨st, fixStep_dvd (hD.nz r (by omega)) hd, hD, hS, fun _ _ _ _ => rfl, dvd_refl _, hd, dvd_refl _, fun d h _ => h⟩
  · obtain ⟨st', g, z, w, y, h1, h2, h3, h4, h5, h6, h7, h8, h9, _⟩ := fixStep_spec hD hS hrs hs hd
    have hr' : st'.a r r = g := by rw [h9 r r (by omega) (by omega)]; simp
    have hs' : st'.a s s = z * st.a s s := by rw [h9 s s (by omega) (by omega)]; simp [show s ≠ r by omega]
    have ho : ∀ t, t ≠ r → t ≠ s → t < n → t < m → st'.a t t = st.a t t := by
      intro t a b c d; rw [h9 t t c d]; simp [a, b]
    refine ⟨st', h1, ⟨hn, hm, ?_, ?_, ?_⟩, h2, fun t a b c => ho t a b (by omega) (by omega), by rw [hr']; exact h6, ?_, by rw [hs']; exact Dvd.intro_left z rfl,
      by rw [hr']; exact h8⟩
    · intro t ht
      by_cases e1 : t = r
      · rw [e1, hr']; exact h3
      · by_cases e2 : t = s
        · rw [e2, hs']; exact mul_ne_zero h4 (hD.nz s hs)
        · rw [ho t e1 e2 (by omega) (by omega)]; exact hD.nz t ht
    · intro t c ht hc hne; rw [h9 t c ht hc, if_neg hne]
    · intro t a b c; rw [ho t (by omega) (by omega) b c]; exact hD.zr t a b c
    · rw [hr', hs']; exact Dvd.dvd.mul_left h7 z

theorem fixLoop_spec {st : St} (hD : DiagS n m R st.a) (hS : SyncW n m A0 st) :
    ∃ st', fixLoop R st = some st' ∧ DiagS n m R st'.a ∧ SyncW n m A0 st' ∧ (∀ q t, q < t → t < R → st'.a q q ∣ st'.a t t) := by
  obtain ⟨st', h1, h2, h3, h4⟩ := foldlM_rng
    (fun r (st : St) => DiagS n m R st.a ∧ SyncW n m A0 st ∧ ∀ q, q < r → ∀ t, q < t → t < R → st.a q q ∣ st.a t t)
    (fun st r => (rng (r + 1) R).foldlM (fixStep r) st) R
    (by
      rintro r s hr ⟨a1, a2, a3⟩
      obtain ⟨s', b1, b2, b3, b4, b5, b6⟩ := foldlM_rng
        (fun k (s : St) => r < k ∧ DiagS n m R s.a ∧ SyncW n m A0 s ∧ (∀ q, q < r → ∀ t, q < t → t < R → s.a q q ∣ s.a t t) ∧
          ∀ t, r < t → t < k → s.a r r ∣ s.a t t) (fixStep r) R
        (by
          rintro k s hk ⟨c0, c1, c2, c3, c4⟩
          obtain ⟨s', d1, d2, d3, d4, d5, d6, d7, d8⟩ := fixStep_inv c1 c2 c0 hk
          refine ⟨s', d1, by omega, d2, d3, ?_, ?_⟩
          · intro q hq t hqt ht
            rw [d4 q (by omega) (by omega) (by omega)]
            by_cases e1 : t = r
            · rw [e1]; exact d8 _ (c3 q hq r hq hr) (c3 q hq k (by omega) hk)
            · by_cases e2 : t = k
              · rw [e2]; exact (c3 q hq k (by omega) hk).trans d7
              · rw [d4 t e1 e2 ht]; exact c3 q hq t hqt ht
          · intro t h1 h2
            by_cases e2 : t = k
            · rw [e2]; exact d6
            · rw [d4 t (by omega) e2 (by omega)]; exact d5.trans (c4 t h1 (by omega)))
        (r + 1) s (by omega) ⟨by omega, a1, a2, a3, fun t h1 h2 => by omega⟩
      refine ⟨s', b1, b3, b4, ?_⟩
      intro q hq t hqt ht
      by_cases e : q = r
      · rw [e]; exact b6 t (by omega) ht
      · exact b5 q (by omega) t hqt ht)
    0 st (by omega) ⟨hD, hS, fun q hq => by omega⟩
  exact ⟨st', h1, h2, h3, fun q t h h' => h4 q (by omega) t h h'⟩

/-- if the diagonal is already a divisibility chain, the phase changes nothing -/
theorem fixLoop_id {st : St} (hD : DiagS n m R st.a) (hc : ∀ q t, q < t → t < R → st.a q q ∣ st.a t t) : fixLoop R st = some st := by
  obtain ⟨s, h1, h2⟩ := foldlM_rng (fun r (s : St) => s = st) (fun st r => (rng (r + 1) R).foldlM (fixStep r) st) R
    (by
      rintro r s hr rfl
      obtain ⟨s', b1, b2, b3⟩ := foldlM_rng (fun k (s' : St) => r < k ∧ s' = s) (fixStep r) R
        (by
          rintro k s' hk ⟨c0, rfl⟩
          exact ⟨s', fixStep_dvd (hD.nz r hr) (hc r k c0 hk), by omega, rfl⟩)
        (r + 1) s (by omega) ⟨by omega, rfl⟩
      exact ⟨s', b1, b3⟩)
    0 st (by omega) rfl
  rw [fixLoop, h1, h2]

theorem snf_mono {f f' : Nat} {a : M} {s : St} (hf : f ≤ f') (h : snf f n m a = some s) : snf f' n m a = some s := by
  simp only [snf, snfDiag, Option.bind_eq_bind] at h ⊢
  split at h
  · cases h
  · rename_i hh
    rw [if_neg hh]
    cases hm : mainLoop n m f 0 0 { a := a, p := ident, pinv := ident, q := ident, qinv := ident } with
    | none => rw [hm] at h; cases h
    | some s' =>
      rw [hm] at h
      rw [mainLoop_mono' hf hm]
      exact h

theorem snfDiag_total (hn : 0 < n) (hm : 0 < m) (a : M) : ∃ f st R, snfDiag f n m a = some st ∧ DiagS n m R st.a ∧ Sync n m a st := by
  have hMI : MI n m 0 0 a (fun _ => 0) { a := a, p := ident, pinv := ident, q := ident, qinv := ident } := by
    refine ⟨by omega, fun _ _ _ _ h => by omega, fun r h => by omega, fun r h => by omega, fun r h => by omega, fun _ _ _ h => by omega, ?_, ident_inv n, ident_inv m⟩
    intro i j hi hj
    have h1 : ∀ c, mul n ident a i c = a i c := by
      intro c; simp only [mul, ident]; simp; intro h; omega
    simp only [mul, ident]
    simp [hi, hj]
  obtain ⟨f, st, R, piv, h1, h2⟩ := mainLoop_spec n m a n 0 0 _ _ (by omega) hMI
  obtain ⟨h3, h4⟩ := diagLoop_spec (min n m) 0 piv st (by omega) (by omega) h2 (fun q h => by omega)
  refine ⟨f, _, R, ?_, h3, h4⟩
  simp only [snfDiag, if_neg (show ¬ (n = 0 ∨ m = 0) by omega), h1, Option.bind_eq_bind, Option.bind_some]
  rfl

theorem allM_true {l : List Nat} {p : Nat → Option Bool} (h : ∀ x ∈ l, p x = some true) : l.allM p = some true := by
  induction l with
  | nil => rfl
  | cons a l ih =>
    rw [List.allM, h a (by simp)]
    exact ih (fun x hx => h x (by simp [hx]))

theorem snf_total (hn : 0 < n) (hm : 0 < m) (a : M) : ∃ f st R, snf f n m a = some st ∧ DiagS n m R st.a ∧ SyncW n m a st ∧
    (∀ q t, q < t → t < R → st.a q q ∣ st.a t t) := by
  obtain ⟨f, st, R, h1, h2, h3⟩ := snfDiag_total hn hm a
  obtain ⟨st', h4, h5, h6, h7⟩ := fixLoop_spec h2 ⟨h3.eq, h3.invP, _, h3.invQ⟩
  refine ⟨f, st', R, ?_, h5, h6, h7⟩
  have hall : (rng 0 R).allM (fun i => (rng (i + 1) R).allM (fun k => divides ideal (st'.a i i) (st'.a k k))) = some true := by
    apply allM_true
    intro i hi
    apply allM_true
    intro k hk
    rw [mem_rng] at hi hk
    rw [c10_divides, if_neg (h5.nz i hi.2), decide_eq_true (h7 i k (by omega) hk.2)]
  simp only [snf, h1, Option.bind_eq_bind, Option.bind_some, rankOf_eq h2, h4, hall, if_true]
  rfl

theorem snf_unique {f f' : Nat} {a : M} {s s' : St} (h : snf f n m a = some s) (h' : snf f' n m a = some s') : s = s' := by
  rcases Nat.le_total f f' with hle | hle
  · have := snf_mono hle h; rw [h'] at this; exact (Option.some.inj this).symm
  · have := snf_mono hle h'; rw [h] at this; exact Option.some.inj this

theorem snfDiag_mono {f f' : Nat} {a : M} {s : St} (hf : f ≤ f') (h : snfDiag f n m a = some s) : snfDiag f' n m a = some s := by
  simp only [snfDiag, Option.bind_eq_bind] at h ⊢
  split at h
  · cases h
  · rename_i hh
    rw [if_neg hh]
    cases hm : mainLoop n m f 0 0 { a := a, p := ident, pinv := ident, q := ident, qinv := ident } with
    | none => rw [hm] at h; cases h
    | some s' =>
      rw [hm] at h
      rw [mainLoop_mono' hf hm]
      exact h

theorem snfDiag_unique {f f' : Nat} {a : M} {s s' : St} (h : snfDiag f n m a = some s) (h' : snfDiag f' n m a = some s') : s = s' := by
  rcases Nat.le_total f f' with hle | hle
  · have := snfDiag_mono hle h; rw [h'] at this; exact (Option.some.inj this).symm
  · have := snfDiag_mono hle h'; rw [h] at this; exact Option.some.inj this

end Toppo.Smith
