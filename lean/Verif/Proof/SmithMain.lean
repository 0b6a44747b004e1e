import Verif.Proof.Smith
set_option linter.unusedVariables false

namespace Toppo.Smith
open Toppo Toppo.PIDProps

variable {n m i j : Nat} {A0 : M}

/-- the situation while the pivot `(i, j)` is being worked on -/
structure Ph (n m i j : Nat) (A0 : M) (st : St) : Prop where
  hi : i < n
  hj : j < m
  z1 : ∀ r c, i ≤ r → r < n → c < j → st.a r c = 0
  z2 : ∀ r c, r < i → j ≤ c → c < m → st.a r c = 0
  sync : Sync n m A0 st

/-- nothing changes above row `i` or left of column `j` -/
def Frame (n m i j : Nat) (a a' : M) : Prop := ∀ r c, r < n → c < m → (r < i ∨ c < j) → a' r c = a r c

theorem Frame.refl (a : M) : Frame n m i j a a := fun _ _ _ _ _ => rfl

theorem Frame.trans {a b c : M} (h1 : Frame n m i j a b) (h2 : Frame n m i j b c) : Frame n m i j a c :=
  fun r k hr hk h => by rw [h2 r k hr hk h, h1 r k hr hk h]

theorem ph_of_frame {st st' : St} (h : Ph n m i j A0 st) (hf : Frame n m i j st.a st'.a) (hs : Sync n m A0 st') : Ph n m i j A0 st' :=
  ⟨h.hi, h.hj,
   fun r c h1 h2 h3 => by rw [hf r c h2 (by have := h.hj; omega) (Or.inr h3)]; exact h.z1 r c h1 h2 h3,
   fun r c h1 h2 h3 => by rw [hf r c (by have := h.hi; omega) h3 (Or.inl h1)]; exact h.z2 r c h1 h2 h3, hs⟩

theorem ph_row {st st' : St} {r1 r2 : Nat} (h : Ph n m i j A0 st) (h12 : r1 ≠ r2) (h1 : i ≤ r1) (h1' : r1 < n) (h2 : i ≤ r2) (h2' : r2 < n)
    (hs : RowStep n m r1 r2 st st') : Ph n m i j A0 st' ∧ Frame n m i j st.a st'.a := by
  have hsy := h.sync.row h12 h1' h2' hs
  have hf : Frame n m i j st.a st'.a := by
    obtain ⟨α, β, γ, δ, α', β', γ', δ', hb, ha, _⟩ := hs
    intro r c hr hc hor
    by_cases e1 : r = r1
    · subst e1
      have hcj : c < j := by omega
      rw [ha.fst c hc, h.z1 r c h1 hr hcj, h.z1 r2 c h2 h2' hcj]; ring
    · by_cases e2 : r = r2
      · subst e2
        have hcj : c < j := by omega
        rw [ha.snd c hc, h.z1 r c h2 hr hcj, h.z1 r1 c h1 h1' hcj]; ring
      · exact ha.oth r e1 e2 c hc
  exact ⟨ph_of_frame h hf hsy, hf⟩

theorem ph_col {st st' : St} {c1 c2 : Nat} (h : Ph n m i j A0 st) (h12 : c1 ≠ c2) (h1 : j ≤ c1) (h1' : c1 < m) (h2 : j ≤ c2) (h2' : c2 < m)
    (hs : ColStep n m c1 c2 st st') : Ph n m i j A0 st' ∧ Frame n m i j st.a st'.a := by
  have hsy := h.sync.col h12 h1' h2' hs
  have hf : Frame n m i j st.a st'.a := by
    obtain ⟨α, β, γ, δ, α', β', γ', δ', hb, ha, _⟩ := hs
    intro r c hr hc hor
    by_cases e1 : c = c1
    · subst e1
      have hri : r < i := by omega
      rw [ha.fst r hr, h.z2 r c hri h1 hc, h.z2 r c2 hri h2 h2']; ring
    · by_cases e2 : c = c2
      · subst e2
        have hri : r < i := by omega
        rw [ha.snd r hr, h.z2 r c hri h2 hc, h.z2 r c1 hri h1 h1']; ring
      · exact ha.oth c e1 e2 r hr
  exact ⟨ph_of_frame h hf hsy, hf⟩

theorem exactDiv {a g : Int} (hg : g ≠ 0) (h : g ∣ a) : ∃ s r, euclidDiv ideal a g = some (s, r) ∧ a = s * g := by
  match he : euclidDiv ideal a g with
  | none => exact absurd ((c08_euclid_div_panics a g).mp he) hg
  | some (s, r) =>
    obtain ⟨h1, h2, h3, h4⟩ := euclidDiv_some he
    refine ⟨s, r, rfl, ?_⟩
    have hr : g ∣ r := by
      have : r = a - s * g := by omega
      rw [this]; exact Dvd.dvd.sub h (Dvd.intro_left s rfl)
    have : r = 0 := Int.eq_zero_of_dvd_of_natAbs_lt_natAbs hr (by omega)
    omega

/-- the arithmetic of one Bezout step -/
theorem bezout_step {a b : Int} (ha : a ≠ 0) (hnd : ¬ a ∣ b) : ∃ g x y s t r r', bezoutIdentity ideal a b = some (g, x, y) ∧
    euclidDiv ideal a g = some (s, r) ∧ euclidDiv ideal b g = some (t, r') ∧ a = s * g ∧ b = t * g ∧ s * x + t * y = 1 ∧ g ≠ 0 ∧
    a * x + b * y = g ∧ g.natAbs < a.natAbs := by
  obtain ⟨⟨g, x, y⟩, hb⟩ := c09_bezout_total a b
  obtain ⟨h1, h2, h3, h4⟩ := c09_bezout ideal a b g x y hb
  have hg : g ≠ 0 := by rintro rfl; exact ha (zero_dvd_iff.mp h3)
  obtain ⟨s, r, hs, hs'⟩ := exactDiv hg h3
  obtain ⟨t, r', ht, ht'⟩ := exactDiv hg h4
  refine ⟨g, x, y, s, t, r, r', hb, hs, ht, hs', ht', ?_, hg, h1, ?_⟩
  · have : (s * x + t * y) * g = 1 * g := by rw [hs', ht'] at h1; linear_combination h1
    exact mul_right_cancel₀ hg this
  · have hle : g.natAbs ≤ a.natAbs := Int.natAbs_le_of_dvd_ne_zero h3 ha
    rcases Nat.lt_or_ge g.natAbs a.natAbs with h | h
    · exact h
    · exfalso
      apply hnd
      have : g.natAbs = a.natAbs := by omega
      exact (Int.natAbs_dvd_natAbs.mp (by rw [this])).trans h4

/-! ### improving the pivot -/

theorem improveRow_spec {st : St} {k : Nat} (h : Ph n m i j A0 st) (h0 : st.a i j ≠ 0) (hik : i < k) (hk : k < n) :
    ∃ st', improveRow i j st k = some st' ∧ Ph n m i j A0 st' ∧ Frame n m i j st.a st'.a ∧ st'.a i j ≠ 0 ∧
      st'.a i j ∣ st.a i j ∧ st'.a i j ∣ st'.a k j ∧ (∀ r, r ≠ i → r ≠ k → r < n → st'.a r j = st.a r j) ∧
      (st' = st ∨ (st'.a i j).natAbs < (st.a i j).natAbs) := by
  by_cases hd : st.a i j ∣ st.a k j
  · refine ⟨st, by simp [improveRow, c10_divides, h0, hd], h, Frame.refl _, h0, dvd_refl _, hd, fun _ _ _ _ => rfl, Or.inl rfl⟩
  · obtain ⟨g, x, y, s, t, r, r', hb, hs, ht, hs', ht', hu, hg, hgx, hlt⟩ := bezout_step h0 hd
    have hne : i ≠ k := by omega
    set st' : St := { st with
      a := mixRows st.a i k j x y (-t) s
      p := mixRows st.p i k 0 x y (-t) s
      pinv := mixCols st.pinv i k 0 s t (-y) x } with hst
    have hT : RowT m i k x y (-t) s st.a st'.a :=
      mixRows_rowT hne (fun c hc hcj => ⟨h.z1 i c (le_refl _) h.hi hcj, h.z1 k c (by omega) hk hcj⟩)
    have hstep : RowStep n m i k st st' :=
      ⟨x, y, -t, s, s, t, -y, x, ⟨by linear_combination hu, by ring, by ring, by linear_combination hu⟩, hT,
        mixRows_rowT hne (fun c _ h => absurd h (Nat.not_lt_zero _)), mixCols_colT hne (fun c _ h => absurd h (Nat.not_lt_zero _)), rfl, rfl⟩
    have hpiv : st'.a i j = g := by rw [hT.fst j h.hj]; linear_combination hgx
    have hkj : st'.a k j = 0 := by rw [hT.snd j h.hj, hs', ht']; ring
    obtain ⟨hP, hF⟩ := ph_row h hne (le_refl _) h.hi (by omega) hk hstep
    refine ⟨st', ?_, hP, hF, by rw [hpiv]; exact hg, by rw [hpiv]; exact ⟨s, by rw [hs']; ring⟩, by rw [hkj]; exact dvd_zero _,
      fun r h1 h2 h3 => hT.oth r h1 h2 j h.hj, Or.inr (by rw [hpiv]; exact hlt)⟩
    simp only [improveRow, c10_divides, if_neg h0, Option.bind_eq_bind, Option.bind_some, decide_eq_true_eq, if_neg hd, hb, hs, ht]
    rw [if_pos hpiv]; rfl

theorem improveCol_spec {st : St} {l : Nat} (h : Ph n m i j A0 st) (h0 : st.a i j ≠ 0) (hjl : j < l) (hl : l < m) :
    ∃ st', improveCol i j st l = some st' ∧ Ph n m i j A0 st' ∧ Frame n m i j st.a st'.a ∧ st'.a i j ≠ 0 ∧
      st'.a i j ∣ st.a i j ∧ st'.a i j ∣ st'.a i l ∧ (∀ c, c ≠ j → c ≠ l → c < m → st'.a i c = st.a i c) ∧
      (st' = st ∨ (st'.a i j).natAbs < (st.a i j).natAbs) := by
  by_cases hd : st.a i j ∣ st.a i l
  · refine ⟨st, by simp [improveCol, c10_divides, h0, hd], h, Frame.refl _, h0, dvd_refl _, hd, fun _ _ _ _ => rfl, Or.inl rfl⟩
  · obtain ⟨g, x, y, s, t, r, r', hb, hs, ht, hs', ht', hu, hg, hgx, hlt⟩ := bezout_step h0 hd
    have hne : j ≠ l := by omega
    set st' : St := { st with
      a := mixCols st.a j l i x y (-t) s
      q := mixCols st.q j l 0 x y (-t) s
      qinv := mixRows st.qinv j l 0 s t (-y) x } with hst
    have hT : ColT n j l x y (-t) s st.a st'.a :=
      mixCols_colT hne (fun r hr hri => ⟨h.z2 r j hri (le_refl _) h.hj, h.z2 r l hri (by omega) hl⟩)
    have hstep : ColStep n m j l st st' :=
      ⟨x, y, -t, s, s, t, -y, x, ⟨by linear_combination hu, by ring, by ring, by linear_combination hu⟩, hT,
        mixCols_colT hne (fun c _ h => absurd h (Nat.not_lt_zero _)), mixRows_rowT hne (fun c _ h => absurd h (Nat.not_lt_zero _)), rfl, rfl⟩
    have hpiv : st'.a i j = g := by rw [hT.fst i h.hi]; linear_combination hgx
    have hkj : st'.a i l = 0 := by rw [hT.snd i h.hi, hs', ht']; ring
    obtain ⟨hP, hF⟩ := ph_col h hne (le_refl _) h.hj (by omega) hl hstep
    refine ⟨st', ?_, hP, hF, by rw [hpiv]; exact hg, by rw [hpiv]; exact ⟨s, by rw [hs']; ring⟩, by rw [hkj]; exact dvd_zero _,
      fun r h1 h2 h3 => hT.oth r h1 h2 i h.hi, Or.inr (by rw [hpiv]; exact hlt)⟩
    simp only [improveCol, c10_divides, if_neg h0, Option.bind_eq_bind, Option.bind_some, decide_eq_true_eq, if_neg hd, hb, hs, ht]
    rw [if_pos hpiv]; rfl

theorem improveRows_spec {st : St} (h : Ph n m i j A0 st) (h0 : st.a i j ≠ 0) :
    ∃ st', (rng (i + 1) n).foldlM (improveRow i j) st = some st' ∧ Ph n m i j A0 st' ∧ Frame n m i j st.a st'.a ∧ st'.a i j ≠ 0 ∧
      st'.a i j ∣ st.a i j ∧ (∀ r, i < r → r < n → st'.a i j ∣ st'.a r j) ∧ (st' = st ∨ (st'.a i j).natAbs < (st.a i j).natAbs) := by
  obtain ⟨s, h1, h2, h3, h4, h5, h6, h7, h8, h9⟩ := foldlM_rng
    (fun k (s : St) => i < k ∧ Ph n m i j A0 s ∧ Frame n m i j st.a s.a ∧ s.a i j ≠ 0 ∧ s.a i j ∣ st.a i j ∧
      (∀ r, i < r → r < k → s.a i j ∣ s.a r j) ∧ (∀ r, k ≤ r → r < n → s.a r j = st.a r j) ∧
      (s = st ∨ (s.a i j).natAbs < (st.a i j).natAbs)) (improveRow i j) n
    (by
      rintro k s hk ⟨hik, a1, a2, a3, a4, a5, a6, a7⟩
      obtain ⟨s', b1, b2, b3, b4, b5, b6, b7, b8⟩ := improveRow_spec a1 a3 hik hk
      refine ⟨s', b1, by omega, b2, a2.trans b3, b4, b5.trans a4, ?_, ?_, ?_⟩
      · intro r hr1 hr2
        by_cases e : r = k
        · subst e; exact b6
        · rw [b7 r (by omega) e (by omega)]
          exact b5.trans (a5 r hr1 (by omega))
      · intro r hr1 hr2
        rw [b7 r (by omega) (by omega) hr2]
        exact a6 r (by omega) hr2
      · rcases b8 with rfl | b8
        · exact a7
        · rcases a7 with rfl | a7
          · exact Or.inr b8
          · exact Or.inr (by omega))
    (i + 1) st (by have := h.hi; omega)
    ⟨by omega, h, Frame.refl _, h0, dvd_refl _, fun r h1 h2 => by omega, fun _ _ _ => rfl, Or.inl rfl⟩
  exact ⟨s, h1, h3, h4, h5, h6, h7, h9⟩

theorem improveCols_spec {st : St} (h : Ph n m i j A0 st) (h0 : st.a i j ≠ 0) :
    ∃ st', (rng (j + 1) m).foldlM (improveCol i j) st = some st' ∧ Ph n m i j A0 st' ∧ Frame n m i j st.a st'.a ∧ st'.a i j ≠ 0 ∧
      st'.a i j ∣ st.a i j ∧ (∀ c, j < c → c < m → st'.a i j ∣ st'.a i c) ∧ (st' = st ∨ (st'.a i j).natAbs < (st.a i j).natAbs) := by
  obtain ⟨s, h1, h2, h3, h4, h5, h6, h7, h8, h9⟩ := foldlM_rng
    (fun k (s : St) => j < k ∧ Ph n m i j A0 s ∧ Frame n m i j st.a s.a ∧ s.a i j ≠ 0 ∧ s.a i j ∣ st.a i j ∧
      (∀ c, j < c → c < k → s.a i j ∣ s.a i c) ∧ (∀ c, k ≤ c → c < m → s.a i c = st.a i c) ∧
      (s = st ∨ (s.a i j).natAbs < (st.a i j).natAbs)) (improveCol i j) m
    (by
      rintro k s hk ⟨hik, a1, a2, a3, a4, a5, a6, a7⟩
      obtain ⟨s', b1, b2, b3, b4, b5, b6, b7, b8⟩ := improveCol_spec a1 a3 hik hk
      refine ⟨s', b1, by omega, b2, a2.trans b3, b4, b5.trans a4, ?_, ?_, ?_⟩
      · intro r hr1 hr2
        by_cases e : r = k
        · subst e; exact b6
        · rw [b7 r (by omega) e (by omega)]
          exact b5.trans (a5 r hr1 (by omega))
      · intro r hr1 hr2
        rw [b7 r (by omega) (by omega) hr2]
        exact a6 r (by omega) hr2
      · rcases b8 with rfl | b8
        · exact a7
        · rcases a7 with rfl | a7
          · exact Or.inr b8
          · exact Or.inr (by omega))
    (j + 1) st (by have := h.hj; omega)
    ⟨by omega, h, Frame.refl _, h0, dvd_refl _, fun r h1 h2 => by omega, fun _ _ _ => rfl, Or.inl rfl⟩
  exact ⟨s, h1, h3, h4, h5, h6, h7, h9⟩

theorem colDiv_true {st : St} (h0 : st.a i j ≠ 0) (h : ∀ r, i < r → r < n → st.a i j ∣ st.a r j) : colDiv n i j st = some true := by
  rw [colDiv, allM_divides _ _ _ h0, decide_eq_true]
  intro r hr; rw [mem_rng] at hr; exact h r (by omega) hr.2

theorem colDiv_false {st : St} (h0 : st.a i j ≠ 0) (h : ¬ ∀ r, i < r → r < n → st.a i j ∣ st.a r j) : colDiv n i j st = some false := by
  rw [colDiv, allM_divides _ _ _ h0, decide_eq_false]
  exact fun hh => h fun r h1 h2 => hh r (mem_rng.mpr ⟨h1, h2⟩)

theorem rowDiv_true {st : St} (h0 : st.a i j ≠ 0) (h : ∀ c, j < c → c < m → st.a i j ∣ st.a i c) : rowDiv m i j st = some true := by
  rw [rowDiv, allM_divides _ _ _ h0, decide_eq_true]
  intro r hr; rw [mem_rng] at hr; exact h r (by omega) hr.2

theorem rowDiv_false {st : St} (h0 : st.a i j ≠ 0) (h : ¬ ∀ c, j < c → c < m → st.a i j ∣ st.a i c) : rowDiv m i j st = some false := by
  rw [rowDiv, allM_divides _ _ _ h0, decide_eq_false]
  exact fun hh => h fun r h1 h2 => hh r (mem_rng.mpr ⟨h1, h2⟩)

/-- the pivot loop ends with a pivot that divides its row and column -/
theorem improve_spec {st : St} (h : Ph n m i j A0 st) (h0 : st.a i j ≠ 0) (fuel : Nat) (hf : (st.a i j).natAbs < fuel) :
    ∃ st', improve n m i j fuel st = some st' ∧ Ph n m i j A0 st' ∧ Frame n m i j st.a st'.a ∧ st'.a i j ≠ 0 ∧
      (∀ r, i < r → r < n → st'.a i j ∣ st'.a r j) ∧ (∀ c, j < c → c < m → st'.a i j ∣ st'.a i c) := by
  induction fuel generalizing st with
  | zero => omega
  | succ fuel ih =>
    by_cases hc : ∀ r, i < r → r < n → st.a i j ∣ st.a r j
    · by_cases hr : ∀ c, j < c → c < m → st.a i j ∣ st.a i c
      · refine ⟨st, ?_, h, Frame.refl _, h0, hc, hr⟩
        rw [improve, colDiv_true h0 hc, rowDiv_true h0 hr]; rfl
      · obtain ⟨s1, a1, a2, a3, a4, a5, a6, a7⟩ := improveRows_spec h h0
        obtain ⟨s2, b1, b2, b3, b4, b5, b6, b7⟩ := improveCols_spec a2 a4
        have hlt : (s2.a i j).natAbs < (st.a i j).natAbs := by
          rcases a7 with rfl | a7
          · rcases b7 with rfl | b7
            · exact absurd b6 hr
            · exact b7
          · rcases b7 with rfl | b7
            · exact a7
            · omega
        obtain ⟨s3, c1, c2, c3, c4⟩ := ih b2 b4 (by omega)
        refine ⟨s3, ?_, c2, (a3.trans b3).trans c3, c4⟩
        rw [improve, colDiv_true h0 hc, rowDiv_false h0 hr]
        simp only [if_true, Option.bind_eq_bind, Option.bind_some, Bool.false_eq_true, if_false, a1, colDiv_true a4 a6, b1, rowDiv_true b4 b6]
        exact c1
    · obtain ⟨s1, a1, a2, a3, a4, a5, a6, a7⟩ := improveRows_spec h h0
      obtain ⟨s2, b1, b2, b3, b4, b5, b6, b7⟩ := improveCols_spec a2 a4
      have hlt : (s2.a i j).natAbs < (st.a i j).natAbs := by
        rcases a7 with rfl | a7
        · exact absurd a6 hc
        · rcases b7 with rfl | b7
          · exact a7
          · omega
      obtain ⟨s3, c1, c2, c3, c4⟩ := ih b2 b4 (by omega)
      refine ⟨s3, ?_, c2, (a3.trans b3).trans c3, c4⟩
      rw [improve, colDiv_false h0 hc]
      simp only [Bool.false_eq_true, if_false, Option.bind_eq_bind, Option.bind_some, a1, colDiv_true a4 a6, if_true, b1, rowDiv_true b4 b6]
      exact c1

/-! ### elimination -/

theorem elimRow_spec {st : St} {k : Nat} (h : Ph n m i j A0 st) (h0 : st.a i j ≠ 0) (hik : i < k) (hk : k < n) (hd : st.a i j ∣ st.a k j) :
    ∃ st', elimRow i j st k = some st' ∧ Ph n m i j A0 st' ∧ Frame n m i j st.a st'.a ∧ st'.a k j = 0 ∧
      (∀ r, r ≠ k → ∀ c, c < m → st'.a r c = st.a r c) := by
  by_cases hz : st.a k j = 0
  · exact ⟨st, by simp [elimRow, hz], h, Frame.refl _, hz, fun _ _ _ _ => rfl⟩
  · obtain ⟨s, r, hs, hs'⟩ := exactDiv h0 hd
    have hne : i ≠ k := by omega
    set st' : St := { st with
      a := rowOp st.a k i (-s)
      p := rowOp st.p k i (-s)
      pinv := colOp st.pinv i k s } with hst
    have hT : RowT m i k 1 0 (-s) 1 st.a st'.a := rowOp_rowT hne
    have hstep : RowStep n m i k st st' :=
      ⟨1, 0, -s, 1, 1, s, 0, 1, ⟨by ring, by ring, by ring, by ring⟩, hT, rowOp_rowT hne, colOp_colT' hne, rfl, rfl⟩
    obtain ⟨hP, hF⟩ := ph_row h hne (le_refl _) h.hi (by omega) hk hstep
    refine ⟨st', ?_, hP, hF, ?_, ?_⟩
    · simp only [elimRow, if_neg hz, hs, Option.bind_eq_bind, Option.bind_some]; rfl
    · rw [hT.snd j h.hj, hs']; ring
    · intro r hr c hc
      by_cases e : r = i
      · subst e; rw [hT.fst c hc]; ring
      · exact hT.oth r e hr c hc

theorem elimCol_spec {st : St} {l : Nat} (h : Ph n m i j A0 st) (h0 : st.a i j ≠ 0) (hjl : j < l) (hl : l < m) (hd : st.a i j ∣ st.a i l) :
    ∃ st', elimCol i j st l = some st' ∧ Ph n m i j A0 st' ∧ Frame n m i j st.a st'.a ∧ st'.a i l = 0 ∧
      (∀ c, c ≠ l → ∀ r, r < n → st'.a r c = st.a r c) := by
  by_cases hz : st.a i l = 0
  · exact ⟨st, by simp [elimCol, hz], h, Frame.refl _, hz, fun _ _ _ _ => rfl⟩
  · obtain ⟨s, r, hs, hs'⟩ := exactDiv h0 hd
    have hne : j ≠ l := by omega
    set st' : St := { st with
      a := colOp st.a l j (-s)
      q := colOp st.q l j (-s)
      qinv := rowOp st.qinv j l s } with hst
    have hT : ColT n j l 1 0 (-s) 1 st.a st'.a := colOp_colT hne
    have hstep : ColStep n m j l st st' :=
      ⟨1, 0, -s, 1, 1, s, 0, 1, ⟨by ring, by ring, by ring, by ring⟩, hT, colOp_colT hne, rowOp_rowT' hne, rfl, rfl⟩
    obtain ⟨hP, hF⟩ := ph_col h hne (le_refl _) h.hj (by omega) hl hstep
    refine ⟨st', ?_, hP, hF, ?_, ?_⟩
    · simp only [elimCol, if_neg hz, hs, Option.bind_eq_bind, Option.bind_some]; rfl
    · rw [hT.snd i h.hi, hs']; ring
    · intro c hc r hr
      by_cases e : c = j
      · subst e; rw [hT.fst r hr]; ring
      · exact hT.oth c e hc r hr

theorem elimRows_spec {st : St} (h : Ph n m i j A0 st) (h0 : st.a i j ≠ 0) (hd : ∀ r, i < r → r < n → st.a i j ∣ st.a r j) :
    ∃ st', (rng (i + 1) n).foldlM (elimRow i j) st = some st' ∧ Ph n m i j A0 st' ∧ Frame n m i j st.a st'.a ∧
      (∀ c, c < m → st'.a i c = st.a i c) ∧ (∀ r, i < r → r < n → st'.a r j = 0) := by
  obtain ⟨s, h1, h2, h3, h4, h5, h6, h7⟩ := foldlM_rng
    (fun k (s : St) => i < k ∧ Ph n m i j A0 s ∧ Frame n m i j st.a s.a ∧ (∀ c, c < m → s.a i c = st.a i c) ∧
      (∀ r, i < r → r < k → s.a r j = 0) ∧ (∀ r, k ≤ r → r < n → s.a r j = st.a r j)) (elimRow i j) n
    (by
      rintro k s hk ⟨hik, a1, a2, a3, a4, a5⟩
      have e0 : s.a i j = st.a i j := a3 j h.hj
      obtain ⟨s', b1, b2, b3, b4, b5⟩ := elimRow_spec a1 (by rw [e0]; exact h0) hik hk (by
        rw [e0, a5 k (le_refl _) hk]; exact hd k hik hk)
      refine ⟨s', b1, by omega, b2, a2.trans b3, fun c hc => by rw [b5 i (by omega) c hc, a3 c hc], ?_, ?_⟩
      · intro r hr1 hr2
        by_cases e : r = k
        · subst e; exact b4
        · rw [b5 r e j h.hj]; exact a4 r hr1 (by omega)
      · intro r hr1 hr2
        rw [b5 r (by omega) j h.hj]; exact a5 r (by omega) hr2)
    (i + 1) st (by have := h.hi; omega)
    ⟨by omega, h, Frame.refl _, fun _ _ => rfl, fun r h1 h2 => by omega, fun _ _ _ => rfl⟩
  exact ⟨s, h1, h3, h4, h5, h6⟩

theorem elimCols_spec {st : St} (h : Ph n m i j A0 st) (h0 : st.a i j ≠ 0) (hd : ∀ c, j < c → c < m → st.a i j ∣ st.a i c) :
    ∃ st', (rng (j + 1) m).foldlM (elimCol i j) st = some st' ∧ Ph n m i j A0 st' ∧ Frame n m i j st.a st'.a ∧
      (∀ r, r < n → st'.a r j = st.a r j) ∧ (∀ c, j < c → c < m → st'.a i c = 0) := by
  obtain ⟨s, h1, h2, h3, h4, h5, h6, h7⟩ := foldlM_rng
    (fun k (s : St) => j < k ∧ Ph n m i j A0 s ∧ Frame n m i j st.a s.a ∧ (∀ r, r < n → s.a r j = st.a r j) ∧
      (∀ c, j < c → c < k → s.a i c = 0) ∧ (∀ c, k ≤ c → c < m → s.a i c = st.a i c)) (elimCol i j) m
    (by
      rintro k s hk ⟨hik, a1, a2, a3, a4, a5⟩
      have e0 : s.a i j = st.a i j := a3 i h.hi
      obtain ⟨s', b1, b2, b3, b4, b5⟩ := elimCol_spec a1 (by rw [e0]; exact h0) hik hk (by
        rw [e0, a5 k (le_refl _) hk]; exact hd k hik hk)
      refine ⟨s', b1, by omega, b2, a2.trans b3, fun c hc => by rw [b5 j (by omega) c hc, a3 c hc], ?_, ?_⟩
      · intro r hr1 hr2
        by_cases e : r = k
        · subst e; exact b4
        · rw [b5 r e i h.hi]; exact a4 r hr1 (by omega)
      · intro r hr1 hr2
        rw [b5 r (by omega) i h.hi]; exact a5 r (by omega) hr2)
    (j + 1) st (by have := h.hj; omega)
    ⟨by omega, h, Frame.refl _, fun _ _ => rfl, fun r h1 h2 => by omega, fun _ _ _ => rfl⟩
  exact ⟨s, h1, h3, h4, h5, h6⟩

/-! ### choosing the pivot -/

theorem findCol_some {a : M} {l : Nat} (h : findCol n m i j a = some l) :
    j ≤ l ∧ l < m ∧ (∃ k, i ≤ k ∧ k < n ∧ a k l ≠ 0) ∧ ∀ c, j ≤ c → c < l → ∀ k, i ≤ k → k < n → a k c = 0 := by
  rw [findCol, List.find?_eq_some_iff_append] at h
  obtain ⟨hp, as, bs, heq, hno⟩ := h
  have hmem : l ∈ rng j m := by rw [heq]; simp
  rw [mem_rng] at hmem
  rw [List.any_eq_true] at hp
  obtain ⟨k, hk, hk'⟩ := hp
  rw [mem_rng] at hk
  refine ⟨hmem.1, hmem.2, ⟨k, hk.1, hk.2, by simpa using hk'⟩, ?_⟩
  intro c hc1 hc2 k hk1 hk2
  have hmem' : c ∈ as := by
    have hc : c ∈ rng j m := mem_rng.mpr ⟨hc1, by omega⟩
    rw [heq] at hc
    rcases List.mem_append.mp hc with h | h
    · exact h
    · exfalso
      have hs : (as ++ l :: bs).Pairwise (· < ·) := by rw [← heq]; exact List.pairwise_lt_range'
      rcases List.mem_cons.mp h with h | h
      · omega
      · have := (List.pairwise_cons.mp (List.pairwise_append.mp hs).2.1).1 c h
        omega
  have := hno c hmem'
  simp only [Bool.not_eq_true', List.any_eq_false] at this
  have := this k (mem_rng.mpr ⟨hk1, hk2⟩)
  simpa using this

theorem findCol_none {a : M} (h : findCol n m i j a = none) : ∀ c, j ≤ c → c < m → ∀ k, i ≤ k → k < n → a k c = 0 := by
  intro c hc1 hc2 k hk1 hk2
  rw [findCol, List.find?_eq_none] at h
  have := h c (mem_rng.mpr ⟨hc1, hc2⟩)
  simp only [Bool.not_eq_true, List.any_eq_false] at this
  simpa using this k (mem_rng.mpr ⟨hk1, hk2⟩)

theorem choosePivot_spec {st : St} (h : Ph n m i j A0 st) (hex : ∃ k, i ≤ k ∧ k < n ∧ st.a k j ≠ 0) :
    ∃ st', choosePivot n m i j st = some st' ∧ Ph n m i j A0 st' ∧ Frame n m i j st.a st'.a ∧ st'.a i j ≠ 0 := by
  have hfc : findCol n m i j st.a = some j := by
    rw [findCol, rng_cons h.hj, List.find?_cons_of_pos]
    rw [List.any_eq_true]
    obtain ⟨k, h1, h2, h3⟩ := hex
    exact ⟨k, mem_rng.mpr ⟨h1, h2⟩, by simpa using h3⟩
  have e1 : swapCols st.a j j = st.a := swapCols_self _ _
  have e2 : swapCols st.q j j = st.q := swapCols_self _ _
  have e3 : swapRows st.qinv j j = st.qinv := swapRows_self _ _
  by_cases hz : st.a i j = 0
  · cases hk : (rng i n).find? (fun k => st.a k j != 0) with
    | none =>
      rw [List.find?_eq_none] at hk
      obtain ⟨k, h1, h2, h3⟩ := hex
      exact absurd (by simpa using hk k (mem_rng.mpr ⟨h1, h2⟩)) h3
    | some k =>
      have hp := List.find?_some hk
      have hm := mem_rng.mp (List.mem_of_find?_eq_some hk)
      have hp' : st.a k j ≠ 0 := by simpa using hp
      have hne : i ≠ k := by rintro rfl; exact hp' hz
      set st' : St := { st with a := swapRows st.a i k, p := swapRows st.p i k, pinv := swapCols st.pinv i k } with hst
      have hT : RowT m i k 0 1 1 0 st.a st'.a := swapRows_rowT hne
      have hstep : RowStep n m i k st st' :=
        ⟨0, 1, 1, 0, 0, 1, 1, 0, ⟨by ring, by ring, by ring, by ring⟩, hT, swapRows_rowT hne, swapCols_colT hne, rfl, rfl⟩
      obtain ⟨hP, hF⟩ := ph_row h hne (le_refl _) h.hi hm.1 hm.2 hstep
      have hnz : st'.a i j ≠ 0 := by rw [hT.fst j h.hj]; simpa using hp'
      refine ⟨st', ?_, hP, hF, hnz⟩
      simp only [choosePivot, hfc, Option.bind_eq_bind, Option.bind_some, e1, e2, e3, hz, if_true, hk, pure]
      rw [if_pos hnz]
  · refine ⟨st, ?_, h, Frame.refl _, hz⟩
    simp only [choosePivot, hfc, Option.bind_eq_bind, Option.bind_some, e1, e2, e3, hz, if_false, pure]
    rw [if_pos hz]

/-! ### the main loop -/

structure MI (n m i j : Nat) (A0 : M) (piv : Nat → Nat) (st : St) : Prop where
  hi : i ≤ n
  z1 : ∀ r c, i ≤ r → r < n → c < j → c < m → st.a r c = 0
  lt : ∀ r < i, piv r < j ∧ piv r < m
  nz : ∀ r < i, st.a r (piv r) ≠ 0
  zz : ∀ r < i, ∀ c < m, c ≠ piv r → st.a r c = 0
  mono : ∀ r r', r < r' → r' < i → piv r < piv r'
  sync : Sync n m A0 st

/-- the echelon-like shape after the main loop -/
structure Ech (n m R : Nat) (A0 : M) (piv : Nat → Nat) (st : St) : Prop where
  hR : R ≤ n
  lt : ∀ r < R, piv r < m
  nz : ∀ r < R, st.a r (piv r) ≠ 0
  zz : ∀ r < R, ∀ c < m, c ≠ piv r → st.a r c = 0
  zr : ∀ r, R ≤ r → r < n → ∀ c < m, st.a r c = 0
  mono : ∀ r r', r < r' → r' < R → piv r < piv r'
  sync : Sync n m A0 st

theorem improve_mono {n m i j : Nat} {st s : St} (f : Nat) (h : improve n m i j f st = some s) : improve n m i j (f + 1) st = some s := by
  induction f generalizing st with
  | zero => simp [improve] at h
  | succ f ih =>
    have key : (do
        let st ← (rng (i + 1) n).foldlM (improveRow i j) st
        let ok ← colDiv n i j st
        if ok then
          let st ← (rng (j + 1) m).foldlM (improveCol i j) st
          let ok ← rowDiv m i j st
          if ok then improve n m i j f st else none
        else none) = some s → (do
        let st ← (rng (i + 1) n).foldlM (improveRow i j) st
        let ok ← colDiv n i j st
        if ok then
          let st ← (rng (j + 1) m).foldlM (improveCol i j) st
          let ok ← rowDiv m i j st
          if ok then improve n m i j (f + 1) st else none
        else none) = some s := by
      intro h
      simp only [Option.bind_eq_bind, Option.bind_eq_some_iff] at h ⊢
      obtain ⟨s1, h1, ok, h2, h⟩ := h
      refine ⟨s1, h1, ok, h2, ?_⟩
      split
      · rename_i hk; rw [if_pos hk] at h
        simp only [Option.bind_eq_some_iff] at h ⊢
        obtain ⟨s2, h3, ok', h4, h⟩ := h
        refine ⟨s2, h3, ok', h4, ?_⟩
        split
        · rename_i hk'; rw [if_pos hk'] at h; exact ih h
        · rename_i hk'; rw [if_neg hk'] at h; cases h
      · rename_i hk; rw [if_neg hk] at h; cases h
    rw [improve] at h ⊢
    cases hc : colDiv n i j st with
    | none => rw [hc] at h; cases h
    | some b =>
      rw [hc] at h
      cases b with
      | false => exact key h
      | true =>
        cases hr : rowDiv m i j st with
        | none => rw [hr] at h; cases h
        | some b' =>
          rw [hr] at h
          cases b' with
          | false => exact key h
          | true => exact h

theorem mainLoop_mono {n m : Nat} {st s : St} (f i j : Nat) (h : mainLoop n m f i j st = some s) : mainLoop n m (f + 1) i j st = some s := by
  induction f generalizing st i j with
  | zero => simp [mainLoop] at h
  | succ f ih =>
    rw [mainLoop] at h ⊢
    split
    · rename_i hh; rw [if_pos hh] at h
      cases hc : findCol n m i j st.a with
      | none => rw [hc] at h; exact h
      | some l =>
        rw [hc] at h
        simp only [Option.bind_eq_bind, Option.bind_eq_some_iff] at h ⊢
        obtain ⟨s1, h1, s2, h2, s3, h3, s4, h4, h⟩ := h
        exact ⟨s1, h1, s2, improve_mono f h2, s3, h3, s4, h4, ih _ _ h⟩
    · rename_i hh; rw [if_neg hh] at h; exact h

theorem mainLoop_mono' {n m : Nat} {st s : St} {f f' i j : Nat} (hf : f ≤ f') (h : mainLoop n m f i j st = some s) :
    mainLoop n m f' i j st = some s := by
  obtain ⟨d, rfl⟩ := Nat.exists_eq_add_of_le hf
  induction d with
  | zero => exact h
  | succ d ih => exact mainLoop_mono _ _ _ (ih (by omega))

theorem improve_mono' {n m i j : Nat} {st s : St} {f f' : Nat} (hf : f ≤ f') (h : improve n m i j f st = some s) :
    improve n m i j f' st = some s := by
  obtain ⟨d, rfl⟩ := Nat.exists_eq_add_of_le hf
  induction d with
  | zero => exact h
  | succ d ih => exact improve_mono _ (ih (by omega))

theorem mainLoop_spec (n m : Nat) (A0 : M) : ∀ (d i j : Nat) (piv : Nat → Nat) (st : St), n - i = d → MI n m i j A0 piv st →
    ∃ f st' R piv', mainLoop n m f i j st = some st' ∧ Ech n m R A0 piv' st' := by
  intro d
  induction d with
  | zero =>
    intro i j piv st hd h
    have : i = n := by have := h.hi; omega
    subst this
    exact ⟨1, st, i, piv, by rw [mainLoop, if_neg (by omega)], ⟨le_refl _, fun r hr => (h.lt r hr).2, h.nz, h.zz, fun r h1 h2 => by omega, h.mono, h.sync⟩⟩
  | succ d ih =>
    intro i j piv st hd h
    by_cases hj : j < m
    · have hin : i < n := by omega
      cases hc : findCol n m i j st.a with
      | none =>
        refine ⟨1, st, i, piv, by rw [mainLoop, if_pos ⟨hin, hj⟩, hc], h.hi, fun r hr => (h.lt r hr).2, h.nz, h.zz, ?_, h.mono, h.sync⟩
        intro r hr1 hr2 c hc'
        by_cases hcj : c < j
        · exact h.z1 r c hr1 hr2 hcj hc'
        · exact findCol_none hc c (by omega) hc' r hr1 hr2
      | some l =>
        obtain ⟨hl1, hl2, hex, hz⟩ := findCol_some hc
        have hP : Ph n m i l A0 st := by
          refine ⟨hin, hl2, ?_, ?_, h.sync⟩
          · intro r c h1 h2 h3
            by_cases hcj : c < j
            · exact h.z1 r c h1 h2 hcj (by omega)
            · exact hz c (by omega) h3 r h1 h2
          · intro r c h1 h2 h3
            exact h.zz r h1 c h3 (by have := (h.lt r h1).1; omega)
        obtain ⟨s1, a1, P1, F1, n1⟩ := choosePivot_spec hP hex
        obtain ⟨s2, a2, P2, F2, n2, d2, d2'⟩ := improve_spec P1 n1 ((s1.a i l).natAbs + 1) (by omega)
        obtain ⟨s3, a3, P3, F3, r3, z3⟩ := elimRows_spec P2 n2 d2
        have n3 : s3.a i l ≠ 0 := by rw [r3 l hl2]; exact n2
        obtain ⟨s4, a4, P4, F4, r4, z4⟩ := elimCols_spec P3 n3 (fun c h1 h2 => by rw [r3 l hl2, r3 c h2]; exact d2' c h1 h2)
        have F : Frame n m i l st.a s4.a := ((F1.trans F2).trans F3).trans F4
        have hMI : MI n m (i + 1) (l + 1) A0 (fun r => if r = i then l else piv r) s4 := by
          refine ⟨hin, ?_, ?_, ?_, ?_, ?_, P4.sync⟩
          · intro r c h1 h2 h3 h4
            by_cases e : c = l
            · subst e; rw [r4 r h2]; exact z3 r (by omega) h2
            · exact P4.z1 r c (by omega) h2 (by omega)
          · intro r hr
            by_cases e : r = i
            · simp only [e, if_true]; omega
            · simp only [e, if_false]
              have := h.lt r (by omega)
              omega
          · intro r hr
            by_cases e : r = i
            · subst e; simp only [if_true]; rw [r4 r hin]; exact n3
            · simp only [e, if_false]
              rw [F r _ (by omega) (h.lt r (by omega)).2 (Or.inl (by omega))]
              exact h.nz r (by omega)
          · intro r hr c hc' hne
            by_cases e : r = i
            · subst e
              simp only [if_true] at hne
              by_cases hcl : c < l
              · exact P4.z1 r c (le_refl _) hin hcl
              · exact z4 c (by omega) hc'
            · simp only [e, if_false] at hne
              rw [F r c (by omega) hc' (Or.inl (by omega))]
              exact h.zz r (by omega) c hc' hne
          · intro r r' h1 h2
            by_cases e : r' = i
            · have e' : r ≠ i := by omega
              simp only [e, e', if_true, if_false]
              have := (h.lt r (by omega)).1; omega
            · have e' : r ≠ i := by omega
              simp only [e, e', if_false]
              exact h.mono r r' h1 (by omega)
        obtain ⟨f, st', R, piv', b1, b2⟩ := ih (i + 1) (l + 1) _ s4 (by omega) hMI
        refine ⟨max f ((s1.a i l).natAbs + 1) + 1, st', R, piv', ?_, b2⟩
        rw [mainLoop, if_pos ⟨hin, hj⟩, hc]
        simp only [a1, Option.bind_eq_bind, Option.bind_some, improve_mono' (le_max_right f _) a2, a3, a4]
        exact mainLoop_mono' (le_max_left _ _) b1
    · refine ⟨1, st, i, piv, by rw [mainLoop, if_neg (by omega)], h.hi, fun r hr => (h.lt r hr).2, h.nz, h.zz, ?_, h.mono, h.sync⟩
      intro r hr1 hr2 c hc'
      exact h.z1 r c hr1 hr2 (by omega) hc'

end Toppo.Smith
