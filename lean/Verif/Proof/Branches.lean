import Verif.Proof.NormalSwap
import Verif.Model.MaxTree
/-! The action that orders the branches at one vertex. -/
namespace Toppo.Normal
open Toppo Permutation

/-- The branch of `i` that starts with its child `c` (up to the next child of `i`, or the end) contains a vertex with an edge to a
vertex before `i`. -/
def Sep (A : Nat → Nat → Prop) (i c : Nat) : Prop :=
  ∃ k, k < i ∧ ∃ l, c ≤ l ∧ (∀ c', Par A i c' → c < c' → l < c') ∧ A k l

theorem Exch.par_inv {A B : Nat → Nat → Prop} {n i a b d} (h : Exch A B n i a b d) {x y}
    (hp : Par B (blockFn a b b d x) (blockFn a b b d y)) : Par A x y := by
  have hA := (h.img _ _).mp hp.2.1
  have hlt := (h.edge_lt hA).mpr hp.1
  obtain ⟨z, hz⟩ := h.upto.par y (by omega) (h.gr.lt _ _ hA).2
  have := (h.par hz).unique hp
  rw [← sigma_inj h.ab h.bd this]; exact hz

/-- the blocks descend from `i` -/
theorem Exch.anc_blocks {A B : Nat → Nat → Prop} {n i a b d} (h : Exch A B n i a b d) {m} (h1 : a ≤ m) (h2 : m < d) : Anc A i m := by
  have := h.hia
  have := h.bd
  have := h.dn
  by_cases hb : m < b
  · exact anc_upto h.upto h.pb (h.gr.lt _ _ h.pb.2.1).2 (by omega) hb
  · exact h.anc_second (by omega) h2

/-- children of vertices other than `i` before the blocks are not in the blocks -/
theorem Exch.child_out {A B : Nat → Nat → Prop} {n i a b d} (h : Exch A B n i a b d) {i0 c} (hi : i0 < i) (hc : Par A i0 c) :
    c < a ∨ d ≤ c := by
  by_contra hcon
  have hanc := h.anc_blocks (m := c) (by omega) (by omega)
  have hia := h.hia
  rcases Relation.ReflTransGen.cases_tail hanc with e | ⟨z, hz, hp⟩
  · omega
  · have := hp.unique hc; subst this
    have := Anc.le hz; omega

theorem sigma_out {a b d c : Nat} (hab : a < b) (hbd : b < d) (h : c < a ∨ d ≤ c) : blockFn a b b d c = c := by
  rcases h with h | h
  · exact sigma_low h
  · exact sigma_high hab hbd h

theorem Exch.par_other {A B : Nat → Nat → Prop} {n i a b d} (h : Exch A B n i a b d) {i0 c} (hi : i0 < i) :
    Par A i0 c ↔ Par B i0 c := by
  have hia := h.hia
  constructor
  · intro hp
    have := h.par hp
    rwa [sigma_low (by omega), sigma_out h.ab h.bd (h.child_out hi hp)] at this
  · intro hp
    obtain ⟨c0, rfl, _⟩ := sigma_surj (n := n) h.ab h.bd c
    rw [← sigma_low (a := a) (b := b) (d := d) (x := i0) (by omega)] at hp
    have hA := h.par_inv hp
    rwa [sigma_out h.ab h.bd (h.child_out hi hA)]

theorem sigma_le_out {a b d c l : Nat} (hab : a < b) (hbd : b < d) (h : c < a ∨ d ≤ c) : blockFn a b b d l < c ↔ l < c := by
  unfold blockFn; split_ifs <;> omega

theorem Exch.sep_other {A B : Nat → Nat → Prop} {n i a b d} (h : Exch A B n i a b d) {i0 c} (hi : i0 < i) (hc : Par A i0 c) :
    Sep A i0 c ↔ Sep B i0 c := by
  have hia := h.hia
  have hco := h.child_out hi hc
  constructor
  · rintro ⟨k, hk, l, h1, h2, h3⟩
    refine ⟨k, hk, blockFn a b b d l, ?_, ?_, ?_⟩
    · by_contra hcon
      have := (sigma_le_out h.ab h.bd hco (l := l)).mp (by omega)
      omega
    · intro c' hc' hlt
      have hA := (h.par_other hi).mpr hc'
      rw [sigma_le_out h.ab h.bd (h.child_out hi hA)]
      exact h2 c' hA hlt
    · have := (h.img k l).mpr h3
      rwa [sigma_low (by omega)] at this
  · rintro ⟨k, hk, L, h1, h2, h3⟩
    obtain ⟨l, rfl, _⟩ := sigma_surj (n := n) h.ab h.bd L
    refine ⟨k, hk, l, ?_, ?_, ?_⟩
    · by_contra hcon
      have := (sigma_le_out h.ab h.bd hco (l := l)).mpr (by omega)
      omega
    · intro c' hc' hlt
      have := h2 c' ((h.par_other hi).mp hc') hlt
      rwa [sigma_le_out h.ab h.bd (h.child_out hi hc')] at this
    · rw [← sigma_low (a := a) (b := b) (d := d) (x := k) (by omega)] at h3
      exact (h.img k l).mp h3

/-- The list of the branches at `i` that end at `J`, last one first. -/
def Br (A : Nat → Nat → Prop) (i : Nat) : Nat → List ((Nat × Nat) × Bool) → Prop
  | J, [] => J = i + 1
  | J, b :: rest => b.1.2 = J ∧ b.1.1 < J ∧ i < b.1.1 ∧ Par A i b.1.1 ∧ (∀ c, Par A i c → b.1.1 < c → J ≤ c) ∧
      (b.2 = true ↔ ∃ k, k < i ∧ ∃ l, b.1.1 ≤ l ∧ l < J ∧ A k l) ∧ Br A i b.1.1 rest

theorem Br.congr {A B : Nat → Nat → Prop} {i} : ∀ {bs J}, Br A i J bs → (∀ x y, x < J → y < J → (A x y ↔ B x y)) → i < J → Br B i J bs
  | [], J, h, _, _ => h
  | b :: rest, J, h, hAB, hiJ => by
    obtain ⟨h1, h2, h3, h4, h5, h6, h7⟩ := h
    refine ⟨h1, h2, h3, h4.congr hAB h2, ?_, ?_, h7.congr (fun x y hx hy => hAB x y (by omega) (by omega)) h3⟩
    · intro c hc hlt
      by_contra hcon
      have hBA : ∀ x y, x < J → y < J → (B x y ↔ A x y) := fun x y hx hy => (hAB x y hx hy).symm
      exact hcon (h5 c (hc.congr hBA (by omega)) hlt)
    · rw [h6]
      constructor
      · rintro ⟨k, hk, l, h8, h9, h10⟩
        exact ⟨k, hk, l, h8, h9, (hAB k l (by omega) h9).mp h10⟩
      · rintro ⟨k, hk, l, h8, h9, h10⟩
        exact ⟨k, hk, l, h8, h9, (hAB k l (by omega) h9).mpr h10⟩

/-- What one round of the ordering achieves for the relation `B`, compared with the relation `A` before it. -/
structure Done (A B : Nat → Nat → Prop) (n i : Nat) : Prop where
  upto : Upto B n
  gr : Grph B n
  sorted : ∀ c c', Par B i c → Par B i c' → c < c' → Sep B i c → Sep B i c'
  par : ∀ i0, i0 < i → ∀ c, Par A i0 c ↔ Par B i0 c
  sep : ∀ i0, i0 < i → ∀ c, Par A i0 c → (Sep A i0 c ↔ Sep B i0 c)

theorem actionLoop_spec {n i : Nat} : ∀ (bs : List ((Nat × Nat) × Bool)) (J e : Nat) {A : Nat → Nat → Prop},
    Upto A n → Grph A n → Br A i J bs → i < J → J ≤ e → e ≤ n → (J = e ∨ Par A i J) → (Par A i e ∨ e = n) →
    (∀ k, k < i → ∀ l, J ≤ l → l < e → ¬ A k l) → (∀ c, Par A i c → e ≤ c → Sep A i c) →
    ∃ perms, RawGraph.actionLoop e ((bs.filter (fun b => b.2)).map (fun b => b.1)) = some perms ∧
      (∀ q ∈ perms, Valid q ∧ (∀ x, n ≤ x → map q x = x) ∧ (∀ x, x ≤ i → map q x = x)) ∧
      ∀ B : Nat → Nat → Prop,
        (∀ x y, B (perms.foldl (fun z q => map q z) x) (perms.foldl (fun z q => map q z) y) ↔ A x y) → Done A B n i := by
  intro bs
  induction bs with
  | nil =>
    intro J e A hu hg hbr hiJ hJe hen hJ he hno hsep
    refine ⟨[], rfl, by simp, ?_⟩
    intro B hB
    have hAB : B = A := by funext x y; exact propext (hB x y)
    subst hAB
    refine ⟨hu, hg, ?_, fun _ _ _ => Iff.rfl, fun _ _ _ _ => Iff.rfl⟩
    intro c c' hc hc' hlt hs
    have hJ' : J = i + 1 := hbr
    have hic := hc.1
    have hec : e ≤ c := by
      by_contra hcon
      obtain ⟨k, hk, l, h1, h2, h3⟩ := hs
      have hle : l < e := by
        rcases he with he | he
        · exact h2 e he (by omega)
        · rw [he]; exact (hg.lt _ _ h3).2
      exact hno k hk l (by omega) hle h3
    exact hsep c' hc' (by omega)
  | cons b rest ih =>
    intro J e A hu hg hbr hiJ hJe hen hJ he hno hsep
    obtain ⟨h1, h2, h3, h4, h5, h6, h7⟩ := hbr
    cases hb : b.2 with
    | false =>
      have hns : ∀ k, k < i → ∀ l, b.1.1 ≤ l → l < J → ¬ A k l := by
        intro k hk l hl hl2 ha
        have := h6.mpr ⟨k, hk, l, hl, hl2, ha⟩
        rw [hb] at this; cases this
      obtain ⟨perms, p1, p2, p3⟩ := ih b.1.1 e hu hg h7 h3 (by omega) hen (Or.inr h4) he (by
        intro k hk l hl hl2
        by_cases hlJ : l < J
        · exact hns k hk l hl hlJ
        · exact hno k hk l (by omega) hl2) hsep
      refine ⟨perms, ?_, p2, p3⟩
      rw [List.filter_cons, hb]; exact p1
    | true =>
      have hs1 := h6.mp hb
      have hfil : ((b :: rest).filter (fun b => b.2)).map (fun b => b.1) =
          b.1 :: ((rest.filter (fun b => b.2)).map (fun b => b.1)) := by
        rw [List.filter_cons, hb]; rfl
      rw [hfil]
      have hcs : csub b.1.2 b.1.1 = some (J - b.1.1) := by
        rw [h1]; simp [csub]; omega
      by_cases heJ : e = J
      · -- nothing to exchange
        obtain ⟨perms, p1, p2, p3⟩ := ih b.1.1 b.1.1 hu hg h7 h3 (Nat.le_refl _) (by omega) (Or.inl rfl) (Or.inl h4)
          (fun k hk l hl hl2 => by omega) (by
            intro c hc hle
            rcases Nat.lt_or_eq_of_le hle with hlt | heq
            · exact hsep c hc (by have := h5 c hc hlt; omega)
            · subst heq
              obtain ⟨k, hk, l, l1, l2, l3⟩ := hs1
              exact ⟨k, hk, l, l1, fun c' hc' hlt => by have := h5 c' hc' hlt; omega, l3⟩)
        refine ⟨identity :: perms, ?_, ?_, ?_⟩
        · unfold RawGraph.actionLoop
          have hce : csub e (J - b.1.1) = some b.1.1 := by simp [csub]; omega
          rw [hcs]
          simp only [Option.bind_eq_bind, Option.bind_some]
          rw [if_pos (by omega)]
          simp only [Option.bind_some, hce, p1]
          rfl
        · intro q hq
          rcases List.mem_cons.mp hq with rfl | hq
          · exact ⟨valid_identity, fun x _ => map_identity x, fun x _ => map_identity x⟩
          · exact p2 q hq
        · intro B hB
          apply p3
          intro x y
          have := hB x y
          rw [List.foldl_cons, List.foldl_cons, map_identity, map_identity] at this
          exact this
      · -- exchange `[s, J)` and `[J, e)`
        have hJlt : J < e := by omega
        have hPJ : Par A i J := by rcases hJ with h | h; · omega
                                   · exact h
        obtain ⟨q, q1, q2, q3⟩ := swap_ordered (e + 1) b.1.1 J J e h2 (Nat.le_refl _) hJlt (by omega)
        let A' : Nat → Nat → Prop := fun X Y => ∃ x y, blockFn b.1.1 J J e x = X ∧ blockFn b.1.1 J J e y = Y ∧ A x y
        have himg : ∀ x y, A' (blockFn b.1.1 J J e x) (blockFn b.1.1 J J e y) ↔ A x y := by
          intro x y
          constructor
          · rintro ⟨x', y', e1, e2, ha⟩
            rw [← sigma_inj h2 hJlt e1, ← sigma_inj h2 hJlt e2]; exact ha
          · intro ha; exact ⟨x, y, rfl, rfl, ha⟩
        have hex : Exch A A' n i b.1.1 J e := by
          refine ⟨hu, hg, h2, hJlt, hen, h4, hPJ, ?_, himg⟩
          rcases he with he | he
          · exact Or.inl he
          · refine Or.inr ⟨he, fun k hk l hl ha => ?_⟩
            exact hno k hk l hl (by rw [he]; exact (hg.lt _ _ ha).2) ha
        have hlow : ∀ x y, x < b.1.1 → y < b.1.1 → (A x y ↔ A' x y) := by
          intro x y hx hy
          have := himg x y
          rw [sigma_low hx, sigma_low hy] at this
          exact this.symm
        have hia := hex.hia
        have hPs : Par A' i b.1.1 := by
          have := hex.par hPJ
          rwa [sigma_low hia, sigma_b h2 hJlt] at this
        have hPe : Par A' i (b.1.1 + (e - J)) := by
          have := hex.par h4
          rwa [sigma_low hia, sigma_a h2 hJlt] at this
        obtain ⟨perms, p1, p2, p3⟩ := ih b.1.1 (b.1.1 + (e - J)) (A := A') hex.upto' hex.gr' (h7.congr hlow h3) h3
          (by omega) (by omega) (Or.inr hPs) (Or.inl hPe)
          (by
            intro k hk l hl hl2 ha
            obtain ⟨l', hl', _⟩ := sigma_surj (n := n) h2 hJlt l
            rw [← hl', ← sigma_low (a := b.1.1) (b := J) (d := e) (x := k) (by omega)] at ha
            have hA := (himg _ _).mp ha
            have hr : J ≤ l' ∧ l' < e := by
              rw [← hl'] at hl hl2; revert hl hl2; unfold blockFn; split_ifs <;> omega
            exact hno k hk l' hr.1 hr.2 hA)
          (by
            intro C hC hle
            obtain ⟨c, rfl, _⟩ := sigma_surj (n := n) h2 hJlt C
            rw [← sigma_low (a := b.1.1) (b := J) (d := e) (x := i) hia] at hC
            have hc := hex.par_inv hC
            have hcc : c = b.1.1 ∨ e ≤ c := by
              by_contra hcon
              push Not at hcon
              have hr : b.1.1 ≤ c ∧ c < J := by
                revert hle; unfold blockFn; split_ifs <;> omega
              have := h5 c hc (by omega)
              omega
            have hnext : ∀ C', Par A' i C' → ∃ c', Par A i c' ∧ blockFn b.1.1 J J e c' = C' := by
              intro C' hC'
              obtain ⟨c', rfl, _⟩ := sigma_surj (n := n) h2 hJlt C'
              rw [← sigma_low (a := b.1.1) (b := J) (d := e) (x := i) hia] at hC'
              exact ⟨c', hex.par_inv hC', rfl⟩
            rcases hcc with rfl | hec
            · obtain ⟨k, hk, l, l1, l2, l3⟩ := hs1
              refine ⟨k, hk, blockFn b.1.1 J J e l, ?_, ?_, ?_⟩
              · unfold blockFn; split_ifs <;> omega
              · intro C' hC' hlt
                obtain ⟨c', hc', rfl⟩ := hnext C' hC'
                have : e ≤ c' := by
                  by_contra hcon
                  have hne : c' ≠ b.1.1 := by rintro rfl; omega
                  by_cases hcl : b.1.1 < c'
                  · have := h5 c' hc' hcl
                    revert hlt; unfold blockFn; split_ifs <;> omega
                  · revert hlt; unfold blockFn; split_ifs <;> omega
                rw [sigma_high h2 hJlt this]
                unfold blockFn; split_ifs <;> omega
              · have := (himg k l).mpr l3
                rwa [sigma_low (by omega)] at this
            · obtain ⟨k, hk, l, l1, l2, l3⟩ := hsep c hc hec
              rw [sigma_high h2 hJlt hec]
              refine ⟨k, hk, l, l1, ?_, ?_⟩
              · intro C' hC' hlt
                obtain ⟨c', hc', rfl⟩ := hnext C' hC'
                have : e ≤ c' := by
                  by_contra hcon
                  revert hlt; unfold blockFn; split_ifs <;> omega
                rw [sigma_high h2 hJlt this] at hlt ⊢
                exact l2 c' hc' hlt
              · have := (himg k l).mpr l3
                rwa [sigma_low (by omega), sigma_high h2 hJlt (by omega)] at this)
        refine ⟨q :: perms, ?_, ?_, ?_⟩
        · unfold RawGraph.actionLoop
          have hce : csub e (J - b.1.1) = some (b.1.1 + (e - J)) := by simp [csub]; omega
          rw [hcs]
          simp only [Option.bind_eq_bind, Option.bind_some]
          rw [if_neg (by omega), show b.1 = (b.1.1, J) from Prod.ext rfl h1]
          simp only [q1, Option.bind_some]
          rw [hce]
          simp only [Option.bind_some, p1]
          rfl
        · intro q' hq'
          rcases List.mem_cons.mp hq' with rfl | hq'
          · refine ⟨q2, ?_, ?_⟩
            · intro x hx; rw [q3]; exact sigma_high h2 hJlt (by omega)
            · intro x hx; rw [q3]; exact sigma_low (by omega)
          · exact p2 q' hq'
        · intro B hB
          have hd : Done A' B n i := by
            apply p3
            intro X Y
            obtain ⟨x, rfl, _⟩ := sigma_surj (n := n) h2 hJlt X
            obtain ⟨y, rfl, _⟩ := sigma_surj (n := n) h2 hJlt Y
            have := hB x y
            rw [List.foldl_cons, List.foldl_cons, q3, q3] at this
            rw [this, himg]
          refine ⟨hd.upto, hd.gr, hd.sorted, ?_, ?_⟩
          · intro i0 hi0 c; rw [hex.par_other hi0, hd.par i0 hi0]
          · intro i0 hi0 c hc
            rw [hex.sep_other hi0 hc, hd.sep i0 hi0 c ((hex.par_other hi0).mp hc)]

end Toppo.Normal
