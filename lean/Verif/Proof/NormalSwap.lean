import Verif.Proof.Normal
import Verif.Proof.PermSwap
/-! Exchanging two neighbouring branches of a depth-first ordering. -/
namespace Toppo.Normal
open Toppo Permutation

/-- a symmetric relation on `0 .. n-1` -/
structure Grph (A : Nat → Nat → Prop) (n : Nat) : Prop where
  symm : ∀ x y, A x y → A y x
  irr : ∀ x, ¬ A x x
  lt : ∀ x y, A x y → x < n ∧ y < n

/-- if `c` is a child of `i`, nothing strictly between `i` and `c` is an ancestor of `c` -/
theorem no_anc {A : Nat → Nat → Prop} {i c x} (hc : Par A i c) (h1 : i < x) (h2 : x < c) : ¬ Anc A x c := by
  intro h
  rcases Relation.ReflTransGen.cases_tail h with e | ⟨z, hz, hp⟩
  · omega
  · have := hp.unique hc; subst this
    have := Anc.le hz; omega

/-- no edge jumps from strictly between `i` and its child `c` to `c` or beyond -/
theorem no_cross {A : Nat → Nat → Prop} {n i c x y} (h : Upto A n) (hg : Grph A n) (hc : Par A i c) (h1 : i < x) (h2 : x < c)
    (h3 : c ≤ y) : ¬ A x y := by
  intro ha
  have hy := (hg.lt _ _ ha).2
  apply no_anc hc h1 h2
  by_cases e : c = y
  · subst e; exact h.anc h2 hy ha
  · exact h.between x c y (by omega) (by omega) (by omega) ha

/-- the vertices up to the next child descend from `i` -/
theorem anc_upto {A : Nat → Nat → Prop} {n i c m} (h : Upto A n) (hc : Par A i c) (hcn : c < n) (h1 : i ≤ m) (h2 : m < c) : Anc A i m :=
  h.between i m c h1 h2 (by omega) hc.2.1

/-- the vertices from a child `b` of `i` to the end descend from `i`, if none of them has an edge below `i` -/
theorem anc_last {A : Nat → Nat → Prop} {n i b} (h : Upto A n) (hg : Grph A n) (hb : Par A i b)
    (hno : ∀ k, k < i → ∀ l, b ≤ l → ¬ A k l) : ∀ m, b ≤ m → m < n → Anc A i m := by
  intro m
  induction m using Nat.strongRecOn with
  | _ m ih =>
    intro h1 h2
    have := hb.1
    obtain ⟨z, hz⟩ := h.par m (by omega) h2
    have hzm := hz.1
    have hzi : i ≤ z := by
      by_contra hc; exact hno z (by omega) m h1 hz.2.1
    by_cases e : z = i
    · subst e; exact .single hz
    · by_cases hzb : b ≤ z
      · exact .tail (ih z hzm hzb (by omega)) hz
      · exact absurd hz.2.1 (no_cross h hg hb (by omega) (by omega) h1)

section
variable {A B : Nat → Nat → Prop} {n i a b d : Nat}

/-- the data of one exchange: `a`, `b` children of `i`, and `d` is a child of `i` or the end -/
structure Exch (A B : Nat → Nat → Prop) (n i a b d : Nat) : Prop where
  upto : Upto A n
  gr : Grph A n
  ab : a < b
  bd : b < d
  dn : d ≤ n
  pa : Par A i a
  pb : Par A i b
  pd : Par A i d ∨ (d = n ∧ ∀ k, k < i → ∀ l, b ≤ l → ¬ A k l)
  img : ∀ x y, B (blockFn a b b d x) (blockFn a b b d y) ↔ A x y

theorem sigma_lt {a b d x y : Nat} (hab : a < b) (hbd : b < d) (h : x < y) (hno : ¬ ((a ≤ x ∧ x < b) ∧ (b ≤ y ∧ y < d))) :
    blockFn a b b d x < blockFn a b b d y := by
  unfold blockFn; split_ifs <;> omega

theorem sigma_lt_inv {a b d x y : Nat} (hab : a < b) (hbd : b < d) (h : blockFn a b b d x < blockFn a b b d y) :
    x < y ∨ ((a ≤ y ∧ y < b) ∧ (b ≤ x ∧ x < d)) := by
  unfold blockFn at h; split_ifs at h <;> omega

theorem sigma_surj {a b d : Nat} (hab : a < b) (hbd : b < d) (y : Nat) : ∃ x, blockFn a b b d x = y ∧ (d ≤ n → (x < n ↔ y < n)) := by
  by_cases h1 : y < a
  · exact ⟨y, by unfold blockFn; split_ifs <;> omega, fun _ => Iff.rfl⟩
  · by_cases h2 : y < a + (d - b)
    · exact ⟨b + (y - a), by unfold blockFn; split_ifs <;> omega, fun _ => by omega⟩
    · by_cases h3 : y < d
      · exact ⟨y - (d - b), by unfold blockFn; split_ifs <;> omega, fun _ => by omega⟩
      · exact ⟨y, by unfold blockFn; split_ifs <;> omega, fun _ => Iff.rfl⟩

theorem sigma_low {a b d x : Nat} (h : x < a) : blockFn a b b d x = x := by unfold blockFn; rw [if_pos h]
theorem sigma_high {a b d x : Nat} (hab : a < b) (hbd : b < d) (h : d ≤ x) : blockFn a b b d x = x := by
  unfold blockFn; split_ifs <;> omega
theorem sigma_b {a b d : Nat} (hab : a < b) (hbd : b < d) : blockFn a b b d b = a := by unfold blockFn; split_ifs <;> omega
theorem sigma_a {a b d : Nat} (hab : a < b) (hbd : b < d) : blockFn a b b d a = a + (d - b) := by
  unfold blockFn; split_ifs <;> omega

theorem sigma_inj {a b d x y : Nat} (hab : a < b) (hbd : b < d) (h : blockFn a b b d x = blockFn a b b d y) : x = y := by
  unfold blockFn at h; split_ifs at h <;> omega

theorem Exch.hia (h : Exch A B n i a b d) : i < a := h.pa.1

/-- no edges between the two blocks -/
theorem Exch.no1 (h : Exch A B n i a b d) {x y} (hx : a ≤ x) (hx2 : x < b) (hy : b ≤ y) : ¬ A x y :=
  no_cross h.upto h.gr h.pb (by have := h.hia; omega) hx2 hy

/-- no edges from the blocks to beyond -/
theorem Exch.no2 (h : Exch A B n i a b d) {x y} (hx : a ≤ x) (hx2 : x < d) (hy : d ≤ y) : ¬ A x y := by
  intro ha
  have hyn := (h.gr.lt _ _ ha).2
  rcases h.pd with hp | ⟨e, _⟩
  · exact no_cross h.upto h.gr hp (by have := h.hia; omega) hx2 hy ha
  · omega

/-- the exchange keeps the direction of edges -/
theorem Exch.edge_lt (h : Exch A B n i a b d) {x y} (ha : A x y) : x < y ↔ blockFn a b b d x < blockFn a b b d y := by
  constructor
  · intro hlt
    apply sigma_lt h.ab h.bd hlt
    rintro ⟨⟨h1, h2⟩, h3, h4⟩
    exact h.no1 h1 h2 h3 ha
  · intro hlt
    rcases sigma_lt_inv h.ab h.bd hlt with h1 | ⟨⟨h1, h2⟩, h3, h4⟩
    · exact h1
    · exact absurd (h.gr.symm _ _ ha) (h.no1 h1 h2 h3)

theorem Exch.par (h : Exch A B n i a b d) {x y} (hp : Par A x y) : Par B (blockFn a b b d x) (blockFn a b b d y) := by
  refine ⟨(h.edge_lt hp.2.1).mp hp.1, (h.img x y).mpr hp.2.1, ?_⟩
  intro k' h1 h2 hB
  obtain ⟨k, rfl, _⟩ := sigma_surj (n := n) h.ab h.bd k'
  have hA := (h.img _ _).mp hB
  have hky := (h.edge_lt hA).mpr h2
  rcases sigma_lt_inv h.ab h.bd h1 with h3 | ⟨⟨h3, h4⟩, h5, h6⟩
  · exact hp.2.2 k h3 hky hA
  · -- `k` in the first block, `x` in the second, both adjacent to `y` above them
    have := hp.1
    exact h.no1 h3 h4 (y := y) (by omega) hA

theorem Exch.anc (h : Exch A B n i a b d) {x y} (hp : Anc A x y) : Anc B (blockFn a b b d x) (blockFn a b b d y) := by
  induction hp with
  | refl => exact .refl
  | tail _ hp ih => exact .tail ih (h.par hp)

theorem Exch.anc_second (h : Exch A B n i a b d) {m} (h1 : b ≤ m) (h2 : m < d) : Anc A i m := by
  have hia := h.hia
  have hab := h.ab
  have hdn := h.dn
  rcases h.pd with hp | ⟨e, hno⟩
  · by_cases hd : d < n
    · exact anc_upto h.upto hp hd (by omega) h2
    · have := (h.gr.lt _ _ hp.2.1).2; omega
  · exact anc_last h.upto h.gr h.pb hno m h1 (by omega)

theorem Exch.gr' (h : Exch A B n i a b d) : Grph B n := by
  refine ⟨?_, ?_, ?_⟩
  · intro x y hB
    obtain ⟨x, rfl, _⟩ := sigma_surj (n := n) h.ab h.bd x
    obtain ⟨y, rfl, _⟩ := sigma_surj (n := n) h.ab h.bd y
    exact (h.img _ _).mpr (h.gr.symm _ _ ((h.img _ _).mp hB))
  · intro x hB
    obtain ⟨x, rfl, _⟩ := sigma_surj (n := n) h.ab h.bd x
    exact h.gr.irr x ((h.img _ _).mp hB)
  · intro x y hB
    obtain ⟨x, rfl, hx⟩ := sigma_surj (n := n) h.ab h.bd x
    obtain ⟨y, rfl, hy⟩ := sigma_surj (n := n) h.ab h.bd y
    have := h.gr.lt _ _ ((h.img _ _).mp hB)
    exact ⟨(hx h.dn).mp this.1, (hy h.dn).mp this.2⟩

/-- exchanging the branches keeps a depth-first ordering -/
theorem Exch.upto' (h : Exch A B n i a b d) : Upto B n := by
  have hia := h.hia
  have hab := h.ab
  have hbd := h.bd
  have hdn := h.dn
  constructor
  · intro Y h0 hY
    obtain ⟨y, rfl, hy⟩ := sigma_surj (n := n) h.ab h.bd Y
    have hy0 : 0 < y := by
      by_contra hc
      have : y = 0 := by omega
      subst this
      rw [sigma_low (by omega)] at h0; omega
    obtain ⟨x, hx⟩ := h.upto.par y hy0 ((hy hdn).mpr hY)
    exact ⟨_, h.par hx⟩
  · intro X M Y hXM hMY hMn hB
    obtain ⟨x, rfl, hx⟩ := sigma_surj (n := n) h.ab h.bd X
    obtain ⟨m, rfl, hm⟩ := sigma_surj (n := n) h.ab h.bd M
    obtain ⟨y, rfl, hy⟩ := sigma_surj (n := n) h.ab h.bd Y
    have hA := (h.img _ _).mp hB
    have hmn := (hm hdn).mpr hMn
    have hxy : x < y := (h.edge_lt hA).mpr (by omega)
    by_cases hxm : x ≤ m
    · by_cases hmy : m < y
      · exact h.anc (h.upto.between x m y hxm hmy hmn hA)
      · -- `m` was after `y` and is now before it
        rcases sigma_lt_inv hab hbd hMY with h1 | ⟨⟨h1, h2⟩, h3, h4⟩
        · omega
        · have hxa : x < a := by
            by_contra hc
            have : ¬ blockFn a b b d x ≤ blockFn a b b d m := by unfold blockFn; split_ifs <;> omega
            exact this hXM
          have hxi : x ≤ i := by
            by_contra hc
            exact no_cross h.upto h.gr h.pa (by omega) hxa h1 hA
          have hxi' : Anc A x i := h.upto.between x i y hxi (by omega) (by omega) hA
          exact h.anc (hxi'.trans (h.anc_second h3 h4))
    · -- `m` was before `x` and is now after it
      exfalso
      have hlt : blockFn a b b d x < blockFn a b b d m := by
        rcases Nat.lt_or_eq_of_le hXM with h1 | h1
        · exact h1
        · have := sigma_inj hab hbd h1; omega
      rcases sigma_lt_inv hab hbd hlt with h1 | ⟨⟨h1, h2⟩, h3, h4⟩
      · omega
      · have hyd : y < d := by
          by_contra hc
          exact h.no2 (by omega) h4 (by omega) hA
        have : ¬ blockFn a b b d m < blockFn a b b d y := by unfold blockFn; split_ifs <;> omega
        exact this hMY

end

end Toppo.Normal
