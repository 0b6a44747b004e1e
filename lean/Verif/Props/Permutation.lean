import Verif.Proof.PermSwap
import Mathlib.GroupTheory.OrderOfElement
import Mathlib.Algebra.Group.End
import Mathlib.Data.Fintype.Perm
set_option linter.unusedSimpArgs false

/-! C16-C24: permutations in cycle form and in array form. -/
namespace Toppo
namespace Permutation

/-- The permutations a user can obtain from the public constructors and operators (of blocks that are not both empty:
see `c23_swap_empty_false`). -/
inductive Built : Permutation → Prop
  | identity : Built Permutation.identity
  | fromCycle {v c} : Cycle.mk v = some c → Built (fromCycle c)
  | fromDisjoint {vs : List (List Nat)} {cs p} : vs.mapM Cycle.mk = some cs → fromDisjointCycles cs = some p → Built p
  | cyclicFrom (lo hi) : Built (cyclicFrom lo hi)
  | swap {fuel a b c d p} : a < b → c < d → Permutation.swap fuel (a, b) (c, d) = some p → Built p
  | mul {p q r} : Built p → Built q → Permutation.mul p q = some r → Built r
  | product {l r} : (∀ g ∈ l, Built g) → Permutation.product l = some r → Built r
  | inverse {p r} : Built p → Permutation.inverse p = some r → Built r
  | pow {p r} {k : Int} : Built p → Permutation.pow p k = some r → Built r
  | gen {p gens g} : Built p → inTermsOfGens p = some gens → g ∈ gens → Built g

theorem swap_some {fuel a b c d p} (hab : a < b) (hcd : c < d) (h : swap fuel (a, b) (c, d) = some p) :
    Valid p := by
  by_cases h1 : b ≤ c
  · -- the result does not depend on the fuel, once there is one
    have mono : ∀ fuel a b c d p, a < b → b ≤ c → c < d → swap fuel (a, b) (c, d) = some p → Valid p := by
      intro fuel
      induction fuel with
      | zero => intro a b c d p _ _ _ h; cases h
      | succ fuel ih =>
        intro a b c d p hab hbc hcd h
        unfold swap at h
        simp only at h
        rw [if_neg (by omega), if_neg (by omega), if_neg (by omega)] at h
        by_cases h1 : b - a < d - c
        · rw [if_pos h1] at h
          cases hp : swap fuel (a, c) (c, d - (b - a)) with
          | none => rw [hp] at h; cases h
          | some p' =>
            have hv := ih a c c (d - (b - a)) p' (by omega) (le_refl _) (by omega) hp
            obtain ⟨q, hq, hqv, hqm⟩ := swapSame_spec a (d - (b - a)) (b - a) (by omega) (by omega)
            rw [show a + (b - a) = b by omega, show d - (b - a) + (b - a) = d by omega] at hq
            rw [hp, hq] at h
            obtain ⟨r, hr, hrv, _⟩ := mul_spec hv (Or.inr hqv)
            simp only [Option.bind_eq_bind, Option.bind_some, hr] at h
            injection h with h; exact h ▸ hrv
        · rw [if_neg h1] at h
          by_cases h2 : b - a > d - c
          · rw [if_pos h2] at h
            cases hp : swap fuel (a + (d - c), b) (b, d) with
            | none => rw [hp] at h; cases h
            | some p' =>
              have hv := ih (a + (d - c)) b b d p' (by omega) (le_refl _) (by omega) hp
              obtain ⟨q, hq, hqv, hqm⟩ := swapSame_spec a c (d - c) (by omega) (by omega)
              rw [show c + (d - c) = d by omega] at hq
              rw [hp, hq] at h
              obtain ⟨r, hr, hrv, _⟩ := mul_spec hv (Or.inr hqv)
              simp only [Option.bind_eq_bind, Option.bind_some, hr] at h
              injection h with h; exact h ▸ hrv
          · rw [if_neg h2] at h
            obtain ⟨q, hq, hqv, hqm⟩ := swapSame_spec a c (b - a) (by omega) (by omega)
            rw [show a + (b - a) = b by omega, show c + (b - a) = d by omega] at hq
            rw [hq] at h; injection h with h; exact h ▸ Or.inr hqv
    exact mono fuel a b c d p hab h1 hcd h
  · by_cases h2 : d < a
    · cases fuel with
      | zero => cases h
      | succ fuel =>
        unfold swap at h
        simp only at h
        rw [if_neg (by omega), if_pos h2] at h
        exact swap_some hcd hab h
    · by_cases h3 : d = a
      · subst h3; rw [swap_touching _ _ _ _ hcd hab] at h; cases h
      · exfalso
        cases fuel with
        | zero => cases h
        | succ fuel =>
          unfold swap at h
          simp only at h
          rw [if_pos (by omega)] at h; cases h
termination_by fuel

theorem pow_spec {p} (h : Valid p) (k : Int) : ∃ r, pow p k = some r ∧ Valid r ∧
    (∀ x, map r x = (map p)^[k.toNat] x) := by
  have hfold : ∀ (q : Permutation) (n : Nat) (x : Nat),
      (List.replicate n q).foldl (fun y g => map g y) x = (map q)^[n] x := by
    intro q n
    induction n with
    | zero => intro x; rfl
    | succ n ih => intro x; rw [List.replicate_succ, List.foldl_cons, ih]; rfl
  unfold pow
  by_cases h0 : k = 0
  · subst h0
    exact ⟨identity, by simp, valid_identity, fun x => by rw [map_identity]; rfl⟩
  · rw [if_neg h0]
    by_cases hpos : k > 0
    · rw [if_pos hpos]
      obtain ⟨r, h1, h2, h3⟩ := product_spec (List.replicate k.toNat p) (fun g hg => by
        rw [List.eq_of_mem_replicate hg]; exact h)
      exact ⟨r, h1, h2, fun x => by rw [h3, hfold]⟩
    · rw [if_neg hpos]
      obtain ⟨q, hq, hv, _⟩ := inverse_spec h
      have : k.toNat = 0 := by omega
      refine ⟨identity, ?_, valid_identity, fun x => by rw [map_identity, this]; rfl⟩
      rw [hq, this]; rfl

/-- Every permutation a user can build is stored in the canonical form. -/
theorem Built.valid {p} (h : Built p) : Valid p := by
  induction h with
  | identity => exact valid_identity
  | fromCycle h => exact fromCycle_valid (mk_good h)
  | @fromDisjoint vs cs p h1 h2 =>
    have hg : ∀ c ∈ cs, c = [] ∨ GoodCycle c := by
      intro c hc
      obtain ⟨v, _, hv⟩ := mapM_mem h1 c hc
      exact (mk_good hv).imp id (fun h => h.1)
    obtain ⟨q, hq, hv, _⟩ := fromDisjoint_spec cs hg (fromDisjoint_valid hg h2)
    rw [h2] at hq; injection hq with hq; rw [hq]; exact hv
  | cyclicFrom lo hi => exact fromCycle_valid (cyclicFrom_good lo hi)
  | swap h1 h2 h3 => exact swap_some h1 h2 h3
  | mul _ _ h ih1 ih2 =>
    obtain ⟨r, hr, hv, _⟩ := mul_spec ih1 ih2
    rw [h] at hr; injection hr with hr; rw [hr]; exact hv
  | product _ h ih =>
    obtain ⟨r, hr, hv, _⟩ := product_spec _ ih
    rw [h] at hr; injection hr with hr; rw [hr]; exact hv
  | inverse _ h ih =>
    obtain ⟨r, hr, hv, _⟩ := inverse_spec ih
    rw [h] at hr; injection hr with hr; rw [hr]; exact hv
  | pow _ h ih =>
    obtain ⟨r, hr, hv, _⟩ := pow_spec ih _
    rw [h] at hr; injection hr with hr; rw [hr]; exact hv
  | gen _ h hm ih =>
    obtain ⟨gens, hg, hv, _⟩ := inTermsOfGens_spec ih
    rw [h] at hg; injection hg with hg; subst hg
    exact gen_valid (hv _ hm)

/-- C16: the product of built permutations never panics or loops, and acts as the composition. -/
theorem c16_mul_is_composition {p q} (hp : Built p) (hq : Built q) :
    ∃ r, mul p q = some r ∧ ∀ x, map r x = map p (map q x) := by
  obtain ⟨r, h1, _, h3⟩ := mul_spec hp.valid hq.valid
  exact ⟨r, h1, h3⟩

/-- C16: every built permutation acts as a bijection that moves finitely many indices. -/
theorem c16_map_bijective {p} (hp : Built p) :
    Function.Bijective (map p) ∧ ∃ n, ∀ x, n ≤ x → map p x = x := by
  obtain ⟨q, _, _, _, h2⟩ := inverse_spec hp.valid
  refine ⟨⟨hp.valid.injective, fun y => ⟨map q y, h2 y⟩⟩, p.flatten.sum + 1, ?_⟩
  intro x hx
  by_contra hne
  have hmem := (hp.valid.mem_iff x).mpr hne
  have : x ≤ p.flatten.sum := List.le_sum_of_mem hmem
  omega

example : Built [[0, 1, 2]] ∧ Built [[1, 3]] ∧ ∃ r, mul [[0, 1, 2]] [[1, 3]] = some r ∧ map r 3 = 2 := by
  have h1 : Built [[0, 1, 2]] := Built.fromCycle (v := [1, 2, 0]) (c := [0, 1, 2]) (by decide)
  have h2 : Built [[1, 3]] := Built.fromCycle (v := [3, 1]) (c := [1, 3]) (by decide)
  obtain ⟨r, h, hm⟩ := c16_mul_is_composition h1 h2
  exact ⟨h1, h2, r, h, by rw [hm]; decide⟩

/-- C17: `==` (equality of the stored data) is equality of the maps. -/
theorem c17_eq_iff_same_map {p q} (hp : Built p) (hq : Built q) : p = q ↔ ∀ x, map p x = map q x :=
  hp.valid.eq_iff hq.valid

/-- C17: the stored cycles: either the single empty cycle of the identity, or disjoint duplicate-free cycles with at least
two elements, each starting with its least element, listed by increasing first element. -/
theorem c17_stored_form {p} (hp : Built p) :
    p = [[]] ∨ (p ≠ [] ∧ (∀ c ∈ p, 2 ≤ c.length ∧ c.Nodup ∧ ∀ x ∈ c, c.headD 0 ≤ x) ∧
      p.Pairwise List.Disjoint ∧ p.Pairwise (fun a b => a.headD 0 < b.headD 0)) := by
  rcases hp.valid with h | h
  · exact Or.inl h
  · exact Or.inr ⟨h.1, fun c hc => ⟨(h.2.1 c hc).1, h.nodup hc, (h.2.1 c hc).2⟩,
      (List.nodup_flatten.mp h.2.2.1).2, h.2.2.2⟩

example : ∃ p, Built p ∧ p ≠ identity ∧ map p 0 = 2 ∧ map p 4 = 1 := by
  obtain ⟨p, h, hv, hm⟩ := fromDisjoint_spec [[1, 3, 4], [0, 2], []] (by simp [GoodCycle]) (by decide)
  have hb : Built p := Built.fromDisjoint (vs := [[3, 4, 1], [2, 0], [7]]) (by decide) h
  have hc : Canon p := by
    rcases hv with rfl | hv
    · have := (hm [0, 2] (by simp)).mpr (by simp); simp [identity] at this
    · exact hv
  have h0 : map p 0 = 2 := by
    rw [map_mem_aux p hc.2.2.1 [0, 2] ((hm _ (by simp)).mpr (by simp)) 0 (by simp)]; decide
  have h4 : map p 4 = 1 := by
    rw [map_mem_aux p hc.2.2.1 [1, 3, 4] ((hm _ (by simp)).mpr (by simp)) 4 (by simp)]; decide
  exact ⟨p, hb, hc.ne_identity, h0, h4⟩

/-- C18: associativity. -/
theorem c18_assoc {p q r} (hp : Built p) (hq : Built q) (hr : Built r) :
    ∃ s, (do let a ← mul p q; mul a r) = some s ∧ (do let b ← mul q r; mul p b) = some s := by
  obtain ⟨a, ha, hav, ham⟩ := mul_spec hp.valid hq.valid
  obtain ⟨b, hb, hbv, hbm⟩ := mul_spec hq.valid hr.valid
  obtain ⟨s, hs, hsv, hsm⟩ := mul_spec hav hr.valid
  obtain ⟨t, ht, htv, htm⟩ := mul_spec hp.valid hbv
  have : t = s := by
    rw [htv.eq_iff hsv]; intro x; rw [htm, hbm, hsm, ham]
  subst this
  refine ⟨t, ?_, ?_⟩
  · rw [ha]; exact hs
  · rw [hb]; exact ht

/-- C18: the identity is neutral on both sides. -/
theorem c18_identity {p} (hp : Built p) : mul p identity = some p ∧ mul identity p = some p := by
  obtain ⟨a, ha, hav, ham⟩ := mul_spec hp.valid valid_identity
  obtain ⟨b, hb, hbv, hbm⟩ := mul_spec valid_identity hp.valid
  constructor
  · rw [ha]; congr 1; rw [hav.eq_iff hp.valid]; intro x; rw [ham, map_identity]
  · rw [hb]; congr 1; rw [hbv.eq_iff hp.valid]; intro x; rw [hbm, map_identity]

/-- C18: `inverse()` is a two-sided inverse. -/
theorem c18_inverse {p} (hp : Built p) :
    ∃ q, inverse p = some q ∧ mul p q = some identity ∧ mul q p = some identity := by
  obtain ⟨q, hq, hqv, h1, h2⟩ := inverse_spec hp.valid
  obtain ⟨a, ha, hav, ham⟩ := mul_spec hp.valid hqv
  obtain ⟨b, hb, hbv, hbm⟩ := mul_spec hqv hp.valid
  refine ⟨q, hq, ?_, ?_⟩
  · rw [ha]; congr 1; rw [hav.eq_iff valid_identity]; intro x; rw [ham, map_identity, h2]
  · rw [hb]; congr 1; rw [hbv.eq_iff valid_identity]; intro x; rw [hbm, map_identity, h1]

/-- C19: `Cycle::from` returns exactly for the non-empty duplicate-free lists. -/
theorem c19_accepts (v : List Nat) : (∃ c, Cycle.mk v = some c) ↔ v ≠ [] ∧ v.Nodup := by
  constructor
  · rintro ⟨c, hc⟩
    constructor
    · rintro rfl; simp [Cycle.mk, Cycle.isValidLoop, Cycle.bringSmallestFirst] at hc
    · by_contra hn
      unfold Cycle.mk at hc
      split at hc
      · rename_i h
        apply hn
        match v, h with
        | [x], _ => simp
      · have : Cycle.isValidLoop [] v = false := by
          rw [Bool.eq_false_iff]; intro h'; exact hn ((Cycle.isValid_iff v).mp h')
        rw [this] at hc; simp at hc
  · rintro ⟨h0, hn⟩
    by_cases h1 : v.length = 1
    · exact ⟨[], by simp [Cycle.mk, h1]⟩
    · obtain ⟨n, c, e, _⟩ := Cycle.mk_spec_long v (by have := List.length_pos_iff.mpr h0; omega) hn
      exact ⟨c, e⟩

/-- C19: the accepted cycle sends every listed element to the next one (the last to the first) and fixes the others. -/
theorem c19_map {v c} (h : Cycle.mk v = some c) :
    (∀ i (hi : i < v.length), Cycle.map c v[i] = v[(i + 1) % v.length]'(Nat.mod_lt _ (by omega))) ∧
    (∀ x, x ∉ v → Cycle.map c x = x) := by
  obtain ⟨h0, hn⟩ := (c19_accepts v).mp ⟨c, h⟩
  by_cases h1 : v.length = 1
  · have : c = [] := by unfold Cycle.mk at h; rw [if_pos h1] at h; injection h with h; exact h.symm
    subst this
    match v, h1 with
    | [y], _ =>
      refine ⟨?_, fun x _ => Cycle.map_not_mem (by simp)⟩
      intro i hi
      have : i = 0 := by simpa using hi
      subst this
      have : Cycle.map [] y = y := Cycle.map_not_mem List.not_mem_nil
      simpa using this
  · obtain ⟨n, c', e, er, _⟩ := Cycle.mk_spec_long v (by have := List.length_pos_iff.mpr h0; omega) hn
    rw [h] at e; injection e with e; subst e
    have hnc : c.Nodup := by rw [er]; exact List.nodup_rotate.mpr hn
    have hlen : List.length c = List.length v := by rw [er]; exact List.length_rotate ..
    constructor
    · intro i hi
      have hcy := Cycle.isCyc_map hnc (by intro e'; rw [e'] at hlen; simp at hlen; omega)
      have hvr : c.rotate (v.length - n % v.length) = v := by
        rw [er, List.rotate_rotate]
        have : (n + (v.length - n % v.length)) % v.length = 0 := by
          have h2 := Nat.mod_lt n (by omega : 0 < v.length)
          have h3 := Nat.div_add_mod n v.length
          have h4 : n + (v.length - n % v.length) = v.length + v.length * (n / v.length) := by omega
          rw [h4]
          simp
        rw [← List.rotate_mod, this, List.rotate_zero]
      have hv : IsCyc (Cycle.map c) v := by
        have := hcy.rotate (v.length - n % v.length)
        rwa [hvr] at this
      exact hv.2.2 i hi
    · intro x hx
      exact Cycle.map_not_mem (by rw [er, List.mem_rotate]; exact hx)

example : Cycle.mk [4, 2, 9] = some [2, 9, 4] ∧ Cycle.mk [1, 2, 1] = none ∧ Cycle.mk [] = none := by decide

/-- C20, for `k ≥ 0`: `p^k` is the `k`-fold product.  Missing: negative exponents, where the code is wrong
(`c20_pow_negative_false`). -/
theorem c20_pow_nonneg_partial {p} (hp : Built p) (k : Nat) :
    ∃ r, pow p (k : Int) = some r ∧ Built r ∧ (∀ x, map r x = (map p)^[k] x) ∧
      product (List.replicate k p) = some r := by
  obtain ⟨r, h1, h2, h3⟩ := pow_spec hp.valid (k : Int)
  obtain ⟨s, h4, h5, h6⟩ := product_spec (List.replicate k p) (fun g hg => by
    rw [List.eq_of_mem_replicate hg]; exact hp.valid)
  refine ⟨r, h1, Built.pow hp h1, by simpa using h3, ?_⟩
  rw [h4]; congr 1; rw [h5.eq_iff h2]; intro x; rw [h6, h3]
  have hfold : ∀ (q : Permutation) (n : Nat) (x : Nat),
      (List.replicate n q).foldl (fun y g => map g y) x = (map q)^[n] x := by
    intro q n
    induction n with
    | zero => intro x; rfl
    | succ n ih => intro x; rw [List.replicate_succ, List.foldl_cons, ih]; rfl
  rw [hfold]; simp

/-- C20 is false of the code for negative exponents: `p^k` is then the identity for every `p` (the range `1..=k` is empty),
so the claim `p^(-1) = p.inverse()` fails for every non-trivial `p`. -/
theorem c20_pow_negative_false {p} (hp : Built p) (k : Int) (hk : k < 0) :
    pow p k = some identity ∧ (p ≠ identity → pow p (-1) ≠ inverse p) := by
  have key : ∀ k : Int, k < 0 → pow p k = some identity := by
    intro k hk
    obtain ⟨r, h1, h2, h3⟩ := pow_spec hp.valid k
    rw [h1]; congr 1
    rw [h2.eq_iff valid_identity]
    intro x; rw [h3, map_identity, show k.toNat = 0 by omega]; rfl
  refine ⟨key k hk, ?_⟩
  intro hne e
  rw [key (-1) (by omega)] at e
  obtain ⟨q, hq, _, h1, h2⟩ := inverse_spec hp.valid
  rw [hq] at e; injection e with e; subst e
  apply hne
  rw [hp.valid.eq_iff valid_identity]
  intro x
  have := h1 x
  rw [map_identity] at this; rw [this, map_identity]

example : Built [[0, 1, 2]] ∧ ([[0, 1, 2]] : Permutation) ≠ identity :=
  ⟨Built.cyclicFrom 0 3, by decide⟩

/-- C21: the generators are transpositions (or the identity), their ordered product is `p` (the internal assertion never
fires), and each is its own inverse, as `inverse_of_gen` claims. -/
theorem c21_generators {p} (hp : Built p) : ∃ gens, inTermsOfGens p = some gens ∧ product gens = some p ∧
    (∀ x, gens.foldl (fun y g => map g y) x = map p x) ∧
    (∀ g ∈ gens, g = identity ∨ ∃ a b, a < b ∧ g = [[a, b]]) ∧
    (∀ g ∈ gens, mul g (inverseOfGen g) = some identity) := by
  obtain ⟨gens, h1, h2, _, _, h3, h4⟩ := inTermsOfGens_spec hp.valid
  refine ⟨gens, h1, h4, h3, h2, ?_⟩
  intro g hg
  obtain ⟨r, hr, hv, hm⟩ := mul_spec (gen_valid (h2 g hg)) (gen_valid (h2 g hg))
  rw [inverseOfGen, hr]; congr 1
  rw [hv.eq_iff valid_identity]
  intro x; rw [hm, gen_invol (h2 g hg), map_identity]

/-- C22: `v << p` keeps the length and puts the entry of index `i` at index `p(i)`. -/
theorem c22_action {α : Type} (v : List α) {p} (hp : Built p) (hb : ∀ x, v.length ≤ x → map p x = x) :
    ∃ w, actionBy v p = some w ∧ w.length = v.length ∧ ∀ i, w[map p i]? = v[i]? := by
  refine actionBy_spec v hp.valid ?_
  intro x hx
  by_contra h
  exact hx (hb x (by omega))

/-- C22: acting by `p` and then by `q` is acting by `q * p`. -/
theorem c22_action_compose {α : Type} (v : List α) {p q} (hp : Built p) (hq : Built q)
    (hbp : ∀ x, v.length ≤ x → map p x = x) (hbq : ∀ x, v.length ≤ x → map q x = x) :
    ∃ w, (do let u ← actionBy v p; actionBy u q) = some w ∧ (do let r ← mul q p; actionBy v r) = some w := by
  obtain ⟨u, h1, h2, h3⟩ := c22_action v hp hbp
  obtain ⟨w, h4, h5, h6⟩ := c22_action u hq (by rw [h2]; exact hbq)
  obtain ⟨r, h7, h8⟩ := c16_mul_is_composition hq hp
  have hr : Built r := Built.mul hq hp h7
  obtain ⟨z, h9, h10, h11⟩ := c22_action v hr (fun x hx => by rw [h8, hbp x hx, hbq x hx])
  refine ⟨w, ?_, ?_⟩
  · rw [h1]; exact h4
  · rw [h7]
    simp only [Option.bind_eq_bind, Option.bind_some]
    rw [h9]; congr 1
    apply List.ext_getElem?
    intro j
    obtain ⟨i, rfl⟩ := (c16_map_bijective hr).1.2 j
    rw [h11, h8, h6, h3]

/-- C22: an index out of the vector's range makes the action panic. -/
theorem c22_out_of_range {α : Type} (v : List α) (a b : Nat) (hab : a < b) (hb : v.length ≤ b) :
    actionBy v [[a, b]] = none := by
  have hc := transp_canon hab
  unfold actionBy
  rw [inTermsOfGens_canon hc]
  simp only [Option.bind_eq_bind, Option.bind_some, List.map_cons, List.map_nil, gensTail, List.tail_cons,
    List.headD_cons, List.flatten_cons, List.flatten_nil, List.append_nil, List.foldlM_cons, List.foldlM_nil]
  have : genActionBy v [[a, b]] = none := by
    unfold genActionBy
    rw [if_neg hc.ne_identity, Valid.unfixed_eq (Or.inr hc)]
    have hbn : v[b]? = none := List.getElem?_eq_none hb
    simp [vecSwap, hbn]
  rw [this]; rfl

example : ∃ w, actionBy ['a', 'b', 'c', 'd'] [[0, 1, 2]] = some w ∧ w = ['c', 'a', 'b', 'd'] := by
  obtain ⟨w, h1, h2, h3⟩ := c22_action ['a', 'b', 'c', 'd'] (Built.cyclicFrom 0 3) (by
    intro x hx; apply map_not_mem; simp [cyclicFrom, Cycle.cyclicFrom, List.range'] at hx ⊢; omega)
  refine ⟨w, h1, ?_⟩
  apply List.ext_getElem?
  intro i
  rcases i with _ | _ | _ | i
  · exact h3 2
  · exact h3 0
  · exact h3 1
  · have : map (cyclicFrom 0 3) (i + 3) = i + 3 := by
      apply map_not_mem; simp [cyclicFrom, Cycle.cyclicFrom, List.range']
    have h := h3 (i + 3)
    rw [this] at h
    rw [h]; rcases i with _ | i <;> rfl

/-- Specification of C23: the blocks `[a,b)` and `[c,d)` (`b ≤ c`) change places; each keeps its inner order, and so does
the part between them. -/
def exchange (a b c d x : Nat) : Nat :=
  if a ≤ x ∧ x < b then (x - a) + (a + (d - c) + (c - b))        -- first block goes after second and middle
  else if b ≤ x ∧ x < c then (x - b) + (a + (d - c))             -- middle goes after the second block
  else if c ≤ x ∧ x < d then (x - c) + a                         -- second block goes to the front
  else x

/-- C23, for non-empty blocks, the first argument before the second one or after it with a gap: the recursion ends and the
result is the exchange.  Missing: adjacent blocks in reversed order and empty blocks, where the code panics
(`c23_swap_touching_false`, `c23_swap_empty_false`). -/
theorem c23_swap_partial (a b c d : Nat) (hab : a < b) (hcd : c < d) :
    (b ≤ c → ∀ fuel, d - a < fuel →
      ∃ p, swap fuel (a, b) (c, d) = some p ∧ Built p ∧ ∀ x, map p x = exchange a b c d x) ∧
    (d < a → ∀ fuel, b - c + 1 < fuel →
      ∃ p, swap fuel (a, b) (c, d) = some p ∧ Built p ∧ ∀ x, map p x = exchange c d a b x) := by
  have heq : ∀ a b c d x, a < b → b ≤ c → c < d → blockFn a b c d x = exchange a b c d x := by
    intro a b c d x h1 h2 h3
    unfold blockFn exchange
    split_ifs <;> omega
  constructor
  · intro hbc fuel hf
    obtain ⟨p, h1, _, h3⟩ := swap_ordered fuel a b c d hab hbc hcd hf
    exact ⟨p, h1, Built.swap hab hcd h1, fun x => by rw [h3, heq a b c d x hab hbc hcd]⟩
  · intro hda fuel hf
    cases fuel with
    | zero => omega
    | succ fuel =>
      obtain ⟨p, h1, _, h3⟩ := swap_ordered fuel c d a b hcd (by omega) hab (by omega)
      refine ⟨p, ?_, Built.swap hcd hab h1, fun x => by rw [h3, heq c d a b x hcd (by omega) hab]⟩
      unfold swap
      simp only
      rw [if_neg (by omega), if_pos hda]; exact h1

/-- C23 is false of the code when the second block ends exactly where the first one begins: the call panics. -/
theorem c23_swap_touching_false (a b c : Nat) (hca : c < a) (hab : a < b) (fuel : Nat) :
    swap fuel (a, b) (c, a) = none := swap_touching fuel a b c hca hab

/-- C23 is false of the code for an empty block: with one empty block the call never returns a permutation, with two it
returns a value without any cycle, which is not the identity and makes every product panic. -/
theorem c23_swap_empty_false (a b c : Nat) (h : a ≤ b) (hbc : b < c) (fuel : Nat) :
    swap fuel (a, a) (b, c) = none ∧ swap fuel (b, c) (c, c) = none ∧
    swap (fuel + 1) (a, a) (c, c) = some [] ∧ ([] : Permutation) ≠ identity ∧ (∀ p, mul p [] = none) := by
  refine ⟨swap_empty_left fuel a b c h hbc, swap_empty_right fuel b c c hbc (le_refl _), ?_, by decide, mul_nil_right⟩
  unfold swap
  simp only
  rw [if_neg (by omega), if_neg (by omega), if_neg (by omega), if_neg (by omega), if_neg (by omega)]
  have := swapSame_list a c 0 (by omega)
  simpa using this

example : (exchange 0 2 4 5 0, exchange 0 2 4 5 1, exchange 0 2 4 5 2, exchange 0 2 4 5 3, exchange 0 2 4 5 4) = (3, 4, 1, 2, 0) := by
  decide

end Permutation

/-! ### array permutations -/
namespace ArrayPerm

/-- A valid array: a rearrangement of `0..n`. -/
def IsPerm (n : Nat) (p : List Nat) : Prop := p.length = n ∧ p.Nodup ∧ ∀ x ∈ p, x < n

theorem mapM_length {α β : Type} {f : α → Option β} : ∀ {l : List α} {r : List β}, l.mapM f = some r → r.length = l.length
  | [], r, h => by
    have : r = [] := by simpa using h.symm
    subst this; rfl
  | x :: xs, r, h => by
    rw [List.mapM_cons] at h
    cases hx : f x with
    | none => simp [hx] at h
    | some y =>
      cases hxs : xs.mapM f with
      | none => simp [hx, hxs] at h
      | some ys =>
        simp [hx, hxs] at h
        subst h
        simp [mapM_length hxs]

theorem eval_lt {p : List Nat} {i : Nat} (h : i < p.length) : eval p i = p[i] := by
  unfold eval; rw [if_pos h, List.getD_eq_getElem _ _ h]

theorem eval_ge {p : List Nat} {i : Nat} (h : p.length ≤ i) : eval p i = i := by
  unfold eval; rw [if_neg (by omega)]

theorem mulImpl_spec (n : Nat) (p q : List Nat) (hp : p.length = n) (hq : q.length = n) (hlt : ∀ x ∈ q, x < n) :
    ∃ r, mulImpl n p q = some r ∧ r.length = n ∧ ∀ i, i < n → eval r i = eval p (eval q i) := by
  unfold mulImpl
  have : ∀ l : List Nat, (∀ i ∈ l, i < n) →
      l.mapM (fun i => do let j ← q[i]?; p[j]?) = some (l.map (fun i => eval p (eval q i))) := by
    intro l
    induction l with
    | nil => intro _; rfl
    | cons i is ih =>
      intro hl
      have hi := hl i List.mem_cons_self
      have hqi : q.getD i 0 = q[i] := by rw [List.getD_eq_getElem _ _ (by omega)]
      have hqn : q[i] < n := hlt _ (List.getElem_mem _)
      rw [List.mapM_cons, ih (fun j hj => hl j (List.mem_cons_of_mem _ hj)),
        List.getElem?_eq_getElem (by omega : i < q.length)]
      simp only [Option.bind_eq_bind, Option.bind_some, List.map_cons]
      rw [List.getElem?_eq_getElem (by omega : q[i] < p.length)]
      simp only [Option.bind_some]
      rw [eval_lt (by omega : i < q.length), eval_lt (by omega : q[i] < p.length)]
      rfl
  refine ⟨_, this _ (fun i hi => List.mem_range.mp hi), by simp, ?_⟩
  intro i hi
  rw [eval_lt (by simpa using hi)]
  simp

theorem padTo_spec (p : List Nat) (n : Nat) (h : p.length ≤ n) (hp : ∀ x ∈ p, x < n) :
    (padTo p n).length = n ∧ (∀ x ∈ padTo p n, x < n) ∧ ∀ i, eval (padTo p n) i = eval p i := by
  refine ⟨by simp [padTo]; omega, ?_, ?_⟩
  · intro x hx
    rcases List.mem_append.mp hx with hx | hx
    · exact hp x hx
    · rw [List.mem_range'_1] at hx; omega
  · intro i
    unfold eval padTo
    simp only [List.length_append, List.length_range']
    by_cases h1 : i < p.length
    · rw [if_pos (by omega), if_pos h1, List.getD_append _ _ _ _ h1]
    · rw [if_neg h1]
      split
      · rw [List.getD_append_right _ _ _ _ (by omega), List.getD_eq_getElem _ _ (by simp; omega)]
        simp; omega
      · rfl

/-- C24: the product of array permutations composes the maps (fixed size). -/
theorem c24_const_mul (n : Nat) (p q : List Nat) (hp : IsPerm n p) (hq : IsPerm n q) :
    ∃ r, constMul n p q = some r ∧ IsPerm n r ∧ ∀ i, eval r i = eval p (eval q i) := by
  obtain ⟨r, h1, h2, h3⟩ := mulImpl_spec n p q hp.1 hq.1 hq.2.2
  have hev : ∀ i, i < n → ∀ s, IsPerm n s → eval s i < n ∧ (∀ j, j < n → eval s i = eval s j → i = j) := by
    intro i hi s hs
    have e : ∀ i, i < n → ∃ h : i < s.length, eval s i = s[i] := fun i hi =>
      ⟨by rw [hs.1]; exact hi, by unfold eval; rw [if_pos (by rw [hs.1]; exact hi), List.getD_eq_getElem]⟩
    obtain ⟨hi', e1⟩ := e i hi
    refine ⟨by rw [e1]; exact hs.2.2 _ (List.getElem_mem _), ?_⟩
    intro j hj heq
    obtain ⟨hj', e2⟩ := e j hj
    rw [e1, e2] at heq
    exact (List.Nodup.getElem_inj_iff hs.2.1).mp heq
  have hr : ∀ i (hi : i < r.length), r[i] = eval p (eval q i) := by
    intro i hi
    rw [← h3 i (by omega)]
    unfold eval; rw [if_pos hi, List.getD_eq_getElem]
  refine ⟨r, h1, ⟨h2, ?_, ?_⟩, ?_⟩
  · rw [List.nodup_iff_injective_get]
    intro ⟨i, hi⟩ ⟨j, hj⟩ e
    simp only [List.get_eq_getElem] at e
    rw [hr i hi, hr j hj] at e
    have hi' : i < n := by omega
    have hj' : j < n := by omega
    have a := (hev _ (hev i hi' q hq).1 p hp).2 _ (hev j hj' q hq).1 e
    have b := (hev i hi' q hq).2 j hj' a
    exact Fin.ext b
  · intro x hx
    obtain ⟨i, hi, rfl⟩ := List.getElem_of_mem hx
    rw [hr i hi]
    exact (hev _ (hev i (by omega) q hq).1 p hp).1
  · intro i
    by_cases hi : i < n
    · exact h3 i hi
    · have : ∀ s : List Nat, s.length = n → eval s i = i := fun s hs => by
        unfold eval; rw [if_neg (by omega)]
      rw [this r h2, this q hq.1, this p hp.1]

/-- C24: the product of array permutations composes the maps (any two lengths). -/
theorem c24_vec_mul (n m : Nat) (p q : List Nat) (hp : IsPerm n p) (hq : IsPerm m q) :
    ∃ r, vecMul p q = some r ∧ r.length = max n m ∧ ∀ i, eval r i = eval p (eval q i) := by
  unfold vecMul
  rw [hp.1, hq.1]
  simp only
  obtain ⟨a1, a2, a3⟩ := padTo_spec p (max n m) (by rw [hp.1]; omega) (fun x hx => by have := hp.2.2 x hx; omega)
  obtain ⟨b1, b2, b3⟩ := padTo_spec q (max n m) (by rw [hq.1]; omega) (fun x hx => by have := hq.2.2 x hx; omega)
  obtain ⟨r, h1, h2, h3⟩ := mulImpl_spec (max n m) _ _ a1 b1 b2
  refine ⟨r, h1, h2, ?_⟩
  intro i
  by_cases hi : i < max n m
  · rw [h3 i hi, a3, b3]
  · rw [eval_ge (by omega), eval_ge (p := q) (by rw [hq.1]; omega), eval_ge (by rw [hp.1]; omega)]

/-- C24 is false of the code for `inverse()`: the loop body is never entered and the result is the zero array, which is not
an inverse as soon as there are two indices (both array types share this body). -/
theorem c24_inverse_false (p : List Nat) (h : 2 ≤ p.length) :
    inverse p = some (List.replicate p.length 0) ∧ constMul p.length p (List.replicate p.length 0) ≠ some (constId p.length) ∧
    vecMul p (List.replicate p.length 0) ≠ some (constId p.length) := by
  have key : ∀ (q : List Nat), q.length = p.length → mulImpl p.length q (List.replicate p.length 0) ≠ some (constId p.length) := by
    intro q hq e
    obtain ⟨r, h1, h2, h3⟩ := mulImpl_spec p.length q (List.replicate p.length 0) hq (by simp) (by
      intro x hx; rw [List.eq_of_mem_replicate hx]; omega)
    rw [h1] at e; injection e with e; subst e
    have a := h3 0 (by omega)
    have b := h3 1 (by omega)
    have e0 : ∀ i, i < p.length → eval (constId p.length) i = i := by
      intro i hi; unfold eval constId; simp only [List.length_range]
      rw [if_pos hi, List.getD_eq_getElem _ _ (by simpa using hi), List.getElem_range]
    have e1 : ∀ i, i < p.length → eval (List.replicate p.length 0) i = 0 := by
      intro i hi; unfold eval; simp only [List.length_replicate]
      rw [if_pos hi, List.getD_eq_getElem _ _ (by simpa using hi), List.getElem_replicate]
    rw [e0 0 (by omega), e1 0 (by omega)] at a
    rw [e0 1 (by omega), e1 1 (by omega)] at b
    omega
  refine ⟨by simp [inverse, inverseLoop], key p rfl, ?_⟩
  unfold vecMul
  simp only [List.length_replicate, max_self]
  have : ∀ l : List Nat, l.length = p.length → padTo l p.length = l := by
    intro l hl; unfold padTo; rw [hl]; simp
  rw [this _ rfl, this _ (by simp)]
  exact key p rfl

/-- The map of an array permutation as a self-map of `Fin n`. -/
theorem finMap (n : Nat) (p : List Nat) (hp : IsPerm n p) :
    ∃ σ : Equiv.Perm (Fin n), ∀ i : Fin n, (σ i : Nat) = eval p i := by
  have e : ∀ i (hi : i < n), eval p i = p[i]'(by rw [hp.1]; exact hi) := by
    intro i hi; unfold eval; rw [if_pos (by rw [hp.1]; exact hi), List.getD_eq_getElem]
  have hlt : ∀ i : Fin n, eval p i < n := fun i => by rw [e i i.2]; exact hp.2.2 _ (List.getElem_mem _)
  let f : Fin n → Fin n := fun i => ⟨eval p i, hlt i⟩
  have hinj : Function.Injective f := by
    intro i j h
    have h' : eval p i = eval p j := congrArg Fin.val h
    rw [e i i.2, e j j.2] at h'
    exact Fin.ext ((List.Nodup.getElem_inj_iff hp.2.1).mp h')
  exact ⟨Equiv.ofBijective f (Finite.injective_iff_bijective.mp hinj), fun i => rfl⟩

/-- C24: `ConstPermutation::order` returns the least positive `k` whose `k`-th power is the identity; the loop ends. -/
theorem c24_const_order (n : Nat) (p : List Nat) (hp : IsPerm n p) :
    ∃ k, 0 < k ∧ (∀ fuel, k ≤ fuel → constOrder fuel n p = some k) ∧
      (∀ i, (eval p)^[k] i = i) ∧ (∀ j, 0 < j → j < k → ∃ i, (eval p)^[j] i ≠ i) := by
  obtain ⟨σ, hσ⟩ := finMap n p hp
  have hiter : ∀ (j : Nat) (i : Fin n), ((σ ^ j) i : Nat) = (eval p)^[j] i := by
    intro j
    induction j with
    | zero => intro i; simp
    | succ j ih => intro i; rw [pow_succ', Equiv.Perm.mul_apply, hσ, ih, Function.iterate_succ_apply']
  have hout : ∀ (j i : Nat), n ≤ i → (eval p)^[j] i = i := by
    intro j i hi
    induction j with
    | zero => rfl
    | succ j ih => rw [Function.iterate_succ_apply', ih]; unfold eval; rw [if_neg (by rw [hp.1]; omega)]
  have hpow : ∀ j, (σ ^ j = 1) ↔ ∀ i, (eval p)^[j] i = i := by
    intro j
    constructor
    · intro h i
      by_cases hi : i < n
      · have := hiter j ⟨i, hi⟩; rw [h] at this; simpa using this.symm
      · exact hout j i (by omega)
    · intro h; ext i; rw [hiter, h]; simp
  have hex : ∃ k, 0 < k ∧ ∀ i, (eval p)^[k] i = i :=
    ⟨orderOf σ, orderOf_pos σ, (hpow _).mp (pow_orderOf_eq_one σ)⟩
  classical
  let k := Nat.find hex
  have hk := Nat.find_spec hex
  have hkmin : ∀ j, 0 < j → j < k → ¬ ∀ i, (eval p)^[j] i = i := fun j h0 h1 h2 => Nat.find_min hex h1 ⟨h0, h2⟩
  have hid : ∀ (s : List Nat), s.length = n → (s = constId n ↔ ∀ i, i < n → eval s i = i) := by
    intro s hs
    constructor
    · rintro rfl i hi
      unfold eval constId; simp only [List.length_range]
      rw [if_pos hi, List.getD_eq_getElem _ _ (by simpa using hi), List.getElem_range]
    · intro h
      apply List.ext_getElem (by simp [constId, hs])
      intro i h1 h2
      have := h i (by omega)
      unfold eval at this; rw [if_pos h1, List.getD_eq_getElem _ _ h1] at this
      rw [this]; simp [constId]
  have hloop : ∀ (fuel order : Nat) (power : List Nat), 0 < order → order ≤ k → k < fuel + order →
      IsPerm n power → (∀ i, eval power i = (eval p)^[order] i) →
      orderLoop (constMul n) p (constId n) fuel power order = some k := by
    intro fuel
    induction fuel with
    | zero => intro order _ _ _ h; omega
    | succ fuel ih =>
      intro order power h0 hle hf hpw hev
      unfold orderLoop
      by_cases ho : order = k
      · rw [if_pos, ho]
        rw [hid power hpw.1]
        intro i _; rw [hev, ho]; exact hk.2 i
      · rw [if_neg]
        · obtain ⟨r, h1, h2, h3⟩ := c24_const_mul n power p hpw hp
          rw [h1]
          apply ih (order + 1) r (by omega) (by omega) (by omega) h2
          intro i; rw [h3, hev, Function.iterate_succ_apply]
        · rw [hid power hpw.1]
          intro h
          apply hkmin order h0 (by omega)
          intro i
          by_cases hi : i < n
          · rw [← hev]; exact h i hi
          · exact hout _ _ (by omega)
  refine ⟨k, hk.1, ?_, hk.2, ?_⟩
  · intro fuel hf
    exact hloop fuel 1 p Nat.one_pos hk.1 (by omega) hp (fun i => rfl)
  · intro j h0 h1
    have := hkmin j h0 h1
    push Not at this; exact this

/-- C24 is false of the code for `VecPermutation::order`: the identity is the empty array and powers keep their length, so
the loop never ends on a non-empty array. -/
theorem c24_vec_order_false (p : List Nat) (h : p ≠ []) (fuel : Nat) : vecOrder fuel p = none := by
  have key : ∀ (fuel order : Nat) (power : List Nat), p.length ≤ power.length →
      orderLoop vecMul p vecId fuel power order = none := by
    intro fuel
    induction fuel with
    | zero => intros; rfl
    | succ fuel ih =>
      intro order power hl
      unfold orderLoop
      rw [if_neg (by rintro rfl; exact h (List.length_eq_zero_iff.mp (by simpa [vecId] using hl)))]
      cases hm : vecMul power p with
      | none => rfl
      | some r =>
        apply ih
        unfold vecMul mulImpl at hm
        have := mapM_length hm
        simp at this; omega
  exact key fuel 1 p (le_refl _)

example : IsPerm 3 [1, 2, 0] ∧ constOrder 3 3 [1, 2, 0] = some 3 ∧ constMul 3 [1, 2, 0] [0, 2, 1] = some [1, 0, 2] := by
  refine ⟨⟨rfl, by decide, by decide⟩, by decide, by decide⟩

end ArrayPerm
end Toppo
