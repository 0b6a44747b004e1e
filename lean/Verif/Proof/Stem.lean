import Verif.Proof.EdgeFlow
import Verif.Props.Subdivide
set_option linter.unusedVariables false
/-! In a graph subdivided for `n` marked points the tree does not branch before the vertex number `n - 1`. -/
namespace Toppo.EdgePath
open Toppo RawGraph GraphProps SGraph SubdivideProps Subdiv

/-- `v` has one neighbour, or three and does not cut the graph -/
def RootOK (g : RawGraph) (v : Nat) : Prop :=
  (∃ j, ∀ x, Adj g v x ↔ x = j) ∨ ((∃ a b c, a ≠ b ∧ a ≠ c ∧ b ≠ c ∧ Adj g v a ∧ Adj g v b ∧ Adj g v c) ∧ NonCut g v)

theorem good_rootOK {g : RawGraph} (h : Built g) {v : Nat} (hg : RawGraph.Good g v) : RootOK g v := by
  obtain ⟨hv, hg⟩ := hg
  obtain ⟨l, -, l2, l3, l4⟩ := (c52_adjacent_vertices h v).1 hv
  simp only [edge_iff h] at l3
  rcases hg with hd | ⟨⟨d, hd, hd2⟩, hn⟩
  · left
    rw [l4] at hd
    injection hd with hd
    obtain ⟨j, hj⟩ := List.length_eq_one_iff.mp hd
    refine ⟨j, fun x => ?_⟩
    rw [← l3, hj]; simp
  · right
    refine ⟨?_, hn⟩
    rw [l4] at hd2
    injection hd2 with hd2
    match l, l2, l3, hd2 with
    | [], _, _, h => simp at h; omega
    | [_], _, _, h => simp at h; omega
    | [_, _], _, _, h => simp at h; omega
    | a :: b :: c :: l, l2, l3, _ =>
      simp only [List.pairwise_cons] at l2
      have h1 := l2.1 b (by simp)
      have h2 := l2.1 c (by simp)
      have h3 := l2.2.1 c (by simp)
      exact ⟨a, b, c, by omega, by omega, by omega, (l3 a).mp (by simp), (l3 b).mp (by simp), (l3 c).mp (by simp)⟩

theorem RootOK.transfer {g g' : RawGraph} {p : Nat → Nat} (hp : ∀ y, ∃ x, p x = y) (hinj : Function.Injective p) (hlt : ∀ x, p x < g'.n → x < g.n)
    (ha : ∀ a b, Adj g' (p a) (p b) ↔ Adj g a b) {v : Nat} (h : RootOK g v) : RootOK g' (p v) := by
  rcases h with ⟨j, hj⟩ | ⟨⟨a, b, c, h1, h2, h3, h4, h5, h6⟩, hn⟩
  · left
    refine ⟨p j, fun x => ?_⟩
    obtain ⟨x, rfl⟩ := hp x
    rw [ha, hj, hinj.eq_iff]
  · right
    refine ⟨⟨p a, p b, p c, hinj.ne h1, hinj.ne h2, hinj.ne h3, (ha _ _).mpr h4, (ha _ _).mpr h5, (ha _ _).mpr h6⟩, ?_⟩
    intro a b ha' hb' hav hbv
    obtain ⟨a, rfl⟩ := hp a
    obtain ⟨b, rfl⟩ := hp b
    have := hn a b (hlt a ha') (hlt b hb') (fun e => hav (by rw [e])) (fun e => hbv (by rw [e]))
    clear hb' hbv
    induction this with
    | refl => exact .refl
    | tail _ h2 ih => exact ih.tail ⟨(ha _ _).mpr h2.1, fun e => h2.2.1 (hinj e), fun e => h2.2.2 (hinj e)⟩

/-- the root of a depth-first tree which does not cut the graph has one child -/
theorem root_child {g : RawGraph} (h : TreeGraph g) (hr : RootOK g 0) {y : Nat} (hy : Parent g 0 y) : y = 1 := by
  have hyn := parent_lt h.built hy
  have hy0 := hy.1
  have h1n : 1 < g.n := by omega
  have hp1 : Parent g 0 1 := by
    obtain ⟨p, hp, -⟩ := h.dfs.parent 1 (by omega) h1n
    have := hp.1
    obtain rfl : p = 0 := by omega
    exact hp
  have hadj : ∀ {x z}, Parent g x z → Adj g x z := fun hp => ((par_iff' h.built h.chosen).mpr hp).2.1
  rcases hr with ⟨j, hj⟩ | ⟨-, hn⟩
  · rw [(hj y).mp (hadj hy), (hj 1).mp (hadj hp1)]
  · have hpath := hn 1 y h1n hyn (by omega) (by omega)
    have hD : ∀ z, Relation.ReflTransGen (fun x y => Adj g x y ∧ x ≠ 0 ∧ y ≠ 0) 1 z → Relation.ReflTransGen (Parent g) 1 z := by
      intro z hz
      induction hz with
      | refl => exact .refl
      | @tail b c _ hbc ih =>
        obtain ⟨hbc, hb0, hc0⟩ := hbc
        have hlt := hbc.lt
        rcases Nat.lt_trichotomy b c with hh | hh | hh
        · exact ih.trans (h.dfs.normal b c hh ((edge_iff h.built _ _).mpr hbc))
        · exact absurd hh hlt.2.2
        · -- `c` is an ancestor of `b`, and so is `1`
          exact h.dfs.consecutive 1 b c ih (by omega) (by omega)
    have hDy := hD y hpath
    rcases Relation.ReflTransGen.cases_tail hDy with e | ⟨z, hz, hzy⟩
    · exact e
    · have := Parent.unique h hzy hy
      subst this
      exfalso
      have hmono : ∀ a b, Relation.ReflTransGen (Parent g) a b → a ≤ b := by
        intro a b hab
        induction hab with
        | refl => exact le_rfl
        | tail _ hp ih => have := hp.1; omega
      have := hmono 1 _ hz
      omega

variable {α : Type} [DecidableEq α]

theorem point_inj {n : Nat} (hn : 2 ≤ n) {a b a' b' : α} {k l k' l' : Nat} {u : SVertex α} (h : IsPoint n a b k l u) (h1 : 1 ≤ l) (h2 : l ≤ innerCount n a b)
    (h' : IsPoint n a' b' k' l' u) : a' = a ∧ b' = b ∧ k' = k ∧ l' = l := by
  rcases h with ⟨e, -⟩ | ⟨e, -⟩ | ⟨-, -, q, e, e2, e3⟩
  · omega
  · omega
  · subst e
    rcases h' with ⟨-, f⟩ | ⟨-, f⟩ | ⟨-, -, q', f, f2, f3⟩
    · cases f
    · cases f
    · injection f with f4 f5 f6 f7
      subst f4; subst f5; subst f6; subst f7
      refine ⟨rfl, rfl, rfl, ?_⟩
      rw [e3] at f3
      have hd : (if a = b then (n : ℚ) + 1 else (n : ℚ) - 1) ≠ 0 := by
        have : (2 : ℚ) ≤ n := by exact_mod_cast hn
        split <;> intro hh <;> linarith
      have := (div_left_inj' hd).mp f3
      exact_mod_cast this.symm

theorem point_eq {n : Nat} {a b : α} {k l : Nat} {u v : SVertex α} (h : IsPoint n a b k l u) (h' : IsPoint n a b k l v) : u = v := by
  rcases h with ⟨e, f⟩ | ⟨e, f⟩ | ⟨e1, e2, q, f, e4, e5⟩ <;> rcases h' with ⟨e', f'⟩ | ⟨e', f'⟩ | ⟨e1', e2', q', f', e4', e5'⟩ <;>
    first | omega | (subst f; subst f'; rfl) | skip
  subst f; subst f'
  rw [RationalProps.canonical_ext e4 e4' (e5.trans e5'.symm)]

/-- the point number `j`, counted from one of the ends -/
def OPoint (n : Nat) (a b : α) (k : Nat) (r : Bool) (j : Nat) (v : SVertex α) : Prop :=
  IsPoint n a b k (if r then innerCount n a b + 1 - j else j) v

theorem nbr {edges : List (α × α)} {n : Nat} (hn : 2 ≤ n) {a b : α} {k : Nat} {r : Bool} {j : Nat} {u v : SVertex α} (h : OPoint n a b k r j u)
    (h1 : 1 ≤ j) (h2 : j ≤ innerCount n a b) (hc : Consecutive edges n u v ∨ Consecutive edges n v u) :
    OPoint n a b k r (j - 1) v ∨ OPoint n a b k r (j + 1) v := by
  unfold OPoint at h ⊢
  rcases hc with ⟨a', b', k', l', s1, s2, s3, s4⟩ | ⟨a', b', k', l', s1, s2, s3, s4⟩
  · obtain ⟨rfl, rfl, rfl, e⟩ := point_inj hn h (by split <;> omega) (by split <;> omega) s3
    cases r with
    | false => right; simpa using (show IsPoint n a' b' k' (j + 1) v by rw [← show l' = j by simpa using e]; exact s4)
    | true =>
      left
      have e : l' = innerCount n a' b' + 1 - j := by simpa using e
      have : innerCount n a' b' + 1 - (j - 1) = l' + 1 := by omega
      simp only [if_true, this]; exact s4
  · obtain ⟨rfl, rfl, rfl, e⟩ := point_inj hn h (by split <;> omega) (by split <;> omega) s4
    cases r with
    | false =>
      left
      have e : l' + 1 = j := by simpa using e
      simpa using (show IsPoint n a' b' k' (j - 1) v by rw [← e]; exact s3)
    | true =>
      right
      have e : l' + 1 = innerCount n a' b' + 1 - j := by simpa using e
      have : innerCount n a' b' + 1 - (j + 1) = l' := by omega
      simp only [if_true, this]; exact s3

theorem stem_of_points {edges : List (α × α)} {n : Nat} (hn : 2 ≤ n) (hn' : n + 1 < 2 ^ 63) {g : SGraph α} (hT : TreeGraph g.data) (hroot : RootOK g.data 0)
    (hnd : g.verts.Nodup) (hlen : g.data.n = g.verts.length)
    (hmem : ∀ v, v ∈ g.verts ↔ ∃ a b k l, IsStrand edges a b k ∧ l ≤ innerCount n a b + 1 ∧ IsPoint n a b k l v)
    (hadj : ∀ x y, Edge g.data x y ↔ ∃ u v, g.verts[x]? = some u ∧ g.verts[y]? = some v ∧ (Consecutive edges n u v ∨ Consecutive edges n v u)) :
    Stem g.data n ∧ ∀ x y, x < y → y + 1 < n → Edge g.data x y → y = x + 1 := by
  have hpa : ∀ {x z}, Parent g.data x z → Edge g.data x z := fun hp => (edge_iff hT.built _ _).mpr ((par_iff' hT.built hT.chosen).mpr hp).2.1
  have hvert : ∀ x, x < g.data.n → ∃ u, g.verts[x]? = some u := fun x hx => ⟨_, List.getElem?_eq_getElem (by omega)⟩
  -- the root is an end of the strands
  have hend : ∀ {a b : α} {k l : Nat} {u : SVertex α}, g.verts[0]? = some u → IsStrand edges a b k → IsPoint n a b k l u → 1 ≤ l → l ≤ innerCount n a b → False := by
    intro a b k l u h0 hs hp h1 h2
    have hex : ∀ l', l' ≤ innerCount n a b + 1 → ∃ (x : Nat) (v : SVertex α), g.verts[x]? = some v ∧ IsPoint n a b k l' v := by
      intro l' hl'
      have : ∃ v, IsPoint n a b k l' v := by
        have hd : 0 < (if a = b then n + 1 else n - 1) := by split <;> omega
        by_cases z0 : l' = 0
        · exact ⟨_, Or.inl ⟨z0, rfl⟩⟩
        · by_cases z1 : l' = innerCount n a b + 1
          · exact ⟨_, Or.inr (Or.inl ⟨z1, rfl⟩)⟩
          · have hin : innerCount n a b ≤ n := by unfold innerCount; split <;> omega
            obtain ⟨c1, c2⟩ := frac_val (l := l') hd (by omega) (by split <;> omega)
            refine ⟨_, Or.inr (Or.inr ⟨by omega, by omega, frac l' (if a = b then n + 1 else n - 1), rfl, c1, ?_⟩)⟩
            rw [c2]
            split
            · push_cast; rfl
            · rw [Nat.cast_sub (by omega)]; push_cast; rfl
      obtain ⟨v, hv⟩ := this
      obtain ⟨x, hx⟩ := List.mem_iff_getElem?.mp ((hmem v).mpr ⟨a, b, k, l', hs, hl', hv⟩)
      exact ⟨x, v, hx, hv⟩
    have hO : OPoint n a b k false l u := by unfold OPoint; simpa using hp
    rcases hroot with ⟨j, hj⟩ | ⟨⟨x, y, z, d1, d2, d3, e1, e2, e3⟩, -⟩
    · obtain ⟨x, v, hx, hv⟩ := hex (l - 1) (by omega)
      obtain ⟨y, w, hy, hw⟩ := hex (l + 1) (by omega)
      have k1 : x = j := by
        rw [← hj, ← edge_iff hT.built, hadj]
        exact ⟨u, v, h0, hx, Or.inr ⟨a, b, k, l - 1, hs, by omega, hv, by rwa [Nat.sub_add_cancel h1]⟩⟩
      have k2 : y = j := by
        rw [← hj, ← edge_iff hT.built, hadj]
        exact ⟨u, w, h0, hy, Or.inl ⟨a, b, k, l, hs, by omega, hp, hw⟩⟩
      rw [k1] at hx
      rw [k2, hx] at hy
      injection hy with hy
      subst hy
      by_cases hl : 1 ≤ l - 1
      · have := (point_inj hn hv hl (by omega) hw).2.2.2; omega
      · by_cases hl' : l + 1 ≤ innerCount n a b
        · have := (point_inj hn hw (by omega) hl' hv).2.2.2; omega
        · have e : a = b := by
            rcases hv with ⟨-, f⟩ | ⟨f, -⟩ | ⟨f, -⟩
            · rcases hw with ⟨f', -⟩ | ⟨-, f'⟩ | ⟨-, f', -⟩
              · omega
              · rw [f] at f'; injection f'
              · omega
            · omega
            · omega
          have : innerCount n a b = n := by unfold innerCount; rw [if_pos e]
          omega
    · have key : ∀ x, Adj g.data 0 x → ∃ v, g.verts[x]? = some v ∧ (IsPoint n a b k (l - 1) v ∨ IsPoint n a b k (l + 1) v) := by
        intro x hx
        rw [← edge_iff hT.built, hadj] at hx
        obtain ⟨u', v, f1, f2, f3⟩ := hx
        rw [h0] at f1; injection f1 with f1; subst f1
        refine ⟨v, f2, ?_⟩
        have := nbr hn hO h1 h2 f3
        unfold OPoint at this
        simpa using this
      obtain ⟨vx, x1, x2⟩ := key x e1
      obtain ⟨vy, y1, y2⟩ := key y e2
      obtain ⟨vz, z1, z2⟩ := key z e3
      have same : ∀ {i i' : Nat} {w w' : SVertex α} {l'}, g.verts[i]? = some w → g.verts[i']? = some w' → IsPoint n a b k l' w → IsPoint n a b k l' w' → i = i' := by
        intro i i' w w' l' f1 f2 f3 f4
        rw [point_eq f3 f4] at f1
        exact getElem?_inj_of_nodup hnd f1 f2
      rcases x2 with x2 | x2 <;> rcases y2 with y2 | y2 <;> rcases z2 with z2 | z2
      · exact d1 (same x1 y1 x2 y2)
      · exact d1 (same x1 y1 x2 y2)
      · exact d2 (same x1 z1 x2 z2)
      · exact d3 (same y1 z1 y2 z2)
      · exact d3 (same y1 z1 y2 z2)
      · exact d2 (same x1 z1 x2 z2)
      · exact d1 (same x1 y1 x2 y2)
      · exact d1 (same x1 y1 x2 y2)
  have hpos : 0 < g.data.n := hT.built.wf.pos
  by_cases h1n : g.data.n ≤ 1
  · refine ⟨?_, fun x y h1 h2 h3 => absurd ((edge_iff hT.built _ _).mp h3).lt (by omega)⟩
    intro x y hx hp
    have := parent_lt hT.built hp
    have := hp.1
    omega
  have hp1 : Parent g.data 0 1 := by
    obtain ⟨p, hp, -⟩ := hT.dfs.parent 1 (by omega) (by omega)
    have := hp.1
    obtain rfl : p = 0 := by omega
    exact hp
  obtain ⟨u0, v1, g0, g1, g2⟩ := (hadj _ _).mp (hpa hp1)
  -- the strand from `0` through `1`
  obtain ⟨a, b, k, r, hs, o0, o1⟩ : ∃ a b k r, IsStrand edges a b k ∧ OPoint n a b k r 0 u0 ∧ OPoint n a b k r 1 v1 := by
    rcases g2 with ⟨a, b, k, l, s1, s2, s3, s4⟩ | ⟨a, b, k, l, s1, s2, s3, s4⟩
    · have hl : l = 0 := by
        by_contra hl
        exact hend g0 s1 s3 (by omega) s2
      subst hl
      exact ⟨a, b, k, false, s1, by unfold OPoint; simpa using s3, by unfold OPoint; simpa using s4⟩
    · have hl : l = innerCount n a b := by
        by_contra hl
        exact hend g0 s1 s4 (by omega) (by omega)
      subst hl
      exact ⟨a, b, k, true, s1, by unfold OPoint; simpa using s4, by unfold OPoint; simpa using s3⟩
  have hin : n - 2 ≤ innerCount n a b := by unfold innerCount; split <;> omega
  have hparent : ∀ x, x + 1 < g.data.n → (∀ z, z < x → ∀ y, Parent g.data z y → y = z + 1) → Parent g.data x (x + 1) := by
    intro x hx hz
    obtain ⟨p, hp, -⟩ := hT.dfs.parent (x + 1) (by omega) hx
    have hlt := hp.1
    by_cases hpx : p = x
    · rw [← hpx]; rw [hpx]; rwa [hpx] at hp
    · have := hz p (by omega) _ hp
      omega
  have claim : ∀ x, x ≤ n - 2 → x < g.data.n → (∃ v, g.verts[x]? = some v ∧ OPoint n a b k r x v) ∧ ∀ y, Parent g.data x y → y = x + 1 := by
    intro x
    induction x using Nat.strong_induction_on with
    | _ x ih =>
      intro hx hxn
      match x, ih, hx, hxn with
      | 0, _, _, _ => exact ⟨⟨u0, g0, o0⟩, fun y hy => root_child hT hroot hy⟩
      | x + 1, ih, hx, hxn =>
        have hz : ∀ z, z < x + 1 → ∀ y, Parent g.data z y → y = z + 1 := fun z hz => (ih z hz (by omega) (by omega)).2
        have hpx := hparent x hxn (fun z h => hz z (by omega))
        obtain ⟨ux, ux1, ux2⟩ := (ih x (by omega) (by omega) (by omega)).1
        have hpt : ∃ v, g.verts[x + 1]? = some v ∧ OPoint n a b k r (x + 1) v := by
          by_cases hx0 : x = 0
          · subst hx0; exact ⟨v1, g1, o1⟩
          · obtain ⟨u', v', f1, f2, f3⟩ := (hadj _ _).mp (hpa hpx)
            rw [ux1] at f1; injection f1 with f1; subst f1
            refine ⟨v', f2, ?_⟩
            rcases nbr hn ux2 (by omega) (by omega) f3 with f4 | f4
            · exfalso
              obtain ⟨w, w1, w2⟩ := (ih (x - 1) (by omega) (by omega) (by omega)).1
              unfold OPoint at w2 f4
              rw [point_eq w2 f4] at w1
              have := getElem?_inj_of_nodup hnd w1 f2
              omega
            · exact f4
        refine ⟨hpt, ?_⟩
        obtain ⟨w, w1, w2⟩ := hpt
        have hnx : ∀ y, x + 1 < y → Edge g.data (x + 1) y → ∃ v, g.verts[y]? = some v ∧ OPoint n a b k r (x + 2) v := by
          intro y hy he
          obtain ⟨u', v', f1, f2, f3⟩ := (hadj _ _).mp he
          rw [w1] at f1; injection f1 with f1; subst f1
          refine ⟨v', f2, ?_⟩
          rcases nbr hn w2 (by omega) (by omega) f3 with f4 | f4
          · exfalso
            rw [Nat.add_sub_cancel] at f4
            unfold OPoint at ux2 f4
            rw [point_eq ux2 f4] at ux1
            have := getElem?_inj_of_nodup hnd ux1 f2
            omega
          · exact f4
        intro y hy
        have hyn := parent_lt hT.built hy
        have hlt := hy.1
        obtain ⟨v, v1', v2⟩ := hnx y hlt (hpa hy)
        have hp2 := hparent (x + 1) (by omega) hz
        obtain ⟨v', v1'', v2'⟩ := hnx (x + 2) (by omega) (hpa hp2)
        unfold OPoint at v2 v2'
        rw [point_eq v2 v2'] at v1'
        exact getElem?_inj_of_nodup hnd v1' v1''
  refine ⟨?_, ?_⟩
  · intro x y hx hp
    have := parent_lt hT.built hp
    have := hp.1
    exact (claim x (by omega) (by omega)).2 y hp
  · intro x y hxy hy he
    have hlt := ((edge_iff hT.built _ _).mp he).lt
    obtain ⟨vx, a1, a2⟩ := (claim x (by omega) (by omega)).1
    obtain ⟨vy, b1, b2⟩ := (claim y (by omega) (by omega)).1
    obtain ⟨u', v', f1, f2, f3⟩ := (hadj _ _).mp he
    rw [a1] at f1; injection f1 with f1; subst f1
    rw [b1] at f2; injection f2 with f2; subst f2
    rcases nbr hn b2 (by omega) (by omega) f3.symm with f4 | f4
    · obtain ⟨w, w1, w2⟩ := (claim (y - 1) (by omega) (by omega)).1
      unfold OPoint at w2 f4
      rw [point_eq w2 f4] at w1
      have := getElem?_inj_of_nodup hnd w1 a1
      omega
    · exfalso
      unfold OPoint at a2 f4
      by_cases hx0 : 1 ≤ x
      · have := (point_inj hn a2 (by split <;> omega) (by split <;> omega) f4).2.2.2
        split at this <;> omega
      · by_cases hy1 : y + 1 ≤ innerCount n a b
        · have := (point_inj hn f4 (by split <;> omega) (by split <;> omega) a2).2.2.2
          split at this <;> omega
        · have e : a = b := by
            have hx : x = 0 := by omega
            have hyy : y = innerCount n a b := by omega
            subst hx
            cases r with
            | false =>
              simp only [Bool.false_eq_true, if_false] at a2 f4
              rcases a2 with ⟨-, f⟩ | ⟨f, -⟩ | ⟨f, -⟩
              · rcases f4 with ⟨f', -⟩ | ⟨-, f'⟩ | ⟨-, f', -⟩
                · omega
                · rw [f] at f'; injection f'
                · omega
              · omega
              · omega
            | true =>
              simp only [if_true] at a2 f4
              rcases a2 with ⟨f, -⟩ | ⟨-, f⟩ | ⟨-, f, -⟩
              · omega
              · rcases f4 with ⟨-, f'⟩ | ⟨f', -⟩ | ⟨f', -⟩
                · rw [f] at f'; injection f' with f'; exact f'.symm
                · omega
                · omega
              · omega
          have : innerCount n a b = n := by unfold innerCount; rw [if_pos e]
          omega

theorem subdivide_root (edges : List (α × α)) (hc : ConnectedInput edges) (m : MGraph α) (hm : MGraph.ofEdges edges = some m) (points : Nat)
    (hp : points + 1 < 2 ^ 63) (g : SGraph α) (hg : SGraph.subdivide m points = some g) : RootOK g.data 0 := by
  obtain ⟨lab, V, g0, hV, hlab, p1, p2, p3, p4, p5⟩ := preTree_spec edges hc.1 m hm points hp
  have hn2 : 2 ≤ max points 2 := by omega
  have hconn := preTree_connected edges hc hn2 lab V g0 hV hlab p2 p3 p4
  have hb0 : Built g0.data := built_iff.mpr p2.wf
  rcases chooseMaximalTree_spec p2.wf hconn with ⟨v, g1, p, k1, k2, k3, k4, k5, k6, k7, k8, k9, k10, k11⟩ | ⟨_, he⟩
  swap
  · exfalso
    unfold SGraph.subdivide at hg
    rw [p1] at hg
    simp [he] at hg
  obtain ⟨w, w1, w2, w3⟩ := Permutation.actionBy_spec g0.verts k6 (by
    intro x hx
    by_contra hh
    exact hx (k7 x (by omega)))
  have hgeq : g = { g0 with data := g1, verts := w } := by
    unfold SGraph.subdivide at hg
    rw [p1] at hg
    simp only [Option.bind_eq_bind, Option.bind_some, k2, w1] at hg
    exact (Option.some.inj hg).symm
  subst hgeq
  show RootOK g1 0
  rw [← k9]
  refine RootOK.transfer (p := Permutation.map p) ?_ k6.injective ?_ k8 (good_rootOK hb0 k1)
  · intro y
    by_cases hy : y < g0.data.n
    · obtain ⟨x, _, e⟩ := map_surj k6 k7 hy
      exact ⟨x, e⟩
    · exact ⟨y, k7 y (by omega)⟩
  · intro x hx
    by_contra hh
    rw [k7 x (by omega)] at hx
    omega

theorem subdivide_tree (edges : List (α × α)) (hc : ConnectedInput edges) (m : MGraph α) (hm : MGraph.ofEdges edges = some m) (points : Nat)
    (hp : points + 1 < 2 ^ 63) (g : SGraph α) (hg : SGraph.subdivide m points = some g) : TreeGraph g.data ∧ Stem g.data (max points 2) := by
  obtain ⟨k1, k2, -, -, k5, k6, k7, k8, k9, k10⟩ := c57_subdivision edges hc m hm points hp g hg
  have hT : TreeGraph g.data := ⟨k7, k8, k10⟩
  exact ⟨hT, (stem_of_points (by omega) (by omega) hT (subdivide_root edges hc m hm points hp g hg) k1 k2 k5 k6).1⟩

theorem subdivide_stem_edges (edges : List (α × α)) (hc : ConnectedInput edges) (m : MGraph α) (hm : MGraph.ofEdges edges = some m) (points : Nat)
    (hp : points + 1 < 2 ^ 63) (g : SGraph α) (hg : SGraph.subdivide m points = some g) : ∀ x y, x < y → y + 1 < max points 2 → Edge g.data x y → y = x + 1 := by
  obtain ⟨k1, k2, -, -, k5, k6, k7, k8, k9, k10⟩ := c57_subdivision edges hc m hm points hp g hg
  have hT : TreeGraph g.data := ⟨k7, k8, k10⟩
  exact (stem_of_points (by omega) (by omega) hT (subdivide_root edges hc m hm points hp g hg) k1 k2 k5 k6).2

end Toppo.EdgePath
