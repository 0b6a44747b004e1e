import Verif.Proof.EdgePath
import Mathlib.Data.List.Chain
import Mathlib.Data.List.GetD
set_option linter.unusedVariables false
set_option linter.unusedSimpArgs false
/-! The reduction of edge paths. -/
namespace Toppo.EdgePath

theorem commute_iff {v : List Move} {w : Move} : commute v w = true ↔ ∀ t ∈ v, Disj w t := by
  unfold commute
  rw [List.all_eq_true]
  constructor
  · intro h t ht
    have := h t ht
    simp only [Bool.not_eq_true', Bool.or_eq_false_iff, beq_eq_false_iff_ne, ne_eq] at this
    exact ⟨fun e => this.2 e.symm, fun e => this.1.1.2 e.symm, fun e => this.1.1.1 e.symm, fun e => this.1.2 e.symm⟩
  · intro h t ht
    have := h t ht
    simp only [Bool.not_eq_true', Bool.or_eq_false_iff, beq_eq_false_iff_ne, ne_eq]
    exact ⟨⟨⟨fun e => this.2.2.1 e.symm, fun e => this.2.1 e.symm⟩, fun e => this.2.2.2 e.symm⟩, fun e => this.1 e.symm⟩

theorem composable_eq (v : List Move) (w : Move) : composable v w = commute v w := by
  unfold composable commute
  congr 1
  funext i
  cases h1 : (i.1 == w.2) <;> cases h2 : (i.2 == w.1) <;> simp

theorem cancelable_iff {v w : Move} : cancelable v w = true ↔ v = rev w := by
  unfold cancelable rev
  simp only [Bool.and_eq_true, beq_iff_eq]
  constructor
  · rintro ⟨h1, h2⟩; exact Prod.ext h2 h1
  · rintro rfl; exact ⟨rfl, rfl⟩

theorem lastBlocking_spec (out : Path) (s : Move) (n : Nat) (hn : n ≤ out.length) :
    match lastBlocking out s n with
    | none => ∀ k, k < n → commute (out.getD k []) s = true
    | some i => i < n ∧ commute (out.getD i []) s = false ∧ ∀ k, i < k → k < n → commute (out.getD k []) s = true := by
  induction n with
  | zero => simp [lastBlocking]
  | succ n ih =>
    unfold lastBlocking
    by_cases h : commute (out.getD n []) s = true
    · simp only [h, Bool.not_true, Bool.false_eq_true, if_false]
      have := ih (by omega)
      split
      · rename_i e
        rw [e] at this
        intro k hk
        by_cases hk' : k = n
        · rw [hk']; exact h
        · exact this k (by omega)
      · rename_i i e
        rw [e] at this
        refine ⟨by omega, this.2.1, ?_⟩
        intro k hk1 hk2
        by_cases hk' : k = n
        · rw [hk']; exact h
        · exact this.2.2 k hk1 (by omega)
    · rw [Bool.not_eq_true] at h
      simp only [h, Bool.not_false, if_true]
      exact ⟨by omega, trivial, fun k h1 h2 => by omega⟩

theorem lb_none {out : Path} {s : Move} (h : lastBlocking out s out.length = none) : ∀ L ∈ out, commute L s = true := by
  have := lastBlocking_spec out s out.length le_rfl
  rw [h] at this
  intro L hL
  obtain ⟨k, hk, rfl⟩ := List.mem_iff_getElem.mp hL
  have h2 := this k hk
  rwa [List.getD_eq_getElem _ _ hk] at h2

theorem lb_some {out : Path} {s : Move} {i : Nat} (h : lastBlocking out s out.length = some i) :
    ∃ P L Q, out = P ++ L :: Q ∧ P.length = i ∧ commute L s = false ∧ ∀ M ∈ Q, commute M s = true := by
  have := lastBlocking_spec out s out.length le_rfl
  rw [h] at this
  obtain ⟨h1, h2, h3⟩ := this
  refine ⟨out.take i, out[i], out.drop (i + 1), ?_, by simp; omega, ?_, ?_⟩
  · rw [List.getElem_cons_drop, List.take_append_drop]
  · rwa [List.getD_eq_getElem _ _ h1] at h2
  · intro M hM
    obtain ⟨k, hk, rfl⟩ := List.mem_iff_getElem.mp hM
    rw [List.length_drop] at hk
    have := h3 (i + 1 + k) (by omega) (by omega)
    rw [List.getD_eq_getElem _ _ (by omega)] at this
    rwa [List.getElem_drop]

/-- what the body of the loop does -/
inductive StepCase (out : Path) (s : Move) : Path → Bool → Prop
  | cancel (P : Path) (L1 L2 : List Move) (Q : Path) : out = P ++ (L1 ++ rev s :: L2) :: Q → (∀ M ∈ Q, commute M s = true) → L1 ++ L2 ≠ [] →
      StepCase out s (P ++ (L1 ++ L2) :: Q) true
  | cancel' (P : Path) (Q : Path) : out = P ++ [rev s] :: Q → (∀ M ∈ Q, commute M s = true) → StepCase out s (P ++ Q) true
  | new (P : Path) (L : List Move) : out = P ++ [L] → commute L s = false → rev s ∉ L → StepCase out s (P ++ [L, [s]]) false
  | next (P : Path) (L M : List Move) (Q : Path) : out = P ++ L :: M :: Q → commute L s = false → rev s ∉ L → commute M s = true →
      (∀ N ∈ Q, commute N s = true) → StepCase out s (P ++ L :: (M ++ [s]) :: Q) false
  | first (L : List Move) (Q : Path) : out = L :: Q → commute L s = true → (∀ N ∈ Q, commute N s = true) → StepCase out s ((L ++ [s]) :: Q) false

theorem step_case (out : Path) (s : Move) (hne : out ≠ []) : ∃ out' c, step out s = some (out', c) ∧ StepCase out s out' c := by
  unfold step
  cases h : lastBlocking out s out.length with
  | none =>
    have := lb_none h
    cases out with
    | nil => exact absurd rfl hne
    | cons l ls =>
      simp only
      exact ⟨_, _, rfl, .first l ls rfl (this l (List.mem_cons_self ..)) (fun N hN => this N (List.mem_cons_of_mem _ hN))⟩
  | some i =>
    obtain ⟨P, L, Q, rfl, rfl, h1, h2⟩ := lb_some h
    have e1 : (P ++ L :: Q).getD P.length [] = L := by simp [List.getD_eq_getElem?_getD]
    simp only [e1, composable_eq, h1, Bool.false_eq_true, if_false]
    cases hf : (List.range L.length).find? (fun j => cancelable (L.getD j (0, 0)) s) with
    | some j =>
      have hj := List.find?_some hf
      have hj' := List.mem_range.mp (List.mem_of_find?_eq_some hf)
      simp only [List.getD_eq_getElem _ _ hj'] at hj
      rw [cancelable_iff] at hj
      have e2 : L = L.take j ++ rev s :: L.drop (j + 1) := by
        conv_lhs => rw [← List.take_append_drop j L, ← List.getElem_cons_drop hj', hj]
      have e3 : L.eraseIdx j = L.take j ++ L.drop (j + 1) := List.eraseIdx_eq_take_drop_succ L j
      simp only
      by_cases he : L.eraseIdx j = []
      · have : (L.eraseIdx j).isEmpty = true := by rw [he]; rfl
        rw [if_pos this]
        refine ⟨_, _, rfl, ?_⟩
        rw [e3, List.append_eq_nil_iff] at he
        rw [he.1, he.2] at e2
        have e4 : (P ++ L :: Q).eraseIdx P.length = P ++ Q := by
          rw [List.eraseIdx_append_of_length_le le_rfl]; simp
        rw [e4]
        exact .cancel' P Q (by rw [e2]; rfl) h2
      · have : ¬ (L.eraseIdx j).isEmpty = true := by rw [List.isEmpty_iff]; exact he
        rw [if_neg this]
        refine ⟨_, _, rfl, ?_⟩
        have e4 : (P ++ L :: Q).set P.length (L.eraseIdx j) = P ++ L.eraseIdx j :: Q := by
          rw [List.set_append_right _ _ le_rfl]; simp
        rw [e4, e3]
        rw [e3] at he
        exact .cancel P _ _ Q (by rw [← e2]) h2 he
    | none =>
      have hno : rev s ∉ L := by
        intro hm
        obtain ⟨k, hk, e⟩ := List.mem_iff_getElem.mp hm
        have := List.find?_eq_none.mp hf k (List.mem_range.mpr hk)
        simp only [List.getD_eq_getElem _ _ hk] at this
        exact this (cancelable_iff.mpr e)
      simp only
      cases Q with
      | nil =>
        rw [if_pos (by simp)]
        refine ⟨_, _, rfl, ?_⟩
        have : P ++ [L] ++ [[s]] = P ++ [L, [s]] := by simp
        rw [this]
        exact .new P L rfl h1 hno
      | cons M Q =>
        rw [if_neg (by simp)]
        refine ⟨_, _, rfl, ?_⟩
        have e4 : (P ++ L :: M :: Q).getD (P.length + 1) [] = M := by simp [List.getD_eq_getElem?_getD]
        have e5 : (P ++ L :: M :: Q).set (P.length + 1) (M ++ [s]) = P ++ L :: (M ++ [s]) :: Q := by
          rw [List.set_append_right _ _ (by omega)]; simp
        rw [e4, e5]
        exact .next P L M Q rfl h1 hno (h2 M (List.mem_cons_self ..)) (fun N hN => h2 N (List.mem_cons_of_mem _ hN))

theorem step_none {out : Path} {s : Move} : step out s = none ↔ out = [] := by
  constructor
  · intro h
    by_contra hne
    obtain ⟨o, c, h1, -⟩ := step_case out s hne
    rw [h] at h1; cases h1
  · rintro rfl; rfl

/-- the state of the loop after the motions `x` -/
structure St (out : Path) (x : List Move) : Prop where
  layer : ∀ L ∈ out, L.Pairwise Disj
  pile : pile out.flatten = run empty x
  red : Red x out.flatten
  ne : (out = [[]] ∧ x = []) ∨ (x ≠ [] ∧ ∀ L ∈ out, L ≠ [])

theorem St.eqv {out : Path} {x : List Move} (h : St out x) : Eqv out.flatten x := h.red.eqv.symm

theorem st_start : St [[]] [] := ⟨by simp, rfl, .refl _, Or.inl ⟨rfl, rfl⟩⟩

/-- in every layer but the first, every motion has a common vertex with some motion of the layer before -/
def Foata (out : Path) : Prop := out.IsChain (fun L M => ∀ s ∈ M, commute L s = false)

theorem disj_flatten {Q : Path} {s : Move} (h : ∀ M ∈ Q, commute M s = true) : ∀ t ∈ Q.flatten, Disj s t := by
  intro t ht
  obtain ⟨M, hM, hm⟩ := List.mem_flatten.mp ht
  exact commute_iff.mp (h M hM) t hm

theorem not_top {A L B : List Move} {s : Move} (hL : commute L s = false) (hr : rev s ∉ L) (hB : ∀ t ∈ B, Disj s t) : ¬ Top (rev s) (pile (A ++ L ++ B)) := by
  intro htop
  have : ¬ ∀ t ∈ L, Disj s t := by rw [← commute_iff, hL]; simp
  push Not at this
  obtain ⟨t, ht, hd⟩ := this
  have : ∃ v, touches s v ∧ touches t v := by
    by_contra hno
    push Not at hno
    exact hd (disj_of_touches hno)
  obtain ⟨v, hv1, hv2⟩ := this
  have hh : (pile (A ++ L ++ B) v).head? = some (rev s) := by
    rcases hv1 with rfl | rfl
    · exact htop.2
    · exact htop.1
  rw [pile_at, List.filter_append, List.filter_append] at hh
  have hB' : B.filter (fun s => decide (touches s v)) = [] := by
    rw [List.filter_eq_nil_iff]
    intro u hu
    simpa using not_touches (hB u hu) hv1
  rw [hB', List.append_nil, List.reverse_append] at hh
  cases hf : (L.filter (fun s => decide (touches s v))).reverse with
  | nil =>
    have := List.reverse_eq_nil_iff.mp hf
    rw [List.filter_eq_nil_iff] at this
    exact this t ht (by simpa using hv2)
  | cons y ys =>
    rw [hf] at hh
    simp only [List.cons_append, List.head?_cons, Option.some.injEq] at hh
    have : y ∈ (L.filter (fun s => decide (touches s v))).reverse := by rw [hf]; exact List.mem_cons_self ..
    rw [List.mem_reverse, hh] at this
    exact hr (List.mem_of_mem_filter this)

theorem not_top' {W : List Move} {s : Move} (h : ∀ t ∈ W, Disj s t) : ¬ Top (rev s) (pile W) := by
  intro htop
  have h1 := htop.1
  rw [pile_at] at h1
  have := List.mem_of_mem_head? (Option.mem_def.mpr h1)
  rw [List.mem_reverse, List.mem_filter] at this
  have h2 := (h _ this.1).2.2.1
  exact h2 rfl

/-- pushing a motion that commutes with everything after its place -/
theorem st_push {out out' : Path} {x : List Move} {s : Move} (h : St out x) (A B : List Move) (e1 : out.flatten = A ++ B)
    (e2 : out'.flatten = A ++ s :: B) (hB : ∀ t ∈ B, Disj s t) (ht : ¬ Top (rev s) (pile out.flatten))
    (hl : ∀ L ∈ out', L.Pairwise Disj) (hn : ∀ L ∈ out', L ≠ []) : St out' (x ++ [s]) := by
  refine ⟨hl, ?_, ?_, Or.inr ⟨by simp, hn⟩⟩
  · rw [e2, pile_across A s B hB, ← e1, run_append, ← h.pile]
    change _ = act s _
    unfold act
    rw [if_neg ht]
  · rw [e2]
    refine Red.trans ?_ (Red.across A s B hB)
    rw [← e1]
    exact h.red.append_right [s]

theorem st_cancel {out out' : Path} {x : List Move} {s : Move} (h : St out x) (A B : List Move) (e1 : out.flatten = A ++ rev s :: B)
    (e2 : out'.flatten = A ++ B) (hB : ∀ t ∈ B, Disj s t)
    (hl : ∀ L ∈ out', L.Pairwise Disj) (hn : ∀ L ∈ out', L ≠ []) : St out' (x ++ [s]) := by
  have hp := pile_across A (rev s) B (fun t ht => (hB t ht).rev_left)
  refine ⟨hl, ?_, ?_, Or.inr ⟨by simp, hn⟩⟩
  · rw [e2, run_append, ← h.pile, e1, hp]
    change _ = act s _
    unfold act
    rw [if_pos (top_push (rev s) _)]
    exact (pop_push (rev s) _).symm
  · rw [e2]
    have h1 := h.red.append_right [s]
    rw [e1] at h1
    have h2 := Red.across (A ++ [rev s]) s B hB
    have h3 := Red.cancel A (rev s) B
    simp only [List.append_assoc, List.cons_append, List.nil_append, rev_rev] at *
    exact h1.trans (h2.trans h3)

theorem step_st {out : Path} {x : List Move} {s : Move} (h : St out x) {out' : Path} {c : Bool} (hs : StepCase out s out' c) :
    St out' (x ++ [s]) ∧ (c = false → out'.flatten.length = out.flatten.length + 1 ∧ (Foata out → Foata out')) ∧
    (c = true → out'.flatten.length + 1 = out.flatten.length) := by
  cases hs with
  | cancel P L1 L2 Q e hQ hne =>
    have hn : ∀ L ∈ out, L ≠ [] := by
      rcases h.ne with ⟨h1, -⟩ | ⟨-, h2⟩
      · rw [h1] at e
        have : L1 ++ rev s :: L2 ∈ [[]] := by rw [e]; simp
        simp at this
      · exact h2
    have hlay := h.layer (L1 ++ rev s :: L2) (by rw [e]; simp)
    have hL2 : ∀ t ∈ L2, Disj s t := by
      rw [List.pairwise_append] at hlay
      have := hlay.2.1
      rw [List.pairwise_cons] at this
      exact fun t ht => (this.1 t ht).rev_left
    refine ⟨st_cancel h (P.flatten ++ L1) (L2 ++ Q.flatten) (by rw [e]; simp) (by simp) ?_ ?_ ?_, by simp, fun _ => by rw [e]; simp; omega⟩
    · intro t ht
      rcases List.mem_append.mp ht with ht | ht
      · exact hL2 t ht
      · exact disj_flatten hQ t ht
    · intro L hL
      rw [List.mem_append, List.mem_cons] at hL
      rcases hL with hL | rfl | hL
      · exact h.layer L (by rw [e]; simp [hL])
      · exact hlay.sublist (List.Sublist.append_left (List.sublist_cons_self ..) _)
      · exact h.layer L (by rw [e]; simp [hL])
    · intro L hL
      rw [List.mem_append, List.mem_cons] at hL
      rcases hL with hL | rfl | hL
      · exact hn L (by rw [e]; simp [hL])
      · exact hne
      · exact hn L (by rw [e]; simp [hL])
  | cancel' P Q e hQ =>
    have hn : ∀ L ∈ out, L ≠ [] := by
      rcases h.ne with ⟨h1, -⟩ | ⟨-, h2⟩
      · rw [h1] at e
        have : [rev s] ∈ [[]] := by rw [e]; simp
        simp at this
      · exact h2
    refine ⟨st_cancel h P.flatten Q.flatten (by rw [e]; simp) (by simp) (disj_flatten hQ) ?_ ?_, by simp, fun _ => by rw [e]; simp; omega⟩
    · intro L hL
      exact h.layer L (by rw [e]; rcases List.mem_append.mp hL with hL | hL <;> simp [hL])
    · intro L hL
      exact hn L (by rw [e]; rcases List.mem_append.mp hL with hL | hL <;> simp [hL])
  | new P L e hL hr =>
    have hn : ∀ M ∈ out, M ≠ [] := by
      rcases h.ne with ⟨h1, -⟩ | ⟨-, h2⟩
      · rw [h1] at e
        cases P with
        | nil => injection e with e; subst e; simp [commute] at hL
        | cons => simp at e
      · exact h2
    refine ⟨st_push h (P.flatten ++ L) [] (by rw [e]; simp) (by simp) (by simp) ?_ ?_ ?_, fun _ => ⟨by rw [e]; simp; omega, ?_⟩, by simp⟩
    · rw [e]
      have := not_top (A := P.flatten) (B := []) hL hr (by simp)
      simpa using this
    · intro M hM
      simp only [List.mem_append, List.mem_cons, List.not_mem_nil, or_false] at hM
      rcases hM with hM | rfl | rfl
      · exact h.layer M (by rw [e]; simp [hM])
      · exact h.layer M (by rw [e]; simp)
      · simp
    · intro M hM
      simp only [List.mem_append, List.mem_cons, List.not_mem_nil, or_false] at hM
      rcases hM with hM | rfl | rfl
      · exact hn M (by rw [e]; simp [hM])
      · exact hn M (by rw [e]; simp)
      · simp
    · intro hF
      have e2 : P ++ [L, [s]] = (P ++ [L]) ++ [[s]] := by simp
      unfold Foata at *
      rw [e2, List.isChain_append]
      refine ⟨by rw [← e]; exact hF, List.isChain_singleton _, ?_⟩
      intro a ha b hb
      simp at ha hb
      subst ha hb
      intro t ht
      rw [List.mem_singleton] at ht
      subst ht
      exact hL
  | next P L M Q e hL hr hM hQ =>
    have hn : ∀ M ∈ out, M ≠ [] := by
      rcases h.ne with ⟨h1, -⟩ | ⟨-, h2⟩
      · rw [h1] at e
        have := congrArg List.length e
        simp at this
        omega
      · exact h2
    have hQ' := disj_flatten hQ
    refine ⟨st_push h (P.flatten ++ L ++ M) Q.flatten (by rw [e]; simp) (by simp) hQ' ?_ ?_ ?_, fun _ => ⟨by rw [e]; simp; omega, ?_⟩, by simp⟩
    · rw [e]
      have := not_top (A := P.flatten) (B := M ++ Q.flatten) hL hr (by
        intro t ht
        rcases List.mem_append.mp ht with ht | ht
        · exact commute_iff.mp hM t ht
        · exact hQ' t ht)
      simpa using this
    · intro N hN
      simp only [List.mem_append, List.mem_cons] at hN
      rcases hN with hN | rfl | rfl | hN
      · exact h.layer N (by rw [e]; simp [hN])
      · exact h.layer N (by rw [e]; simp)
      · rw [List.pairwise_append]
        refine ⟨h.layer M (by rw [e]; simp), by simp, ?_⟩
        intro a ha b hb
        rw [List.mem_singleton] at hb
        subst hb
        exact (commute_iff.mp hM a ha).symm
      · exact h.layer N (by rw [e]; simp [hN])
    · intro N hN
      simp only [List.mem_append, List.mem_cons] at hN
      rcases hN with hN | rfl | rfl | hN
      · exact hn N (by rw [e]; simp [hN])
      · exact hn N (by rw [e]; simp)
      · simp
      · exact hn N (by rw [e]; simp [hN])
    · intro hF
      unfold Foata at *
      rw [e, List.isChain_append, List.isChain_cons_cons] at hF
      rw [List.isChain_append, List.isChain_cons_cons]
      refine ⟨hF.1, ⟨?_, ?_⟩, ?_⟩
      · intro t ht
        rcases List.mem_append.mp ht with ht | ht
        · exact hF.2.1.1 t ht
        · rw [List.mem_singleton] at ht; subst ht; exact hL
      · have := hF.2.1.2
        cases Q with
        | nil => exact List.isChain_singleton _
        | cons N Q =>
          rw [List.isChain_cons_cons] at this ⊢
          refine ⟨?_, this.2⟩
          intro t ht
          have := this.1 t ht
          rw [← Bool.not_eq_true, commute_iff] at this ⊢
          exact fun hh => this (fun u hu => hh u (List.mem_append_left _ hu))
      · intro a ha b hb
        simp only [List.head?_cons, Option.mem_def, Option.some.injEq] at hb
        exact hF.2.2 a ha b (by simpa using hb)
  | first L Q e hL hQ =>
    have hn : ∀ M ∈ Q, M ≠ [] := by
      rcases h.ne with ⟨h1, -⟩ | ⟨-, h2⟩
      · rw [h1] at e
        injection e with e1 e2
        subst e2
        simp
      · intro M hM; exact h2 M (by rw [e]; simp [hM])
    refine ⟨st_push h L Q.flatten (by rw [e]; simp) (by simp) (disj_flatten hQ) ?_ ?_ ?_, fun _ => ⟨by rw [e]; simp; omega, ?_⟩, by simp⟩
    · rw [e]
      apply not_top'
      apply disj_flatten
      intro M hM
      rcases List.mem_cons.mp hM with rfl | hM
      · exact hL
      · exact hQ M hM
    · intro N hN
      rcases List.mem_cons.mp hN with rfl | hN
      · rw [List.pairwise_append]
        refine ⟨h.layer L (by rw [e]; simp), by simp, ?_⟩
        intro a ha b hb
        rw [List.mem_singleton] at hb
        subst hb
        exact (commute_iff.mp hL a ha).symm
      · exact h.layer N (by rw [e]; simp [hN])
    · intro N hN
      rcases List.mem_cons.mp hN with rfl | hN
      · simp
      · exact hn N hN
    · intro hF
      unfold Foata at *
      rw [e] at hF
      cases Q with
      | nil => exact List.isChain_singleton _
      | cons N Q =>
        rw [List.isChain_cons_cons] at hF ⊢
        refine ⟨?_, hF.2⟩
        intro t ht
        have := hF.1 t ht
        rw [← Bool.not_eq_true, commute_iff] at this ⊢
        exact fun hh => this (fun u hu => hh u (List.mem_append_left _ hu))

theorem st_nil {out : Path} {x : List Move} (h : St out x) : out = [] ↔ x ≠ [] ∧ run empty x = empty := by
  constructor
  · rintro rfl
    refine ⟨?_, h.pile.symm⟩
    rcases h.ne with ⟨h1, -⟩ | ⟨h2, -⟩
    · cases h1
    · exact h2
  · rintro ⟨h1, h2⟩
    rcases h.ne with ⟨-, h3⟩ | ⟨-, h4⟩
    · exact absurd h3 h1
    · rw [← h.pile] at h2
      have := pile_nil h2
      cases out with
      | nil => rfl
      | cons L Q =>
        rw [List.flatten_cons, List.append_eq_nil_iff] at this
        exact absurd this.1 (h4 L (List.mem_cons_self ..))

theorem pass_none {w : List Move} : ∀ {out : Path} {x : List Move} {c : Bool}, St out x →
    (pass out c w = none ↔ ∃ y z, w = y ++ z ∧ z ≠ [] ∧ x ++ y ≠ [] ∧ run empty (x ++ y) = empty) := by
  induction w with
  | nil =>
    intro out x c h
    simp only [pass]
    constructor
    · intro h; cases h
    · rintro ⟨y, z, e, hz, -, -⟩
      exact absurd (List.append_eq_nil_iff.mp e.symm).2 hz
  | cons s w ih =>
    intro out x c h
    by_cases hout : out = []
    · subst hout
      have : pass [] c (s :: w) = none := rfl
      rw [this]
      have := (st_nil h).mp rfl
      exact ⟨fun _ => ⟨[], s :: w, rfl, by simp, by simpa using this.1, by simpa using this.2⟩, fun _ => rfl⟩
    · obtain ⟨out', c', h1, h2⟩ := step_case out s hout
      have h3 := (step_st h h2).1
      simp only [pass, h1]
      rw [ih h3]
      constructor
      · rintro ⟨y, z, rfl, hz, hy1, hy2⟩
        exact ⟨s :: y, z, rfl, hz, by simp, by simpa using hy2⟩
      · rintro ⟨y, z, e, hz, hy1, hy2⟩
        cases y with
        | nil =>
          rw [List.append_nil] at hy1 hy2
          exact absurd ((st_nil h).mpr ⟨hy1, hy2⟩) hout
        | cons s' y =>
          rw [List.cons_append] at e
          injection e with e1 e2
          subst e1
          exact ⟨y, z, e2, hz, by simp, by simpa using hy2⟩

theorem pass_some {w : List Move} : ∀ {out : Path} {x : List Move} {c : Bool} {out' : Path} {c' : Bool}, St out x → pass out c w = some (out', c') →
    St out' (x ++ w) ∧ (c' = false → c = false ∧ out'.flatten.length = out.flatten.length + w.length ∧ (Foata out → Foata out')) ∧
    out'.flatten.length ≤ out.flatten.length + w.length ∧ (c' = true → c = true ∨ out'.flatten.length < out.flatten.length + w.length) := by
  induction w with
  | nil =>
    intro out x c out' c' h hp
    simp only [pass, Option.some.injEq, Prod.mk.injEq] at hp
    obtain ⟨rfl, rfl⟩ := hp
    rw [List.append_nil]
    exact ⟨h, fun hc => ⟨hc, by simp, id⟩, by simp, Or.inl⟩
  | cons s w ih =>
    intro out x c out' c' h hp
    have hout : out ≠ [] := by
      rintro rfl
      simp [pass, step_none.mpr] at hp
    obtain ⟨o1, c1, h1, h2⟩ := step_case out s hout
    obtain ⟨k1, k2, k3⟩ := step_st h h2
    simp only [pass, h1] at hp
    obtain ⟨g1, g2, g3, g4⟩ := ih k1 hp
    rw [List.length_cons]
    have : x ++ [s] ++ w = x ++ s :: w := by simp
    rw [this] at g1
    refine ⟨g1, ?_, ?_, ?_⟩
    · intro hc
      obtain ⟨e1, e2, e3⟩ := g2 hc
      simp only [Bool.or_eq_false_iff] at e1
      obtain ⟨k4, k5⟩ := k2 e1.2
      exact ⟨e1.1, by omega, fun hF => e3 (k5 hF)⟩
    · cases c1 with
      | false => have := (k2 rfl).1; omega
      | true => have := k3 rfl; omega
    · intro hc
      cases c1 with
      | false =>
        have := (k2 rfl).1
        rcases g4 hc with h' | h'
        · left; simpa using h'
        · right; omega
      | true => have := k3 rfl; right; omega

/-- what a reduced path is -/
structure Result (q : Path) (w : List Move) : Prop where
  layer : ∀ L ∈ q, L.Pairwise Disj
  from_ : Red w q.flatten
  red : Reduced q.flatten
  foata : Foata q
  ne : q = [[]] ∨ (q ≠ [] ∧ ∀ L ∈ q, L ≠ [])

theorem Result.eqv {q : Path} {w : List Move} (h : Result q w) : Eqv q.flatten w := h.from_.eqv.symm

theorem st_reduced {out : Path} {x : List Move} (h : St out x) : Reduced out.flatten := by
  unfold Reduced
  rw [h.pile]
  exact run_eqv h.eqv Good.empty

/-- the second round never cancels -/
theorem pass_reduced {w : List Move} (h : Reduced w) : ∃ q, pass [[]] false w = some (q, false) ∧ Result q w := by
  cases hp : pass [[]] false w with
  | none =>
    obtain ⟨y, z, rfl, hz, hy1, hy2⟩ := (pass_none st_start).mp hp
    rw [List.nil_append] at hy1 hy2
    rw [h.prefix] at hy2
    exact absurd (pile_nil hy2) hy1
  | some r =>
    obtain ⟨q, c⟩ := r
    obtain ⟨g1, g2, g3, g4⟩ := pass_some st_start hp
    rw [List.nil_append] at g1
    have hl : q.flatten.length = w.length := (pile_perm (by rw [g1.pile, h])).length_eq
    have hc : c = false := by
      cases c with
      | false => rfl
      | true =>
        rcases g4 rfl with h' | h'
        · cases h'
        · simp only [List.flatten_cons, List.flatten_nil, List.append_nil, List.length_nil, Nat.zero_add] at h'
          omega
    subst hc
    refine ⟨q, rfl, g1.layer, g1.red, st_reduced g1, (g2 rfl).2.2 (List.isChain_singleton _), ?_⟩
    rcases g1.ne with ⟨e1, -⟩ | ⟨e1, e2⟩
    · exact Or.inl e1
    · refine Or.inr ⟨?_, e2⟩
      rintro rfl
      simp only [List.flatten_nil, List.length_nil] at hl
      exact e1 (List.length_eq_zero_iff.mp hl.symm)

/-- the reduction in two rounds -/
theorem reduce_eq (p : Path) : (reduce p = none ↔ pass [[]] false p.flatten = none) ∧ (∀ q, reduce p = some q → Result q p.flatten) := by
  unfold reduce
  rw [show p.flatten.length + 2 = (p.flatten.length + 1) + 1 from rfl]
  unfold reduceFuel
  cases hp : pass [[]] false p.flatten with
  | none => simp
  | some r =>
    obtain ⟨out, c⟩ := r
    obtain ⟨g1, g2, g3, g4⟩ := pass_some st_start hp
    rw [List.nil_append] at g1
    cases c with
    | false =>
      simp only [Bool.false_eq_true, if_false]
      refine ⟨by simp, ?_⟩
      intro q hq
      injection hq with hq
      subst hq
      refine ⟨g1.layer, g1.red, st_reduced g1, (g2 rfl).2.2 (List.isChain_singleton _), ?_⟩
      rcases g1.ne with ⟨e1, -⟩ | ⟨e1, e2⟩
      · exact Or.inl e1
      · refine Or.inr ⟨?_, e2⟩
        rintro rfl
        have := (g2 rfl).2.1
        simp only [List.flatten_cons, List.flatten_nil, List.append_nil, List.length_nil, Nat.zero_add] at this
        exact e1 (List.length_eq_zero_iff.mp this.symm)
    | true =>
      simp only [if_true]
      obtain ⟨q, h1, h2⟩ := pass_reduced (st_reduced g1)
      unfold reduceFuel
      rw [h1]
      simp only [Bool.false_eq_true, if_false]
      refine ⟨by simp, ?_⟩
      intro q' hq
      injection hq with hq
      subst hq
      exact ⟨h2.layer, g1.red.trans h2.from_, h2.red, h2.foata, h2.ne⟩

theorem reduce_none (p : Path) : reduce p = none ↔ ∃ y z, p.flatten = y ++ z ∧ y ≠ [] ∧ z ≠ [] ∧ Eqv y [] := by
  rw [(reduce_eq p).1, pass_none st_start]
  constructor
  · rintro ⟨y, z, e, hz, hy, h⟩
    exact ⟨y, z, e, hy, hz, run_empty_iff.mp h⟩
  · rintro ⟨y, z, e, hy, hz, h⟩
    exact ⟨y, z, e, hz, hy, run_empty_iff.mpr h⟩

theorem reduce_reduced {p : Path} (h : Reduced p.flatten) : ∃ q, reduce p = some q := by
  cases hp : reduce p with
  | some q => exact ⟨q, rfl⟩
  | none =>
    obtain ⟨q, h1, -⟩ := pass_reduced h
    rw [(reduce_eq p).1.mp hp] at h1
    cases h1

/-! ### uniqueness -/

theorem lb_last {P : Path} {K L : List Move} {s : Move} (hK : commute K s = false) (hL : commute L s = true) :
    lastBlocking (P ++ [K, L]) s (P ++ [K, L]).length = some P.length := by
  have e : (P ++ [K, L]).length = P.length + 1 + 1 := by simp
  have e1 : (P ++ [K, L]).getD (P.length + 1) [] = L := by simp [List.getD_eq_getElem?_getD]
  have e2 : (P ++ [K, L]).getD P.length [] = K := by simp [List.getD_eq_getElem?_getD]
  rw [e, lastBlocking, e1, hL, lastBlocking, e2, hK]
  simp

theorem lb_last' {P : Path} {K : List Move} {s : Move} (hK : commute K s = false) :
    lastBlocking (P ++ [K]) s (P ++ [K]).length = some P.length := by
  have e : (P ++ [K]).length = P.length + 1 := by simp
  have e2 : (P ++ [K]).getD P.length [] = K := by simp [List.getD_eq_getElem?_getD]
  rw [e, lastBlocking, e2, hK]
  simp

theorem step_into {P : Path} {K L : List Move} {s : Move} (hK : commute K s = false) (hL : commute L s = true) {o : Path}
    (h : step (P ++ [K, L]) s = some (o, false)) : o = P ++ [K, L ++ [s]] := by
  unfold step at h
  rw [lb_last hK hL] at h
  have e2 : (P ++ [K, L]).getD P.length [] = K := by simp [List.getD_eq_getElem?_getD]
  have e1 : (P ++ [K, L]).getD (P.length + 1) [] = L := by simp [List.getD_eq_getElem?_getD]
  simp only [e2, composable_eq, hK, Bool.false_eq_true, if_false] at h
  split at h
  · split at h <;> simp at h
  · rw [if_neg (by simp), e1] at h
    simp only [Option.some.injEq, Prod.mk.injEq, and_true] at h
    rw [← h, List.set_append_right _ _ (by omega)]
    simp

theorem step_new {P : Path} {K : List Move} {s : Move} (hK : commute K s = false) {o : Path}
    (h : step (P ++ [K]) s = some (o, false)) : o = P ++ [K, [s]] := by
  unfold step at h
  rw [lb_last' hK] at h
  have e2 : (P ++ [K]).getD P.length [] = K := by simp [List.getD_eq_getElem?_getD]
  simp only [e2, composable_eq, hK, Bool.false_eq_true, if_false] at h
  split at h
  · split at h <;> simp at h
  · rw [if_pos (by simp)] at h
    simp only [Option.some.injEq, Prod.mk.injEq, and_true] at h
    rw [← h]
    simp

theorem step_first {L : List Move} {s : Move} (hL : commute L s = true) : step [L] s = some ([L ++ [s]], false) := by
  unfold step
  have : lastBlocking [L] s [L].length = none := by simp [lastBlocking, hL]
  rw [this]

theorem pass_false {out : Path} {c : Bool} {s : Move} {w : List Move} {r : Path} (h : pass out c (s :: w) = some (r, false)) :
    ∃ o, step out s = some (o, false) ∧ pass o false w = some (r, false) := by
  have hmono : ∀ (w : List Move) (o r : Path), pass o true w ≠ some (r, false) := by
    intro w
    induction w with
    | nil => intro o r h; simp [pass] at h
    | cons s w ih =>
      intro o r h
      simp only [pass] at h
      split at h
      · cases h
      · simp only [Bool.true_or] at h; exact ih _ _ h
  simp only [pass] at h
  split at h
  · cases h
  · rename_i o c' e
    cases c' with
    | true => simp only [Bool.or_true] at h; exact absurd h (hmono _ _ _)
    | false =>
      cases c with
      | true => simp only [Bool.true_or] at h; exact absurd h (hmono _ _ _)
      | false => exact ⟨o, e, h⟩

theorem pass_first {L2 : List Move} : ∀ {L1 w : List Move} {r : Path}, (L1 ++ L2).Pairwise Disj → pass [L1] false (L2 ++ w) = some (r, false) →
    pass [L1 ++ L2] false w = some (r, false) := by
  induction L2 with
  | nil => intro L1 w r _ h; simpa using h
  | cons s L2 ih =>
    intro L1 w r hd h
    rw [List.cons_append] at h
    obtain ⟨o, h1, h2⟩ := pass_false h
    have hc : commute L1 s = true := by
      rw [commute_iff]
      intro t ht
      exact ((List.pairwise_append.mp hd).2.2 t ht s (List.mem_cons_self ..)).symm
    rw [step_first hc] at h1
    injection h1 with h1
    injection h1 with h1
    subst h1
    have e : L1 ++ s :: L2 = (L1 ++ [s]) ++ L2 := by simp
    rw [e] at hd ⊢
    exact ih hd h2

theorem pass_layer {L2 : List Move} : ∀ {P : Path} {K L1 w : List Move} {r : Path}, (L1 ++ L2).Pairwise Disj → (∀ s ∈ L2, commute K s = false) →
    pass (P ++ [K, L1]) false (L2 ++ w) = some (r, false) → pass (P ++ [K, L1 ++ L2]) false w = some (r, false) := by
  induction L2 with
  | nil => intro P K L1 w r _ _ h; simpa using h
  | cons s L2 ih =>
    intro P K L1 w r hd hK h
    rw [List.cons_append] at h
    obtain ⟨o, h1, h2⟩ := pass_false h
    have hc : commute L1 s = true := by
      rw [commute_iff]
      intro t ht
      exact ((List.pairwise_append.mp hd).2.2 t ht s (List.mem_cons_self ..)).symm
    have := step_into (hK s (List.mem_cons_self ..)) hc h1
    subst this
    have e : L1 ++ s :: L2 = (L1 ++ [s]) ++ L2 := by simp
    rw [e] at hd ⊢
    exact ih hd (fun t ht => hK t (List.mem_cons_of_mem _ ht)) h2

theorem pass_layers {R : Path} : ∀ {P : Path} {K : List Move} {r : Path}, Foata (K :: R) → (∀ L ∈ R, L.Pairwise Disj ∧ L ≠ []) →
    pass (P ++ [K]) false R.flatten = some (r, false) → r = P ++ K :: R := by
  induction R with
  | nil => intro P K r _ _ h; simp only [List.flatten_nil, pass, Option.some.injEq, Prod.mk.injEq, and_true] at h; exact h.symm
  | cons L R ih =>
    intro P K r hF hL h
    obtain ⟨g1, g2⟩ := hL L (List.mem_cons_self ..)
    unfold Foata at hF
    rw [List.isChain_cons_cons] at hF
    cases L with
    | nil => exact absurd rfl g2
    | cons s L =>
      rw [List.flatten_cons, List.cons_append] at h
      obtain ⟨o, h1, h2⟩ := pass_false h
      have := step_new (hF.1 s (List.mem_cons_self ..)) h1
      subst this
      have h3 := pass_layer (L1 := [s]) (L2 := L) g1 (fun t ht => hF.1 t (List.mem_cons_of_mem _ ht)) h2
      have e : P ++ [K, [s] ++ L] = (P ++ [K]) ++ [s :: L] := by simp
      rw [e] at h3
      have := ih hF.2 (fun M hM => hL M (List.mem_cons_of_mem _ hM)) h3
      rw [this]
      simp

/-- a reduced path reduces to itself -/
theorem result_fixed {q : Path} {w : List Move} (h : Result q w) : reduce q = some q := by
  obtain ⟨r, h1, h2⟩ := pass_reduced h.red
  have e : r = q := by
    rcases h.ne with e | ⟨e1, e2⟩
    · subst e
      simp only [List.flatten_cons, List.flatten_nil, List.append_nil, pass, Option.some.injEq, Prod.mk.injEq, and_true] at h1
      exact h1.symm
    · cases q with
      | nil => exact absurd rfl e1
      | cons L R =>
        rw [List.flatten_cons] at h1
        have h3 := pass_first (L1 := []) (by simpa using h.layer L (List.mem_cons_self ..)) h1
        rw [List.nil_append] at h3
        exact pass_layers (P := []) h.foata (fun M hM => ⟨h.layer M (List.mem_cons_of_mem _ hM), e2 M (List.mem_cons_of_mem _ hM)⟩) h3
  subst e
  unfold reduce
  rw [show r.flatten.length + 2 = (r.flatten.length + 1) + 1 from rfl]
  unfold reduceFuel
  rw [h1]
  rfl

/-- the motions of a word that touch a vertex -/
def proj (v : Nat) (w : List Move) : List Move := w.filter (fun s => decide (touches s v))

theorem head_of_mem {L R : List Move} {s : Move} (hL : L.Pairwise Disj) (hs : s ∈ L) {v : Nat} (hv : touches s v) : (proj v (L ++ R)).head? = some s := by
  obtain ⟨A, B, rfl⟩ := List.append_of_mem hs
  unfold proj
  have hA : A.filter (fun s => decide (touches s v)) = [] := by
    rw [List.filter_eq_nil_iff]
    intro t ht
    have := (List.pairwise_append.mp hL).2.2 t ht s (List.mem_cons_self ..)
    simpa using not_touches this.symm hv
  rw [List.filter_append, List.filter_append, hA, List.filter_cons, if_pos (by simpa using hv)]
  simp

theorem later_layer {Q : Path} : ∀ {L : List Move} {s : Move}, Foata (L :: Q) → commute L s = true →
    ¬ ((proj s.1 Q.flatten).head? = some s ∧ (proj s.2 Q.flatten).head? = some s) := by
  induction Q with
  | nil => intro L s _ _ h; simp [proj] at h
  | cons M Q ih =>
    intro L s hF hL h
    unfold Foata at hF
    rw [List.isChain_cons_cons] at hF
    have hs : s ∉ M := fun hs => by rw [hF.1 s hs] at hL; cases hL
    have hskip : ∀ v, touches s v → (proj v (M :: Q).flatten).head? = some s → (∀ t ∈ M, ¬ touches t v) ∧ (proj v Q.flatten).head? = some s := by
      intro v hv hh
      rw [List.flatten_cons] at hh
      unfold proj at hh ⊢
      rw [List.filter_append] at hh
      have : M.filter (fun s => decide (touches s v)) = [] := by
        cases hM : M.filter (fun s => decide (touches s v)) with
        | nil => rfl
        | cons y ys =>
          rw [hM] at hh
          simp only [List.cons_append, List.head?_cons, Option.some.injEq] at hh
          have : y ∈ M.filter (fun s => decide (touches s v)) := by rw [hM]; exact List.mem_cons_self ..
          rw [hh] at this
          exact absurd (List.mem_of_mem_filter this) hs
      rw [this, List.nil_append] at hh
      refine ⟨?_, hh⟩
      intro t ht
      rw [List.filter_eq_nil_iff] at this
      simpa using this t ht
    obtain ⟨a1, a2⟩ := hskip s.1 (Or.inl rfl) h.1
    obtain ⟨b1, b2⟩ := hskip s.2 (Or.inr rfl) h.2
    refine ih hF.2 ?_ ⟨a2, b2⟩
    rw [commute_iff]
    intro t ht
    apply disj_of_touches
    rintro v (rfl | rfl)
    · exact a1 t ht
    · exact b1 t ht

theorem mem_first {L : List Move} {Q : Path} {s : Move} (hF : Foata (L :: Q)) (hL : L.Pairwise Disj) :
    s ∈ L ↔ (proj s.1 (L :: Q).flatten).head? = some s ∧ (proj s.2 (L :: Q).flatten).head? = some s := by
  constructor
  · intro hs
    rw [List.flatten_cons]
    exact ⟨head_of_mem hL hs (Or.inl rfl), head_of_mem hL hs (Or.inr rfl)⟩
  · rintro h
    by_contra hs
    -- as in `later_layer`
    have hF' : Foata ([] :: L :: Q) ∨ True := Or.inr trivial
    have hskip : ∀ v, touches s v → (proj v (L :: Q).flatten).head? = some s → (∀ t ∈ L, ¬ touches t v) ∧ (proj v Q.flatten).head? = some s := by
      intro v hv hh
      rw [List.flatten_cons] at hh
      unfold proj at hh ⊢
      rw [List.filter_append] at hh
      have : L.filter (fun s => decide (touches s v)) = [] := by
        cases hM : L.filter (fun s => decide (touches s v)) with
        | nil => rfl
        | cons y ys =>
          rw [hM] at hh
          simp only [List.cons_append, List.head?_cons, Option.some.injEq] at hh
          have : y ∈ L.filter (fun s => decide (touches s v)) := by rw [hM]; exact List.mem_cons_self ..
          rw [hh] at this
          exact absurd (List.mem_of_mem_filter this) hs
      rw [this, List.nil_append] at hh
      refine ⟨?_, hh⟩
      intro t ht
      rw [List.filter_eq_nil_iff] at this
      simpa using this t ht
    obtain ⟨a1, a2⟩ := hskip s.1 (Or.inl rfl) h.1
    obtain ⟨b1, b2⟩ := hskip s.2 (Or.inr rfl) h.2
    refine later_layer hF ?_ ⟨a2, b2⟩
    rw [commute_iff]
    intro t ht
    apply disj_of_touches
    rintro v (rfl | rfl)
    · exact a1 t ht
    · exact b1 t ht

theorem proj_layer {L : List Move} (hL : L.Pairwise Disj) (v : Nat) : proj v L = [] ∨ ∃ s, s ∈ L ∧ touches s v ∧ proj v L = [s] := by
  cases h : proj v L with
  | nil => exact Or.inl rfl
  | cons s l =>
    right
    have hm : s ∈ proj v L := by rw [h]; exact List.mem_cons_self ..
    have hs := List.mem_filter.mp hm
    have hp : (proj v L).Pairwise Disj := hL.filter _
    refine ⟨s, hs.1, by simpa using hs.2, ?_⟩
    cases l with
    | nil => rfl
    | cons t l =>
      exfalso
      rw [h, List.pairwise_cons] at hp
      have := hp.1 t (List.mem_cons_self ..)
      have ht : t ∈ proj v L := by rw [h]; simp
      have ht := List.mem_filter.mp ht
      exact not_touches this (by simpa using hs.2) (by simpa using ht.2)

theorem disj_nodup {L : List Move} (hL : L.Pairwise Disj) : L.Nodup := by
  refine hL.imp ?_
  rintro s t h rfl
  exact h.1 rfl

theorem proj_layer_eq {L M : List Move} (hL : L.Pairwise Disj) (hM : M.Pairwise Disj) (h : ∀ s, s ∈ L ↔ s ∈ M) (v : Nat) : proj v L = proj v M := by
  rcases proj_layer hL v with h1 | ⟨s, h1, h2, h3⟩ <;> rcases proj_layer hM v with k1 | ⟨t, k1, k2, k3⟩
  · rw [h1, k1]
  · have : t ∈ proj v L := List.mem_filter.mpr ⟨(h t).mpr k1, by simpa using k2⟩
    rw [h1] at this; cases this
  · have : s ∈ proj v M := List.mem_filter.mpr ⟨(h s).mp h1, by simpa using h2⟩
    rw [k1] at this; cases this
  · have : t ∈ proj v L := List.mem_filter.mpr ⟨(h t).mpr k1, by simpa using k2⟩
    rw [h3, List.mem_singleton] at this
    rw [h3, k3, this]

theorem foata_unique {q : Path} : ∀ {r : Path}, Foata q → Foata r → (∀ L ∈ q, L.Pairwise Disj ∧ L ≠ []) → (∀ L ∈ r, L.Pairwise Disj ∧ L ≠ []) →
    (∀ v, proj v q.flatten = proj v r.flatten) → List.Forall₂ List.Perm q r := by
  have hnil : ∀ {r : Path}, (∀ L ∈ r, L.Pairwise Disj ∧ L ≠ []) → (∀ v, proj v r.flatten = []) → r = [] := by
    intro r h1 h2
    cases r with
    | nil => rfl
    | cons M r =>
      exfalso
      obtain ⟨-, h3⟩ := h1 M (List.mem_cons_self ..)
      cases M with
      | nil => exact h3 rfl
      | cons s M =>
        have := h2 s.1
        unfold proj at this
        rw [List.filter_eq_nil_iff] at this
        exact this s (by simp) (by simp [touches])
  induction q with
  | nil =>
    intro r _ _ _ h1 h2
    rw [hnil h1 (fun v => by rw [← h2 v]; rfl)]
    exact .nil
  | cons L q ih =>
    intro r hq hr h1 h2 hp
    cases r with
    | nil =>
      have := hnil h1 (fun v => by rw [hp v]; rfl)
      cases this
    | cons M r =>
      obtain ⟨a1, a2⟩ := h1 L (List.mem_cons_self ..)
      obtain ⟨b1, b2⟩ := h2 M (List.mem_cons_self ..)
      have hm : ∀ s, s ∈ L ↔ s ∈ M := by
        intro s
        rw [mem_first hq a1, mem_first hr b1, hp, hp]
      have hperm : L.Perm M := (List.perm_ext_iff_of_nodup (disj_nodup a1) (disj_nodup b1)).mpr hm
      refine .cons hperm (ih hq.tail hr.tail (fun N hN => h1 N (List.mem_cons_of_mem _ hN)) (fun N hN => h2 N (List.mem_cons_of_mem _ hN)) ?_)
      intro v
      have := hp v
      rw [List.flatten_cons, List.flatten_cons] at this
      unfold proj at this ⊢
      rw [List.filter_append, List.filter_append] at this
      have e := proj_layer_eq a1 b1 hm v
      unfold proj at e
      rw [e] at this
      exact List.append_cancel_left this

/-- two reduced forms of equivalent paths agree up to the order of the motions in every step -/
theorem result_unique {q r : Path} {u w : List Move} (h : Result q u) (k : Result r w) (e : Eqv u w) : List.Forall₂ List.Perm q r := by
  have hp : pile q.flatten = pile r.flatten := by
    rw [← h.red, ← k.red]
    exact run_eqv (h.eqv.trans (e.trans k.eqv.symm)) Good.empty
  have hpr : ∀ v, proj v q.flatten = proj v r.flatten := by
    intro v
    have := congrFun hp v
    rw [pile_at, pile_at] at this
    exact List.reverse_injective this
  rcases h.ne with h1 | ⟨h1, h2⟩ <;> rcases k.ne with k1 | ⟨k1, k2⟩
  · rw [h1, k1]; exact .cons (List.Perm.refl _) .nil
  · exfalso
    rw [h1] at hp
    have := pile_nil hp.symm
    cases r with
    | nil => exact k1 rfl
    | cons M r =>
      rw [List.flatten_cons, List.append_eq_nil_iff] at this
      exact k2 M (List.mem_cons_self ..) this.1
  · exfalso
    rw [k1] at hp
    have := pile_nil hp
    cases q with
    | nil => exact h1 rfl
    | cons M r =>
      rw [List.flatten_cons, List.append_eq_nil_iff] at this
      exact h2 M (List.mem_cons_self ..) this.1
  · exact foata_unique h.foata k.foata (fun L hL => ⟨h.layer L hL, h2 L hL⟩) (fun L hL => ⟨k.layer L hL, k2 L hL⟩) hpr

end Toppo.EdgePath
