import Verif.Proof.EdgeWalk
set_option linter.unusedVariables false

/-
C59, C73: edge paths.  `Disj s t`: the motions have no vertex in common.  `Eqv u v`: the sequences of motions agree up to exchanging
consecutive motions without a common vertex and inserting or deleting a motion followed by its reverse.  `Red`: the same, but motions are only
deleted.  `revWord`: the reversed sequence of reversed motions.  `Walk a w b`: carrying out `w` moves, one after the other, particles standing at
the positions `a` along existing particles' motions to unoccupied vertices, and leaves them at `b` (Proof/EdgePath.lean, Proof/EdgeWalk.lean).
-/
namespace Toppo.EdgePath

/-- **C59**, reduction: a reduced path is obtained from the given one by exchanging independent motions and cancelling opposite ones, each of its
steps consists of motions without common vertices, and it is geodesic: no equivalent sequence of motions is shorter. -/
theorem c59_reduce {p q : Path} (h : reduce p = some q) :
    Red p.flatten q.flatten ∧ Eqv q.flatten p.flatten ∧ (∀ L ∈ q, L.Pairwise Disj) ∧
    (∀ w, Eqv w p.flatten → q.flatten.length ≤ w.length) ∧ (q = [[]] ∨ q ≠ [] ∧ ∀ L ∈ q, L ≠ []) := by
  have hr := (reduce_eq p).2 q h
  exact ⟨hr.from_, hr.eqv, hr.layer, fun w hw => hr.red.shortest (hr.eqv.trans hw.symm), hr.ne⟩

/-- **C59**, every motion of a reduced path after the first step shares a vertex with a motion of the step before: no motion can be made earlier -/
theorem c59_earliest {p q : Path} (h : reduce p = some q) :
    q.IsChain (fun L M => ∀ s ∈ M, ∃ t ∈ L, ¬ Disj s t) := by
  refine ((reduce_eq p).2 q h).foata.imp (fun L M hLM s hs => ?_)
  have := hLM s hs
  rw [← Bool.not_eq_true, commute_iff] at this
  push Not at this
  exact this

/-- **C59**, reducing a reduced path changes nothing. -/
theorem c59_idempotent {p q : Path} (h : reduce p = some q) : reduce q = some q := result_fixed ((reduce_eq p).2 q h)

/-- **C59**, canonical form: two paths which can be reduced are equivalent exactly when their reductions agree, step by step, up to the order of
the motions in a step. -/
theorem c59_canonical {p p' q q' : Path} (h : reduce p = some q) (h' : reduce p' = some q') :
    Eqv p.flatten p'.flatten ↔ List.Forall₂ List.Perm q q' := by
  constructor
  · exact result_unique ((reduce_eq p).2 q h) ((reduce_eq p').2 q' h')
  · intro hf
    have hr := (reduce_eq p).2 q h
    have hr' := (reduce_eq p').2 q' h'
    refine hr.eqv.symm.trans (Eqv.trans ?_ hr'.eqv)
    have key : ∀ {L M : List Move}, L.Perm M → L.Pairwise Disj → Eqv L M := by
      intro L M hp
      induction hp with
      | nil => intro _; exact .refl _
      | cons x _ ih => intro hL; exact (ih hL.tail).append_left [x]
      | swap x y l => intro hL; exact .swap [] _ _ l (List.rel_of_pairwise_cons hL (List.mem_cons_self ..))
      | trans p1 p2 i1 i2 => intro hL; exact (i1 hL).trans (i2 (p1.pairwise hL (fun h => h.symm)))
    clear h h' hr'
    have hl := hr.layer
    clear hr
    induction hf with
    | nil => exact .refl _
    | cons h1 _ ih =>
      rw [List.flatten_cons, List.flatten_cons]
      exact (key h1 (hl _ (List.mem_cons_self ..))).append (ih (fun L hL => hl L (List.mem_cons_of_mem _ hL)))

/-- **C59**, panics: the reduction panics exactly when a nonempty proper initial part of the path is equivalent to the trivial path. -/
theorem c59_panics (p : Path) : reduce p = none ↔ ∃ y z, p.flatten = y ++ z ∧ y ≠ [] ∧ z ≠ [] ∧ Eqv y [] := reduce_none p

/-- **C59**, "reduction never panics" is false: a motion, its reverse and anything after that. -/
theorem c59_panics_false (a b : Nat) (s : Move) (w : List Move) : reduce [[(a, b)], [(b, a)], s :: w] = none := by
  rw [c59_panics]
  exact ⟨[(a, b), (b, a)], s :: w, by simp, by simp, by simp, Eqv.cancel [] (a, b) []⟩

/-- **C59**, the result of a reduction is never the value of `trivial_path()`; a path is equivalent to the trivial one and can be reduced exactly
when its reduction has one step without motions. -/
theorem c59_trivial_partial (p : Path) : reduce p ≠ some trivialPath ∧
    (reduce p = some [[]] ↔ Eqv p.flatten [] ∧ reduce p ≠ none) := by
  constructor
  · intro h
    rcases ((reduce_eq p).2 _ h).ne with h1 | h1
    · cases h1
    · exact h1.1 rfl
  · constructor
    · intro h
      exact ⟨((reduce_eq p).2 _ h).eqv.symm, by rw [h]; simp⟩
    · rintro ⟨h1, h2⟩
      obtain ⟨q, hq⟩ := Option.ne_none_iff_exists'.mp h2
      have hr := (reduce_eq p).2 _ hq
      have hl := hr.red.shortest (hr.eqv.trans h1)
      have hl : q.flatten = [] := List.length_eq_zero_iff.mp (Nat.le_zero.mp hl)
      rcases hr.ne with h3 | ⟨h3, h4⟩
      · rw [hq, h3]
      · exfalso
        cases q with
        | nil => exact h3 rfl
        | cons L q =>
          rw [List.flatten_cons, List.append_eq_nil_iff] at hl
          exact h4 L (List.mem_cons_self ..) hl.1

theorem flatten_rev (p : Path) : ((p.map (fun st => (st.map (fun e => (e.2, e.1))).reverse)).reverse).flatten = revWord p.flatten := by
  induction p with
  | nil => rfl
  | cons L p ih =>
    rw [List.map_cons, List.reverse_cons, List.flatten_append, ih]
    have e : (L :: p).flatten = L ++ p.flatten := List.flatten_cons
    rw [e, revWord_append]
    simp [revWord, rev]

theorem reduced_revWord {w : List Move} (h : Reduced w) : ∀ y z, revWord w = y ++ z → y ≠ [] → ¬ Eqv y [] := by
  intro y z e hy he
  have hw : w = revWord z ++ revWord y := by
    rw [← revWord_append, ← e, revWord_revWord]
  have h1 : Eqv w (revWord z) := by
    rw [hw]
    have := (he.revWord).append_left (revWord z)
    simpa [revWord] using this
  have h2 := h.shortest h1
  rw [hw, List.length_append] at h2
  have h3 : (revWord y).length = y.length := by simp [revWord]
  exact hy (List.length_eq_zero_iff.mp (by omega))

/-- **C59**, inverses: the inverse of any path either panics or is equivalent to the reversed path, with as few motions as possible; the inverse
of a reduced path does not panic and has as many motions as the path. -/
theorem c59_inverse (p : Path) :
    (∀ r, inverse p = some r → Eqv r.flatten (revWord p.flatten) ∧ (∀ L ∈ r, L.Pairwise Disj) ∧
      ∀ w, Eqv w (revWord p.flatten) → r.flatten.length ≤ w.length) ∧
    (inverse p = none ↔ ∃ y z, p.flatten = y ++ z ∧ y ≠ [] ∧ z ≠ [] ∧ Eqv z []) ∧
    (∀ p₀, reduce p₀ = some p → ∃ r, inverse p = some r ∧ r.flatten.length = p.flatten.length) := by
  refine ⟨?_, ?_, ?_⟩
  · intro r hr
    have h1 := c59_reduce hr
    rw [flatten_rev] at h1
    exact ⟨h1.2.1, h1.2.2.1, h1.2.2.2.1⟩
  · unfold inverse
    rw [c59_panics, flatten_rev]
    have hl : ∀ w, revWord w = [] ↔ w = [] := fun w => by simp [revWord]
    constructor
    · rintro ⟨y, z, e, hy, hz, he⟩
      refine ⟨revWord z, revWord y, ?_, by rwa [Ne, hl], by rwa [Ne, hl], by simpa [revWord] using he.revWord⟩
      rw [← revWord_append, ← e, revWord_revWord]
    · rintro ⟨y, z, e, hy, hz, he⟩
      exact ⟨revWord z, revWord y, by rw [e, revWord_append], by rwa [Ne, hl], by rwa [Ne, hl], by simpa [revWord] using he.revWord⟩
  · intro p₀ h
    have hr := (reduce_eq p₀).2 p h
    have hn : inverse p ≠ none := by
      unfold inverse
      rw [Ne, c59_panics, flatten_rev]
      rintro ⟨y, z, e, hy, hz, he⟩
      exact reduced_revWord hr.red y z e hy he
    obtain ⟨r, hr'⟩ := Option.ne_none_iff_exists'.mp hn
    refine ⟨r, hr', ?_⟩
    have h1 := (reduce_eq _).2 r hr'
    have h1' := h1.eqv
    rw [flatten_rev] at h1'
    have h2 := h1.red.shortest h1'
    have h3 := hr.red.shortest (by simpa [revWord_revWord] using h1'.symm.revWord)
    have hl : ∀ w, (revWord w).length = w.length := fun w => by simp [revWord]
    rw [hl] at h2 h3
    omega

/-- **C59**, composing a reduced path with its inverse, on either side, and reducing gives, without a panic, the path with one empty step. -/
theorem c59_compose_inverse {p₀ p r : Path} (h : reduce p₀ = some p) (hr : inverse p = some r) :
    reduce (composedWith p r) = some [[]] ∧ reduce (composedWith r p) = some [[]] := by
  have h0 := (reduce_eq p₀).2 p h
  have h1 := (reduce_eq _).2 r hr
  rw [flatten_rev] at h1
  have key : ∀ q s : Path, Reduced q.flatten → Reduced s.flatten → Eqv s.flatten (revWord q.flatten) → reduce (composedWith q s) = some [[]] := by
    intro q s h2 h3 h4
    rw [(c59_trivial_partial _).2]
    unfold composedWith
    constructor
    · rw [List.flatten_append]
      exact (h4.append_left _).trans (Eqv.mul_rev _)
    · rw [Ne, c59_panics]
      rintro ⟨y, z, e, hy, hz, he⟩
      rw [List.flatten_append] at e
      rcases List.append_eq_append_iff.mp e with ⟨t, e1, e2⟩ | ⟨t, e1, e2⟩
      · -- y = q.flatten ++ t
        have hx : Eqv t s.flatten := by
          have k1 := he.append_left (revWord q.flatten)
          rw [e1, ← List.append_assoc, List.append_nil] at k1
          have k2 := (Eqv.rev_mul q.flatten).append_right t
          exact ((k2.symm.trans k1)).trans h4.symm
        have := h3.shortest hx.symm
        rw [e2, List.length_append] at this
        exact hz (List.length_eq_zero_iff.mp (by omega))
      · rw [e1] at h2
        have := h2.prefix.shortest he
        exact hy (List.length_eq_zero_iff.mp (by simpa using this))
  refine ⟨key p r h0.red h1.red h1.eqv, key r p h1.red h0.red ?_⟩
  have := h1.eqv.revWord
  rw [revWord_revWord] at this
  exact this.symm

/-- the hypotheses of **C59** are met by paths with several steps, cancellations and motions made earlier -/
example : reduce [[(0, 1)], [(2, 3)], [(1, 4), (3, 2)], [(6, 7)]] = some [[(0, 1), (6, 7)], [(1, 4)]] ∧
    inverse [[(0, 1), (6, 7)], [(1, 4)]] = some [[(4, 1), (7, 6)], [(1, 0)]] := by decide +kernel

/-- **C73**, the permutation of a path: if carrying out the motions of `p` one after the other moves particles standing at `0, …, n-1` to
unoccupied vertices and to the final positions `pos`, then the permutation read off the reduced path, or off `p` itself if its steps consist of
independent motions, exists and sends `i` to the final position of particle `i`. -/
theorem c73_evaluate {n : Nat} {p : Path} {pos : List Nat} (h : Walk (List.range n) p.flatten pos) :
    ((∀ L ∈ p, L.Pairwise Disj) → evaluate n p = some pos) ∧ (∀ q, reduce p = some q → evaluate n q = some pos) := by
  refine ⟨fun hd => moveAll_spec List.nodup_range hd h, fun q hq => ?_⟩
  obtain ⟨h1, -, h2, -⟩ := c59_reduce hq
  exact moveAll_spec List.nodup_range h2 (h.red h1)

/-- **C73**, composition: for closed walks, the permutation of the composed path is the composition of the permutations. -/
theorem c73_compose {n : Nat} {p q : Path} {π ρ : List Nat} (hp : Walk (List.range n) p.flatten π) (hq : Walk (List.range n) q.flatten ρ)
    (hπ : π.Perm (List.range n)) (hd : ∀ L ∈ p ++ q, L.Pairwise Disj) :
    evaluate n (composedWith p q) = some (π.map (fun x => ρ.getD x 0)) ∧
    (∀ r, reduce (composedWith p q) = some r → evaluate n r = some (π.map (fun x => ρ.getD x 0))) := by
  have hw : Walk (List.range n) (composedWith p q).flatten (π.map (fun x => ρ.getD x 0)) := by
    unfold composedWith
    rw [List.flatten_append]
    refine hp.append ?_
    have := hq.rename (π := π) (by simpa using hπ)
    convert this using 1
    symm
    refine (List.map_congr_left ?_).trans (List.map_id π)
    intro x hx
    have := List.mem_range.mp (hπ.mem_iff.mp hx)
    rw [List.getD_eq_getElem _ _ (by simpa using this)]
    simp
  exact ⟨(c73_evaluate hw).1 hd, (c73_evaluate hw).2⟩

/-- **C73**, inverse: for a reduced closed walk, the permutation of the inverse path is the inverse permutation. -/
theorem c73_inverse {n : Nat} {p₀ p : Path} {π : List Nat} (h : reduce p₀ = some p) (hp : Walk (List.range n) p.flatten π)
    (hπ : π.Perm (List.range n)) :
    ∃ r σ, inverse p = some r ∧ evaluate n r = some σ ∧ σ.length = n ∧ (∀ i < n, π.getD (σ.getD i 0) 0 = i ∧ σ.getD (π.getD i 0) 0 = i) := by
  obtain ⟨r, hr, -⟩ := (c59_inverse p).2.2 p₀ h
  have hnd : π.Nodup := hπ.nodup_iff.mpr List.nodup_range
  have hlen : π.length = n := by simpa using hπ.length_eq
  have hmem : ∀ i, i < n → i ∈ π := fun i hi => hπ.mem_iff.mpr (List.mem_range.mpr hi)
  refine ⟨r, (List.range n).map (fun i => π.idxOf i), hr, ?_, by simp, ?_⟩
  · have hw := hp.revWord List.nodup_range
    have hperm : ((List.range n).map (fun i => π.idxOf i)).Perm (List.range π.length) := by
      rw [List.perm_ext_iff_of_nodup ?_ List.nodup_range]
      · intro a
        rw [List.mem_map, List.mem_range]
        constructor
        · rintro ⟨i, hi, rfl⟩
          exact List.idxOf_lt_length_of_mem (hmem i (List.mem_range.mp hi))
        · intro ha
          exact ⟨π[a], hπ.mem_iff.mp (List.getElem_mem ha), List.Nodup.idxOf_getElem hnd a ha⟩
      · refine List.Nodup.map_on ?_ List.nodup_range
        intro a ha b hb e
        exact (List.idxOf_inj (hmem a (List.mem_range.mp ha))).mp e
    have hw2 := hw.rename hperm
    unfold inverse at hr
    refine (c73_evaluate ?_).2 r hr
    rw [flatten_rev]
    convert hw2 using 1
    · rw [List.map_map]
      symm
      refine (List.map_congr_left ?_).trans (List.map_id _)
      intro x hx
      have hx := hmem x (List.mem_range.mp hx)
      show π.getD (π.idxOf x) 0 = x
      rw [List.getD_eq_getElem _ _ (List.idxOf_lt_length_of_mem hx), List.getElem_idxOf]
    · symm
      refine (List.map_congr_left ?_).trans (List.map_id _)
      intro x hx
      have hx := List.mem_range.mp (hperm.mem_iff.mp hx)
      rw [hlen] at hx
      rw [List.getD_eq_getElem _ _ (by simpa using hx)]
      simp
  · intro i hi
    have hx := hmem i hi
    constructor
    · rw [List.getD_eq_getElem (l := (List.range n).map _) _ (by simpa using hi)]
      simp only [List.getElem_map, List.getElem_range]
      rw [List.getD_eq_getElem _ _ (List.idxOf_lt_length_of_mem hx), List.getElem_idxOf]
    · have hi' : i < π.length := by omega
      rw [List.getD_eq_getElem _ _ hi']
      have hv : π[i] < n := List.mem_range.mp (hπ.mem_iff.mp (List.getElem_mem hi'))
      rw [List.getD_eq_getElem (l := (List.range n).map _) _ (by simpa using hv)]
      simp only [List.getElem_map, List.getElem_range]
      exact List.Nodup.idxOf_getElem hnd i hi'

/-- **C73**, panics: the permutation cannot be read off exactly when, after some of the steps, the next step contains a motion from a vertex at
which no particle stands. -/
theorem c73_panics (n : Nat) (p : Path) :
    evaluate n p = none ↔ ∃ a L b pos, p = a ++ L :: b ∧ evaluate n a = some pos ∧ ∃ e ∈ L, e.1 ∉ pos := by
  have hone : ∀ (out next : List Nat) (e : Move), moveOne out next e = none ↔ e.1 ∉ out := by
    intro out next e
    unfold moveOne
    have : ((List.range out.length).find? (fun i => out.getD i 0 == e.1) = none) ↔ e.1 ∉ out := by
      rw [List.find?_eq_none]
      constructor
      · intro h hm
        obtain ⟨i, hi, he⟩ := List.mem_iff_getElem.mp hm
        refine h i (List.mem_range.mpr hi) ?_
        rw [List.getD_eq_getElem _ _ hi, he]; simp
      · intro h x hx e'
        have hx := List.mem_range.mp hx
        rw [List.getD_eq_getElem _ _ hx, beq_iff_eq] at e'
        exact h (e' ▸ List.getElem_mem hx)
    rw [← this]
    cases (List.range out.length).find? (fun i => out.getD i 0 == e.1) <;> simp
  have hstep : ∀ (out : List Nat) (L : List Move) (next : List Nat), moveStep out next L = none ↔ ∃ e ∈ L, e.1 ∉ out := by
    intro out L
    induction L with
    | nil => intro next; simp [moveStep]
    | cons e L ih =>
      intro next
      unfold moveStep
      cases hm : moveOne out next e with
      | none => simpa using Or.inl ((hone _ _ _).mp hm)
      | some next' =>
        have : e.1 ∈ out := by
          by_contra hc
          rw [(hone out next e).mpr hc] at hm
          cases hm
        simp [ih, this]
  have hall : ∀ (p : Path) (out : List Nat), moveAll out p = none ↔ ∃ a L b pos, p = a ++ L :: b ∧ moveAll out a = some pos ∧ ∃ e ∈ L, e.1 ∉ pos := by
    intro p
    induction p with
    | nil => intro out; simp [moveAll]
    | cons M p ih =>
      intro out
      have e : ∀ r : Path, moveAll out (M :: r) = (moveStep out out M).bind (fun b => moveAll b r) := by
        intro r
        show (match moveStep out out M with | none => none | some out' => moveAll out' r) = _
        cases moveStep out out M <;> rfl
      rw [e]
      cases hm : moveStep out out M with
      | none =>
        simp only [Option.bind_none, true_iff]
        exact ⟨[], M, p, out, rfl, rfl, (hstep _ _ _).mp hm⟩
      | some out' =>
        rw [Option.bind_some, ih]
        constructor
        · rintro ⟨a, L, b, pos, rfl, h1, h2⟩
          refine ⟨M :: a, L, b, pos, rfl, ?_, h2⟩
          rw [e, hm]; exact h1
        · rintro ⟨a, L, b, pos, h0, h1, h2⟩
          cases a with
          | nil =>
            rw [List.nil_append] at h0
            injection h0 with h3 h4
            subst h3
            have h1 : out = pos := Option.some.inj h1
            subst h1
            rw [(hstep out M out).mpr h2] at hm
            cases hm
          | cons N a =>
            rw [List.cons_append] at h0
            injection h0 with h3 h4
            subst h3
            rw [e, hm] at h1
            exact ⟨a, L, b, pos, h4, h1, h2⟩
  exact hall p _

/-- the hypotheses of **C73** are met by the motion exchanging two particles at a vertex of degree three (arms `0`,
`1`, `2` around `3`) -/
example : Walk (List.range 2) [[(1, 3)], [(3, 2)], [(0, 3)], [(3, 1)], [(2, 3)], [(3, 0)]].flatten [1, 0] ∧
    [1, 0].Perm (List.range 2) ∧
    reduce [[(1, 3)], [(3, 2)], [(0, 3)], [(3, 1)], [(2, 3)], [(3, 0)]] = some [[(1, 3)], [(3, 2)], [(0, 3)], [(3, 1)], [(2, 3)], [(3, 0)]] ∧
    evaluate 2 [[(1, 3)], [(3, 2)], [(0, 3)], [(3, 1)], [(2, 3)], [(3, 0)]] = some [1, 0] := by
  refine ⟨?_, by decide, by decide +kernel, by decide +kernel⟩
  refine .cons 1 rfl (by decide) (.cons 1 rfl (by decide) (.cons 0 rfl (by decide) (.cons 0 rfl (by decide) (.cons 1 rfl (by decide) (.cons 1 rfl (by decide) ?_)))))
  exact .nil _

end Toppo.EdgePath
