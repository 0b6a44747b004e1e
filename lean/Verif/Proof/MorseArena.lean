import Verif.Proof.MorseEnum
set_option linter.unusedVariables false

/-! The arena of `UdnMorseCplx` represents the paths of the pure enumeration. -/
namespace Toppo.Cub.Morse
open RawGraph RawGraph.Factor Toppo.PoolProps Toppo.EdgePath Toppo.GraphProps Toppo.CubeProps

/-- a possible factor: a vertex or an edge that is not order-respecting -/
def Long : Factor → Prop
  | .vertex _ => True
  | .edge x y => y ≠ x + 1

/-- there are always enough vertices left -/
def Room (g : RawGraph) (pool : List Factor) (k : Nat) : Prop :=
  ∀ c : List Factor, Valid c → (∀ f ∈ c, f ∈ pool ∧ Long f) → c.length + 2 ≤ k → k - 1 - c.length ≤ free c g.n

theorem room_of_size {g : RawGraph} {pool : List Factor} {k : Nat} (h : 2 * k ≤ g.n + 3) : Room g pool k := by
  intro c _ _ hc
  have h1 := free_ge c g.n
  have h2 : size c ≤ 2 * c.length := by
    unfold size
    have : c.countP isEdge ≤ c.length := List.countP_le_length
    omega
  omega

theorem free_mono (c : List Factor) {u v : Nat} (h : u ≤ v) : free c u ≤ free c v := by
  obtain ⟨w, rfl⟩ : ∃ w, v = u + w := ⟨v - u, by omega⟩
  unfold free
  rw [List.range_add, List.countP_append]
  omega

theorem free_ge_one (c : List Factor) (u : Nat) (h : ∀ f ∈ c, ∀ v w, v < u → w < u → f.disjoint (.vertex v) = false → f.disjoint (.vertex w) = false → v = w) :
    u ≤ free c u + c.length := by
  induction c with
  | nil =>
    have : free [] u = u := by unfold free; simp
    omega
  | cons f c ih =>
    have h0 := ih (fun f hf => h f (by simp [hf]))
    have h1 : (List.range u).countP (fun v => !f.disjoint (.vertex v)) ≤ 1 := by
      rw [List.countP_eq_length_filter]
      have hnd : ((List.range u).filter (fun v => !f.disjoint (.vertex v))).Nodup := List.nodup_range.filter _
      match hl : (List.range u).filter (fun v => !f.disjoint (.vertex v)), hnd with
      | [], _ => simp
      | [a], _ => simp
      | a :: b :: l, hnd =>
        exfalso
        have ha : a ∈ (List.range u).filter (fun v => !f.disjoint (.vertex v)) := by rw [hl]; simp
        have hb : b ∈ (List.range u).filter (fun v => !f.disjoint (.vertex v)) := by rw [hl]; simp
        rw [List.mem_filter, List.mem_range, Bool.not_eq_true'] at ha hb
        have := h f (by simp) a b ha.1 hb.1 ha.2 hb.2
        subst this
        simp at hnd
    have h2 : free c u ≤ free (f :: c) u + (List.range u).countP (fun v => !f.disjoint (.vertex v)) := free_cons f c u
    rw [List.length_cons]
    omega

/-- edges between vertices below `k - 1` join consecutive ones -/
def StemEdges (g : RawGraph) (k : Nat) : Prop := ∀ x y, x < y → y + 1 < k → Edge g x y → y = x + 1

theorem room_of_stem {g : RawGraph} {pool : List Factor} (hm : ∀ f ∈ pool, FactorOf g f) {k : Nat} (hs : StemEdges g k) (h : k ≤ g.n + 1) : Room g pool k := by
  intro c _ hf hc
  have h1 := free_ge_one c (k - 1) (by
    intro f hf' v w hv hw h1 h2
    obtain ⟨h3, h4⟩ := hf f hf'
    cases f with
    | vertex a =>
      simp [disjoint] at h1 h2
      omega
    | edge x y =>
      have h3 := hm _ h3
      have hl : y ≠ x + 1 := h4
      have := hs x y h3.1
      simp [disjoint] at h1 h2
      by_contra hvw
      have : y + 1 < k := by have := h3.1; omega
      exact hl (hs x y h3.1 this h3.2))
  have := free_mono c (show k - 1 ≤ g.n by omega)
  omega

theorem attach_fold {idx : Nat} (fs : List Factor) {s : Cplx} {b : Branch} (hb : s.data[idx]? = some b) :
    fs.foldlM (fun s f => attach idx s f) s =
      some { s with data := s.data.set idx { b with children := b.children ++ List.range' s.data.length fs.length } ++ fs.map (fun f => ⟨some idx, [], f⟩) } := by
  have hi := (List.getElem?_eq_some_iff.mp hb).1
  have hbe := (List.getElem?_eq_some_iff.mp hb).2
  induction fs generalizing s b with
  | nil =>
    simp only [List.foldlM_nil, List.length_nil, List.range'_zero, List.append_nil, List.map_nil]
    have : s.data.set idx b = s.data := by rw [← hbe]; simp
    rw [this]
    rfl
  | cons f fs ih =>
    rw [List.foldlM_cons]
    unfold attach
    rw [hb]
    simp only [Option.bind_eq_bind, Option.bind_some]
    have := ih (s := { s with data := s.data.set idx { b with children := b.children ++ [s.data.length] } ++ [⟨some idx, [], f⟩] })
      (b := { b with children := b.children ++ [s.data.length] }) (by
        rw [List.getElem?_append_left (by simpa using hi), List.getElem?_set]; simp [hi]) (by simp; omega) (by
        rw [List.getElem_append_left (by simpa using hi)]; simp)
    unfold attach at this
    simp only [Option.bind_eq_bind] at this
    show List.foldlM _ _ fs = _
    rw [this]
    congr 2
    rw [List.set_append_left _ _ (by simpa using hi), List.set_set]
    simp [List.append_assoc, List.range'_succ]

theorem attachAll_spec {idx : Nat} (fs : List Factor) {s : Cplx} (h : AInv s) {P : List Factor} (hP : PathAt s.data idx P) (hnd : fs.Nodup)
    (hf : ∀ f ∈ fs, f ∈ s.pool ∧ ∀ x ∈ P, Bef x f) (hno : ∀ f, (some idx, f) ∉ skel s.data) :
    ∃ s', attachAll false idx s fs = some s' ∧ Post idx s s' [] ∧ skel s'.data = skel s.data ++ fs.map (fun f => (some idx, f)) ∧
      ∀ (j : Nat) f, fs[j]? = some f → PathAt s'.data (s.data.length + j) (P ++ [f]) := by
  have hi := hP.lt
  have hkids := h.kids idx s.data[idx] (List.getElem?_eq_getElem hi)
  have hk0 : s.data[idx].children = [] := by
    rw [hkids, List.filter_eq_nil_iff]
    intro i hi'
    rw [decide_eq_true_iff]
    intro e
    unfold parentAt at e
    rw [Option.map_eq_some_iff] at e
    obtain ⟨⟨q, f'⟩, e1, e2⟩ := e
    simp only at e2
    subst e2
    exact hno f' (List.mem_of_getElem? e1)
  have e0 : attachAll false idx s fs = fs.foldlM (fun s f => attach idx s f) s := by
    rw [attach_fold fs (List.getElem?_eq_getElem hi), hk0]
    unfold attachAll
    rw [List.getElem?_eq_getElem hi]
    simp
  rw [e0]
  clear e0 hkids hk0
  have key : ∀ (fs : List Factor) (t : Cplx), Post idx s t [] → fs.Nodup → (∀ f ∈ fs, f ∈ s.pool ∧ ∀ x ∈ P, Bef x f) → (∀ f ∈ fs, (some idx, f) ∉ skel t.data) →
      ∃ s', fs.foldlM (fun s f => attach idx s f) t = some s' ∧ Post idx s s' [] ∧ skel s'.data = skel t.data ++ fs.map (fun f => (some idx, f)) ∧
        ∀ (j : Nat) f, fs[j]? = some f → PathAt s'.data (t.data.length + j) (P ++ [f]) := by
    intro fs
    induction fs with
    | nil => intro t ht _ _ _; exact ⟨t, rfl, ht, by simp, by simp⟩
    | cons f fs ih =>
      intro t ht hnd hf hno
      rw [List.nodup_cons] at hnd
      have hPt : PathAt t.data idx P := hP.congr ht.pre
      obtain ⟨t1, a1, a2, a3, a4, a5, a6, a7, a8, a9, a10⟩ := attach_spec ht.inv hPt (by rw [ht.pool]; exact (hf f (by simp)).1) (hf f (by simp)).2 (hno f (by simp))
      have hlen1 : t1.data.length = t.data.length + 1 := by
        rw [← skel_length, a3, List.length_append, skel_length]; rfl
      have hpost1 : Post idx t t1 [] := by
        refine ⟨a2, a4, a5, a6, by rw [a3]; exact List.prefix_append _ _, ?_, ⟨[], by rw [a7]; simp, .nil⟩, by rw [a9], by rw [a9]; simp, a8⟩
        intro i p f' hi e
        have hil := (List.getElem?_eq_some_iff.mp e).1
        rw [skel_length, hlen1] at hil
        obtain rfl : i = t.data.length := by omega
        rw [a3, List.getElem?_append_right (by rw [skel_length]), skel_length] at e
        simp at e
        exact ⟨idx, e.1.symm, Or.inl rfl⟩
      obtain ⟨s', c1, c2, c3, c4⟩ := ih t1 (ht.trans hpost1 (Or.inl rfl)) hnd.2 (fun x hx => hf x (by simp [hx])) (by
        intro x hx hm
        rw [a3] at hm
        rcases List.mem_append.mp hm with hm | hm
        · exact hno x (by simp [hx]) hm
        · rw [List.mem_singleton] at hm
          injection hm with _ hm
          rw [hm] at hx; exact hnd.1 hx)
      refine ⟨s', by rw [List.foldlM_cons, a1]; exact c1, c2, by rw [c3, a3]; simp, ?_⟩
      intro j f' hj
      cases j with
      | zero =>
        simp at hj
        subst hj
        exact a10.congr (by rw [c3]; exact List.prefix_append _ _)
      | succ j =>
        have := c4 j f' (by simpa using hj)
        rw [hlen1] at this
        rw [show t.data.length + (j + 1) = t.data.length + 1 + j by omega]; exact this
  exact key fs s (Post.refl h) hnd hf (fun f _ => hno f)

theorem countRanks_spec (ds : List Nat) (ranks : List Nat) (h : ∀ d ∈ ds, d < ranks.length) :
    ∃ r', countRanks ds ranks = some r' ∧ r'.length = ranks.length ∧ ∀ d, r'.getD d 0 = ranks.getD d 0 + ds.countP (fun e => decide (e = d)) := by
  induction ds generalizing ranks with
  | nil => exact ⟨ranks, rfl, rfl, by simp⟩
  | cons e ds ih =>
    have he := h e (by simp)
    obtain ⟨r', h1, h2, h3⟩ := ih (ranks.set e (ranks[e] + 1)) (by intro d hd; rw [List.length_set]; exact h d (by simp [hd]))
    refine ⟨r', by unfold countRanks; rw [List.getElem?_eq_getElem he]; exact h1, by rw [h2, List.length_set], ?_⟩
    intro d
    rw [h3, List.countP_cons]
    simp only [List.getD_eq_getElem?_getD, List.getElem?_set]
    by_cases hed : e = d
    · subst hed; simp [he]; omega
    · rw [if_neg hed]; simp [hed]

theorem finishAll_spec {s : Cplx} (h : AInv s) {idx : Nat} {idxs : List Nat} {cells : List (List Factor)} (hc : List.Forall₂ (PathAt s.data) idxs cells) (hne : cells ≠ [])
    (hr : ∀ c ∈ cells, c.length < s.ranks.length) : ∃ s', finishAll idxs s = some s' ∧ Post idx s s' cells ∧ s'.data = s.data := by
  have h1 : idxs.mapM (fun i => dimOf s.data (i + 1) i) = some (cells.map (fun c => c.countP isEdge)) := by
    clear hr hne
    induction hc with
    | nil => rfl
    | cons hp _ ih => rw [List.mapM_cons, hp.dim, ih]; rfl
  obtain ⟨r', h2, h3, h4⟩ := countRanks_spec (cells.map (fun c => c.countP isEdge)) s.ranks (by
    intro d hd
    obtain ⟨c, hc', rfl⟩ := List.mem_map.mp hd
    exact lt_of_le_of_lt List.countP_le_length (hr c hc'))
  obtain ⟨c0, cs, rfl⟩ : ∃ c0 cs, cells = c0 :: cs := by
    cases cells with
    | nil => exact absurd rfl hne
    | cons a b => exact ⟨a, b, rfl⟩
  have h5 : ((c0 :: cs).map (fun c => c.countP isEdge)).max? = some (cs.foldl (fun m c => max m (c.countP isEdge)) (c0.countP isEdge)) := by
    rw [List.map_cons, List.max?_cons', List.foldl_map]
  unfold finishAll
  rw [h1]
  simp only [Option.bind_eq_bind, Option.bind_some]
  rw [h2]
  simp only [Option.bind_some]
  rw [h5]
  simp only [Option.bind_some]
  refine ⟨_, rfl, ⟨⟨h.1, h.2, h.3, h.4, h.5⟩, rfl, rfl, rfl, List.prefix_rfl, ?_, ⟨idxs, rfl, hc⟩, h3, ?_, ?_⟩, rfl⟩
  · intro i p f hi e
    have := (List.getElem?_eq_some_iff.mp e).1
    rw [skel_length] at this
    have : i < s.data.length := this
    omega
  · intro d
    show r'.getD d 0 = _
    rw [h4, List.countP_map]
    rfl
  · show (if _ > s.dim then _ else s.dim) = _
    rw [List.foldl_cons]
    have key : ∀ (cs : List (List Factor)) (a b : Nat), cs.foldl (fun m c => max m (c.countP isEdge)) (max a b) = max a (cs.foldl (fun m c => max m (c.countP isEdge)) b) := by
      intro cs
      induction cs with
      | nil => intro a b; rfl
      | cons c cs ih => intro a b; rw [List.foldl_cons, List.foldl_cons, max_assoc, ih]
    rw [key]
    split <;> omega

/-- like `Post`, for a loop over branches starting at `base` -/
structure LPost (base : Nat) (s s' : Cplx) (cells : List (List Factor)) : Prop where
  inv : AInv s'
  n : s'.n = s.n
  pool : s'.pool = s.pool
  first : s'.first = s.first
  pre : skel s.data <+: skel s'.data
  new : ∀ (i : Nat) (p : Option Nat) (f : Factor), s.data.length ≤ i → (skel s'.data)[i]? = some (p, f) → ∃ q, p = some q ∧ base ≤ q
  final : ∃ F, s'.final = s.final ++ F ∧ List.Forall₂ (PathAt s'.data) F cells
  rlen : s'.ranks.length = s.ranks.length
  ranks : ∀ d, s'.ranks.getD d 0 = s.ranks.getD d 0 + cells.countP (fun c => decide (c.countP isEdge = d))
  dim : s'.dim = cells.foldl (fun m c => max m (c.countP isEdge)) s.dim

theorem LPost.refl {base : Nat} {s : Cplx} (h : AInv s) : LPost base s s [] := by
  refine ⟨h, rfl, rfl, rfl, List.prefix_rfl, ?_, ⟨[], by simp, .nil⟩, rfl, by simp, rfl⟩
  intro i p f hi e
  have := (List.getElem?_eq_some_iff.mp e).1
  rw [skel_length] at this; omega

theorem LPost.trans {base : Nat} {s s' s'' : Cplx} {cells cells' : List (List Factor)} {idx' : Nat} (h : LPost base s s' cells) (h' : Post idx' s' s'' cells')
    (hi : base ≤ idx') (hb : base ≤ s.data.length) : LPost base s s'' (cells ++ cells') := by
  have hl := h.pre.length_le
  rw [skel_length, skel_length] at hl
  refine ⟨h'.inv, h'.n.trans h.n, h'.pool.trans h.pool, h'.first.trans h.first, h.pre.trans h'.pre, ?_, ?_, h'.rlen.trans h.rlen, ?_, ?_⟩
  · intro i p f hil e
    rcases Nat.lt_or_ge i s'.data.length with hh | hh
    · refine h.new i p f hil ?_
      obtain ⟨t, ht⟩ := h'.pre
      rw [← ht, List.getElem?_append_left (by rw [skel_length]; exact hh)] at e
      exact e
    · obtain ⟨q, e1, e2⟩ := h'.new i p f hh e
      refine ⟨q, e1, ?_⟩
      rcases e2 with e2 | e2 <;> omega
  · obtain ⟨F, f1, f2⟩ := h.final
    obtain ⟨F', f3, f4⟩ := h'.final
    refine ⟨F ++ F', by rw [f3, f1, List.append_assoc], ?_⟩
    exact List.rel_append (f2.imp (fun _ _ hp => hp.congr h'.pre)) f4
  · intro d
    rw [h'.ranks, h.ranks, List.countP_append]; omega
  · rw [h'.dim, h.dim, List.foldl_append]

theorem Post.append {idx : Nat} {s s' s'' : Cplx} {cells cells' : List (List Factor)} (h : Post idx s s' cells) (h' : LPost s.data.length s' s'' cells') :
    Post idx s s'' (cells ++ cells') := by
  have hl := h.len
  refine ⟨h'.inv, h'.n.trans h.n, h'.pool.trans h.pool, h'.first.trans h.first, h.pre.trans h'.pre, ?_, ?_, h'.rlen.trans h.rlen, ?_, ?_⟩
  · intro i p f hil e
    rcases Nat.lt_or_ge i s'.data.length with hh | hh
    · refine h.new i p f hil ?_
      obtain ⟨t, ht⟩ := h'.pre
      rw [← ht, List.getElem?_append_left (by rw [skel_length]; exact hh)] at e
      exact e
    · obtain ⟨q, e1, e2⟩ := h'.new i p f hh e
      exact ⟨q, e1, Or.inr e2⟩
  · obtain ⟨F, f1, f2⟩ := h.final
    obtain ⟨F', f3, f4⟩ := h'.final
    refine ⟨F ++ F', by rw [f3, f1, List.append_assoc], ?_⟩
    exact List.rel_append (f2.imp (fun _ _ hp => hp.congr h'.pre)) f4
  · intro d
    rw [h'.ranks, h.ranks, List.countP_append]; omega
  · rw [h'.dim, h.dim, List.foldl_append]

/-- one round of the loop of `expand` -/
def step (g : RawGraph) (upper : Option Nat) (r : Nat) (ps : LabeledSet Factor × Cplx) (fi : Factor × Nat) : Option (LabeledSet Factor × Cplx) := do
  let added ← factorsAdded g fi.1
  let p1 ← addAll ps.1 added
  let q ← expand g upper r fi.2 p1 ps.2
  let p2 ← q.1.add fi.1
  let p3 ← removeAll p2 added
  return (p3, q.2)

/-- what `expand` does below a path, if it is called with `r` factors remaining -/
def ExpandsTo (g : RawGraph) (pool : List Factor) (upper : Option Nat) (k r : Nat) : Prop :=
  ∀ (s : Cplx) (idx : Nat) (P : List Factor) (ls : LabeledSet Factor) (S : List Factor), AInv s → s.n = g.n → s.pool = pool → PathAt s.data idx P → P.length + r = k →
    s.ranks.length = k + 1 → (∀ f, (some idx, f) ∉ skel s.data) → (∀ f ∈ P, Long f) → (∀ f ∈ S, Long f) → Rep pool ls S →
    ∃ ls' s', expand g upper r idx ls s = some (ls', s') ∧ Post idx s s' (menum g g.n pool upper r P S).1 ∧ Rep pool ls' (menum g g.n pool upper r P S).2 ∧
      ∀ f ∈ (menum g g.n pool upper r P S).2, Long f

theorem addedB_pool {g : RawGraph} {pool : List Factor} (hv : ∀ v, v < g.n → .vertex v ∈ pool) (f : Factor) : ∀ x ∈ addedB g f, x ∈ pool ∧ Long x := by
  intro x hx
  obtain ⟨v, rfl, hv'⟩ := addedB_vertex hx
  exact ⟨hv v hv', trivial⟩

theorem loop_spec {g : RawGraph} (hg : TreeGraph g) {pool : List Factor} (hp : Pool g.n pool) {upper : Option Nat} {k r : Nat} (he : ExpandsTo g pool upper k r)
    {P : List Factor} (hPl : P.length + 1 + r = k) (hPL : ∀ f ∈ P, Long f) {s : Cplx} (hs : s.n = g.n) (hsp : s.pool = pool) (hsr : s.ranks.length = k + 1)
    {base : Nat} (hb : base ≤ s.data.length) :
    ∀ (fs : List Factor) (i0 : Nat) (t : Cplx) (ls : LabeledSet Factor) (S : List Factor) (done : List (List Factor)), LPost base s t done → base ≤ i0 →
      i0 + fs.length ≤ s.data.length →
      (∀ f ∈ fs, f ∈ pool ∧ Long f) → (∀ (j : Nat) f, fs[j]? = some f → PathAt t.data (i0 + j) (P ++ [f])) →
      (∀ (j : Nat) f, j < fs.length → (some (i0 + j), f) ∉ skel t.data) → (∀ f ∈ S, Long f) → Rep pool ls S →
      ∃ ls' s', (fs.zipIdx i0).foldlM (step g upper r) (ls, t) = some (ls', s') ∧
        LPost base s s' (done ++ (mloop g (fun f S => menum g g.n pool upper r (P ++ [f]) S) fs S).1) ∧
        Rep pool ls' (mloop g (fun f S => menum g g.n pool upper r (P ++ [f]) S) fs S).2 ∧
        ∀ f ∈ (mloop g (fun f S => menum g g.n pool upper r (P ++ [f]) S) fs S).2, Long f := by
  intro fs
  induction fs with
  | nil =>
    intro i0 t ls S done ht _ _ _ _ _ hSL hS
    exact ⟨ls, t, rfl, by simpa [mloop] using ht, by simpa [mloop] using hS, by simpa [mloop] using hSL⟩
  | cons f fs ih =>
    intro i0 t ls S done ht hbi hil hf hpath hno hSL hS
    obtain ⟨hfp, hfL⟩ := hf f (by simp)
    have hadd := addedB_pool hp.verts f
    obtain ⟨l1, a1, a2⟩ := hS.addAll hp.nodup (fs := addedB g f) (fun x hx => (hadd x hx).1)
    obtain ⟨l2, t2, b1, b2, b3, b4⟩ := he t i0 (P ++ [f]) l1 (addS S (addedB g f)) ht.inv (by rw [ht.n, hs]) (by rw [ht.pool, hsp]) (hpath 0 f rfl)
      (by simp; omega) (by rw [ht.rlen, hsr]) (fun x => hno 0 x (by simp)) (by
        intro x hx
        rcases List.mem_append.mp hx with hx | hx
        · exact hPL x hx
        · rw [List.mem_singleton] at hx; rw [hx]; exact hfL) (by
        intro x hx
        rcases mem_addS.mp hx with hx | hx
        · exact (hadd x hx).2
        · exact hSL x hx) a2
    obtain ⟨q, hq⟩ : ∃ q, q = menum g g.n pool upper r (P ++ [f]) (addS S (addedB g f)) := ⟨_, rfl⟩
    rw [← hq] at b2 b3 b4
    obtain ⟨l3, c1, c2⟩ := b3.add hp.nodup hfp
    obtain ⟨l4, d1, d2⟩ := c2.removeAll hp.nodup (fs := addedB g f) (fun x hx => (hadd x hx).1)
    have hpost := ht.trans b2 hbi hb
    have hlt : s.data.length ≤ t.data.length := by
      have := ht.pre.length_le; rwa [skel_length, skel_length] at this
    obtain ⟨l5, s', e1, e2, e3, e4⟩ := ih (i0 + 1) t2 l4 (remS (insS q.2 f) (addedB g f)) (done ++ q.1) hpost (by omega) (by rw [List.length_cons] at hil; omega)
      (fun x hx => hf x (by simp [hx])) (by
        intro j x hj
        have := (hpath (j + 1) x (by simpa using hj)).congr b2.pre
        rw [show i0 + 1 + j = i0 + (j + 1) by omega]; exact this) (by
        intro j x hj hm
        rw [List.mem_iff_getElem?] at hm
        obtain ⟨i, hi⟩ := hm
        rw [List.length_cons] at hil
        rcases Nat.lt_or_ge i t.data.length with hh | hh
        · obtain ⟨tl, htl⟩ := b2.pre
          rw [← htl, List.getElem?_append_left (by rw [skel_length]; exact hh)] at hi
          refine hno (j + 1) x (by simp; omega) ?_
          rw [show i0 + (j + 1) = i0 + 1 + j by omega]; exact List.mem_of_getElem? hi
        · obtain ⟨q', k1, k2⟩ := b2.new i _ _ hh hi
          injection k1 with k1
          omega) (by
        intro x hx
        rcases mem_insS.mp (mem_remS.mp hx).1 with rfl | hx
        · exact hfL
        · exact b4 x hx) d2
    refine ⟨l5, s', ?_, ?_, ?_, ?_⟩
    · rw [List.zipIdx_cons, List.foldlM_cons]
      have : step g upper r (ls, t) (f, i0) = some (l4, t2) := by
        unfold step
        simp only [factorsAdded_eq hg (hp.range f hfp), Option.bind_eq_bind, Option.bind_some, a1, b1, c1, d1]
        rfl
      rw [this]
      exact e1
    · simp only [mloop, ← hq]; rw [← List.append_assoc]; exact e2
    · simp only [mloop, ← hq]; exact e3
    · simp only [mloop, ← hq]; exact e4

theorem mconts_mem {g : RawGraph} {n : Nat} {pool : List Factor} {upper : Option Nat} {S P : List Factor} (hP : Valid P) {r : Nat} {f : Factor} (hf : f ∈ mconts g n pool upper S P r) :
    f ∈ pool ∧ f ∈ S ∧ ∀ x ∈ P, Bef x f := by
  unfold mconts at hf
  rw [List.mem_filter, Bool.and_eq_true, decide_eq_true_iff, Bool.or_eq_true] at hf
  refine ⟨hf.1, hf.2.1, ?_⟩
  rcases hf.2.2 with h | h
  · rw [List.isEmpty_iff] at h; subst h; simp
  · rw [bef_last hP]
    unfold admB at h
    simp only [Bool.and_eq_true] at h ⊢
    exact ⟨h.1.1.1.1.1.1, h.1.1.1.1.1.2⟩

theorem expandsTo {g : RawGraph} (hg : TreeGraph g) {pool : List Factor} (hp : Pool g.n pool) {upper : Option Nat} {k : Nat} (hroom : Room g pool k) (r : Nat) :
    ExpandsTo g pool upper k (r + 1) := by
  induction r with
  | zero =>
    intro s idx P ls S h hn hsp hP hk hrk hno hPL hSL hS
    have hi := hP.lt
    obtain ⟨hv, hvp⟩ := h.valid idx P hP
    rw [hsp] at hvp
    have hPn : P ≠ [] := by rintro rfl; obtain ⟨p, f, h1, h2⟩ := up_succ.mp hP; rcases h2 with ⟨-, e⟩ | ⟨q, L', -, -, e⟩ <;> simp at e
    have hbr := branches_eq hg hp.nodup hp.range hn hP hPn hvp (r := 0) (by omega) (upper := upper) hS
    have hemp : s.data.isEmpty = false := by
      cases hd : s.data with
      | nil => rw [hd] at hi; simp at hi
      | cons => rfl
    obtain ⟨fs, hfs⟩ : ∃ fs, fs = mconts g g.n pool upper S P 0 := ⟨_, rfl⟩
    have hm : menum g g.n pool upper (0 + 1) P S = (fs.map (fun f => P ++ [f]), S) := by
      unfold menum; rw [if_pos rfl, hfs]
    rw [hm]
    rw [← hfs] at hbr
    unfold expand
    rw [hemp]
    simp only [Bool.false_eq_true, if_false, hbr, Option.bind_eq_bind, Option.bind_some]
    by_cases hfe : fs = []
    · subst hfe
      exact ⟨ls, s, rfl, Post.refl h, hS, hSL⟩
    · have : fs.isEmpty = false := by cases fs with
        | nil => exact absurd rfl hfe
        | cons => rfl
      rw [this]
      simp only [Bool.false_eq_true, if_false, if_true]
      have hfm : ∀ f ∈ fs, f ∈ s.pool ∧ ∀ x ∈ P, Bef x f := by
        intro f hf
        rw [hfs] at hf
        obtain ⟨m1, m2, m3⟩ := mconts_mem hv hf
        exact ⟨by rw [hsp]; exact m1, m3⟩
      obtain ⟨s1, a1, a2, a3, a4⟩ := attachAll_spec fs h hP (by rw [hfs]; exact hp.nodup.filter _) hfm hno
      rw [a1]
      simp only [Option.bind_some]
      obtain ⟨s2, b1, b2, -⟩ := finishAll_spec (idx := idx) (idxs := List.range' s.data.length fs.length) (cells := fs.map (fun f => P ++ [f])) a2.inv (by
          rw [List.forall₂_iff_get]
          refine ⟨by simp, ?_⟩
          intro i h1 h2
          simp only [List.get_eq_getElem, List.getElem_range', List.getElem_map, Nat.one_mul]
          refine a4 i _ (List.getElem?_eq_getElem _)) (by simpa using hfe) (by
          intro c hc
          obtain ⟨f, -, rfl⟩ := List.mem_map.mp hc
          rw [a2.rlen, hrk]; simp; omega)
      rw [b1]
      refine ⟨ls, s2, rfl, ?_, hS, hSL⟩
      have := a2.trans b2 (Or.inl rfl)
      simpa using this
  | succ r ih =>
    intro s idx P ls S h hn hsp hP hk hrk hno hPL hSL hS
    have hi := hP.lt
    obtain ⟨hv, hvp⟩ := h.valid idx P hP
    rw [hsp] at hvp
    have hPn : P ≠ [] := by rintro rfl; obtain ⟨p, f, h1, h2⟩ := up_succ.mp hP; rcases h2 with ⟨-, e⟩ | ⟨q, L', -, -, e⟩ <;> simp at e
    have hfree : r + 1 ≤ free P g.n := by
      have h1 := hroom P hv (fun f hf => ⟨hvp f hf, hPL f hf⟩) (by omega)
      omega
    have hbr := branches_eq hg hp.nodup hp.range hn hP hPn hvp hfree (upper := upper) hS
    have hemp : s.data.isEmpty = false := by
      cases hd : s.data with
      | nil => rw [hd] at hi; simp at hi
      | cons => rfl
    obtain ⟨fs, hfs⟩ : ∃ fs, fs = mconts g g.n pool upper S P (r + 1) := ⟨_, rfl⟩
    have hm : menum g g.n pool upper (r + 1 + 1) P S = mloop g (fun f S => menum g g.n pool upper (r + 1) (P ++ [f]) S) fs S := by
      rw [menum, if_neg (by omega), hfs]
    rw [hm]
    rw [← hfs] at hbr
    unfold expand
    rw [hemp]
    simp only [Bool.false_eq_true, if_false, hbr, Option.bind_eq_bind, Option.bind_some]
    by_cases hfe : fs = []
    · subst hfe
      exact ⟨ls, s, rfl, by simpa [mloop] using Post.refl h, by simpa [mloop] using hS, by simpa [mloop] using hSL⟩
    · have : fs.isEmpty = false := by cases fs with
        | nil => exact absurd rfl hfe
        | cons => rfl
      rw [this]
      simp only [Bool.false_eq_true, if_false]
      have hfm' : ∀ f ∈ fs, f ∈ pool ∧ f ∈ S ∧ ∀ x ∈ P, Bef x f := by
        intro f hf
        rw [hfs] at hf
        exact mconts_mem hv hf
      obtain ⟨s1, a1, a2, a3, a4⟩ := attachAll_spec fs h hP (by rw [hfs]; exact hp.nodup.filter _) (fun f hf => ⟨by rw [hsp]; exact (hfm' f hf).1, (hfm' f hf).2.2⟩) hno
      rw [a1]
      simp only [Option.bind_some]
      rw [if_neg (by omega)]
      have hlen1 : s1.data.length = s.data.length + fs.length := by
        rw [← skel_length, a3, List.length_append, skel_length, List.length_map]
      obtain ⟨ls', s', e1, e2, e3, e4⟩ := loop_spec hg hp ih (P := P) (by omega) hPL (s := s1) (by rw [a2.n, hn]) (by rw [a2.pool, hsp]) (by rw [a2.rlen, hrk])
        (base := s.data.length) (by omega) fs s.data.length s1 ls S [] (LPost.refl a2.inv) (le_refl _) (by omega)
        (fun f hf => ⟨(hfm' f hf).1, hSL f (hfm' f hf).2.1⟩) a4 (by
          intro j f hj hm
          rw [List.mem_iff_getElem?] at hm
          obtain ⟨i, hi'⟩ := hm
          have := a2.inv.plt _ _ _ hi'
          rw [a3] at hi'
          rcases List.mem_append.mp (List.mem_of_getElem? hi') with hm | hm
          · have h2 := (List.getElem?_eq_some_iff.mp hi').1
            rw [List.getElem?_append_right (by rw [skel_length]; omega), List.getElem?_map, Option.map_eq_some_iff] at hi'
            obtain ⟨x, -, e⟩ := hi'
            injection e with e _
            injection e with e
            omega
          · obtain ⟨x, -, e⟩ := List.mem_map.mp hm
            injection e with e _
            injection e with e
            omega) hSL hS
      refine ⟨ls', s', e1, ?_, e3, e4⟩
      have := Post.append a2 e2
      simpa using this

/-- the possible factors at the beginning -/
def start (pool : List Factor) : List Factor := .vertex 0 :: pool.filter (fun f => f.isEdge && decide (f.isOrderRespecting = some false))

/-- the cells listed -/
def mcells (g : RawGraph) (pool : List Factor) (upper : Option Nat) (k : Nat) : List (List Factor) := (menum g g.n pool upper k [] (start pool)).1

/-- what the construction delivers -/
structure MDone (g : RawGraph) (pool : List Factor) (k : Nat) (cs : List (List Factor)) (s : Cplx) : Prop where
  inv : AInv s
  n_eq : s.n = g.n
  pool_eq : s.pool = pool
  final : List.Forall₂ (PathAt s.data) s.final cs
  rlen : s.ranks.length = k + 1
  ranks : ∀ d, s.ranks.getD d 0 = cs.countP (fun c => decide (c.countP isEdge = d))
  dim : s.dim = cs.foldl (fun m c => max m (c.countP isEdge)) 0

theorem mconts_nil (g : RawGraph) (n : Nat) (pool : List Factor) (upper : Option Nat) (S : List Factor) (r : Nat) : mconts g n pool upper S [] r = pool.filter (fun f => decide (f ∈ S)) := by
  unfold mconts; simp

theorem mem_start {n : Nat} {pool : List Factor} (hp : Pool n pool) {f : Factor} : f ∈ start pool ↔ f = .vertex 0 ∨ ∃ x y, f = .edge x y ∧ f ∈ pool ∧ y ≠ x + 1 := by
  unfold start
  rw [List.mem_cons, List.mem_filter]
  apply or_congr Iff.rfl
  cases f with
  | vertex v => simp [isEdge]
  | edge x y =>
    have key : .edge x y ∈ pool → (((Factor.edge x y).isOrderRespecting = some false) ↔ y ≠ x + 1) := by
      intro h
      obtain ⟨h1, h2⟩ : x < y ∧ y < n := hp.range _ h
      have hc : csub y x = some (y - x) := by unfold csub; rw [if_pos (by omega)]
      simp only [isOrderRespecting, hc, Option.map_some, Option.some.injEq, beq_eq_false_iff_ne]
      omega
    constructor
    · rintro ⟨h1, h2⟩
      simp only [isEdge, Bool.true_and, decide_eq_true_eq] at h2
      exact ⟨x, y, rfl, h1, (key h1).mp h2⟩
    · rintro ⟨x', y', e, h1, h2⟩
      cases e
      exact ⟨h1, by simp only [isEdge, Bool.true_and, decide_eq_true_eq]; exact (key h1).mpr h2⟩

theorem ofGraph_spec {g : RawGraph} (hg : TreeGraph g) {pool es : List Factor} (hes : g.edgeIter = some es) (hpe : pool = g.vertexIter ++ es) (hp : Pool g.n pool) (h2 : 2 ≤ g.n)
    {upper : Option Nat} {k : Nat} (hroom : Room g pool (k + 1)) :
    ∃ s, ofGraph g (k + 1) upper = some s ∧ MDone g pool (k + 1) (mcells g pool upper (k + 1)) s := by
  have hlong : filterO (fun f => f.isOrderRespecting.map not) es = some (pool.filter (fun f => f.isEdge && decide (f.isOrderRespecting = some false))) := by
    have h1 : ∀ f ∈ es, f ∈ pool := fun f hf => by rw [hpe]; exact List.mem_append_right _ hf
    have hed : ∀ f ∈ es, f.isEdge = true := by
      intro f hf
      cases f with
      | edge x y => rfl
      | vertex v =>
        exfalso
        have hn := hp.nodup
        rw [hpe, List.nodup_append] at hn
        refine hn.2.2 (.vertex v) ?_ (.vertex v) hf rfl
        rw [c53_vertex_iter, List.mem_map]
        exact ⟨v, List.mem_range.mpr (hp.range _ (h1 _ hf)), rfl⟩
    rw [filterO_some (q := fun f => f.isEdge && decide (f.isOrderRespecting = some false)), hpe, List.filter_append]
    · congr 1
      have : g.vertexIter.filter (fun f => f.isEdge && decide (f.isOrderRespecting = some false)) = [] := by
        rw [List.filter_eq_nil_iff]
        intro f hf
        rw [c53_vertex_iter, List.mem_map] at hf
        obtain ⟨v, -, rfl⟩ := hf
        simp [isEdge]
      rw [this, List.nil_append]
    · intro f hf
      have hfe := hed f hf
      have hfr := hp.range f (h1 f hf)
      cases f with
      | vertex v => cases hfe
      | edge x y =>
        have hc : csub y x = some (y - x) := by unfold csub; rw [if_pos (by have := hfr.1; omega)]
        simp only [isOrderRespecting, hc, Option.map_some, isEdge, Bool.true_and, Option.some.injEq]
        rw [Bool.eq_iff_iff]
        simp
  obtain ⟨ls, l1, l2⟩ := (Rep.new pool).addAll hp.nodup (fs := start pool) (by
    intro f hf
    rcases (mem_start hp).mp hf with rfl | ⟨x, y, rfl, h, -⟩
    · exact hp.verts 0 (by omega)
    · exact h)
  have hS : Rep pool ls (start pool) := l2.congr (fun x => by rw [mem_addS]; simp)
  have hSL : ∀ f ∈ start pool, Long f := by
    intro f hf
    rcases (mem_start hp).mp hf with rfl | ⟨x, y, rfl, -, h⟩
    · trivial
    · exact h
  obtain ⟨fs, hfs⟩ : ∃ fs, fs = pool.filter (fun f => decide (f ∈ start pool)) := ⟨_, rfl⟩
  have hfne : fs ≠ [] := by
    intro e
    have : Factor.vertex 0 ∈ fs := by
      rw [hfs, List.mem_filter]
      exact ⟨hp.verts 0 (by omega), by simp [start]⟩
    rw [e] at this; cases this
  have hfnd : fs.Nodup := by rw [hfs]; exact hp.nodup.filter _
  have hfm : ∀ f ∈ fs, f ∈ pool ∧ f ∈ start pool := by
    intro f hf
    rw [hfs, List.mem_filter, decide_eq_true_iff] at hf
    exact hf
  have hfe : fs.isEmpty = false := by cases fs with
    | nil => exact absurd rfl hfne
    | cons => rfl
  obtain ⟨i1, i2, i3⟩ := init_inv (n := g.n) hfnd (fun f hf => (hfm f hf).1) [] 0 (List.replicate (k + 1 + 1) 0)
  obtain ⟨s1, hs1⟩ : ∃ s1 : Cplx, s1 = ⟨g.n, pool, fs.map (fun f => (⟨none, [], f⟩ : Branch)), List.range (fs.map (fun f => (⟨none, [], f⟩ : Branch))).length, [], 0, List.replicate (k + 1 + 1) 0⟩ := ⟨_, rfl⟩
  rw [← hs1] at i1
  have hdata : s1.data = fs.map (fun f => (⟨none, [], f⟩ : Branch)) := by rw [hs1]
  have hlen1 : s1.data.length = fs.length := by rw [hdata, List.length_map]
  rw [← hdata] at i2 i3
  have hatt : attachAll true 0 ⟨g.n, pool, [], [], [], 0, List.replicate (k + 1 + 1) 0⟩ fs = some s1 := by
    unfold attachAll
    rw [if_pos rfl, hs1]
    simp [List.range_eq_range']
  have hempty : ∀ q f, (some q, f) ∉ skel s1.data := by
    intro q f hm
    rw [i3] at hm
    obtain ⟨a, -, e⟩ := List.mem_map.mp hm
    injection e with e; cases e
  have hranks0 : ∀ d, s1.ranks.getD d 0 = 0 := by
    intro d
    rw [hs1]
    simp [List.getElem?_replicate]
    split <;> rfl
  have fin : ∀ {s' : Cplx} {cs : List (List Factor)}, LPost 0 s1 s' cs → MDone g pool (k + 1) cs s' := by
    intro s' cs h
    refine ⟨h.inv, by rw [h.n, hs1], by rw [h.pool, hs1], ?_, by rw [h.rlen, hs1]; simp, ?_, by rw [h.dim, hs1]⟩
    · obtain ⟨F, f1, f2⟩ := h.final
      rw [f1, hs1]; exact f2
    · intro d; rw [h.ranks, hranks0]; omega
  unfold ofGraph
  rw [if_neg (by omega)]
  have hfi : g.factorIter = some pool := by unfold factorIter; rw [hes, hpe]; rfl
  rw [hfi]
  simp only [Option.bind_eq_bind, Option.bind_some]
  rw [hes]
  simp only [Option.bind_some]
  rw [hlong]
  simp only [Option.bind_some]
  rw [show Morse.addAll (LabeledSet.new pool) (.vertex 0 :: pool.filter (fun f => f.isEdge && decide (f.isOrderRespecting = some false))) = some ls from l1]
  simp only [Option.bind_some]
  unfold expand
  have hdn : (⟨g.n, pool, [], [], [], 0, List.replicate (k + 1 + 1) 0⟩ : Cplx).data.isEmpty = true := rfl
  simp only [hdn, if_true, hS.toList hp.nodup, ← hfs, Option.bind_eq_bind, Option.bind_some, hfe, Bool.false_eq_true, if_false, hatt]
  cases k with
  | zero =>
    simp only [if_true]
    obtain ⟨s2, b1, b2, b3⟩ := finishAll_spec (idx := 0) (idxs := List.range' 0 fs.length) (cells := fs.map (fun f => [] ++ [f])) i1 (by
        rw [List.forall₂_iff_get]
        refine ⟨by simp, ?_⟩
        intro i h1 h2
        have hi : i < fs.length := by simpa using h2
        simpa using i2 i hi) (by simpa using hfne) (by
        intro c hc
        obtain ⟨f, -, rfl⟩ := List.mem_map.mp hc
        rw [hs1]; simp)
    have hb := (LPost.refl (base := 0) i1).trans b2 (le_refl _) (by omega)
    refine ⟨s2, ?_, ?_⟩
    · show (Option.map (fun t => (ls, t)) (finishAll (List.range' 0 fs.length) s1)).bind (fun r => some r.2) = some s2
      rw [b1]; rfl
    · have hc : mcells g pool upper (0 + 1) = [] ++ fs.map (fun f => [] ++ [f]) := by
        unfold mcells menum
        rw [if_pos rfl, mconts_nil, ← hfs]; rfl
      rw [hc]
      exact fin hb
  | succ k =>
    rw [if_neg (by omega)]
    obtain ⟨ls', s', e1, e2, e3, e4⟩ := loop_spec hg hp (expandsTo hg hp (upper := upper) hroom k) (P := []) (by simp; omega) (by simp) (s := s1) (by rw [hs1]) (by rw [hs1]) (by rw [hs1]; simp)
      (base := 0) (by omega) fs 0 s1 ls (start pool) [] (LPost.refl i1) (le_refl _) (by omega)
      (fun f hf => ⟨(hfm f hf).1, hSL f (hfm f hf).2⟩) (by
        intro j f hj
        obtain ⟨hj1, hj2⟩ := List.getElem?_eq_some_iff.mp hj
        have := i2 j hj1
        rw [hj2] at this
        simpa using this) (fun j f _ => hempty _ _) hSL hS
    refine ⟨s', ?_, ?_⟩
    · show Option.bind ((fs.zipIdx 0).foldlM (step g upper (k + 1)) (ls, s1)) (fun r => some r.2) = some s'
      rw [e1]; rfl
    · have hc : mcells g pool upper (k + 1 + 1) = [] ++ (mloop g (fun f S => menum g g.n pool upper (k + 1) ([] ++ [f]) S) fs (start pool)).1 := by
        unfold mcells
        rw [menum, if_neg (by omega), mconts_nil, ← hfs]; rfl
      rw [hc]
      exact fin e2

end Toppo.Cub.Morse
