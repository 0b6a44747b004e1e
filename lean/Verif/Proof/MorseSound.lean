import Verif.Proof.MorseArena
set_option linter.unusedVariables false

/-! What the pure enumeration of `UdnMorseCplx` lists. -/
namespace Toppo.Cub.Morse
open RawGraph RawGraph.Factor Toppo.PoolProps Toppo.EdgePath Toppo.GraphProps Toppo.CubeProps

theorem mem_mloop {g : RawGraph} {rec : Factor → List Factor → List (List Factor) × List Factor} {fs S : List Factor} {c : List Factor} (h : c ∈ (mloop g rec fs S).1) :
    ∃ f ∈ fs, ∃ S', c ∈ (rec f S').1 := by
  induction fs generalizing S with
  | nil => simp [mloop] at h
  | cons f fs ih =>
    simp only [mloop, List.mem_append] at h
    rcases h with h | h
    · exact ⟨f, by simp, _, h⟩
    · obtain ⟨f', h1, S', h2⟩ := ih h
      exact ⟨f', by simp [h1], S', h2⟩

theorem mloop_nodup {g : RawGraph} {rec : Factor → List Factor → List (List Factor) × List Factor} {P : List Factor} (h1 : ∀ f S, (rec f S).1.Nodup)
    (h2 : ∀ f S c, c ∈ (rec f S).1 → P ++ [f] <+: c) {fs : List Factor} (hn : fs.Nodup) (S : List Factor) : (mloop g rec fs S).1.Nodup := by
  induction fs generalizing S with
  | nil => simp [mloop]
  | cons f fs ih =>
    rw [List.nodup_cons] at hn
    simp only [mloop, List.nodup_append]
    refine ⟨h1 _ _, ih hn.2 _, ?_⟩
    rintro a ha b hb rfl
    obtain ⟨f', hf', S', hb'⟩ := mem_mloop hb
    have e1 := h2 _ _ _ ha
    have e2 := h2 _ _ _ hb'
    have : P ++ [f] = P ++ [f'] := (List.prefix_or_prefix_of_prefix e1 e2).elim (fun h => h.eq_of_length (by simp)) (fun h => (h.eq_of_length (by simp)).symm)
    have := List.append_cancel_left this
    injection this with this
    exact hn.1 (this ▸ hf')

theorem menum_prefix {g : RawGraph} {n : Nat} {pool : List Factor} {upper : Option Nat} (r : Nat) (P S c : List Factor) (h : c ∈ (menum g n pool upper r P S).1) :
    P <+: c ∧ c.length = P.length + r := by
  induction r generalizing P S with
  | zero => simp [menum] at h
  | succ r ih =>
    rw [menum] at h
    split at h
    · rename_i hr
      obtain ⟨f, -, rfl⟩ := List.mem_map.mp h
      exact ⟨List.prefix_append _ _, by simp [hr]⟩
    · obtain ⟨f, -, S', h2⟩ := mem_mloop h
      obtain ⟨h3, h4⟩ := ih _ _ h2
      exact ⟨(List.prefix_append _ _).trans h3, by rw [h4]; simp; omega⟩

theorem menum_nodup {g : RawGraph} {n : Nat} {pool : List Factor} (hp : pool.Nodup) {upper : Option Nat} (r : Nat) (P S : List Factor) :
    (menum g n pool upper r P S).1.Nodup := by
  induction r generalizing P S with
  | zero => simp [menum]
  | succ r ih =>
    have hm : (mconts g n pool upper S P r).Nodup := hp.filter _
    rw [menum]
    split
    · exact hm.map (fun a b e => by have := List.append_cancel_left e; injection this)
    · exact mloop_nodup (P := P) (fun f S => ih _ _) (fun f S c hc => (menum_prefix r _ _ _ hc).1) hm S

theorem menum_valid {g : RawGraph} {n : Nat} {pool : List Factor} {upper : Option Nat} (r : Nat) (P S c : List Factor) (hv : Valid P) (hP : ∀ f ∈ P, f ∈ pool)
    (h : c ∈ (menum g n pool upper r P S).1) : Valid c ∧ ∀ f ∈ c, f ∈ pool := by
  induction r generalizing P S with
  | zero => simp [menum] at h
  | succ r ih =>
    have key : ∀ f ∈ mconts g n pool upper S P r, Valid (P ++ [f]) ∧ ∀ x ∈ P ++ [f], x ∈ pool := by
      intro f hf
      obtain ⟨m1, m2, m3⟩ := mconts_mem hv hf
      refine ⟨?_, ?_⟩
      · unfold Valid
        rw [List.pairwise_append]
        refine ⟨hv, by simp, ?_⟩
        intro a ha b hb
        rw [List.mem_singleton] at hb
        rw [hb]; exact m3 a ha
      · intro x hx
        rcases List.mem_append.mp hx with hx | hx
        · exact hP x hx
        · rw [List.mem_singleton] at hx; rw [hx]; exact m1
    rw [menum] at h
    split at h
    · obtain ⟨f, hf, rfl⟩ := List.mem_map.mp h
      exact key f hf
    · obtain ⟨f, hf, S', h2⟩ := mem_mloop h
      obtain ⟨k1, k2⟩ := key f hf
      exact ih _ _ k1 k2 h2

/-- the bound on the dimension, which is not checked for the first factor -/
theorem menum_dim {g : RawGraph} {n : Nat} {pool : List Factor} {d : Nat} (r : Nat) (P S c : List Factor) (hd : P.countP isEdge ≤ d) (hP : P = [] → 0 < d)
    (h : c ∈ (menum g n pool (some d) r P S).1) : c.countP isEdge ≤ d := by
  induction r generalizing P S with
  | zero => simp [menum] at h
  | succ r ih =>
    have key : ∀ f ∈ mconts g n pool (some d) S P r, (P ++ [f]).countP isEdge ≤ d := by
      intro f hf
      rw [List.countP_append, List.countP_singleton]
      by_cases hP0 : P = []
      · have := hP hP0
        subst hP0
        simp; split <;> omega
      · unfold mconts at hf
        rw [List.mem_filter, Bool.and_eq_true, Bool.or_eq_true, List.isEmpty_iff] at hf
        have ha := hf.2.2.resolve_left hP0
        unfold admB at ha
        simp only [Bool.and_eq_true, Bool.or_eq_true, Bool.not_eq_true', decide_eq_false_iff_not, Option.some.injEq] at ha
        rcases ha.2 with h1 | h1
        · split <;> omega
        · cases f with
          | vertex v => simp [isEdge]; exact hd
          | edge x y => cases h1
    rw [menum] at h
    split at h
    · obtain ⟨f, hf, rfl⟩ := List.mem_map.mp h
      exact key f hf
    · obtain ⟨f, hf, S', h2⟩ := mem_mloop h
      exact ih _ _ (key f hf) (by simp) h2

/-! ### the base configuration -/

def baseC (m : Nat) : List Factor := (List.range m).map Factor.vertex

theorem baseC_succ (m : Nat) : baseC (m + 1) = baseC m ++ [.vertex m] := by simp [baseC, List.range_succ]

theorem baseC_bef (m : Nat) (v : Nat) (h : m ≤ v) : ∀ x ∈ baseC m, Bef x (.vertex v) := by
  intro x hx
  obtain ⟨a, ha, rfl⟩ := List.mem_map.mp hx
  rw [List.mem_range] at ha
  exact ⟨by simp [disjoint]; omega, by simp [order]; omega⟩

theorem baseC_valid (m : Nat) : Valid (baseC m) := by
  induction m with
  | zero => simp [baseC, Valid]
  | succ m ih =>
    rw [baseC_succ]
    unfold Valid
    rw [List.pairwise_append]
    refine ⟨ih, by simp, ?_⟩
    intro a ha b hb
    rw [List.mem_singleton] at hb
    rw [hb]; exact baseC_bef m m (le_refl _) a ha

theorem down_base {P : List Factor} {m : Nat} (hP : ∀ v, P.any (fun f => !f.disjoint (.vertex v)) = decide (v < m)) {u : Nat} (h : m ≤ u) : down P (u + 1) = some u := by
  unfold down
  rw [hP, if_neg (by simpa using h)]

theorem upper2_base {P : List Factor} {m : Nat} (hP : ∀ v, P.any (fun f => !f.disjoint (.vertex v)) = decide (v < m)) (r u : Nat) (h : m + r ≤ u) : upper2 P r u = some (u - r) := by
  induction r generalizing u with
  | zero => rfl
  | succ r ih =>
    obtain ⟨u, rfl⟩ : ∃ u', u = u' + 1 := ⟨u - 1, by omega⟩
    unfold upper2
    rw [down_base hP (by omega)]
    show upper2 P r u = _
    rw [ih u (by omega)]
    congr 1; omega

theorem unpaidB_base (g : RawGraph) (m : Nat) : unpaidB g (baseC m) = [] := by
  unfold unpaidB
  rw [List.filter_eq_nil_iff]
  intro f hf
  rw [List.mem_reverse] at hf
  obtain ⟨a, -, rfl⟩ := List.mem_map.mp hf
  simp [owes]

theorem ubB_base (g : RawGraph) (n m r : Nat) (h : m + r ≤ n) : ubB g n (baseC m) r = n - r := by
  unfold ubB
  rw [unpaidB_base]
  show (upper2 (baseC m).reverse r n).getD 0 = _
  rw [upper2_base (m := m) _ r n h]
  · rfl
  · intro v
    rw [List.any_reverse, Bool.eq_iff_iff, List.any_eq_true, decide_eq_true_iff]
    simp [baseC, disjoint]

/-- the vertices to branch on after the base configuration -/
theorem mconts_base {g : RawGraph} {n : Nat} {pool : List Factor} {upper : Option Nat} {S : List Factor} {m r : Nat} (hn : m + r + 1 ≤ n)
    (hS : ∀ v, Factor.vertex v ∈ S → v ≤ m) (hm : Factor.vertex m ∈ S) (v : Nat) :
    .vertex v ∈ mconts g n pool upper S (baseC m) r ↔ v = m ∧ Factor.vertex v ∈ pool := by
  constructor
  · intro h
    obtain ⟨m1, m2, m3⟩ := mconts_mem (baseC_valid m) h
    refine ⟨?_, m1⟩
    have := hS v m2
    by_contra hne
    have := m3 (.vertex v) (List.mem_map.mpr ⟨v, List.mem_range.mpr (by omega), rfl⟩)
    exact absurd this.2 (by simp)
  · rintro ⟨rfl, hp⟩
    unfold mconts
    rw [List.mem_filter]
    refine ⟨hp, ?_⟩
    rw [Bool.and_eq_true, decide_eq_true_iff]
    refine ⟨hm, ?_⟩
    rw [Bool.or_eq_true]
    right
    unfold admB
    have hb := (bef_last (baseC_valid v) (f := .vertex v)).mp (baseC_bef v v (le_refl _))
    rw [Bool.and_eq_true] at hb
    rw [hb.1, hb.2, ubB_base g n v r (by omega), lt_vertex, unpaidB_base]
    have : v < n - r := by omega
    simp [this, isVertex, isEdge]

theorem mem_addS_vertex {S : List Factor} {v w : Nat} {n : Nat} : Factor.vertex w ∈ addS S (if v + 1 < n then [Factor.vertex (v + 1)] else []) ↔ (w = v + 1 ∧ v + 1 < n) ∨ Factor.vertex w ∈ S := by
  rw [mem_addS]
  split
  · rename_i h; simp [h]
  · rename_i h; simp; intro h1 h2; omega

/-- A pool with the vertices first. -/
structure VPool (n : Nat) (pool es : List Factor) : Prop where
  split : pool = (List.range n).map Factor.vertex ++ es
  edges : ∀ f ∈ es, f.isEdge = true

theorem mconts_base_split {g : RawGraph} {n : Nat} {pool es : List Factor} (hp : VPool n pool es) {upper : Option Nat} {S : List Factor} {m r : Nat} (hn : m + r + 1 ≤ n)
    (hS : ∀ v, Factor.vertex v ∈ S → v ≤ m) (hm : Factor.vertex m ∈ S) :
    ∃ fs, mconts g n pool upper S (baseC m) r = .vertex m :: fs ∧ ∀ f ∈ fs, f.isEdge = true := by
  have hmem := mconts_base (g := g) (pool := pool) (upper := upper) hn hS hm
  have hpv : ∀ v, v < n → Factor.vertex v ∈ pool := by
    intro v hv
    rw [hp.split]
    exact List.mem_append_left _ (List.mem_map.mpr ⟨v, List.mem_range.mpr hv, rfl⟩)
  obtain ⟨q, hq⟩ : ∃ q : Factor → Bool, ∀ l : List Factor, l.filter (fun f => decide (f ∈ S) && ((baseC m).isEmpty || admB g n upper (baseC m) r f)) = l.filter q := ⟨_, fun l => rfl⟩
  have hmc : mconts g n pool upper S (baseC m) r = pool.filter q := hq pool
  have hqv : ∀ v, v < n → (q (.vertex v) = true ↔ v = m) := by
    intro v hv
    have := hmem v
    rw [hmc, List.mem_filter] at this
    have h2 := hpv v hv
    tauto
  refine ⟨es.filter q, ?_, fun f hf => hp.edges f (List.mem_filter.mp hf).1⟩
  rw [hmc, hp.split, List.filter_append]
  have : ((List.range n).map Factor.vertex).filter q = [.vertex m] := by
    rw [List.filter_map]
    have : (List.range n).filter (q ∘ Factor.vertex) = [m] := by
      have e : (List.range n).filter (q ∘ Factor.vertex) = (List.range n).filter (fun v => decide (v = m)) := by
        apply List.filter_congr
        intro v hv
        rw [List.mem_range] at hv
        rw [Bool.eq_iff_iff, decide_eq_true_iff]
        exact hqv v hv
      rw [e]
      apply List.Perm.eq_singleton
      refine (List.perm_ext_iff_of_nodup (List.nodup_range.filter _) (by simp)).mpr ?_
      intro a
      simp
      omega
    rw [this]; rfl
  rw [this]; rfl

/-- below the base configuration the only configuration of vertices is the base configuration, and it is listed once, first -/
theorem menum_base {g : RawGraph} {pool es : List Factor} (hp : VPool g.n pool es) {upper : Option Nat} (r : Nat) : ∀ (m : Nat) (S : List Factor), m + r + 1 ≤ g.n →
    (∀ v, Factor.vertex v ∈ S → v ≤ m) → Factor.vertex m ∈ S →
    ∃ cs, (menum g g.n pool upper (r + 1) (baseC m) S).1 = baseC (m + r + 1) :: cs ∧ ∀ c ∈ cs, 0 < c.countP isEdge := by
  induction r with
  | zero =>
    intro m S hn hS hm
    obtain ⟨fs, h1, h2⟩ := mconts_base_split hp (upper := upper) (g := g) (r := 0) (by omega) hS hm
    refine ⟨fs.map (fun f => baseC m ++ [f]), ?_, ?_⟩
    · rw [menum, if_pos rfl, h1]
      simp [baseC_succ]
    · intro c hc
      obtain ⟨f, hf, rfl⟩ := List.mem_map.mp hc
      exact List.countP_pos_iff.mpr ⟨f, by simp, h2 f hf⟩
  | succ r ih =>
    intro m S hn hS hm
    obtain ⟨fs, h1, h2⟩ := mconts_base_split hp (upper := upper) (g := g) (r := r + 1) (by omega) hS hm
    obtain ⟨cs, k1, k2⟩ := ih (m + 1) (addS S (addedB g (.vertex m))) (by omega) (by
      intro v hv
      rcases mem_addS_vertex.mp hv with h | h
      · omega
      · have := hS v h; omega) (mem_addS_vertex.mpr (Or.inl ⟨rfl, by omega⟩))
    rw [menum, if_neg (by omega), h1]
    simp only [mloop]
    rw [← baseC_succ, k1]
    refine ⟨_, by rw [List.cons_append, show m + 1 + r + 1 = m + (r + 1) + 1 by omega], ?_⟩
    intro c hc
    rcases List.mem_append.mp hc with hc | hc
    · exact k2 c hc
    · obtain ⟨f, hf, S', h⟩ := mem_mloop hc
      obtain ⟨h3, -⟩ := menum_prefix _ _ _ _ h
      exact List.countP_pos_iff.mpr ⟨f, h3.subset (by simp), h2 f hf⟩

theorem mcells_base {g : RawGraph} {pool es : List Factor} (hp : VPool g.n pool es) {upper : Option Nat} {k : Nat} (hk : k + 1 ≤ g.n) :
    ∃ cs, mcells g pool upper (k + 1) = baseC (k + 1) :: cs ∧ ∀ c ∈ cs, 0 < c.countP isEdge := by
  have := menum_base hp (upper := upper) k 0 (start pool) (by omega) (by
    intro v hv
    unfold start at hv
    rcases List.mem_cons.mp hv with h | h
    · injection h with h; omega
    · have := (List.mem_filter.mp h).2
      simp [isEdge] at this) (by simp [start])
  simpa [mcells, baseC] using this

end Toppo.Cub.Morse
