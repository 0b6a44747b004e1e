import Verif.Model.Embedding
import Verif.Props.Subdivide
import Verif.Props.ConstMatrix
import Mathlib.Tactic.FieldSimp
import Mathlib.Tactic.Module
import Mathlib.Data.Real.Basic
set_option linter.unusedVariables false

/-!
# C88: `SimpleGraph::modify_embedding`, C89: `degree_in_maximal_tree`

The points of the strands are those of `Verif.Props.Subdivide` (C57).
-/
namespace Toppo.EmbeddingProps
open Toppo RawGraph SGraph MGraphProps GraphProps SubdivideProps CMat
variable {α : Type} [DecidableEq α]

/-- The drawing of `v` in the result. -/
def DrawnAt {N : Nat} (out : AList (fun _ : SVertex α => List ℝ)) (v : SVertex α) (p : Fin N → ℝ) : Prop := out.lookup v = some (arr p)

/-! ### proofs -/

theorem toReal_val (q : Rational) : q.toReal = (RationalProps.val q : ℝ) := by
  unfold Rational.toReal RationalProps.val
  cases q.sign <;> simp

/-- the `fold` over the vertices -/
theorem fold_spec (emb : AList (fun _ : α => List ℝ)) : ∀ (vs : List (SVertex α)) (out0 : AList (fun _ : SVertex α => List ℝ)),
    ((∃ v ∈ vs, position emb v = none) → vs.foldlM (fun out v => do let p ← position emb v; return out.insert v p) out0 = none) ∧
    ((∀ v ∈ vs, position emb v ≠ none) → ∃ out, vs.foldlM (fun out v => do let p ← position emb v; return out.insert v p) out0 = some out ∧
      ∀ v, out.lookup v = if v ∈ vs then position emb v else out0.lookup v)
  | [], out0 => ⟨by simp, fun _ => ⟨out0, rfl, by simp⟩⟩
  | v :: vs, out0 => by
    rw [List.foldlM_cons]
    cases hp : position emb v with
    | none =>
      refine ⟨fun _ => rfl, fun h => absurd hp (h v (List.mem_cons_self ..))⟩
    | some p =>
      obtain ⟨h1, h2⟩ := fold_spec emb vs (out0.insert v p)
      constructor
      · rintro ⟨w, hw, hn⟩
        rcases List.mem_cons.mp hw with rfl | hw
        · rw [hp] at hn; cases hn
        · exact h1 ⟨w, hw, hn⟩
      · intro h
        obtain ⟨out, e, ho⟩ := h2 (fun w hw => h w (List.mem_cons_of_mem _ hw))
        refine ⟨out, e, fun w => ?_⟩
        rw [ho w]
        by_cases hw : w ∈ vs
        · rw [if_pos hw, if_pos (List.mem_cons_of_mem _ hw)]
        · rw [if_neg hw]
          by_cases hwv : w = v
          · subst hwv
            rw [AList.lookup_insert, if_pos (List.mem_cons_self ..), hp]
          · rw [AList.lookup_insert_ne hwv, if_neg (by simp [hwv, hw])]

theorem idx_mem {edges : List (α × α)} {a b : α} {k : Nat} (h : IsStrand edges a b k) :
    a ∈ MGraphProps.endpoints edges ∧ b ∈ MGraphProps.endpoints edges := by
  obtain ⟨e, he, hm⟩ := List.countP_pos_iff.mp (show 0 < joining edges a b by have := h.2; omega)
  simp only [decide_eq_true_eq] at hm
  rw [mem_endpoints, mem_endpoints]
  rcases hm with ⟨rfl, rfl⟩ | ⟨rfl, rfl⟩
  · exact ⟨⟨e, he, Or.inl rfl⟩, ⟨e, he, Or.inr rfl⟩⟩
  · exact ⟨⟨e, he, Or.inr rfl⟩, ⟨e, he, Or.inl rfl⟩⟩

/-- where a point of a strand is drawn -/
theorem position_point {N : Nat} (emb : AList (fun _ : α => List ℝ)) (P : α → Fin N → ℝ) {n : Nat} {a b : α} {k l : Nat}
    (ha : emb.lookup a = some (arr (P a))) (hb : emb.lookup b = some (arr (P b))) {v : SVertex α} (hv : IsPoint n a b k l v) :
    (l = 0 ∧ v = .essential a ∧ position emb v = some (arr (P a))) ∨
    (l = innerCount n a b + 1 ∧ v = .essential b ∧ position emb v = some (arr (P b))) ∨
    (1 ≤ l ∧ l ≤ innerCount n a b ∧
      position emb v = some (arr (P a + ((l : ℝ) / (if a = b then (n : ℝ) + 1 else (n : ℝ) - 1)) • (P b - P a)))) := by
  rcases hv with ⟨h, rfl⟩ | ⟨h, rfl⟩ | ⟨h1, h2, q, rfl, hc, hq⟩
  · exact Or.inl ⟨h, rfl, ha⟩
  · exact Or.inr (Or.inl ⟨h, rfl, hb⟩)
  · refine Or.inr (Or.inr ⟨h1, h2, ?_⟩)
    have e : q.toReal = (l : ℝ) / (if a = b then (n : ℝ) + 1 else (n : ℝ) - 1) := by
      rw [toReal_val, hq]
      split <;> push_cast <;> rfl
    simp only [position, ha, hb, Option.bind_eq_bind, Option.bind_some, e]
    rw [(c42_vector_ops (P b) (P a) 0).2.1, (c42_vector_ops (P b - P a) 0 _).2.2.1, (c42_vector_ops _ _ 0).1]
    rfl

/-! ### C88 -/

/-- C88: `modify_embedding` succeeds exactly if the given positions are those of the vertices of the input graph, no more and no less. -/
theorem c88_panics (edges : List (α × α)) (hc : ConnectedInput edges) (m : MGraph α) (hm : MGraph.ofEdges edges = some m) (points : Nat)
    (hp : points + 1 < 2 ^ 63) (g : SGraph α) (hg : SGraph.subdivide m points = some g) (emb : AList (fun _ : α => List ℝ)) :
    (∃ out, g.modifyEmbedding emb = some out) ↔ ∀ a, a ∈ emb ↔ ∃ e ∈ edges, a = e.1 ∨ a = e.2 := by
  obtain ⟨h1, h2, h3, h4, h5, -⟩ := c57_subdivision edges hc m hm points hp g hg
  have hess : ∀ a, a ∈ MGraphProps.endpoints edges → SVertex.essential a ∈ g.verts := by
    intro a ha
    obtain ⟨e, he, hor⟩ := mem_endpoints.mp ha
    have hpos : 0 < joining edges e.1 e.2 := List.countP_pos_iff.mpr ⟨e, he, by simp⟩
    have hpos' : 0 < joining edges e.2 e.1 := List.countP_pos_iff.mpr ⟨e, he, by simp⟩
    rw [h5]
    rcases le_total ((MGraphProps.endpoints edges).idxOf e.1) ((MGraphProps.endpoints edges).idxOf e.2) with hle | hle
    · rcases hor with h | h
      · exact ⟨e.1, e.2, 0, 0, ⟨hle, hpos⟩, by omega, Or.inl ⟨rfl, by rw [h]⟩⟩
      · exact ⟨e.1, e.2, 0, _, ⟨hle, hpos⟩, le_refl _, Or.inr (Or.inl ⟨rfl, by rw [h]⟩)⟩
    · rcases hor with h | h
      · exact ⟨e.2, e.1, 0, _, ⟨hle, hpos'⟩, le_refl _, Or.inr (Or.inl ⟨rfl, by rw [h]⟩)⟩
      · exact ⟨e.2, e.1, 0, 0, ⟨hle, hpos'⟩, by omega, Or.inl ⟨rfl, by rw [h]⟩⟩
  have hmemE : ∀ a, a ∈ MGraphProps.endpoints edges ↔ ∃ e ∈ edges, a = e.1 ∨ a = e.2 := fun a => by rw [mem_endpoints]
  have hnone : ∀ v ∈ g.verts, (∀ a ∈ MGraphProps.endpoints edges, a ∈ emb) → position emb v ≠ none := by
    intro v hv hall
    obtain ⟨a, b, k, l, hs, hl, hpt⟩ := (h5 v).mp hv
    obtain ⟨ha, hb⟩ := idx_mem hs
    obtain ⟨pa, ea⟩ := Option.isSome_iff_exists.mp (AList.lookup_isSome.mpr (hall a ha))
    obtain ⟨pb, eb⟩ := Option.isSome_iff_exists.mp (AList.lookup_isSome.mpr (hall b hb))
    rcases hpt with ⟨_, rfl⟩ | ⟨_, rfl⟩ | ⟨_, _, q, rfl, _⟩
    · simp [position, ea]
    · simp [position, eb]
    · simp [position, ea, eb]
  obtain ⟨f1, f2⟩ := fold_spec emb g.verts ∅
  have hnd := endpoints_nodup edges
  unfold modifyEmbedding
  constructor
  · rintro ⟨out, ho⟩
    split at ho
    swap
    · cases ho
    rename_i hlen
    have hall : ∀ a ∈ MGraphProps.endpoints edges, a ∈ emb := by
      intro a ha
      by_contra hna
      rw [f1 ⟨_, hess a ha, AList.lookup_eq_none.mpr hna⟩] at ho
      cases ho
    have hsub : MGraphProps.endpoints edges ⊆ emb.keys := fun a ha => AList.mem_keys.mp (hall a ha)
    have hperm := (List.subperm_of_subset hnd hsub).perm_of_length_le (by rw [← hlen, h3])
    intro a
    rw [AList.mem_keys, ← hmemE]
    exact hperm.mem_iff.symm
  · intro hall
    have hall' : ∀ a, a ∈ emb ↔ a ∈ MGraphProps.endpoints edges := fun a => by rw [hmemE, hall]
    have hperm : (MGraphProps.endpoints edges).Perm emb.keys := by
      rw [List.perm_ext_iff_of_nodup hnd emb.keys_nodup]
      intro a
      rw [← AList.mem_keys, hall']
    rw [if_pos (by rw [h3, hperm.length_eq])]
    obtain ⟨out, e, _⟩ := f2 (fun v hv => hnone v hv (fun a ha => (hall' a).mpr ha))
    exact ⟨out, e⟩

/-- the general form: the vertices of the result and where the points are drawn -/
theorem drawn (edges : List (α × α)) (hc : ConnectedInput edges) (m : MGraph α) (hm : MGraph.ofEdges edges = some m) (points : Nat)
    (hp : points + 1 < 2 ^ 63) (g : SGraph α) (hg : SGraph.subdivide m points = some g) (emb : AList (fun _ : α => List ℝ)) {N : Nat}
    (P : α → Fin N → ℝ) (hP : ∀ e ∈ edges, emb.lookup e.1 = some (arr (P e.1)) ∧ emb.lookup e.2 = some (arr (P e.2)))
    (out : AList (fun _ : SVertex α => List ℝ)) (ho : g.modifyEmbedding emb = some out) :
    (∀ v, v ∈ out ↔ v ∈ g.verts) ∧
    ∀ a b k l v, IsStrand edges a b k → l ≤ innerCount (max points 2) a b + 1 → IsPoint (max points 2) a b k l v →
      (l = 0 ∧ v = .essential a ∧ DrawnAt out v (P a)) ∨
      (l = innerCount (max points 2) a b + 1 ∧ v = .essential b ∧ DrawnAt out v (P b)) ∨
      (1 ≤ l ∧ l ≤ innerCount (max points 2) a b ∧
        DrawnAt out v (P a + ((l : ℝ) / (if a = b then ((max points 2 : Nat) : ℝ) + 1 else ((max points 2 : Nat) : ℝ) - 1)) • (P b - P a))) := by
  obtain ⟨h1, h2, h3, h4, h5, -⟩ := c57_subdivision edges hc m hm points hp g hg
  unfold modifyEmbedding at ho
  split at ho
  swap
  · cases ho
  obtain ⟨f1, f2⟩ := fold_spec emb g.verts ∅
  have hn : ∀ v ∈ g.verts, position emb v ≠ none := by
    intro v hv hn
    rw [f1 ⟨v, hv, hn⟩] at ho
    cases ho
  obtain ⟨out', e, hl⟩ := f2 hn
  rw [ho] at e
  cases Option.some.inj e
  have hlk : ∀ a ∈ MGraphProps.endpoints edges, emb.lookup a = some (arr (P a)) := by
    intro a ha
    obtain ⟨e, he, h | h⟩ := mem_endpoints.mp ha
    · rw [h]; exact (hP e he).1
    · rw [h]; exact (hP e he).2
  constructor
  · intro v
    rw [← AList.lookup_isSome, hl v]
    by_cases hv : v ∈ g.verts
    · rw [if_pos hv]
      simp only [hv, iff_true]
      exact Option.isSome_iff_ne_none.mpr (hn v hv)
    · rw [if_neg hv]; simp [hv]
  · intro a b k l v hs hle hpt
    obtain ⟨ha, hb⟩ := idx_mem hs
    have hv : v ∈ g.verts := (h5 v).mpr ⟨a, b, k, l, hs, hle, hpt⟩
    unfold DrawnAt
    rw [hl v, if_pos hv]
    exact position_point emb P (hlk a ha) (hlk b hb) hpt

/-- C88: for at least three marked points every vertex of the subdivided graph is drawn, every input vertex at its given position, and
every edge as the straight segment between its ends with its inner vertices equally spaced: point number `l` of the `inner + 2` points of the
edge from `a` to `b` is at `A + l / (inner + 1) (B - A)`. -/
theorem c88_equally_spaced_partial (edges : List (α × α)) (hc : ConnectedInput edges) (m : MGraph α) (hm : MGraph.ofEdges edges = some m)
    (points : Nat) (h3 : 3 ≤ points) (hp : points + 1 < 2 ^ 63) (g : SGraph α) (hg : SGraph.subdivide m points = some g)
    (emb : AList (fun _ : α => List ℝ)) {N : Nat} (P : α → Fin N → ℝ)
    (hP : ∀ e ∈ edges, emb.lookup e.1 = some (arr (P e.1)) ∧ emb.lookup e.2 = some (arr (P e.2)))
    (out : AList (fun _ : SVertex α => List ℝ)) (ho : g.modifyEmbedding emb = some out) :
    (∀ v, v ∈ out ↔ v ∈ g.verts) ∧
    (∀ e ∈ edges, DrawnAt out (.essential e.1) (P e.1) ∧ DrawnAt out (.essential e.2) (P e.2)) ∧
    ∀ a b k l v, IsStrand edges a b k → l ≤ innerCount points a b + 1 → IsPoint points a b k l v →
      DrawnAt out v (P a + ((l : ℝ) / ((innerCount points a b : ℝ) + 1)) • (P b - P a)) := by
  have hmax : max points 2 = points := by omega
  obtain ⟨d1, d2⟩ := drawn edges hc m hm points hp g hg emb P hP out ho
  rw [hmax] at d2
  have key : ∀ a b k l v, IsStrand edges a b k → l ≤ innerCount points a b + 1 → IsPoint points a b k l v →
      DrawnAt out v (P a + ((l : ℝ) / ((innerCount points a b : ℝ) + 1)) • (P b - P a)) := by
    intro a b k l v hs hl hpt
    rcases d2 a b k l v hs hl hpt with ⟨rfl, rfl, h⟩ | ⟨rfl, rfl, h⟩ | ⟨q1, q2, h⟩
    · simpa using h
    · have : (((innerCount points a b + 1 : Nat) : ℝ) / ((innerCount points a b : ℝ) + 1)) = 1 := by
        push_cast
        exact div_self (by positivity)
      rw [this, one_smul, add_sub_cancel]
      exact h
    · have : (if a = b then (points : ℝ) + 1 else (points : ℝ) - 1) = (innerCount points a b : ℝ) + 1 := by
        unfold innerCount
        split
        · rfl
        · rw [Nat.max_eq_left (by omega), Nat.cast_sub (by omega)]
          push_cast; ring
      rw [← this]
      exact h
  refine ⟨d1, ?_, key⟩
  intro e he
  have hpos : 0 < joining edges e.1 e.2 := List.countP_pos_iff.mpr ⟨e, he, by simp⟩
  have hpos' : 0 < joining edges e.2 e.1 := List.countP_pos_iff.mpr ⟨e, he, by simp⟩
  rcases le_total ((MGraphProps.endpoints edges).idxOf e.1) ((MGraphProps.endpoints edges).idxOf e.2) with hle | hle
  · have k1 := d2 e.1 e.2 0 0 (.essential e.1) ⟨hle, hpos⟩ (by omega) (Or.inl ⟨rfl, rfl⟩)
    have k2 := d2 e.1 e.2 0 _ (.essential e.2) ⟨hle, hpos⟩ (le_refl _) (Or.inr (Or.inl ⟨rfl, rfl⟩))
    constructor
    · rcases k1 with k | k | k
      · exact k.2.2
      · omega
      · omega
    · rcases k2 with k | k | k
      · omega
      · exact k.2.2
      · omega
  · have k1 := d2 e.2 e.1 0 0 (.essential e.2) ⟨hle, hpos'⟩ (by omega) (Or.inl ⟨rfl, rfl⟩)
    have k2 := d2 e.2 e.1 0 _ (.essential e.1) ⟨hle, hpos'⟩ (le_refl _) (Or.inr (Or.inl ⟨rfl, rfl⟩))
    constructor
    · rcases k2 with k | k | k
      · omega
      · exact k.2.2
      · omega
    · rcases k1 with k | k | k
      · exact k.2.2
      · omega
      · omega

/-- C88: so for at least three marked points the points of one edge (not a loop) whose ends have different positions are drawn at different
positions. -/
theorem c88_distinct_partial (edges : List (α × α)) (hc : ConnectedInput edges) (m : MGraph α) (hm : MGraph.ofEdges edges = some m)
    (points : Nat) (h3 : 3 ≤ points) (hp : points + 1 < 2 ^ 63) (g : SGraph α) (hg : SGraph.subdivide m points = some g)
    (emb : AList (fun _ : α => List ℝ)) {N : Nat} (P : α → Fin N → ℝ)
    (hP : ∀ e ∈ edges, emb.lookup e.1 = some (arr (P e.1)) ∧ emb.lookup e.2 = some (arr (P e.2)))
    (out : AList (fun _ : SVertex α => List ℝ)) (ho : g.modifyEmbedding emb = some out) (a b : α) (k l l' : Nat) (v v' : SVertex α)
    (hs : IsStrand edges a b k) (hl : l ≤ innerCount points a b + 1) (hl' : l' ≤ innerCount points a b + 1)
    (hv : IsPoint points a b k l v) (hv' : IsPoint points a b k l' v') (hne : l ≠ l') (hPab : P a ≠ P b) :
    v ∈ out ∧ v' ∈ out ∧ out.lookup v ≠ out.lookup v' := by
  obtain ⟨-, -, key⟩ := c88_equally_spaced_partial edges hc m hm points h3 hp g hg emb P hP out ho
  have k1 := key a b k l v hs hl hv
  have k2 := key a b k l' v' hs hl' hv'
  unfold DrawnAt at k1 k2
  refine ⟨AList.lookup_isSome.mp (by rw [k1]; rfl), AList.lookup_isSome.mp (by rw [k2]; rfl), ?_⟩
  rw [k1, k2]
  intro h
  have h := List.ofFn_injective (Option.some.inj h)
  have h := smul_left_injective ℝ (sub_ne_zero.mpr hPab.symm) (add_left_cancel h)
  have hpos : ((innerCount points a b : ℝ) + 1) ≠ 0 := by positivity
  have h : (l : ℝ) = l' := by
    have := congrArg (fun x => x * ((innerCount points a b : ℝ) + 1)) h
    simpa [div_mul_cancel₀ _ hpos] using this
  exact hne (by exact_mod_cast h)

/-- C88, counterexample: for two marked points (or fewer; `SimpleGraph::from` uses two) the one inner vertex of every edge that is not a
loop is drawn on top of the end vertex, instead of half way. -/
theorem c88_two_points_false (edges : List (α × α)) (hc : ConnectedInput edges) (m : MGraph α) (hm : MGraph.ofEdges edges = some m)
    (points : Nat) (h2 : points ≤ 2) (g : SGraph α) (hg : SGraph.subdivide m points = some g)
    (emb : AList (fun _ : α => List ℝ)) {N : Nat} (P : α → Fin N → ℝ)
    (hP : ∀ e ∈ edges, emb.lookup e.1 = some (arr (P e.1)) ∧ emb.lookup e.2 = some (arr (P e.2)))
    (out : AList (fun _ : SVertex α => List ℝ)) (ho : g.modifyEmbedding emb = some out) (a b : α) (k : Nat) (hab : a ≠ b)
    (hs : IsStrand edges a b k) :
    ∃ v, v ∈ g.verts ∧ v ≠ .essential b ∧ IsPoint 2 a b k 1 v ∧ DrawnAt out v (P b) ∧ DrawnAt out (.essential b) (P b) := by
  have hmax : max points 2 = 2 := by omega
  have hp : points + 1 < 2 ^ 63 := by omega
  obtain ⟨d1, d2⟩ := drawn edges hc m hm points hp g hg emb P hP out ho
  have hin : innerCount 2 a b = 1 := by simp [innerCount, hab]
  rw [hmax] at d2
  have hpt : IsPoint 2 a b k 1 (.redundant a b k ⟨1, 1, true⟩) := by
    refine Or.inr (Or.inr ⟨le_refl _, by omega, _, rfl, ⟨⟨by decide, by decide⟩, fun _ => rfl⟩, ?_⟩)
    rw [if_neg hab]
    norm_num [RationalProps.val]
  refine ⟨_, ?_, by simp, hpt, ?_, ?_⟩
  · exact ((c57_subdivision edges hc m hm points hp g hg).2.2.2.2.1 _).mpr ⟨a, b, k, 1, hs, by omega, by rw [hmax]; exact hpt⟩
  · rcases d2 a b k 1 _ hs (by omega) hpt with h | h | h
    · omega
    · omega
    · have h := h.2.2
      rw [if_neg hab] at h
      norm_num at h
      exact h
  · rcases d2 a b k (innerCount 2 a b + 1) (.essential b) hs (le_refl _) (Or.inr (Or.inl ⟨rfl, rfl⟩)) with h | h | h
    · omega
    · exact h.2.2
    · omega

/-- C88, counterexample: all inner vertices of a loop are drawn on top of its vertex, for any number of marked points. -/
theorem c88_loop_false (edges : List (α × α)) (hc : ConnectedInput edges) (m : MGraph α) (hm : MGraph.ofEdges edges = some m)
    (points : Nat) (hp : points + 1 < 2 ^ 63) (g : SGraph α) (hg : SGraph.subdivide m points = some g)
    (emb : AList (fun _ : α => List ℝ)) {N : Nat} (P : α → Fin N → ℝ)
    (hP : ∀ e ∈ edges, emb.lookup e.1 = some (arr (P e.1)) ∧ emb.lookup e.2 = some (arr (P e.2)))
    (out : AList (fun _ : SVertex α => List ℝ)) (ho : g.modifyEmbedding emb = some out) (a : α) (k l : Nat)
    (hs : IsStrand edges a a k) (hl : l ≤ innerCount (max points 2) a a + 1) (v : SVertex α) (hv : IsPoint (max points 2) a a k l v) :
    DrawnAt out v (P a) := by
  obtain ⟨d1, d2⟩ := drawn edges hc m hm points hp g hg emb P hP out ho
  rcases d2 a a k l v hs hl hv with ⟨_, _, h⟩ | ⟨_, _, h⟩ | ⟨_, _, h⟩
  · exact h
  · exact h
  · simpa using h

/-- C88, counterexample: parallel edges are drawn on top of each other, for any number of marked points. -/
theorem c88_parallel_false (edges : List (α × α)) (hc : ConnectedInput edges) (m : MGraph α) (hm : MGraph.ofEdges edges = some m)
    (points : Nat) (hp : points + 1 < 2 ^ 63) (g : SGraph α) (hg : SGraph.subdivide m points = some g)
    (emb : AList (fun _ : α => List ℝ)) {N : Nat} (P : α → Fin N → ℝ)
    (hP : ∀ e ∈ edges, emb.lookup e.1 = some (arr (P e.1)) ∧ emb.lookup e.2 = some (arr (P e.2)))
    (out : AList (fun _ : SVertex α => List ℝ)) (ho : g.modifyEmbedding emb = some out) (a b : α) (k k' l : Nat)
    (hs : IsStrand edges a b k) (hs' : IsStrand edges a b k') (hl : l ≤ innerCount (max points 2) a b + 1) (v v' : SVertex α)
    (hv : IsPoint (max points 2) a b k l v) (hv' : IsPoint (max points 2) a b k' l v') :
    ∃ p : Fin N → ℝ, DrawnAt out v p ∧ DrawnAt out v' p := by
  obtain ⟨d1, d2⟩ := drawn edges hc m hm points hp g hg emb P hP out ho
  rcases d2 a b k l v hs hl hv with ⟨h1, _, h⟩ | ⟨h1, _, h⟩ | ⟨h1, h2, h⟩ <;>
    rcases d2 a b k' l v' hs' hl hv' with ⟨h1', _, h'⟩ | ⟨h1', _, h'⟩ | ⟨h1', h2', h'⟩
  all_goals first | exact ⟨_, h, h'⟩ | omega

/-- a loop on `1` and two parallel edges: connected -/
theorem ex_connected : ConnectedInput [((0 : Nat), 1), (1, 1), (1, 2), (1, 2)] := by
  refine ⟨by simp, ?_⟩
  have e : MGraphProps.endpoints [((0 : Nat), 1), (1, 1), (1, 2), (1, 2)] = [0, 1, 2] := by decide
  have h01 : 0 < joining [((0 : Nat), 1), (1, 1), (1, 2), (1, 2)] 0 1 := by decide
  have h10 : 0 < joining [((0 : Nat), 1), (1, 1), (1, 2), (1, 2)] 1 0 := by decide
  have h12 : 0 < joining [((0 : Nat), 1), (1, 1), (1, 2), (1, 2)] 1 2 := by decide
  have h21 : 0 < joining [((0 : Nat), 1), (1, 1), (1, 2), (1, 2)] 2 1 := by decide
  intro a b ha hb
  rw [e] at ha hb
  simp only [List.mem_cons, List.not_mem_nil, or_false] at ha hb
  have to1 : ∀ a, a = 0 ∨ a = 1 ∨ a = 2 → Relation.ReflTransGen (fun x y => 0 < joining [((0 : Nat), 1), (1, 1), (1, 2), (1, 2)] x y) a 1 := by
    rintro a (rfl | rfl | rfl)
    · exact .single h01
    · exact .refl
    · exact .single h21
  refine (to1 a ha).trans ?_
  rcases hb with rfl | rfl | rfl
  · exact .single h10
  · exact .refl
  · exact .single h12

/-- Example for the hypotheses of C88: a graph with a loop and parallel edges, given positions in the plane; for two and for four marked
points the drawing exists, and the strands asked for in the three counterexamples exist. -/
example : ∃ (m : MGraph Nat) (g2 g4 : SGraph Nat) (emb : AList (fun _ : Nat => List ℝ)) (P : Nat → Fin 2 → ℝ)
    (out2 out4 : AList (fun _ : SVertex Nat => List ℝ)),
    ConnectedInput [((0 : Nat), 1), (1, 1), (1, 2), (1, 2)] ∧ MGraph.ofEdges [((0 : Nat), 1), (1, 1), (1, 2), (1, 2)] = some m ∧
    SGraph.subdivide m 2 = some g2 ∧ SGraph.subdivide m 4 = some g4 ∧
    (∀ e ∈ [((0 : Nat), 1), (1, 1), (1, 2), (1, 2)], emb.lookup e.1 = some (arr (P e.1)) ∧ emb.lookup e.2 = some (arr (P e.2))) ∧
    g2.modifyEmbedding emb = some out2 ∧ g4.modifyEmbedding emb = some out4 ∧ P 0 ≠ P 1 ∧
    IsStrand [((0 : Nat), 1), (1, 1), (1, 2), (1, 2)] 0 1 0 ∧ IsStrand [((0 : Nat), 1), (1, 1), (1, 2), (1, 2)] 1 1 0 ∧
    IsStrand [((0 : Nat), 1), (1, 1), (1, 2), (1, 2)] 1 2 0 ∧ IsStrand [((0 : Nat), 1), (1, 1), (1, 2), (1, 2)] 1 2 1 := by
  obtain ⟨m, hm⟩ : ∃ m, MGraph.ofEdges [((0 : Nat), 1), (1, 1), (1, 2), (1, 2)] = some m := Option.isSome_iff_exists.mp (by decide +kernel)
  have hleaf : ∀ p, p + 1 < 2 ^ 63 → ∃ g, SGraph.subdivide m p = some g := fun p hp =>
    c57_leaf _ ex_connected m hm p hp 0 (by decide) (by decide)
  obtain ⟨g2, hg2⟩ := hleaf 2 (by norm_num)
  obtain ⟨g4, hg4⟩ := hleaf 4 (by norm_num)
  let P : Nat → Fin 2 → ℝ := fun i => fun _ => (i : ℝ)
  let emb : AList (fun _ : Nat => List ℝ) := AList.insert (β := fun _ : Nat => List ℝ) 2 (arr (P 2)) (AList.insert (β := fun _ : Nat => List ℝ) 1 (arr (P 1))
      (AList.insert (β := fun _ : Nat => List ℝ) 0 (arr (P 0)) ∅))
  have hall : ∀ a, a ∈ emb ↔ ∃ e ∈ [((0 : Nat), 1), (1, 1), (1, 2), (1, 2)], a = e.1 ∨ a = e.2 := by
    intro a
    simp only [emb, AList.mem_insert, AList.notMem_empty, or_false, List.mem_cons, List.not_mem_nil, exists_eq_or_imp, exists_eq_left,
      exists_false, false_and]
    omega
  obtain ⟨out2, ho2⟩ := (c88_panics _ ex_connected m hm 2 (by norm_num) g2 hg2 emb).mpr hall
  obtain ⟨out4, ho4⟩ := (c88_panics _ ex_connected m hm 4 (by norm_num) g4 hg4 emb).mpr hall
  refine ⟨m, g2, g4, emb, P, out2, out4, ex_connected, hm, hg2, hg4, ?_, ho2, ho4, ?_, ⟨by decide, by decide⟩, ⟨by decide, by decide⟩, ⟨by decide, by decide⟩, ⟨by decide, by decide⟩⟩
  · have l0 : emb.lookup 0 = some (arr (P 0)) := by
      simp only [emb]
      rw [AList.lookup_insert_ne (by decide), AList.lookup_insert_ne (by decide), AList.lookup_insert]
    have l1 : emb.lookup 1 = some (arr (P 1)) := by
      simp only [emb]
      rw [AList.lookup_insert_ne (by decide), AList.lookup_insert]
    have l2 : emb.lookup 2 = some (arr (P 2)) := by
      simp only [emb]
      rw [AList.lookup_insert]
    intro e he
    simp only [List.mem_cons, List.not_mem_nil, or_false] at he
    rcases he with rfl | rfl | rfl | rfl
    · exact ⟨l0, l1⟩
    · exact ⟨l1, l1⟩
    · exact ⟨l1, l2⟩
    · exact ⟨l1, l2⟩
  · intro h
    have := congrFun h 0
    simp [P] at this

/-! ### C89 -/

theorem countM_spec {f : Nat → Option Bool} {p : Nat → Prop} [DecidablePred p] : ∀ {l : List Nat},
    (∀ w ∈ l, ∃ b, f w = some b ∧ (b = true ↔ p w)) → countM f l = some (l.filter (fun w => decide (p w))).length
  | [], _ => rfl
  | w :: ws, h => by
    obtain ⟨b, e, hb⟩ := h w (List.mem_cons_self ..)
    have ih := countM_spec (fun x hx => h x (List.mem_cons_of_mem _ hx))
    unfold countM
    rw [e, ih]
    simp only [Option.bind_eq_bind, Option.bind_some, List.filter_cons]
    by_cases hp : p w
    · rw [if_pos (hb.mpr hp), if_pos (by simpa using hp)]; rfl
    · rw [if_neg (fun hh => hp (hb.mp hh)), if_neg (by simpa using hp)]; rfl

theorem countM_none {f : Nat → Option Bool} {l : List Nat} (h : ∀ w ∈ l, f w = none) (hl : l ≠ []) : countM f l = none := by
  cases l with
  | nil => exact absurd rfl hl
  | cons w ws => unfold countM; rw [h w (List.mem_cons_self ..)]; rfl

/-- C89: once a maximal tree is chosen, `degree_in_maximal_tree` of a vertex is its degree in the tree, in the sense of graph theory. -/
theorem c89_degree {g} (h : Built g) (ht : g.treeChosen = true) (v : Fin g.n) [Fintype ((treeOf g).neighborSet v)] :
    g.degreeInTree v = some ((treeOf g).degree v) := by
  classical
  obtain ⟨l, h1, h2, h3, h4⟩ := (c52_adjacent_vertices h v).1 v.2
  have hcount : countM (g.inTree v) l = some (l.filter (fun w => decide (Parent g v w ∨ Parent g w v))).length := by
    apply countM_spec
    intro w hw
    have hadj := (edge_iff h _ _).mp ((h3 w).mp hw)
    unfold inTree
    rcases lt_trichotomy v.val w with hlt | heq | hgt
    · rw [min_eq_left hlt.le, max_eq_right hlt.le]
      obtain ⟨b, e, hb⟩ := treeContains_spec h.wf ht hlt hadj.lt.2.1
      refine ⟨b, e, ?_⟩
      constructor
      · rintro rfl; exact Or.inl ⟨hlt, e⟩
      · rintro (hp | hp)
        · have := hp.2; rw [e] at this; exact Option.some.inj this
        · exact absurd hp.1 (by omega)
    · exact absurd heq (by have := hadj.lt; rcases hadj with hE | hE <;> have := hE.1 <;> omega)
    · rw [min_eq_right hgt.le, max_eq_left hgt.le]
      obtain ⟨b, e, hb⟩ := treeContains_spec h.wf ht hgt v.2
      refine ⟨b, e, ?_⟩
      constructor
      · rintro rfl; exact Or.inr ⟨hgt, e⟩
      · rintro (hp | hp)
        · exact absurd hp.1 (by omega)
        · have := hp.2; rw [e] at this; exact Option.some.inj this
  unfold degreeInTree
  rw [if_neg (by have := v.2; omega), h1]
  show countM (g.inTree v) l = _
  rw [hcount]
  congr 1
  have hnd : l.Nodup := h2.imp (fun h => by omega)
  unfold SimpleGraph.degree
  rw [← List.toFinset_card_of_nodup (hnd.filter _)]
  symm
  have hedge : ∀ x y, y < g.n → Parent g x y → Edge g x y := by
    intro x y hy hp
    obtain ⟨b, e, hb⟩ := treeContains_spec h.wf ht hp.1 hy
    have e' := hp.2
    rw [e] at e'
    have := hb.mp (Option.some.inj e')
    exact (edge_iff h _ _).mpr this.2.1
  apply Finset.card_bij (fun (x : Fin g.n) _ => x.val)
  · intro x hx
    rw [SimpleGraph.mem_neighborFinset] at hx
    rw [List.mem_toFinset, List.mem_filter, h3]
    refine ⟨?_, decide_eq_true hx⟩
    rcases hx with hx | hx
    · exact hedge _ _ x.2 hx
    · have := hedge _ _ v.2 hx
      unfold Edge at this ⊢
      rwa [min_comm, max_comm]
  · intro x _ y _ e; exact Fin.ext e
  · intro x hx
    rw [List.mem_toFinset, List.mem_filter, h3] at hx
    have ha := (edge_iff h _ _).mp hx.1
    refine ⟨⟨x, ha.lt.2.1⟩, ?_, rfl⟩
    rw [SimpleGraph.mem_neighborFinset]
    have hx2 : Parent g v x ∨ Parent g x v := by simpa using hx.2
    exact hx2

/-- C89: it panics for an index that is not a vertex; without a chosen tree it panics for every vertex that has a neighbour, and only for
those. -/
theorem c89_panics {g} (h : Built g) (v : Nat) :
    (g.n ≤ v → g.degreeInTree v = none) ∧
    (v < g.n → g.treeChosen = false → ((∃ w, Edge g v w) → g.degreeInTree v = none) ∧ ((¬ ∃ w, Edge g v w) → g.degreeInTree v = some 0)) := by
  classical
  constructor
  · intro hv; unfold degreeInTree; rw [if_pos hv]
  · intro hv ht
    obtain ⟨l, h1, h2, h3, h4⟩ := (c52_adjacent_vertices h v).1 hv
    have hd : g.degreeInTree v = countM (g.inTree v) l := by
      unfold degreeInTree
      rw [if_neg (by omega), h1]
      rfl
    rw [hd]
    constructor
    · rintro ⟨w, hw⟩
      refine countM_none ?_ (List.ne_nil_of_mem ((h3 w).mpr hw))
      intro x _
      unfold inTree treeContains
      rw [ht]; rfl
    · intro hw
      have : l = [] := by
        rw [List.eq_nil_iff_forall_not_mem]
        intro x hx
        exact hw ⟨x, (h3 x).mp hx⟩
      rw [this]; rfl

/-- C89: after `choose_maximal_tree` on a connected graph the tree degrees of the `n` vertices add up to `2 (n - 1)`, and no vertex of a
graph with at least two vertices has tree degree zero. -/
theorem c89_sum {g g' : RawGraph} {p : Permutation} (h : Built g) (hc : (toSimple g).Connected) (he : g.chooseMaximalTree = some (g', p)) :
    ∃ d : Fin g'.n → Nat, (∀ v : Fin g'.n, g'.degreeInTree v = some (d v)) ∧ ∑ v, d v = 2 * (g.n - 1) ∧ (2 ≤ g.n → ∀ v, 0 < d v) := by
  classical
  obtain ⟨q1, q2⟩ := c55_choose_maximal_tree_partial h hc
  obtain ⟨v, g1, p1, k1, k2, k3, k4, k5, k6, k7, -⟩ := q1 (by
    by_contra hno
    rw [q2 hno] at he
    cases he)
  rw [he] at k2
  cases Option.some.inj k2
  refine ⟨fun v => (treeOf g').degree v, fun v : Fin g'.n => c89_degree k3 k4 v, ?_, ?_⟩
  · rw [SimpleGraph.sum_degrees_eq_twice_card_edges]
    have := k7.tree.card_edgeFinset
    have hn := k5.size
    have hf := Fintype.card_fin g'.n
    omega
  · intro h2 v
    have hn := k5.size
    have : Nontrivial (Fin g'.n) := Fin.nontrivial_iff_two_le.mpr (by omega)
    exact k7.tree.connected.preconnected.degree_pos_of_nontrivial v

/-- Example for C89: a star with three legs, one of them of length two, and an edge outside the tree. -/
example : (run 5 [.add 0 1, .add 1 2, .add 2 3, .add 1 3, .add 1 4]).bind (fun g => g.chooseMaximalTree.map (fun r =>
    (List.range 6).map r.1.degreeInTree)) = some [some 1, some 3, some 2, some 1, some 1, none] := by decide +kernel

end Toppo.EmbeddingProps
