import Verif.Proof.EdgePathRun
import Mathlib.Data.List.GetD
import Mathlib.Data.List.Nodup
set_option linter.unusedVariables false
/-! Walks of distinguishable particles along words of motions. -/
namespace Toppo.EdgePath

/-- particle `i` stands at vertex `pos[i]`; every motion `(a, b)` moves the particle standing at `a` to the unoccupied vertex `b` -/
inductive Walk : List Nat → List Move → List Nat → Prop
  | nil (pos) : Walk pos [] pos
  | cons {pos pos' : List Nat} {s : Move} {w : List Move} (i : Nat) :
      pos[i]? = some s.1 → s.2 ∉ pos → Walk (pos.set i s.2) w pos' → Walk pos (s :: w) pos'

theorem Walk.append {a b c : List Nat} {u v : List Move} (h : Walk a u b) (k : Walk b v c) : Walk a (u ++ v) c := by
  induction h with
  | nil pos => exact k
  | cons i h1 h2 _ ih => exact .cons i h1 h2 (ih k)

theorem Walk.split {u : List Move} : ∀ {a c : List Nat} {v : List Move}, Walk a (u ++ v) c → ∃ b, Walk a u b ∧ Walk b v c := by
  induction u with
  | nil => intro a c v h; exact ⟨a, .nil _, h⟩
  | cons s u ih =>
    intro a c v h
    cases h with
    | cons i h1 h2 h3 =>
      obtain ⟨b, k1, k2⟩ := ih h3
      exact ⟨b, .cons i h1 h2 k1, k2⟩

theorem mem_set_iff {pos : List Nat} {i x a b : Nat} (h : x ∈ pos) (hi : pos[i]? = some a) (hx : x ≠ a) : x ∈ pos.set i b := by
  obtain ⟨j, hj⟩ := List.mem_iff_getElem?.mp h
  refine List.mem_iff_getElem?.mpr ⟨j, ?_⟩
  rw [List.getElem?_set]
  split
  · rename_i e
    subst e
    rw [hi] at hj
    exact absurd (Option.some.inj hj).symm hx
  · exact hj

theorem nodup_set {pos : List Nat} {i b : Nat} (h : pos.Nodup) (hb : b ∉ pos) : (pos.set i b).Nodup := by
  rw [List.nodup_iff_getElem?_ne_getElem?] at h ⊢
  intro p q hpq hq
  rw [List.length_set] at hq
  rw [List.getElem?_set, List.getElem?_set]
  have hm : ∀ k : Nat, pos[k]? ≠ some b := fun k hk => hb (List.mem_iff_getElem?.mpr ⟨k, hk⟩)
  split
  · rename_i e
    subst e
    rw [if_pos (by omega), if_neg (by omega)]
    exact fun hh => hm q hh.symm
  · split
    · rename_i e
      subst e
      rw [if_pos hq]
      exact hm p
    · exact h p q hpq hq

theorem Walk.nodup {a b : List Nat} {u : List Move} (h : Walk a u b) (ha : a.Nodup) : b.Nodup := by
  induction h with
  | nil pos => exact ha
  | cons i h1 h2 _ ih => exact ih (nodup_set ha h2)

theorem Walk.length {a b : List Nat} {u : List Move} (h : Walk a u b) : b.length = a.length := by
  induction h with
  | nil pos => rfl
  | cons i h1 h2 _ ih => simpa using ih

theorem idx_unique {pos : List Nat} {i j a : Nat} (h : pos.Nodup) (hi : pos[i]? = some a) (hj : pos[j]? = some a) : i = j := by
  rw [List.nodup_iff_getElem?_ne_getElem?] at h
  obtain ⟨li, -⟩ := List.getElem?_eq_some_iff.mp hi
  obtain ⟨lj, -⟩ := List.getElem?_eq_some_iff.mp hj
  rcases Nat.lt_trichotomy i j with hh | hh | hh
  · exact absurd (hi.trans hj.symm) (h i j hh lj)
  · exact hh
  · exact absurd (hj.trans hi.symm) (h j i hh li)

theorem Walk.det {a b c : List Nat} {u : List Move} (h : Walk a u b) (ha : a.Nodup) (k : Walk a u c) : b = c := by
  induction h with
  | nil pos => cases k; rfl
  | cons i h1 h2 _ ih =>
    cases k with
    | cons j k1 k2 k3 =>
      have := idx_unique ha h1 k1
      subst this
      exact ih (nodup_set ha h2) k3

theorem Walk.swap {a c : List Nat} {s t : Move} {v : List Move} (hd : Disj s t) (h : Walk a (s :: t :: v) c) : Walk a (t :: s :: v) c := by
  cases h with
  | cons i h1 h2 h =>
    cases h with
    | cons j k1 k2 k =>
      have hij : i ≠ j := by
        rintro rfl
        rw [List.getElem?_set, if_pos rfl] at k1
        split at k1
        · exact hd.2.2.1 (Option.some.inj k1)
        · cases k1
      rw [List.getElem?_set, if_neg hij] at k1
      refine .cons j k1 (fun hm => ?_) (.cons i ?_ (fun hm => ?_) ?_)
      · exact k2 (mem_set_iff hm h1 hd.2.1.symm)
      · rw [List.getElem?_set, if_neg (Ne.symm hij)]; exact h1
      · rcases List.mem_or_eq_of_mem_set hm with hm | hm
        · exact h2 hm
        · exact hd.2.2.2 hm
      · rw [List.set_comm _ _ (Ne.symm hij)]; exact k

theorem Walk.cancel {a c : List Nat} {s : Move} {v : List Move} (h : Walk a (s :: rev s :: v) c) : Walk a v c := by
  cases h with
  | cons i h1 h2 h =>
    cases h with
    | cons j k1 k2 k =>
      have hij : i = j := by
        by_contra hij
        rw [List.getElem?_set, if_neg hij] at k1
        exact h2 (List.mem_iff_getElem?.mpr ⟨j, k1⟩)
      subst hij
      rw [List.set_set] at k
      have : a.set i (rev s).2 = a := by
        obtain ⟨hl, he⟩ := List.getElem?_eq_some_iff.mp h1
        show a.set i s.1 = a
        rw [← he]
        exact List.set_getElem_self hl
      rwa [this] at k

theorem Walk.red {u v : List Move} (h : Red u v) : ∀ {a c : List Nat}, Walk a u c → Walk a v c := by
  induction h with
  | refl u => exact id
  | trans _ _ i1 i2 => exact fun k => i2 (i1 k)
  | swap u s t v h =>
    intro a c k
    obtain ⟨b, k1, k2⟩ := k.split
    exact k1.append (k2.swap h)
  | cancel u s v =>
    intro a c k
    obtain ⟨b, k1, k2⟩ := k.split
    exact k1.append k2.cancel

theorem Walk.revWord {a b : List Nat} {u : List Move} (h : Walk a u b) : a.Nodup → Walk b (EdgePath.revWord u) a := by
  induction h with
  | nil pos => intro _; exact .nil _
  | @cons pos pos' s w i h1 h2 h ih =>
    intro ha
    rw [revWord_cons]
    refine (ih (nodup_set ha h2)).append ?_
    obtain ⟨hl, he⟩ := List.getElem?_eq_some_iff.mp h1
    refine .cons i ?_ ?_ ?_
    · rw [List.getElem?_set, if_pos rfl, if_pos hl]; rfl
    · intro hm
      obtain ⟨j, hj⟩ := List.mem_iff_getElem?.mp hm
      rw [List.getElem?_set] at hj
      split at hj
      · have hj : s.2 = s.1 := Option.some.inj hj
        exact h2 (by rw [hj]; exact List.mem_iff_getElem?.mpr ⟨i, h1⟩)
      · rename_i hij
        exact hij (idx_unique ha h1 hj)
    · rw [List.set_set]
      have : pos.set i (rev s).2 = pos := by
        show pos.set i s.1 = pos
        rw [← he]
        exact List.set_getElem_self hl
      rw [this]
      exact .nil _

theorem moveOne_spec {out next : List Nat} {e : Move} {i : Nat} (hn : out.Nodup) (h : out[i]? = some e.1) : moveOne out next e = some (next.set i e.2) := by
  unfold moveOne
  obtain ⟨hl, he⟩ := List.getElem?_eq_some_iff.mp h
  have hf : (List.range out.length).find? (fun i => out.getD i 0 == e.1) = some i := by
    have hs : ((List.range out.length).find? (fun i => out.getD i 0 == e.1)).isSome := by
      rw [List.find?_isSome]
      refine ⟨i, List.mem_range.mpr hl, ?_⟩
      rw [List.getD_eq_getElem _ _ hl, he]; simp
    obtain ⟨j, hj⟩ := Option.isSome_iff_exists.mp hs
    rw [hj]
    have h1 := List.find?_some hj
    have h2 := List.mem_range.mp (List.mem_of_find?_eq_some hj)
    rw [List.getD_eq_getElem _ _ h2, beq_iff_eq] at h1
    rw [idx_unique hn (List.getElem?_eq_some_iff.mpr ⟨h2, h1⟩) h]
  rw [hf]

theorem moveStep_spec {out : List Nat} (hn : out.Nodup) : ∀ {L : List Move} {next pos : List Nat}, L.Pairwise Disj →
    (∀ s ∈ L, ∀ i : Nat, next[i]? = some s.1 → out[i]? = some s.1) → Walk next L pos → moveStep out next L = some pos := by
  intro L
  induction L with
  | nil => intro next pos _ _ h; cases h; rfl
  | cons s L ih =>
    intro next pos hp ha h
    cases h with
    | cons i h1 h2 h =>
      unfold moveStep
      rw [moveOne_spec hn (ha s (List.mem_cons_self ..) i h1)]
      refine ih hp.tail (fun t ht j hj => ?_) h
      rw [List.getElem?_set] at hj
      split at hj
      · rename_i e
        subst e
        split at hj
        · exact absurd (Option.some.inj hj) ((List.rel_of_pairwise_cons hp ht).2.2.1)
        · cases hj
      · exact ha t (List.mem_cons_of_mem _ ht) j hj

theorem moveAll_spec {p : Path} : ∀ {a b : List Nat}, a.Nodup → (∀ L ∈ p, L.Pairwise Disj) → Walk a p.flatten b → moveAll a p = some b := by
  induction p with
  | nil => intro a b _ _ h; cases h; rfl
  | cons L p ih =>
    intro a b hn hp h
    rw [List.flatten_cons] at h
    obtain ⟨c, h1, h2⟩ := h.split
    unfold moveAll
    rw [moveStep_spec hn (hp L (List.mem_cons_self ..)) (fun _ _ _ h => h) h1]
    exact ih (h1.nodup hn) (fun M hM => hp M (List.mem_cons_of_mem _ hM)) h2

theorem moveAll_append (p q : Path) : ∀ a : List Nat, moveAll a (p ++ q) = (moveAll a p).bind (fun b => moveAll b q) := by
  induction p with
  | nil => intro a; rfl
  | cons L p ih =>
    intro a
    rw [List.cons_append]
    have e : ∀ r : Path, moveAll a (L :: r) = (moveStep a a L).bind (fun b => moveAll b r) := by
      intro r
      show (match moveStep a a L with | none => none | some out' => moveAll out' r) = _
      cases moveStep a a L <;> rfl
    rw [e, e]
    cases moveStep a a L with
    | none => rfl
    | some b => exact ih b

/-- renaming the particles -/
theorem Walk.rename {a b : List Nat} {w : List Move} (h : Walk a w b) {π : List Nat} (hπ : π.Perm (List.range a.length)) :
    Walk (π.map (a.getD · 0)) w (π.map (b.getD · 0)) := by
  induction h with
  | nil pos => exact .nil _
  | @cons pos pos' s w i h1 h2 h ih =>
    have ih := ih (by simpa using hπ)
    obtain ⟨hl, he⟩ := List.getElem?_eq_some_iff.mp h1
    have hmem : i ∈ π := hπ.mem_iff.mpr (List.mem_range.mpr hl)
    obtain ⟨j, hj⟩ := List.mem_iff_getElem?.mp hmem
    have hnd : π.Nodup := hπ.nodup_iff.mpr List.nodup_range
    refine .cons j ?_ ?_ ?_
    · rw [List.getElem?_map, hj]
      rw [Option.map_some, List.getD_eq_getElem _ _ hl, he]
    · intro hm
      obtain ⟨k, hk, e⟩ := List.mem_map.mp hm
      have hkl := List.mem_range.mp (hπ.mem_iff.mp hk)
      rw [List.getD_eq_getElem _ _ hkl] at e
      exact h2 (e ▸ List.getElem_mem hkl)
    · convert ih using 1
      apply List.ext_getElem?
      intro k
      rw [List.getElem?_set]
      split
      · rename_i e
        subst e
        rw [List.length_map, List.getElem?_map, hj]
        obtain ⟨hlj, -⟩ := List.getElem?_eq_some_iff.mp hj
        rw [if_pos hlj, Option.map_some, List.getD_eq_getElem _ _ (by simpa using hl)]
        simp
      · rename_i e
        rw [List.getElem?_map, List.getElem?_map]
        cases hk : π[k]? with
        | none => rfl
        | some m =>
          have hmi : i ≠ m := by
            rintro rfl
            exact e (idx_unique hnd hj hk)
          simp only [Option.map_some, List.getD_eq_getElem?_getD, List.getElem?_set, if_neg hmi]

end Toppo.EdgePath
