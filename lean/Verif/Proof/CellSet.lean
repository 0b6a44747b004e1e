import Verif.Props.CubeMorse
import Mathlib.Data.Finset.Card
set_option linter.unusedVariables false

/-! Cells as sets of factors; the boundary of the cells with one or two edges. -/
namespace Toppo.CubeProps
open Toppo RawGraph Cub GraphProps EdgePath

theorem IsCell.nodup {g : RawGraph} {k : Nat} {c : List Factor} (h : IsCell g k c) : c.Nodup := by
  refine h.sorted.imp ?_
  intro a b hab e
  rw [e] at hab; omega

theorem cell_ext {g : RawGraph} {k : Nat} {c c' : List Factor} (h : IsCell g k c) (h' : IsCell g k c') (e : c.toFinset = c'.toFinset) : c = c' :=
  cell_eq_of_perm h h' (List.perm_of_nodup_nodup_toFinset_eq h.nodup h'.nodup e)

theorem cell_disj {g : RawGraph} {k : Nat} {c : List Factor} (h : IsCell g k c) {a b : Factor} (ha : a ∈ c) (hb : b ∈ c) (hab : a ≠ b) : ∀ v ∈ vertsOf a, v ∉ vertsOf b := by
  haveI : Std.Symm (fun a b : Factor => ∀ v ∈ vertsOf a, v ∉ vertsOf b) := ⟨fun a b h v h1 h2 => h v h2 h1⟩
  exact h.disjoint.forall ha hb hab

theorem cell_of_set {g : RawGraph} {k : Nat} {S : Finset Factor} (h1 : S.card = k) (h2 : ∀ f ∈ S, FactorOf g f)
    (h3 : ∀ a ∈ S, ∀ b ∈ S, a ≠ b → ∀ v ∈ vertsOf a, v ∉ vertsOf b) : ∃ c, IsCell g k c ∧ c.toFinset = S := by
  have hl : S.toList.length = k := by rw [Finset.length_toList, h1]
  have hp : S.toList.Pairwise (fun a b => ∀ v ∈ vertsOf a, v ∉ vertsOf b) := by
    refine (Finset.nodup_toList S).pairwise_of_forall_ne ?_
    intro a ha b hb hab
    exact h3 a (Finset.mem_toList.mp ha) b (Finset.mem_toList.mp hb) hab
  obtain ⟨c1, c2⟩ := cell_of_perm hl (fun f hf => h2 f (Finset.mem_toList.mp hf)) hp
  refine ⟨_, c1, ?_⟩
  rw [List.toFinset_eq_of_perm _ _ c2, Finset.toList_toFinset]

theorem facesFrom_vertices (cell : List Factor) (vs : List Nat) (rest : List Factor) : ∀ (i : Nat) (sign : Bool),
    Cplx.facesFrom cell i sign (vs.map Factor.vertex ++ rest) = Cplx.facesFrom cell (i + vs.length) sign rest := by
  induction vs with
  | nil => intro i sign; rfl
  | cons v vs ih =>
    intro i sign
    simp only [List.map_cons, List.cons_append, Cplx.facesFrom, List.length_cons]
    rw [ih]
    congr 1; omega

/-- replacing an edge of a cell by one of its ends -/
theorem face_perm {g : RawGraph} {k : Nat} {P Q : List Factor} {x y : Nat} (h : IsCell g k (P ++ .edge x y :: Q)) {v : Nat} (hv : v = x ∨ v = y) {e : List Factor} (he : e.Nodup) :
    (P ++ .vertex v :: Q).Perm e ↔ e.toFinset = insert (Factor.vertex v) ((P ++ .edge x y :: Q).toFinset.erase (.edge x y)) := by
  have hnd := h.nodup
  have hpm : (P ++ .edge x y :: Q).Perm (.edge x y :: (P ++ Q)) := List.perm_middle
  have hpm' : (P ++ .vertex v :: Q).Perm (.vertex v :: (P ++ Q)) := List.perm_middle
  have hn2 := hpm.nodup_iff.mp hnd
  have hn3 := List.nodup_cons.mp hn2
  have hv' : Factor.vertex v ∉ P ++ Q := by
    intro hm
    have := cell_disj h (a := .vertex v) (b := .edge x y) (hpm.mem_iff.mpr (List.mem_cons_of_mem _ hm)) (hpm.mem_iff.mpr (by simp)) (by simp) v (by simp [vertsOf])
    apply this
    rcases hv with rfl | rfl <;> simp [vertsOf]
  have hset : (P ++ .vertex v :: Q).toFinset = insert (Factor.vertex v) ((P ++ .edge x y :: Q).toFinset.erase (.edge x y)) := by
    rw [List.toFinset_eq_of_perm _ _ hpm, List.toFinset_eq_of_perm _ _ hpm', List.toFinset_cons, List.toFinset_cons, Finset.erase_insert]
    simpa using hn3.1
  constructor
  · intro hp
    rw [← hset, List.toFinset_eq_of_perm _ _ hp]
  · intro hE
    refine List.perm_of_nodup_nodup_toFinset_eq (hpm'.nodup_iff.mpr (List.nodup_cons.mpr ⟨hv', hn3.2⟩)) he ?_
    rw [hset, hE]

theorem ind_congr {p q : Prop} [Decidable p] [Decidable q] (h : p ↔ q) : (if p then (1 : ℤ) else 0) = if q then 1 else 0 := by
  by_cases hq : q
  · rw [if_pos hq, if_pos (h.mpr hq)]
  · rw [if_neg hq, if_neg (fun hp => hq (h.mp hp))]

/-- the set of factors of the face that replaces the edge `x y` by its end `v` -/
def faceS (S : Finset Factor) (x y v : Nat) : Finset Factor := insert (Factor.vertex v) (S.erase (.edge x y))

theorem incidence_one {g : RawGraph} {k : Nat} {c : List Factor} (h : IsCell g k c) (hd : dimC c = 1) : ∃ x y, Factor.edge x y ∈ c ∧ (∀ x' y', Factor.edge x' y' ∈ c → x' = x ∧ y' = y) ∧
    ∀ e : List Factor, e.Nodup → incidence c e = (if e.toFinset = faceS c.toFinset x y x then 1 else 0) - (if e.toFinset = faceS c.toFinset x y y then 1 else 0) := by
  have hone : ∃ (vs ws : List Nat) (x y : Nat), c = vs.map Factor.vertex ++ .edge x y :: ws.map Factor.vertex := by
    clear h
    induction c with
    | nil => simp [dimC] at hd
    | cons f c ih =>
      cases f with
      | vertex v =>
        rw [dimC_cons_vertex] at hd
        obtain ⟨vs, ws, x, y, rfl⟩ := ih hd
        exact ⟨v :: vs, ws, x, y, rfl⟩
      | edge x y =>
        rw [dimC_cons_edge] at hd
        obtain ⟨ws, rfl⟩ := no_edges (c := c) (by rw [dimC_eq] at hd; unfold dm at hd; omega)
        exact ⟨[], ws, x, y, rfl⟩
  obtain ⟨vs, ws, x, y, rfl⟩ := hone
  refine ⟨x, y, by simp, ?_, ?_⟩
  · intro x' y' hm
    simpa using hm
  · intro e he
    rw [← incidence_eq]
    have hf : faces (vs.map Factor.vertex ++ .edge x y :: ws.map Factor.vertex) = [(true, vs.map Factor.vertex ++ .vertex x :: ws.map Factor.vertex), (false, vs.map Factor.vertex ++ .vertex y :: ws.map Factor.vertex)] := by
      show Cplx.facesFrom _ 0 true _ = _
      rw [facesFrom_vertices]
      have := facesFrom_vertices (vs.map Factor.vertex ++ .edge x y :: ws.map Factor.vertex) ws [] (0 + vs.length + 1) false
      rw [List.append_nil] at this
      simp only [Cplx.facesFrom, Bool.not_true]
      rw [this]
      simp [Cplx.facesFrom]
    rw [hf]
    simp only [bsum, List.map_cons, List.map_nil, List.sum_cons, List.sum_nil, sg, if_true, Bool.false_eq_true, if_false]
    rw [ind_congr (face_perm h (Or.inl rfl) he), ind_congr (face_perm h (Or.inr rfl) he)]
    unfold faceS
    ring

theorem incidence_two {g : RawGraph} {k : Nat} {c : List Factor} (h : IsCell g k c) (hd : dimC c = 2) : ∃ x y x' y', Factor.edge x y ∈ c ∧ Factor.edge x' y' ∈ c ∧ x < x' ∧
    (∀ a b, Factor.edge a b ∈ c → (a = x ∧ b = y) ∨ (a = x' ∧ b = y')) ∧
    ∀ e : List Factor, e.Nodup → incidence c e = (if e.toFinset = faceS c.toFinset x y x then 1 else 0) - (if e.toFinset = faceS c.toFinset x y y then 1 else 0)
      - (if e.toFinset = faceS c.toFinset x' y' x' then 1 else 0) + (if e.toFinset = faceS c.toFinset x' y' y' then 1 else 0) := by
  have htwo : ∃ (vs us ws : List Nat) (x y x' y' : Nat), c = vs.map Factor.vertex ++ .edge x y :: (us.map Factor.vertex ++ .edge x' y' :: ws.map Factor.vertex) := by
    clear h
    induction c with
    | nil => simp [dimC] at hd
    | cons f c ih =>
      cases f with
      | vertex v =>
        rw [dimC_cons_vertex] at hd
        obtain ⟨vs, us, ws, x, y, x', y', rfl⟩ := ih hd
        exact ⟨v :: vs, us, ws, x, y, x', y', rfl⟩
      | edge x y =>
        rw [dimC_cons_edge] at hd
        have hd1 : dimC c = 1 := by omega
        clear ih hd
        suffices ∃ (vs ws : List Nat) (x y : Nat), c = vs.map Factor.vertex ++ .edge x y :: ws.map Factor.vertex by
          obtain ⟨us, ws, x', y', rfl⟩ := this
          exact ⟨[], us, ws, x, y, x', y', rfl⟩
        induction c with
        | nil => simp [dimC] at hd1
        | cons f c ih =>
          cases f with
          | vertex v =>
            rw [dimC_cons_vertex] at hd1
            obtain ⟨vs, ws, x, y, rfl⟩ := ih hd1
            exact ⟨v :: vs, ws, x, y, rfl⟩
          | edge x y =>
            rw [dimC_cons_edge] at hd1
            obtain ⟨ws, rfl⟩ := no_edges (c := c) (by rw [dimC_eq] at hd1; unfold dm at hd1; omega)
            exact ⟨[], ws, x, y, rfl⟩
  obtain ⟨vs, us, ws, x, y, x', y', hc⟩ := htwo
  have h2 : c = (vs.map Factor.vertex ++ .edge x y :: us.map Factor.vertex) ++ .edge x' y' :: ws.map Factor.vertex := by rw [hc]; simp
  refine ⟨x, y, x', y', by rw [hc]; simp, by rw [hc]; simp, ?_, ?_, ?_⟩
  · have := h.sorted
    rw [h2, List.pairwise_append] at this
    exact this.2.2 (.edge x y) (by simp) (.edge x' y') (by simp)
  · intro a b hm
    rw [hc] at hm
    simpa using hm
  · intro e he
    rw [← incidence_eq]
    have hf : faces c = [(true, vs.map Factor.vertex ++ .vertex x :: (us.map Factor.vertex ++ .edge x' y' :: ws.map Factor.vertex)),
        (false, vs.map Factor.vertex ++ .vertex y :: (us.map Factor.vertex ++ .edge x' y' :: ws.map Factor.vertex)),
        (false, (vs.map Factor.vertex ++ .edge x y :: us.map Factor.vertex) ++ .vertex x' :: ws.map Factor.vertex),
        (true, (vs.map Factor.vertex ++ .edge x y :: us.map Factor.vertex) ++ .vertex y' :: ws.map Factor.vertex)] := by
      show Cplx.facesFrom c 0 true c = _
      have q3 := facesFrom_vertices c ws [] (0 + vs.length + 1 + us.length + 1) true
      rw [List.append_nil] at q3
      have q2 := facesFrom_vertices c us (.edge x' y' :: ws.map Factor.vertex) (0 + vs.length + 1) false
      have q1 := facesFrom_vertices c vs (.edge x y :: (us.map Factor.vertex ++ .edge x' y' :: ws.map Factor.vertex)) 0 true
      rw [← hc] at q1
      rw [q1]
      simp only [Cplx.facesFrom, Bool.not_true]
      rw [q2]
      simp only [Cplx.facesFrom, Bool.not_false]
      rw [q3]
      simp only [Cplx.facesFrom]
      have e1 : ∀ f, c.set (0 + vs.length) f = vs.map Factor.vertex ++ f :: (us.map Factor.vertex ++ .edge x' y' :: ws.map Factor.vertex) := by
        intro f; rw [hc]; simp
      have e2 : ∀ f, c.set (0 + vs.length + 1 + us.length) f = (vs.map Factor.vertex ++ .edge x y :: us.map Factor.vertex) ++ f :: ws.map Factor.vertex := by
        intro f; rw [h2]
        have hl : (vs.map Factor.vertex ++ Factor.edge x y :: us.map Factor.vertex).length = 0 + vs.length + 1 + us.length := by simp; omega
        rw [← hl, List.set_append_right _ _ (le_refl _), Nat.sub_self]
        rfl
      rw [e1, e1, e2, e2]
    rw [hf]
    have f1 := fun v hv => face_perm (P := vs.map Factor.vertex) (Q := us.map Factor.vertex ++ .edge x' y' :: ws.map Factor.vertex) (by rw [← hc]; exact h) (v := v) hv he
    have f2 := fun v hv => face_perm (P := vs.map Factor.vertex ++ .edge x y :: us.map Factor.vertex) (Q := ws.map Factor.vertex) (by rw [← h2]; exact h) (v := v) hv he
    rw [← hc] at f1
    rw [← h2] at f2
    simp only [bsum, List.map_cons, List.map_nil, List.sum_cons, List.sum_nil, sg, if_true, Bool.false_eq_true, if_false]
    rw [ind_congr (f1 x (Or.inl rfl)), ind_congr (f1 y (Or.inr rfl)), ind_congr (f2 x' (Or.inl rfl)), ind_congr (f2 y' (Or.inr rfl))]
    unfold faceS
    ring

end Toppo.CubeProps
