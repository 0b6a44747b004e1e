import Verif.Proof.CubeMap
set_option linter.unusedVariables false

/-! `boundary_map` of the complex built by `udc`. -/
namespace Toppo.Cub
open RawGraph RawGraph.Factor

/-- a pool of factors as the graph gives it -/
structure Pool (n : Nat) (pool : List Factor) : Prop where
  nodup : pool.Nodup
  range : ∀ f ∈ pool, InRange n f
  verts : ∀ v, v < n → Factor.vertex v ∈ pool

theorem mem_cells {n : Nat} {pool : List Factor} (hp : Pool n pool) (k : Nat) (c : List Factor) :
    c ∈ ext n pool k [] ↔ c.length = k ∧ Valid c ∧ ∀ f ∈ c, f ∈ pool := by
  rw [mem_ext hp.range k [] .nil]
  constructor
  · rintro ⟨t, e, h1, h2, h3⟩
    rw [List.nil_append] at e
    subst e
    exact ⟨h1, h2, h3⟩
  · rintro ⟨h1, h2, h3⟩
    exact ⟨c, rfl, h1, h2, h3⟩

theorem face_mem {n : Nat} {pool : List Factor} (hp : Pool n pool) {k : Nat} {c : List Factor} (hc : c ∈ ext n pool k []) {s : Bool} {f : List Factor}
    (hf : (s, f) ∈ faces c) : sort f ∈ ext n pool k [] ∧ dm (sort f) + 1 = dm c ∧ Disjoint f := by
  obtain ⟨h1, h2, h3⟩ := (mem_cells hp k c).mp hc
  obtain ⟨p, x, y, q, v, rfl, rfl, hv⟩ := mem_faces hf
  have hd := face_disjoint h2.disjoint hv
  refine ⟨(mem_cells hp k _).mpr ⟨?_, sort_valid hd, ?_⟩, ?_, hd⟩
  · rw [(sort_perm _).length_eq, ← h1]; simp
  · intro f hf
    rw [(sort_perm _).mem_iff] at hf
    rcases List.mem_append.mp hf with h | h
    · exact h3 f (by simp [h])
    · rcases List.mem_cons.mp h with rfl | h
      · obtain ⟨r1, r2⟩ := hp.range _ (h3 (.edge x y) (by simp))
        exact hp.verts v (by omega)
      · exact h3 f (by simp [h])
  · unfold dm
    rw [(sort_perm _).countP_eq, face_dim (v := v)]

theorem Done.path {n : Nat} {pool : List Factor} {k : Nat} {s : Cplx} (h : Done n pool k s) {i : Nat} (hi : i ∈ s.final) : ∃ c ∈ ext n pool k [], PathAt s.data i c := by
  obtain ⟨a, ha, rfl⟩ := List.mem_iff_getElem.mp hi
  have hl := h.final.length_eq
  exact ⟨_, List.getElem_mem (by omega), h.final.get ha (by omega)⟩

theorem Done.mem {n : Nat} {pool : List Factor} {k : Nat} {s : Cplx} (h : Done n pool k s) {c : List Factor} (hc : c ∈ ext n pool k []) : ∃ i ∈ s.final, PathAt s.data i c := by
  obtain ⟨a, ha, rfl⟩ := List.mem_iff_getElem.mp hc
  have hl := h.final.length_eq
  exact ⟨_, List.getElem_mem (by omega), h.final.get (by omega) ha⟩

theorem Done.final_nodup {n : Nat} {pool : List Factor} (hp : Pool n pool) {k : Nat} {s : Cplx} (h : Done n pool k s) : s.final.Nodup := by
  have hC := ext_nodup (n := n) hp.nodup k []
  rw [List.nodup_iff_injective_get] at hC ⊢
  intro a b e
  have hl := h.final.length_eq
  have h1 := h.final.get a.2 (by have := a.2; omega)
  have h2 := h.final.get b.2 (by have := b.2; omega)
  have e' : s.final.get a = s.final.get b := e
  rw [e'] at h1
  have := h1.unique h2
  have := hC (a₁ := ⟨a.1, by have := a.2; omega⟩) (a₂ := ⟨b.1, by have := b.2; omega⟩) this
  ext; simpa using this

/-- the branch of a cell -/
def br (s : Cplx) (c : List Factor) : Nat := (s.indexOf c).getD 0

theorem Done.br {n : Nat} {pool : List Factor} {k : Nat} {s : Cplx} (h : Done n pool k s) {c : List Factor} (hc : c ∈ ext n pool k []) :
    s.indexOf c = some (br s c) ∧ PathAt s.data (br s c) c ∧ br s c ∈ s.final := by
  obtain ⟨i, h1, h2⟩ := h.mem hc
  have h3 := (h.inv.indexOf c i).mpr h2
  have : Toppo.Cub.br s c = i := by unfold Toppo.Cub.br; rw [h3]; rfl
  rw [this]; exact ⟨h3, h2, h1⟩

theorem Done.boundariesOf {n : Nat} {pool : List Factor} (hp : Pool n pool) {k : Nat} {s : Cplx} (h : Done n pool k s) {i : Nat} {c : List Factor}
    (hi : i ∈ s.final) (hc : c ∈ ext n pool k []) (hic : PathAt s.data i c) :
    s.boundariesOf i = some ((faces c).map (fun sf => (sf.1, Toppo.Cub.br s (sort sf.2)))) := by
  unfold Cplx.boundariesOf Cplx.cellAt
  rw [if_pos hi]
  have hu : up s.data (i + 1) i = some c.reverse := hic
  rw [hu]
  simp only [Option.map_some, List.reverse_reverse, Option.bind_eq_bind, Option.bind_some]
  have : ∀ L : List (Bool × List Factor), (∀ sf ∈ L, sort sf.2 ∈ ext n pool k []) →
      L.mapM (fun sf => (s.indexOf (sort sf.2)).map (fun j => (sf.1, j))) = some (L.map (fun sf => (sf.1, Toppo.Cub.br s (sort sf.2)))) := by
    intro L
    induction L with
    | nil => intro _; rfl
    | cons sf L ih =>
      intro hL
      rw [List.mapM_cons, (h.br (hL sf (by simp))).1, ih (fun x hx => hL x (by simp [hx]))]
      rfl
  exact this _ (fun sf hsf => (face_mem hp hc hsf).1)

/-- the position of a cell among the cells of its dimension -/
def pos (C : List (List Factor)) (c : List Factor) : Nat := (ofDim C (dm c)).idxOf c

theorem mem_ofDim {C : List (List Factor)} {d : Nat} {c : List Factor} : c ∈ ofDim C d ↔ c ∈ C ∧ dm c = d := by
  unfold ofDim; rw [List.mem_filter, decide_eq_true_iff]

theorem pos_lt {C : List (List Factor)} {c : List Factor} (hc : c ∈ C) : pos C c < (ofDim C (dm c)).length :=
  List.idxOf_lt_length_iff.mpr (mem_ofDim.mpr ⟨hc, rfl⟩)

theorem getElem_pos {C : List (List Factor)} {c : List Factor} (hc : c ∈ C) : (ofDim C (dm c))[pos C c]? = some c := by
  rw [List.getElem?_eq_getElem (pos_lt hc)]
  congr 1
  exact List.getElem_idxOf (pos_lt hc)

theorem pos_eq_iff {C : List (List Factor)} (hC : C.Nodup) {c e : List Factor} (hc : c ∈ C) {d i : Nat} (hd : dm c = d) (he : (ofDim C d)[i]? = some e) : pos C c = i ↔ c = e := by
  subst hd
  have h1 := getElem_pos hc
  constructor
  · rintro rfl; rw [h1] at he; exact Option.some.inj he
  · rintro rfl
    obtain ⟨a1, a2⟩ := List.getElem?_eq_some_iff.mp h1
    obtain ⟨b1, b2⟩ := List.getElem?_eq_some_iff.mp he
    have hn : (ofDim C (dm c)).Nodup := hC.filter _
    exact (List.Nodup.getElem_inj_iff hn).mp (a2.trans b2.symm)

theorem dim_foldl (C : List (List Factor)) (m : Nat) : (∀ c ∈ C, dm c ≤ C.foldl (fun m c => max m (c.countP isEdge)) m) ∧
    m ≤ C.foldl (fun m c => max m (c.countP isEdge)) m ∧
    (C.foldl (fun m c => max m (c.countP isEdge)) m = m ∨ ∃ c ∈ C, dm c = C.foldl (fun m c => max m (c.countP isEdge)) m) := by
  induction C generalizing m with
  | nil => simp
  | cons c C ih =>
    obtain ⟨h1, h2, h3⟩ := ih (max m (c.countP isEdge))
    simp only [List.foldl_cons]
    refine ⟨?_, by omega, ?_⟩
    · intro c' hc'
      rcases List.mem_cons.mp hc' with rfl | hc'
      · show dm c' ≤ _; have : dm c' ≤ max m (c'.countP isEdge) := le_max_right _ _; omega
      · exact h1 c' hc'
    · rcases h3 with h3 | ⟨c', h4, h5⟩
      · rcases Nat.le_total (c.countP isEdge) m with hh | hh
        · left; rw [h3]; omega
        · right; exact ⟨c, by simp, by rw [h3]; show c.countP isEdge = _; omega⟩
      · right; exact ⟨c', by simp [h4], h5⟩

theorem Done.number {n : Nat} {pool : List Factor} (hp : Pool n pool) {k : Nat} {s : Cplx} (h : Done n pool k s) :
    ∃ num, Cplx.number s.data s.final (List.replicate s.data.length 0) (List.replicate (s.dim + 1) 0) = some num ∧
      ∀ c ∈ ext n pool k [], num[Toppo.Cub.br s c]? = some (pos (ext n pool k []) c) := by
  have hC := ext_nodup (n := n) hp.nodup k []
  obtain ⟨num, n1, n2, n3⟩ := number_spec s.final (ext n pool k []) h.final (h.final_nodup hp) (List.replicate s.data.length 0) (List.replicate (s.dim + 1) 0)
    (by intro i hi; obtain ⟨c, -, hc⟩ := h.path hi; simpa using hc.lt)
    (by intro c hc; simp only [List.length_replicate]; rw [h.dim]; have := (dim_foldl (ext n pool k []) 0).1 c hc; omega)
  refine ⟨num, n1, ?_⟩
  intro c hc
  obtain ⟨a, ha, e⟩ := List.mem_iff_getElem.mp hc
  have hl := h.final.length_eq
  have hbr := h.br hc
  have hpa := h.final.get (by omega : a < s.final.length) ha
  simp only [List.get_eq_getElem, e] at hpa
  have hidx : s.final[a] = Toppo.Cub.br s c := by
    have := (h.inv.indexOf c s.final[a]).mpr hpa
    rw [hbr.1] at this
    exact (Option.some.inj this).symm
  rw [n3 a (Toppo.Cub.br s c) c (by rw [List.getElem?_eq_getElem (by omega : a < s.final.length), hidx]) (by rw [List.getElem?_eq_getElem ha, e])]
  have h0 : (List.replicate (s.dim + 1) 0).getD (dm c) 0 = 0 := by
    simp [List.getElem?_replicate]; split <;> rfl
  rw [h0, Nat.zero_add]
  congr 1
  refine (pos_eq_iff hC hc rfl ?_).mpr rfl |>.symm
  exact filter_getElem_count (fun c' => decide (dm c' = dm c)) _ a c (by rw [List.getElem?_eq_getElem ha, e]) (by simp)

/-- the filling loop -/
theorem Done.fill {n : Nat} {pool : List Factor} (hp : Pool n pool) {k : Nat} {s : Cplx} (h : Done n pool k s) {num : List Nat}
    (hnum : ∀ c ∈ ext n pool k [], num[Toppo.Cub.br s c]? = some (pos (ext n pool k []) c)) (F : List Nat) (C' : List (List Factor)) (hFC : List.Forall₂ (PathAt s.data) F C')
    (hF : ∀ i ∈ F, i ∈ s.final) (hC' : ∀ c ∈ C', c ∈ ext n pool k []) (maps : List Cplx.IMat)
    (hm : ∀ c ∈ ext n pool k [], dm c ≠ 0 → ∃ x, maps[dm c]? = some x ∧ x.n = (ofDim (ext n pool k []) (dm c - 1)).length ∧ x.m = (ofDim (ext n pool k []) (dm c)).length) :
    ∃ maps', s.fill num F maps = some maps' ∧ maps'.length = maps.length ∧ ∀ (d : Nat) x, maps[d]? = some x →
      maps'[d]? = some ⟨x.n, x.m, fun i j => x.a i j + (C'.map (fun c => if dm c = d ∧ d ≠ 0 ∧ pos (ext n pool k []) c = j then
        bsum (fun f => if pos (ext n pool k []) (sort f) = i then 1 else 0) (faces c) else 0)).sum⟩ := by
  induction hFC generalizing maps with
  | nil => exact ⟨maps, rfl, rfl, by intro d x hx; rw [hx]; simp⟩
  | @cons idx c F C' hpa hFC ih =>
    have hc := hC' c (by simp)
    have hidx := hF idx (by simp)
    have hbr : Toppo.Cub.br s c = idx := by
      have := (h.inv.indexOf c idx).mpr hpa
      unfold Toppo.Cub.br; rw [this]; rfl
    unfold Cplx.fill
    rw [hpa.dim]
    simp only [Option.bind_eq_bind, Option.bind_some]
    by_cases h0 : dm c = 0
    · rw [if_pos h0]
      obtain ⟨maps', m1, m2, m3⟩ := ih (fun i hi => hF i (by simp [hi])) (fun c hc => hC' c (by simp [hc])) maps hm
      refine ⟨maps', m1, m2, ?_⟩
      intro d x hx
      rw [m3 d x hx]
      have : ∀ j, ¬ (dm c = d ∧ d ≠ 0 ∧ pos (ext n pool k []) c = j) := by rintro j ⟨a, b, -⟩; omega
      simp only [List.map_cons, List.sum_cons, this, if_false, zero_add]
    · rw [if_neg h0, h.boundariesOf hp hidx hc hpa, ← hbr, hnum c hc]
      simp only [Option.bind_some]
      obtain ⟨x, x1, x2, x3⟩ := hm c hc h0
      obtain ⟨maps1, a1, a2, a3, a4⟩ := fillCol_spec num (dm c) (pos (ext n pool k []) c) ((faces c).map (fun sf => (sf.1, Toppo.Cub.br s (sort sf.2)))) maps x x1
        (by rw [x3]; exact pos_lt hc) (fun b => num.getD b 0) (by
          intro sb hsb
          obtain ⟨sf, hsf, rfl⟩ := List.mem_map.mp hsb
          obtain ⟨f1, f2, f3⟩ := face_mem hp hc hsf
          simp only
          rw [hnum _ f1]
          simp only [List.getD_eq_getElem?_getD, hnum _ f1, Option.getD_some]
          refine ⟨trivial, ?_⟩
          rw [x2, show dm c - 1 = dm (sort sf.2) by omega]
          exact pos_lt f1)
      obtain ⟨maps', m1, m2, m3⟩ := ih (fun i hi => hF i (by simp [hi])) (fun c hc => hC' c (by simp [hc])) maps1 (by
        intro c' hc' h0'
        by_cases e : dm c' = dm c
        · rw [e, a4]; exact ⟨_, rfl, x2, x3⟩
        · rw [a3 _ e]; exact hm c' hc' h0')
      refine ⟨maps', ?_, by rw [m2, a2], ?_⟩
      · rw [a1]; exact m1
      · intro d y hy
        by_cases e : d = dm c
        · subst e
          rw [x1] at hy
          injection hy with hy
          subst hy
          rw [m3 _ _ a4]
          simp only [Option.some.injEq, Cplx.IMat.mk.injEq, true_and]
          funext i j
          simp only [List.map_cons, List.sum_cons, List.map_map]
          rw [← add_assoc]
          congr 2
          have hs : (List.map ((fun sb : Bool × Nat => if num.getD sb.2 0 = i then sg sb.1 else 0) ∘ fun sf : Bool × List Factor => (sf.1, Toppo.Cub.br s (sort sf.2))) (faces c)).sum =
              bsum (fun f => if pos (ext n pool k []) (sort f) = i then 1 else 0) (faces c) := by
            unfold bsum
            congr 1
            apply List.map_congr_left
            intro sf hsf
            obtain ⟨f1, -⟩ := face_mem hp hc hsf
            simp only [Function.comp, List.getD_eq_getElem?_getD, hnum _ f1, Option.getD_some]
            split <;> simp
          rw [hs]
          by_cases ej : j = pos (ext n pool k []) c
          · subst ej; simp [h0]
          · have : ¬ pos (ext n pool k []) c = j := fun e => ej e.symm
            simp [ej, this]
        · rw [m3 d y (by rw [a3 d e]; exact hy)]
          have : ∀ j, ¬ (dm c = d ∧ d ≠ 0 ∧ pos (ext n pool k []) c = j) := by rintro j ⟨a, b, -⟩; exact e a.symm
          simp only [List.map_cons, List.sum_cons, this, if_false, zero_add]

end Toppo.Cub
