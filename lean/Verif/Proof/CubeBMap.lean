import Verif.Proof.CubeFill
set_option linter.unusedVariables false

/-! `boundary_map`: sizes, entries, and zero compositions. -/
namespace Toppo.Cub
open RawGraph RawGraph.Factor

theorem sum_single {α : Type} [DecidableEq α] (l : List α) (h : l.Nodup) (X : α → ℤ) (c0 : α) (hc : c0 ∈ l) : (l.map (fun c => if c = c0 then X c else 0)).sum = X c0 := by
  induction l with
  | nil => simp at hc
  | cons c l ih =>
    rw [List.nodup_cons] at h
    rw [List.map_cons, List.sum_cons]
    by_cases e : c = c0
    · subst e
      rw [if_pos rfl]
      have : (l.map (fun c' => if c' = c then X c' else 0)).sum = 0 := by
        apply List.sum_eq_zero
        intro x hx
        obtain ⟨c', hc', rfl⟩ := List.mem_map.mp hx
        rw [if_neg]; rintro rfl; exact h.1 hc'
      rw [this]; ring
    · rw [if_neg e, ih h.2 (by rcases List.mem_cons.mp hc with h | h; exact absurd h.symm e; exact h)]; ring

theorem ranks_eq {n : Nat} {pool : List Factor} {k : Nat} {s : Cplx} (h : Done n pool k s) (d : Nat) (hd : d ≤ k) : s.ranks[d]? = some (ofDim (ext n pool k []) d).length := by
  have := h.ranks d
  rw [List.getD_eq_getElem?_getD, List.getElem?_eq_getElem (by rw [h.rlen]; omega)] at this
  rw [List.getElem?_eq_getElem (by rw [h.rlen]; omega)]
  simp only [Option.getD_some] at this
  rw [this]
  unfold ofDim
  rw [List.countP_eq_length_filter]

theorem dim_le {n : Nat} {pool : List Factor} (hp : Pool n pool) {k : Nat} {s : Cplx} (h : Done n pool k s) : s.dim ≤ k := by
  rcases (dim_foldl (ext n pool k []) 0).2.2 with e | ⟨c, h1, h2⟩
  · rw [h.dim, e]; omega
  · rw [h.dim, ← h2]
    have := ((mem_cells hp k c).mp h1).1
    rw [← this]
    exact List.countP_le_length

theorem cells_ne {n : Nat} {pool : List Factor} (hp : Pool n pool) {k : Nat} (hk : k ≤ n) : ∃ c ∈ ext n pool k [], dm c = 0 := by
  refine ⟨(List.range k).map Factor.vertex, (mem_cells hp k _).mpr ⟨by simp, ?_, ?_⟩, ?_⟩
  · unfold Valid
    rw [List.pairwise_map]
    refine List.pairwise_lt_range.imp ?_
    intro a b hab
    refine ⟨?_, hab⟩
    simp [disjoint]; omega
  · intro f hf
    obtain ⟨v, hv, rfl⟩ := List.mem_map.mp hf
    rw [List.mem_range] at hv
    exact hp.verts v (by omega)
  · unfold dm
    rw [List.countP_map, List.countP_eq_zero]
    intro a _
    simp [isEdge]

theorem exists_face {c : List Factor} {d : Nat} (h : dm c = d + 1) : ∃ f s, (s, f) ∈ faces c := by
  have key : ∀ (fs pre : List Factor) (sign : Bool), fs.countP isEdge ≠ 0 → ∃ f s, (s, f) ∈ Cplx.facesFrom c pre.length sign fs := by
    intro fs
    induction fs with
    | nil => intro _ _ h; simp at h
    | cons a fs ih =>
      intro pre sign h
      cases a with
      | vertex v =>
        obtain ⟨f, s, hf⟩ := ih (pre ++ [.vertex v]) sign (by simpa [isEdge] using h)
        exact ⟨f, s, by simpa [Cplx.facesFrom] using hf⟩
      | edge x y => exact ⟨_, sign, by simp only [Cplx.facesFrom]; exact List.mem_cons_self⟩
  exact key c [] true (by unfold dm at h; omega)

theorem ofDim_ne {n : Nat} {pool : List Factor} (hp : Pool n pool) {k : Nat} (hk : k ≤ n) {s : Cplx} (h : Done n pool k s) (d : Nat) (hd : d ≤ s.dim) :
    0 < (ofDim (ext n pool k []) d).length := by
  have hex : ∃ c ∈ ext n pool k [], dm c = s.dim := by
    rcases (dim_foldl (ext n pool k []) 0).2.2 with e | ⟨c, h1, h2⟩
    · rw [h.dim, e]; exact cells_ne hp hk
    · rw [h.dim]; exact ⟨c, h1, h2⟩
  have key : ∀ j, j ≤ s.dim → ∃ c ∈ ext n pool k [], dm c = s.dim - j := by
    intro j
    induction j with
    | zero => intro _; simpa using hex
    | succ j ih =>
      intro hj
      obtain ⟨c, h1, h2⟩ := ih (by omega)
      obtain ⟨f, sgn, hf⟩ := exists_face (c := c) (d := s.dim - j - 1) (by omega)
      obtain ⟨f1, f2, -⟩ := face_mem hp h1 hf
      exact ⟨_, f1, by omega⟩
  obtain ⟨c, h1, h2⟩ := key (s.dim - d) (by omega)
  exact List.length_pos_of_mem (mem_ofDim.mpr ⟨h1, by omega⟩)

theorem zeros_spec {n : Nat} {pool : List Factor} (hp : Pool n pool) {k : Nat} (hk : k ≤ n) {s : Cplx} (h : Done n pool k s) :
    ∃ maps, s.zeros = some maps ∧ maps.length = s.dim + 1 ∧ maps[0]? = some ⟨1, (ofDim (ext n pool k []) 0).length, fun _ _ => 0⟩ ∧
      ∀ d, d < s.dim → maps[d + 1]? = some ⟨(ofDim (ext n pool k []) d).length, (ofDim (ext n pool k []) (d + 1)).length, fun _ _ => 0⟩ := by
  have hle := dim_le hp h
  unfold Cplx.zeros
  rw [ranks_eq h 0 (by omega)]
  simp only [Option.bind_eq_bind, Option.bind_some]
  have z0 : Cplx.zeroMat 1 (ofDim (ext n pool k []) 0).length = some ⟨1, (ofDim (ext n pool k []) 0).length, fun _ _ => 0⟩ := by
    unfold Cplx.zeroMat; rw [if_pos ⟨by omega, ofDim_ne hp hk h 0 (by omega)⟩]
  rw [z0]
  simp only [Option.bind_some]
  have hm : ∀ l : List Nat, (∀ i ∈ l, i < s.dim) →
      l.mapM (fun i => (s.ranks[i]?).bind fun a => (s.ranks[i + 1]?).bind fun b => Cplx.zeroMat a b) =
      some (l.map (fun d => (⟨(ofDim (ext n pool k []) d).length, (ofDim (ext n pool k []) (d + 1)).length, fun _ _ => 0⟩ : Cplx.IMat))) := by
    intro l
    induction l with
    | nil => intro _; rfl
    | cons i l ih =>
      intro hl
      have hi := hl i (by simp)
      rw [List.mapM_cons, ih (fun x hx => hl x (by simp [hx])), ranks_eq h i (by omega), ranks_eq h (i + 1) (by omega)]
      simp only [Option.bind_eq_bind, Option.bind_some]
      unfold Cplx.zeroMat
      rw [if_pos ⟨ofDim_ne hp hk h i (by omega), ofDim_ne hp hk h (i + 1) (by omega)⟩]
      rfl
  rw [hm _ (fun i hi => by simpa using hi)]
  refine ⟨_, rfl, by simp, rfl, ?_⟩
  intro d hd
  simp [hd]

/-- the boundary maps: sizes and entries -/
theorem boundaryMap_spec {n : Nat} {pool : List Factor} (hp : Pool n pool) {k : Nat} (hk : k ≤ n) {s : Cplx} (h : Done n pool k s) :
    ∃ maps, s.boundaryMap = some maps ∧ maps.length = s.dim + 1 ∧ (∀ b ∈ maps, b.basis = []) ∧
      (∃ b, maps[0]? = some b ∧ b.n = 1 ∧ b.m = (ofDim (ext n pool k []) 0).length ∧ ∀ i j, b.a i j = 0) ∧
      ∀ d, d < s.dim → ∃ b, maps[d + 1]? = some b ∧ b.n = (ofDim (ext n pool k []) d).length ∧ b.m = (ofDim (ext n pool k []) (d + 1)).length ∧
        ∀ (i j : Nat) e c, (ofDim (ext n pool k []) d)[i]? = some e → (ofDim (ext n pool k []) (d + 1))[j]? = some c →
          b.a i j = bsum (fun f => if f.Perm e then 1 else 0) (faces c) := by
  have hC := ext_nodup (n := n) hp.nodup k []
  obtain ⟨num, n1, n2⟩ := h.number hp
  obtain ⟨maps0, z1, z2, z3, z4⟩ := zeros_spec hp hk h
  obtain ⟨maps, f1, f2, f3⟩ := h.fill hp n2 s.final (ext n pool k []) h.final (fun _ hi => hi) (fun _ hc => hc) maps0 (by
    intro c hc h0
    have hd : dm c ≤ s.dim := by rw [h.dim]; exact (dim_foldl (ext n pool k []) 0).1 c hc
    obtain ⟨d, hd'⟩ : ∃ d, dm c = d + 1 := ⟨dm c - 1, by omega⟩
    rw [hd', z4 d (by omega)]
    exact ⟨_, rfl, rfl, rfl⟩)
  unfold Cplx.boundaryMap
  rw [n1, z1]
  simp only [Option.bind_eq_bind, Option.bind_some]
  rw [f1]
  refine ⟨_, rfl, by rw [List.length_map, f2, z2], ?_, ?_, ?_⟩
  · intro b hb
    obtain ⟨x, -, rfl⟩ := List.mem_map.mp hb
    rfl
  · have := f3 0 _ z3
    rw [List.getElem?_map, this]
    refine ⟨_, rfl, rfl, rfl, ?_⟩
    intro i j
    simp
  · intro d hd
    have := f3 (d + 1) _ (z4 d hd)
    rw [List.getElem?_map, this]
    refine ⟨_, rfl, rfl, rfl, ?_⟩
    intro i j e c he hc
    have hcm := mem_ofDim.mp (List.mem_of_getElem? hc)
    have hem := mem_ofDim.mp (List.mem_of_getElem? he)
    simp only [zero_add]
    have hs : ((ext n pool k []).map (fun c' => if dm c' = d + 1 ∧ d + 1 ≠ 0 ∧ pos (ext n pool k []) c' = j then
        bsum (fun f => if pos (ext n pool k []) (sort f) = i then 1 else 0) (faces c') else 0)).sum =
        ((ext n pool k []).map (fun c' => if c' = c then bsum (fun f => if f.Perm e then 1 else 0) (faces c') else 0)).sum := by
      congr 1
      apply List.map_congr_left
      intro c' hc'
      by_cases ec : c' = c
      · subst ec
        rw [if_pos rfl, if_pos ⟨hcm.2, by omega, (pos_eq_iff hC hc' hcm.2 hc).mpr rfl⟩]
        unfold bsum
        congr 1
        apply List.map_congr_left
        intro sf hsf
        obtain ⟨g1, g2, g3⟩ := face_mem hp hc' hsf
        have hv : Valid e := ((mem_cells hp k e).mp hem.1).2.1
        have : pos (ext n pool k []) (sort sf.2) = i ↔ sf.2.Perm e := by
          rw [pos_eq_iff hC g1 (by have := hcm.2; omega) he, sort_eq_iff g3 hv]
        simp only [this]
      · rw [if_neg ec, if_neg]
        rintro ⟨a1, -, a3⟩
        exact ec ((pos_eq_iff hC hc' a1 hc).mp a3)
    rw [hs]
    exact sum_single _ hC _ c hcm.1

/-- the composition of two consecutive boundary maps is zero -/
theorem incidence_zero {n : Nat} {pool : List Factor} (hp : Pool n pool) {k : Nat} (d : Nat) {c e : List Factor} (hc : c ∈ ofDim (ext n pool k []) (d + 2)) :
    (((ofDim (ext n pool k []) (d + 1)).map (fun z => bsum (fun f => if f.Perm e then 1 else 0) (faces z) * bsum (fun f => if f.Perm z then 1 else 0) (faces c))).sum : ℤ) = 0 := by
  have hC := ext_nodup (n := n) hp.nodup k []
  obtain ⟨hc1, hc2⟩ := mem_ofDim.mp hc
  have hv := ((mem_cells hp k c).mp hc1).2.1
  have h0 := bd_bd hv (fun S => if S = ↑e then 1 else 0)
  simp only [Multiset.coe_eq_coe] at h0
  obtain ⟨X, hX⟩ : ∃ X : List Factor → ℤ, X = fun z => bsum (fun f => if f.Perm e then 1 else 0) (faces z) := ⟨_, rfl⟩
  have hX' : ∀ z, bsum (fun f => if f.Perm e then 1 else 0) (faces z) = X z := by intro z; rw [hX]
  simp only [hX'] at h0 ⊢
  refine Eq.trans ?_ h0
  have key : ∀ L : List (Bool × List Factor), (∀ sf ∈ L, sort sf.2 ∈ ofDim (ext n pool k []) (d + 1) ∧ Disjoint sf.2) →
      ((ofDim (ext n pool k []) (d + 1)).map (fun z => X z * bsum (fun f => if f.Perm z then 1 else 0) L)).sum = bsum (fun f => X (sort f)) L := by
    intro L
    induction L with
    | nil => intro _; simp [bsum]
    | cons sf L ih =>
      intro hL
      have e1 := ih (fun x hx => hL x (by simp [hx]))
      have e2 : bsum (fun f => X (sort f)) (sf :: L) = sg sf.1 * X (sort sf.2) + bsum (fun f => X (sort f)) L := by simp [bsum]
      rw [e2, ← e1]
      obtain ⟨g1, g2⟩ := hL sf (by simp)
      have e3 := sum_single (ofDim (ext n pool k []) (d + 1)) (hC.filter _) (fun z => sg sf.1 * X z) (sort sf.2) g1
      rw [← e3, ← List.sum_map_add]
      congr 1
      apply List.map_congr_left
      intro z hz
      have hzv : Valid z := ((mem_cells hp k z).mp (mem_ofDim.mp hz).1).2.1
      have : bsum (fun f => if f.Perm z then 1 else 0) (sf :: L) = sg sf.1 * (if sf.2.Perm z then 1 else 0) + bsum (fun f => if f.Perm z then 1 else 0) L := by
        simp [bsum]
      rw [this]
      have hiff : z = sort sf.2 ↔ sf.2.Perm z := by rw [eq_comm, sort_eq_iff g2 hzv]
      simp only [hiff]
      split <;> ring
  refine key _ ?_
  intro sf hsf
  obtain ⟨g1, g2, g3⟩ := face_mem hp hc1 hsf
  exact ⟨mem_ofDim.mpr ⟨g1, by omega⟩, g3⟩

end Toppo.Cub
