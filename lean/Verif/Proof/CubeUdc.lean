import Verif.Proof.CubeArena
set_option linter.unusedVariables false

/-! The complex built by `udc`: its cells, its lookups, its ranks. -/
namespace Toppo.Cub
open RawGraph RawGraph.Factor

theorem conts_nil (n : Nat) (pool : List Factor) (r : Nat) : conts n pool [] r = pool.filter (keepB (n - r)) := by
  unfold conts
  apply List.filter_congr
  intro f _
  simp

/-- the state before any branch is expanded -/
theorem init_inv {n : Nat} {pool fs : List Factor} (hnd : fs.Nodup) (hsub : ∀ f ∈ fs, f ∈ pool) (final : List Nat) (dim : Nat) (ranks : List Nat) :
    AInv ⟨n, pool, fs.map (fun f => (⟨none, [], f⟩ : Branch)), List.range (fs.map (fun f => (⟨none, [], f⟩ : Branch))).length, final, dim, ranks⟩ ∧
    (∀ i (h : i < fs.length), PathAt (fs.map (fun f => (⟨none, [], f⟩ : Branch))) i [fs[i]]) ∧
    skel (fs.map (fun f => (⟨none, [], f⟩ : Branch))) = fs.map (fun f => (none, f)) := by
  have hsk : skel (fs.map (fun f => (⟨none, [], f⟩ : Branch))) = fs.map (fun f => (none, f)) := by
    unfold skel; rw [List.map_map]; rfl
  obtain ⟨d, hd⟩ : ∃ d, d = fs.map (fun f => (⟨none, [], f⟩ : Branch)) := ⟨_, rfl⟩
  rw [← hd] at hsk ⊢
  have hlen : d.length = fs.length := by rw [hd, List.length_map]
  have hget : ∀ (i : Nat) (p : Option Nat) f, (skel d)[i]? = some (p, f) → p = none ∧ fs[i]? = some f := by
    intro i p f e
    rw [hsk, List.getElem?_map, Option.map_eq_some_iff] at e
    obtain ⟨a, e1, e2⟩ := e
    injection e2 with e2 e3
    subst e3
    exact ⟨e2.symm, e1⟩
  have hpath : ∀ i (h : i < fs.length), PathAt d i [fs[i]] := by
    intro i h
    refine up_succ.mpr ⟨none, fs[i], ?_, Or.inl ⟨rfl, rfl⟩⟩
    rw [hsk, List.getElem?_map, List.getElem?_eq_getElem h]; rfl
  have hpar : ∀ i, i < d.length → parentAt d i = some none := by
    intro i hi
    unfold parentAt
    rw [hsk, List.getElem?_map, List.getElem?_eq_getElem (by omega)]; rfl
  refine ⟨⟨?_, ?_, ?_, ?_, ?_⟩, hpath, hsk⟩
  · show (skel d).Nodup
    rw [hsk]
    exact hnd.map (fun a b e => by injection e)
  · intro i p f e
    have := (hget i _ _ e).1
    cases this
  · intro p b e
    show b.children = (List.range d.length).filter (fun i => decide (parentAt d i = some (some p)))
    have e : d[p]? = some b := e
    rw [hd, List.getElem?_map, Option.map_eq_some_iff] at e
    obtain ⟨a, e1, e2⟩ := e
    rw [← e2, eq_comm, List.filter_eq_nil_iff]
    intro i hi
    rw [List.mem_range] at hi
    rw [hpar i hi]; simp
  · show List.range d.length = (List.range d.length).filter (fun i => decide (parentAt d i = some none))
    rw [eq_comm, List.filter_eq_self]
    intro i hi
    rw [List.mem_range] at hi
    rw [hpar i hi]; simp
  · intro i P hP
    have hP : PathAt d i P := hP
    have hi := hP.lt
    rw [hlen] at hi
    rw [hP.unique (hpath i hi)]
    refine ⟨by simp, ?_⟩
    intro f hf
    rw [List.mem_singleton] at hf
    subst hf
    exact hsub _ (List.getElem_mem hi)

/-- what the construction delivers -/
structure Done (n : Nat) (pool : List Factor) (k : Nat) (s : Cplx) : Prop where
  inv : AInv s
  n_eq : s.n = n
  pool_eq : s.pool = pool
  final : List.Forall₂ (PathAt s.data) s.final (ext n pool k [])
  rlen : s.ranks.length = k + 1
  ranks : ∀ d, s.ranks.getD d 0 = (ext n pool k []).countP (fun c => decide (c.countP isEdge = d))
  dim : s.dim = (ext n pool k []).foldl (fun m c => max m (c.countP isEdge)) 0

theorem ofGraph_spec {g : RawGraph} {pool : List Factor} (hpool : g.factorIter = some pool) (hnd : pool.Nodup) (hrange : ∀ f ∈ pool, InRange g.n f)
    (h2 : 2 ≤ g.n) (r : Nat) (hr : r ≤ g.n) : ∃ s, ofGraph g (r + 1) = some s ∧ Done g.n pool (r + 1) s := by
  unfold ofGraph
  rw [if_neg (by omega)]
  have c1 : csub (r + 1) 1 = some r := by simp [csub]
  have c2 : csub g.n r = some (g.n - r) := by unfold csub; rw [if_pos hr]
  rw [c1]
  simp only [Option.bind_eq_bind, Option.bind_some]
  rw [c2]
  simp only [Option.bind_some]
  rw [hpool]
  simp only [Option.bind_some]
  rw [filterO_some (q := keepB (g.n - r)) (fun f hf => keep_eq (hrange f hf))]
  simp only [Option.bind_some]
  rw [← conts_nil]
  obtain ⟨fs, hfs⟩ : ∃ fs, fs = conts g.n pool [] r := ⟨_, rfl⟩
  rw [← hfs]
  have hfnd : fs.Nodup := by rw [hfs]; exact hnd.filter _
  have hsub : ∀ f ∈ fs, f ∈ pool := by intro f hf; rw [hfs] at hf; exact (List.mem_filter.mp hf).1
  obtain ⟨i1, i2, i3⟩ := init_inv (n := g.n) hfnd hsub [] 0 (List.replicate (r + 1 + 1) 0)
  obtain ⟨s0, hs0⟩ : ∃ s0 : Cplx, s0 = ⟨g.n, pool, fs.map (fun f => (⟨none, [], f⟩ : Branch)), List.range (fs.map (fun f => (⟨none, [], f⟩ : Branch))).length, [], 0, List.replicate (r + 1 + 1) 0⟩ := ⟨_, rfl⟩
  rw [← hs0] at i1 ⊢
  have hdata : s0.data = fs.map (fun f => (⟨none, [], f⟩ : Branch)) := by rw [hs0]
  rw [← hdata] at i2 i3 ⊢
  have hlen : s0.data.length = fs.length := by rw [hdata, List.length_map]
  rw [hlen]
  have loop : ∀ j, j ≤ fs.length → ∃ t, (List.range j).foldlM (fun s idx => expand r idx s) s0 = some t ∧ AInv t ∧ t.n = g.n ∧ t.pool = pool ∧
      skel s0.data <+: skel t.data ∧ (∀ q f, j ≤ q → q < fs.length → (some q, f) ∉ skel t.data) ∧
      List.Forall₂ (PathAt t.data) t.final ((fs.take j).flatMap (fun f => ext g.n pool r [f])) ∧ t.ranks.length = r + 1 + 1 ∧
      (∀ d, t.ranks.getD d 0 = ((fs.take j).flatMap (fun f => ext g.n pool r [f])).countP (fun c => decide (c.countP isEdge = d))) ∧
      t.dim = ((fs.take j).flatMap (fun f => ext g.n pool r [f])).foldl (fun m c => max m (c.countP isEdge)) 0 := by
    intro j
    induction j with
    | zero =>
      intro _
      refine ⟨s0, rfl, i1, by rw [hs0], by rw [hs0], List.prefix_rfl, ?_, ?_, by rw [hs0]; simp, ?_, by rw [hs0]; simp⟩
      · intro q f _ _ hm
        rw [i3] at hm
        obtain ⟨a, -, e⟩ := List.mem_map.mp hm
        injection e with e; cases e
      · rw [hs0]; simp
      · intro d
        rw [hs0]
        simp [List.getElem?_replicate]
        split <;> rfl
    | succ j ih =>
      intro hj
      obtain ⟨t, t1, t2, t3, t4, t5, t6, t7, t8, t9, t10⟩ := ih (by omega)
      have hP : PathAt t.data j [fs[j]] := (i2 j (by omega)).congr t5
      obtain ⟨t', e1, e2⟩ := expand_spec r t2 (by rw [t3, t4]; exact hrange) (by rw [t4]; exact hnd) hP (by rw [t8]; simp; omega) (by rw [t3]; omega)
        (fun f => t6 j f (le_refl _) (by omega))
      rw [t3, t4] at e2
      have htake : fs.take (j + 1) = fs.take j ++ [fs[j]] := by rw [List.take_succ_eq_append_getElem (by omega)]
      refine ⟨t', ?_, e2.inv, by rw [e2.n, t3], by rw [e2.pool, t4], t5.trans e2.pre, ?_, ?_, by rw [e2.rlen, t8], ?_, ?_⟩
      · rw [List.range_succ, List.foldlM_append, t1]
        simp only [List.foldlM_cons, List.foldlM_nil, Option.bind_eq_bind, Option.bind_some, e1]
        rfl
      · intro q f hq hq' hm
        rw [List.mem_iff_getElem?] at hm
        obtain ⟨i, hi⟩ := hm
        have htlen : fs.length ≤ t.data.length := by
          have := t5.length_le
          rw [skel_length, skel_length, hlen] at this
          exact this
        rcases Nat.lt_or_ge i t.data.length with hh | hh
        · obtain ⟨tl, htl⟩ := e2.pre
          rw [← htl, List.getElem?_append_left (by rw [skel_length]; exact hh)] at hi
          exact t6 q f (by omega) hq' (List.mem_of_getElem? hi)
        · obtain ⟨q', e3, e4⟩ := e2.new i _ _ hh hi
          injection e3 with e3
          omega
      · obtain ⟨F, f1, f2⟩ := e2.final
        rw [htake, List.flatMap_append, f1]
        refine List.rel_append (t7.imp (fun _ _ hp => hp.congr e2.pre)) ?_
        simpa using f2
      · intro d
        rw [htake, List.flatMap_append, List.countP_append, e2.ranks, t9]
        simp
      · rw [htake, List.flatMap_append, List.foldl_append, e2.dim, t10]
        simp
  obtain ⟨t, t1, t2, t3, t4, t5, t6, t7, t8, t9, t10⟩ := loop fs.length (le_refl _)
  have he : (fs.take fs.length).flatMap (fun f => ext g.n pool r [f]) = ext g.n pool (r + 1) [] := by
    rw [List.take_length, hfs]; rfl
  rw [he] at t7 t9 t10
  exact ⟨t, t1, t2, t3, t4, t7, t8, t9, t10⟩

end Toppo.Cub
