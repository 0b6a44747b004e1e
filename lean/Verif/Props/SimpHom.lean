import Verif.Proof.SimpHom
set_option linter.unusedVariables false
set_option linter.unusedSectionVars false
/-!
# C115: the homology of a simplicial complex

`SimpHom K r i` (Proof/SimpHom.lean) is the homology of the abstract complex `K` in dimension `i`, from integer combinations of simplices with the usual
alternating boundary, the vertices being ordered by `r`.
-/
namespace Toppo.Simp
open Toppo Toppo.ModProps

section
variable {T T' : Type} [DecidableEq T] [DecidableEq T']

/-- what is known of the boundary maps of a complex -/
structure Known (history : List (List T)) (bm : List (Hom.BMap (Simplex T))) (r0 : T → ℤ) : Prop where
  cc : Hom.ChainCplx bm
  basis : ∀ i b, bm[i]? = some b → (b.basis.map (fun s => s.labels.toFinset)).Nodup ∧ ∀ s ∈ b.basis, s.labels.length = i + 1 ∧ s.labels.Nodup
  sound : ∀ A, Listed bm A → IsFace history A
  zero : ∀ b, bm[0]? = some b → ∀ i j, b.a i j = 0
  inj : ∀ x ∈ history.flatten, ∀ y ∈ history.flatten, r0 x = r0 y → x = y
  entries : ∀ k b b', bm[k]? = some b → bm[k + 1]? = some b' → ∀ j s, b'.basis[j]? = some s →
    (∀ x ∈ s.labels, ∃ i t, b.basis[i]? = some t ∧ t.labels.toFinset = s.labels.toFinset.erase x ∧
      b'.a i j = (-1) ^ ((s.labels.toFinset.filter (fun y => r0 x < r0 y)).card)) ∧
    ∀ i t, b.basis[i]? = some t → (∀ x ∈ s.labels, t.labels.toFinset ≠ s.labels.toFinset.erase x) → b'.a i j = 0

theorem known {history : List (List T)} (hh : GoodHistory history) :
    ∃ c bm r0, Cplx.build history = some c ∧ c.boundaryMap = some bm ∧ Known history bm r0 := by
  obtain ⟨c, bm, e1, e2, h1⟩ := c45_boundary_boundary hh
  obtain ⟨c', bm', g1, g2, g3, g4, g5⟩ := c46_complex hh
  obtain ⟨c'', bm'', f1, f2, f3, r0, f4, f5⟩ := c45_entries hh
  rw [e1] at g1 f1; cases g1; cases f1
  rw [e2] at g2 f2; cases g2; cases f2
  exact ⟨c, bm, r0, e1, e2, h1, fun i b hb => ⟨(g3 i b hb).2.1, fun s hs => ((g3 i b hb).2.2 s hs).2⟩, g4, fun b hb => (f3 b hb).2.2, f4,
    fun k b b' hb hb' => (f5 k b b' hb hb').2.2⟩

variable {history : List (List T)} {bm : List (Hom.BMap (Simplex T))} {r0 : T → ℤ} (hk : Known history bm r0)
include hk

/-- the simplex at a position of the basis -/
def simplexAt (b : Hom.BMap (Simplex T)) (j : Fin b.m) : Finset T := ((b.basis[j.1]?).map (fun s => s.labels.toFinset)).getD ∅

theorem Known.at {i : Nat} {b : Hom.BMap (Simplex T)} (hb : bm[i]? = some b) (j : Fin b.m) :
    ∃ s, b.basis[j.1]? = some s ∧ simplexAt b j = s.labels.toFinset ∧ s.labels.length = i + 1 ∧ s.labels.Nodup := by
  have hl := (hk.cc.sizes b (List.mem_of_getElem? hb)).2.2.1
  have hj : j.1 < b.basis.length := by rw [hl]; exact j.2
  refine ⟨b.basis[j.1], List.getElem?_eq_getElem hj, ?_, (hk.basis i b hb).2 _ (List.getElem_mem hj)⟩
  unfold simplexAt
  rw [List.getElem?_eq_getElem hj]
  rfl

theorem Known.simplex_inj {i : Nat} {b : Hom.BMap (Simplex T)} (hb : bm[i]? = some b) (j k : Fin b.m) (h : simplexAt b j = simplexAt b k) : j = k := by
  obtain ⟨s, hs, e1, -⟩ := hk.at hb j
  obtain ⟨t, ht, e2, -⟩ := hk.at hb k
  rw [e1, e2] at h
  have hn := (hk.basis i b hb).1
  have h1 : (b.basis.map (fun s => s.labels.toFinset))[j.1]? = (b.basis.map (fun s => s.labels.toFinset))[k.1]? := by
    rw [List.getElem?_map, List.getElem?_map, hs, ht]; simp [h]
  apply Fin.ext
  have hj : j.1 < (b.basis.map (fun s => s.labels.toFinset)).length := by
    rw [List.length_map]; exact (List.getElem?_eq_some_iff.mp hs).1
  exact (List.getElem?_inj hj hn).mp h1

theorem Known.listed {i : Nat} {b : Hom.BMap (Simplex T)} (hb : bm[i]? = some b) (A : Finset T) :
    (Listed bm A ∧ A.card = i + 1) ↔ ∃ j, simplexAt b j = A := by
  constructor
  · rintro ⟨⟨b', hb', s, hs, rfl⟩, hc⟩
    obtain ⟨i', hi'⟩ := List.mem_iff_getElem?.mp hb'
    obtain ⟨h1, h2⟩ := (hk.basis i' b' hi').2 s hs
    rw [List.toFinset_card_of_nodup h2, h1] at hc
    obtain rfl : i' = i := by omega
    rw [hb] at hi'; cases hi'
    obtain ⟨j, hj⟩ := List.mem_iff_getElem?.mp hs
    have hl := (hk.cc.sizes b (List.mem_of_getElem? hb)).2.2.1
    have hjl := (List.getElem?_eq_some_iff.mp hj).1
    refine ⟨⟨j, by omega⟩, ?_⟩
    unfold simplexAt
    simp [hj]
  · rintro ⟨j, rfl⟩
    obtain ⟨s, hs, e1, h1, h2⟩ := hk.at hb j
    rw [e1]
    exact ⟨⟨b, List.mem_of_getElem? hb, s, List.mem_of_getElem? hs, rfl⟩, by rw [List.toFinset_card_of_nodup h2, h1]⟩

theorem Known.dims {A : Finset T} (hA : Listed bm A) : 0 < A.card ∧ A.card ≤ bm.length := by
  obtain ⟨b, hb, s, hs, rfl⟩ := hA
  obtain ⟨i, hi⟩ := List.mem_iff_getElem?.mp hb
  obtain ⟨h1, h2⟩ := (hk.basis i b hi).2 s hs
  rw [List.toFinset_card_of_nodup h2, h1]
  have := (List.getElem?_eq_some_iff.mp hi).1
  omega

theorem Known.subset {A : Finset T} (hA : Listed bm A) : A ⊆ history.flatten.toFinset := by
  obtain ⟨-, s, hs, hsub⟩ := hk.sound A hA
  intro x hx
  have := hsub hx
  simp only [List.mem_toFinset, List.mem_flatten] at this ⊢
  exact ⟨s, hs, this⟩

variable (φ : T → T') (r : T' → ℤ) (hφ : ∀ x ∈ history.flatten, ∀ y ∈ history.flatten, φ x = φ y → x = y)
  (hr : ∀ x ∈ history.flatten, ∀ y ∈ history.flatten, r (φ x) = r (φ y) → x = y)
include hφ hr

/-- the renamed complex -/
def Renamed (bm : List (Hom.BMap (Simplex T))) (φ : T → T') (B : Finset T') : Prop := ∃ A, Listed bm A ∧ A.image φ = B

omit hr in
theorem Known.image_inj {A B : Finset T} (hA : Listed bm A) (hB : Listed bm B) (h : A.image φ = B.image φ) : A = B := by
  have key : ∀ A B : Finset T, Listed bm A → Listed bm B → A.image φ = B.image φ → A ⊆ B := by
    intro A B hA hB h x hx
    have : φ x ∈ B.image φ := by rw [← h]; exact Finset.mem_image_of_mem _ hx
    obtain ⟨y, hy, e⟩ := Finset.mem_image.mp this
    have h1 := hk.subset hA hx
    have h2 := hk.subset hB hy
    rw [← hφ y (by simpa using h2) x (by simpa using h1) e]
    exact hy
  exact Finset.Subset.antisymm (key A B hA hB h) (key B A hB hA h.symm)

omit hr in
theorem Known.card_image {A : Finset T} (hA : Listed bm A) : (A.image φ).card = A.card := by
  apply Finset.card_image_of_injOn
  intro x hx y hy e
  exact hφ x (by simpa using hk.subset hA hx) y (by simpa using hk.subset hA hy) e

omit hr in
theorem Known.renamed {i : Nat} {b : Hom.BMap (Simplex T)} (hb : bm[i]? = some b) (B : Finset T') :
    (Renamed bm φ B ∧ B.card = i + 1) ↔ ∃ j, (simplexAt b j).image φ = B := by
  constructor
  · rintro ⟨⟨A, hA, rfl⟩, hc⟩
    rw [hk.card_image φ hφ hA] at hc
    obtain ⟨j, hj⟩ := (hk.listed hb A).mp ⟨hA, hc⟩
    exact ⟨j, by rw [hj]⟩
  · rintro ⟨j, rfl⟩
    obtain ⟨h1, h2⟩ := (hk.listed hb _).mpr ⟨j, rfl⟩
    exact ⟨⟨_, h1, rfl⟩, by rw [hk.card_image φ hφ h1, h2]⟩

omit hr in
theorem Known.top {i : Nat} (hi : bm.length ≤ i) : Chains (Renamed bm φ) i = ⊥ := by
  unfold Chains
  have : {A : Finset T' | Renamed bm φ A ∧ A.card = i + 1} = ∅ := by
    ext B
    simp only [Set.mem_ofPred_eq, Set.mem_empty_iff_false, iff_false, not_and]
    rintro ⟨A, hA, rfl⟩ hc
    rw [hk.card_image φ hφ hA] at hc
    have := (hk.dims hA).2
    omega
  rw [this, Finsupp.supported_empty]

/-- the homology of the matrices is the homology of the (renamed) complex, for any order of the vertices -/
theorem Known.equiv {i : Nat} {b : Hom.BMap (Simplex T)} (hb : bm[i]? = some b) :
    Nonempty (Hom.HGrp b.n b.m (Hom.upper bm i).1 b.a (Hom.upper bm i).2 ≃+ SimpHom (Renamed bm φ) r i) := by
  classical
  have sub : ∀ {i b} (hb : bm[i]? = some b) (j : Fin b.m), simplexAt b j ⊆ history.flatten.toFinset := fun hb j =>
    hk.subset ((hk.listed hb _).mpr ⟨j, rfl⟩).1
  have h0 : ∀ x ∈ history.flatten.toFinset, ∀ y ∈ history.flatten.toFinset, r0 x = r0 y → x = y := fun x hx y hy =>
    hk.inj x (by simpa using hx) y (by simpa using hy)
  have h1 : ∀ x ∈ history.flatten.toFinset, ∀ y ∈ history.flatten.toFinset, φ x = φ y → x = y := fun x hx y hy =>
    hφ x (by simpa using hx) y (by simpa using hy)
  have h2 : ∀ x ∈ history.flatten.toFinset, ∀ y ∈ history.flatten.toFinset, r (φ x) = r (φ y) → x = y := fun x hx y hy =>
    hr x (by simpa using hx) y (by simpa using hy)
  have inj : ∀ {i b} (hb : bm[i]? = some b), Function.Injective (chain φ r0 (r ∘ φ) (simplexAt b)) := fun {i b} hb =>
    chain_inj φ r0 (r ∘ φ) (simplexAt b) (fun j k e => hk.simplex_inj hb j k
      (hk.image_inj φ hφ ((hk.listed hb _).mpr ⟨j, rfl⟩).1 ((hk.listed hb _).mpr ⟨k, rfl⟩).1 e))
  have rng : ∀ {i b} (hb : bm[i]? = some b), LinearMap.range (chain φ r0 (r ∘ φ) (simplexAt b)) = Chains (Renamed bm φ) i := fun {i b} hb =>
    chain_range φ r0 (r ∘ φ) (simplexAt b) _ i (hk.renamed φ hφ hb)
  have comm : ∀ {k b b'} (hb : bm[k]? = some b) (hb' : bm[k + 1]? = some b') (v : Fin b'.m → ℤ),
      chain φ r0 (r ∘ φ) (simplexAt b) ((Smith.mat b.m b'.m b'.a).mulVecLin v) = bdry r (chain φ r0 (r ∘ φ) (simplexAt b') v) := by
    intro k b b' hb hb' v
    refine chain_comm φ r r0 (simplexAt b) (simplexAt b') b'.a _ (sub hb') h0 h1 h2 (hk.simplex_inj hb) ?_ v
    intro j
    obtain ⟨s, hs, e, -⟩ := hk.at hb' j
    obtain ⟨p1, p2⟩ := hk.entries k b b' hb hb' j.1 s hs
    rw [e]
    refine ⟨fun x hx => ?_, fun i hi => ?_⟩
    · obtain ⟨i, t, q1, q2, q3⟩ := p1 x (by simpa using hx)
      have hl := (hk.cc.sizes b (List.mem_of_getElem? hb)).2.2.1
      have hil := (List.getElem?_eq_some_iff.mp q1).1
      refine ⟨⟨i, by omega⟩, ?_, q3⟩
      unfold simplexAt
      simp only [q1]
      exact q2
    · obtain ⟨t, ht, e', -⟩ := hk.at hb i
      refine p2 i.1 t ht (fun x hx => ?_)
      rw [← e']
      exact hi x (by simpa using hx)
  refine quot_equiv (chain φ r0 (r ∘ φ) (simplexAt b)) (inj hb) ?_ ?_
  · -- cycles
    unfold Hom.Z Cycles
    cases i with
    | zero =>
      have : Smith.mat b.n b.m b.a = 0 := by ext p q; exact hk.zero b hb p q
      rw [this, Matrix.mulVecLin_zero, LinearMap.ker_zero, Submodule.map_top, rng hb]
      simp
    | succ k =>
      obtain ⟨b0, hb0⟩ : ∃ b0, bm[k]? = some b0 := by
        have := (List.getElem?_eq_some_iff.mp hb).1
        exact ⟨_, List.getElem?_eq_getElem (by omega)⟩
      have hn := hk.cc.fit k b0 b hb0 hb
      rw [if_neg (by omega), ← rng hb, hn]
      ext w
      simp only [Submodule.mem_map, LinearMap.mem_ker, Submodule.mem_inf, LinearMap.mem_range]
      constructor
      · rintro ⟨v, hv, rfl⟩
        refine ⟨⟨v, rfl⟩, ?_⟩
        rw [← comm hb0 hb, hv, map_zero]
      · rintro ⟨⟨v, rfl⟩, hv⟩
        refine ⟨v, inj hb0 ?_, rfl⟩
        rw [comm hb0 hb, hv, map_zero]
  · -- boundaries
    unfold Hom.Bd Bounds Hom.upper
    cases hb' : bm[i + 1]? with
    | none =>
      rw [hk.top φ hφ (List.getElem?_eq_none_iff.mp hb'), Submodule.map_bot]
      have : LinearMap.range (Smith.mat b.m 0 (fun _ _ => 0)).mulVecLin = ⊥ := by
        rw [LinearMap.range_eq_bot]
        ext v
        simp [Matrix.mulVec, dotProduct]
      simp only
      rw [this, Submodule.map_bot]
    | some b' =>
      simp only
      rw [← rng hb', ← LinearMap.range_comp, ← LinearMap.range_comp]
      congr 1
      exact LinearMap.ext (fun v => comm hb hb' v)

theorem Known.trivial {i : Nat} (hi : bm.length ≤ i) : Subsingleton (SimpHom (Renamed bm φ) r i) := by
  have h : Cycles (Renamed bm φ) r i = ⊥ := by
    unfold Cycles; rw [hk.top φ hφ hi, bot_inf_eq]
  have : Subsingleton (Cycles (Renamed bm φ) r i) := by rw [h]; infer_instance
  infer_instance

end

/-! ### C115 -/
section
variable {T T' : Type} [DecidableEq T] [DecidableEq T']

theorem renamed_id (bm : List (Hom.BMap (Simplex T))) : Renamed bm id = Listed bm := by
  funext A
  simp [Renamed]

/-- what is reported is the homology of the renamed complex, for every order of the vertices -/
theorem reported [LinearOrder (Simplex T)] {history : List (List T)} {bm : List (Hom.BMap (Simplex T))} {r0 : T → ℤ} (hk : Known history bm r0)
    (maxDim : Option Nat) : ∃ f0 res, (∀ fuel, f0 ≤ fuel → Hom.new fuel bm maxDim = some res) ∧
      (∀ (i : Nat) o, res[i]? = some o → (∀ dk ∈ o.module.divisors, dk.1 ≠ 0) ∧ o.module.divisors.Pairwise (fun x y => x.1 ∣ y.1)) ∧
      ∀ (T' : Type) [DecidableEq T'] (φ : T → T') (r : T' → ℤ) (hφ : ∀ x ∈ history.flatten, ∀ y ∈ history.flatten, φ x = φ y → x = y)
        (hr : ∀ x ∈ history.flatten, ∀ y ∈ history.flatten, r (φ x) = r (φ y) → x = y) (i : Nat),
        (∀ o, res[i]? = some o → Nonempty (SimpHom (Renamed bm φ) r i ≃+ Grp o.module)) ∧
        (res[i]? = none → (∀ d, maxDim = some d → i ≤ d) → Subsingleton (SimpHom (Renamed bm φ) r i)) := by
  obtain ⟨f0, res, h1, h2, h3, h4, -⟩ := Hom.c44_homology hk.cc maxDim
  refine ⟨f0, res, h1, ?_, ?_⟩
  · intro i o ho
    have hi : i < bm.length := by have := (List.getElem?_eq_some_iff.mp ho).1; omega
    have := (h2 i _ o (List.getElem?_eq_getElem hi) ho).torsion
    exact ⟨fun dk hd => (this.1 dk hd).2.1, this.2⟩
  intro T' _ φ r hφ hr i
  constructor
  · intro o ho
    have hi : i < bm.length := by have := (List.getElem?_eq_some_iff.mp ho).1; omega
    have hb := List.getElem?_eq_getElem hi
    obtain ⟨e1⟩ := (h2 i _ o hb ho).iso
    obtain ⟨e2⟩ := hk.equiv φ r hφ hr hb
    exact ⟨e2.symm.trans e1⟩
  · intro hn hd
    rcases Nat.lt_or_ge i bm.length with hi | hi
    · have hb := List.getElem?_eq_getElem hi
      obtain ⟨e2⟩ := hk.equiv φ r hφ hr hb
      have := h3 i _ hb (List.getElem?_eq_none_iff.mp hn) hd
      exact e2.symm.toEquiv.subsingleton
    · exact hk.trivial φ r hφ hr hi

/-- **C115**. For every history of `attach` calls (non-empty simplices without repeated labels): the complex, its boundary maps and their homology are computed;
whatever way the vertices are ordered, the module reported for dimension `i` is the homology in dimension `i` of the complex of the listed simplices, and dimensions
that are not reported (up to the bound) have trivial homology. -/
theorem c115_homology [LinearOrder (Simplex T)] {history : List (List T)} (hh : GoodHistory history) (maxDim : Option Nat) :
    ∃ c bm f0 res, Cplx.build history = some c ∧ c.boundaryMap = some bm ∧ (∀ fuel, f0 ≤ fuel → Hom.new fuel bm maxDim = some res) ∧
      ∀ r : T → ℤ, (∀ x ∈ history.flatten, ∀ y ∈ history.flatten, r x = r y → x = y) → ∀ i,
        (∀ o, res[i]? = some o → Nonempty (SimpHom (Listed bm) r i ≃+ Grp o.module)) ∧
        (res[i]? = none → (∀ d, maxDim = some d → i ≤ d) → Subsingleton (SimpHom (Listed bm) r i)) := by
  obtain ⟨c, bm, r0, e1, e2, hk⟩ := known hh
  obtain ⟨f0, res, h1, -, h2⟩ := reported hk maxDim
  refine ⟨c, bm, f0, res, e1, e2, h1, fun r hr i => ?_⟩
  have := h2 T id r (fun x _ y _ e => e) hr i
  rwa [renamed_id] at this

theorem listed_eq {history : List (List T)} (hh : GoodHistory history) (hb : history.flatten.toFinset.card ≤ 64) {c bm} (e1 : Cplx.build history = some c)
    (e2 : c.boundaryMap = some bm) : Listed bm = IsFace history := by
  obtain ⟨c', bm', g1, g2, g3, g4⟩ := c46_cells_partial hh hb
  rw [e1] at g1; cases g1
  rw [e2] at g2; cases g2
  funext A
  apply propext
  constructor
  · rintro ⟨b, hbm, s, hs, rfl⟩
    obtain ⟨i, hi⟩ := List.mem_iff_getElem?.mp hbm
    exact (((g3 i b hi).2.2.2 _).mp ⟨s, hs, rfl⟩).2
  · intro hA
    have h1 := g4 A hA
    have h2 := Finset.card_pos.mpr hA.1
    have hi : A.card - 1 < bm.length := by omega
    obtain ⟨s, hs, e⟩ := ((g3 _ _ (List.getElem?_eq_getElem hi)).2.2.2 A).mpr ⟨by omega, hA⟩
    exact ⟨_, List.getElem_mem hi, s, hs, e⟩

/-- **C115** with at most 64 labels: what is reported is the homology of the complex generated by the attached simplices. -/
theorem c115_generated [LinearOrder (Simplex T)] {history : List (List T)} (hh : GoodHistory history) (hb : history.flatten.toFinset.card ≤ 64) (maxDim : Option Nat) :
    ∃ c bm f0 res, Cplx.build history = some c ∧ c.boundaryMap = some bm ∧ (∀ fuel, f0 ≤ fuel → Hom.new fuel bm maxDim = some res) ∧
      ∀ r : T → ℤ, (∀ x ∈ history.flatten, ∀ y ∈ history.flatten, r x = r y → x = y) → ∀ i,
        (∀ o, res[i]? = some o → Nonempty (SimpHom (IsFace history) r i ≃+ Grp o.module)) ∧
        (res[i]? = none → (∀ d, maxDim = some d → i ≤ d) → Subsingleton (SimpHom (IsFace history) r i)) := by
  obtain ⟨c, bm, f0, res, e1, e2, h1, h2⟩ := c115_homology hh maxDim
  rw [listed_eq hh hb e1 e2] at h2
  exact ⟨c, bm, f0, res, e1, e2, h1, h2⟩

theorem filter_ones (n : Nat) : ∀ l : List Nat, ((l.filter (fun d => decide (d ≠ 1))).map (fun d => n.gcd d)).prod = (l.map (fun d => n.gcd d)).prod
  | [] => rfl
  | d :: l => by
    have ih := filter_ones n l
    by_cases hd : d = 1
    · subst hd; simpa using ih
    · rw [List.filter_cons_of_pos (by simpa using hd), List.map_cons, List.prod_cons, List.map_cons, List.prod_cons, ih]

theorem orders_dvd : ∀ l : List (Int × Nat), l.Pairwise (fun x y => x.1 ∣ y.1) → (orders l).Pairwise (fun x y => x ∣ y)
  | [], _ => by simp [orders]
  | x :: l, h => by
    rw [orders_cons, List.pairwise_append]
    refine ⟨List.pairwise_replicate.mpr (Or.inr dvd_rfl), orders_dvd l (List.pairwise_cons.mp h).2, ?_⟩
    intro p hp q hq
    obtain ⟨y, hy, rfl⟩ := mem_orders hq
    rw [(List.mem_replicate.mp hp).2]
    exact Int.natAbs_dvd_natAbs.mpr ((List.pairwise_cons.mp h).1 y hy)

/-- isomorphic reported modules have the same free rank and, up to signs and units, the same torsion coefficients -/
theorem same_numbers {a b : Mod} (ha : ∀ dk ∈ a.divisors, dk.1 ≠ 0) (ha' : a.divisors.Pairwise (fun x y => x.1 ∣ y.1))
    (hb : ∀ dk ∈ b.divisors, dk.1 ≠ 0) (hb' : b.divisors.Pairwise (fun x y => x.1 ∣ y.1)) (e : Grp a ≃+ Grp b) :
    a.freeRank = b.freeRank ∧ (orders a.divisors).filter (fun d => decide (d ≠ 1)) = (orders b.divisors).filter (fun d => decide (d ≠ 1)) := by
  have two : ∀ m : Mod, (∀ dk ∈ m.divisors, dk.1 ≠ 0) → ∀ d ∈ (orders m.divisors).filter (fun d => decide (d ≠ 1)), 2 ≤ d := by
    intro m hm d hd
    obtain ⟨h1, h2⟩ := List.mem_filter.mp hd
    obtain ⟨x, hx, rfl⟩ := mem_orders h1
    have := hm x hx
    have h3 : x.1.natAbs ≠ 1 := by simpa using h2
    omega
  have hcount : ∀ n, 0 < n → n ^ a.freeRank * (((orders a.divisors).filter (fun d => decide (d ≠ 1))).map (fun d => n.gcd d)).prod =
      n ^ b.freeRank * (((orders b.divisors).filter (fun d => decide (d ≠ 1))).map (fun d => n.gcd d)).prod := by
    intro n hn
    have : NeZero n := ⟨by omega⟩
    rw [filter_ones, filter_ones, ← card_hom, ← card_hom]
    exact Nat.card_congr ⟨fun f => f.comp e.symm.toAddMonoidHom, fun f => f.comp e.toAddMonoidHom,
      fun f => by ext1 x; simp, fun f => by ext1 x; simp⟩
  have a1 := two a ha
  have b1 := two b hb
  have a2 := (orders_dvd _ ha').filter (fun d => decide (d ≠ 1))
  have b2 := (orders_dvd _ hb').filter (fun d => decide (d ≠ 1))
  generalize (orders a.divisors).filter (fun d => decide (d ≠ 1)) = la at *
  generalize (orders b.divisors).filter (fun d => decide (d ≠ 1)) = lb at *
  have hPa : 0 < la.prod := List.prod_pos (fun d hd => by have := a1 d hd; omega)
  have hPb : 0 < lb.prod := List.prod_pos (fun d hd => by have := b1 d hd; omega)
  have hr : a.freeRank = b.freeRank := by
    refine rank_unique hPa hPb (fun t ht => ?_)
    have := hcount (la.prod * lb.prod * t) (Nat.mul_pos (Nat.mul_pos hPa hPb) ht)
    rw [gcd_prod_eq _ _ (fun d hd => ((orders_prod_dvd _ d hd).mul_right _).mul_right _),
      gcd_prod_eq _ _ (fun d hd => ((orders_prod_dvd _ d hd).mul_left _).mul_right _)] at this
    exact this
  refine ⟨hr, ?_⟩
  apply List.reverse_injective
  refine chain_unique _ _ (by simpa using a1) (by simpa using b1) (by rw [List.pairwise_reverse]; exact a2) (by rw [List.pairwise_reverse]; exact b2) (fun n hn => ?_)
  rw [List.map_reverse, List.map_reverse, List.prod_reverse, List.prod_reverse]
  have := hcount n hn
  rw [hr] at this
  exact Nat.eq_of_mul_eq_mul_left (Nat.pow_pos hn) this

/-- **C115, invariance**. Two histories of `attach` calls whose listed simplices correspond to each other under a renaming of the labels (the calls in another
order, other labels, repeated calls, ..) have isomorphic homology: in every dimension up to the bound the two reported modules have the same free rank and, up to
signs and units, the same torsion coefficients; a dimension reported for one of them only has trivial homology. -/
theorem c115_invariant [LinearOrder (Simplex T)] [LinearOrder (Simplex T')] {h₁ : List (List T)} {h₂ : List (List T')} (g₁ : GoodHistory h₁) (g₂ : GoodHistory h₂)
    (φ : T → T') (hφ : ∀ x ∈ h₁.flatten, ∀ y ∈ h₁.flatten, φ x = φ y → x = y) (maxDim : Option Nat) :
    ∃ c₁ bm₁ res₁ c₂ bm₂ res₂ f0, Cplx.build h₁ = some c₁ ∧ c₁.boundaryMap = some bm₁ ∧ Cplx.build h₂ = some c₂ ∧ c₂.boundaryMap = some bm₂ ∧
      (∀ fuel, f0 ≤ fuel → Hom.new fuel bm₁ maxDim = some res₁ ∧ Hom.new fuel bm₂ maxDim = some res₂) ∧
      ((∀ B, Listed bm₂ B ↔ ∃ A, Listed bm₁ A ∧ A.image φ = B) → ∀ i, (∀ d, maxDim = some d → i ≤ d) →
        (∀ o₁ o₂, res₁[i]? = some o₁ → res₂[i]? = some o₂ → Nonempty (Grp o₁.module ≃+ Grp o₂.module) ∧ o₁.module.freeRank = o₂.module.freeRank ∧
          (orders o₁.module.divisors).filter (fun d => decide (d ≠ 1)) = (orders o₂.module.divisors).filter (fun d => decide (d ≠ 1))) ∧
        (∀ o₁, res₁[i]? = some o₁ → res₂[i]? = none → Subsingleton (Grp o₁.module)) ∧
        (∀ o₂, res₁[i]? = none → res₂[i]? = some o₂ → Subsingleton (Grp o₂.module))) := by
  obtain ⟨c₁, bm₁, r₁, a1, a2, k₁⟩ := known g₁
  obtain ⟨c₂, bm₂, r₂, b1, b2, k₂⟩ := known g₂
  obtain ⟨f₁, res₁, a3, a4, a5⟩ := reported k₁ maxDim
  obtain ⟨f₂, res₂, b3, b4, b5⟩ := reported k₂ maxDim
  refine ⟨c₁, bm₁, res₁, c₂, bm₂, res₂, f₁ + f₂, a1, a2, b1, b2, fun fuel hf => ⟨a3 fuel (by omega), b3 fuel (by omega)⟩, ?_⟩
  intro hK i hi
  have hmem : ∀ x ∈ h₁.flatten, φ x ∈ h₂.flatten := by
    intro x hx
    obtain ⟨c', bm', g1, g2, -, -, -, g3⟩ := c46_complex g₁
    rw [a1] at g1; cases g1
    rw [a2] at g2; cases g2
    have := k₂.subset ((hK _).mpr ⟨{x}, g3 x hx, rfl⟩)
    simpa using this
  have e : Renamed bm₁ φ = Listed bm₂ := by
    funext B
    exact propext (hK B).symm
  have p := a5 T' φ r₂ hφ (fun x hx y hy h => hφ x hx y hy (k₂.inj _ (hmem x hx) _ (hmem y hy) h)) i
  have q := b5 T' id r₂ (fun x _ y _ e => e) (fun x hx y hy h => k₂.inj x hx y hy h) i
  rw [e] at p
  rw [renamed_id] at q
  refine ⟨fun o₁ o₂ h1 h2 => ?_, fun o₁ h1 h2 => ?_, fun o₂ h1 h2 => ?_⟩
  · obtain ⟨x⟩ := p.1 o₁ h1
    obtain ⟨y⟩ := q.1 o₂ h2
    have f := x.symm.trans y
    obtain ⟨t1, t2⟩ := a4 i o₁ h1
    obtain ⟨t3, t4⟩ := b4 i o₂ h2
    exact ⟨⟨f⟩, same_numbers t1 t2 t3 t4 f⟩
  · obtain ⟨x⟩ := p.1 o₁ h1
    have := q.2 h2 hi
    exact x.symm.toEquiv.subsingleton
  · obtain ⟨x⟩ := q.1 o₂ h2
    have := p.2 h1 hi
    exact x.symm.toEquiv.subsingleton

/-- **C115, invariance** with at most 64 labels: it is enough that the attached simplices generate corresponding complexes. -/
theorem c115_same_faces {h₁ : List (List T)} {h₂ : List (List T')} (g₁ : GoodHistory h₁) (g₂ : GoodHistory h₂) (b₁ : h₁.flatten.toFinset.card ≤ 64)
    (b₂ : h₂.flatten.toFinset.card ≤ 64) (φ : T → T') (hK : ∀ B, IsFace h₂ B ↔ ∃ A, IsFace h₁ A ∧ A.image φ = B)
    {c₁ bm₁ c₂ bm₂} (a1 : Cplx.build h₁ = some c₁) (a2 : c₁.boundaryMap = some bm₁) (a3 : Cplx.build h₂ = some c₂) (a4 : c₂.boundaryMap = some bm₂) :
    ∀ B, Listed bm₂ B ↔ ∃ A, Listed bm₁ A ∧ A.image φ = B := by
  rw [listed_eq g₁ b₁ a1 a2, listed_eq g₂ b₂ a3 a4]
  exact hK

end

/-! ### a case that meets the hypotheses: a hollow triangle with a tail, attached in another order, with other labels, and an edge twice -/
theorem exOther_good : GoodHistory [[7, 5], [5, 9], [9], [7, 9], [5, 7], [8, 9]] := ⟨by simp, by decide⟩

example : (∀ x ∈ [[0, 1], [1, 2], [2, 0], [2, 3]].flatten, ∀ y ∈ [[0, 1], [1, 2], [2, 0], [2, 3]].flatten,
    (fun n => [5, 7, 9, 8].getD n 0) x = (fun n => [5, 7, 9, 8].getD n 0) y → x = y) ∧
    ∀ B, IsFace [[7, 5], [5, 9], [9], [7, 9], [5, 7], [8, 9]] B ↔
      ∃ A, IsFace [[0, 1], [1, 2], [2, 0], [2, 3]] A ∧ A.image (fun n => [5, 7, 9, 8].getD n 0) = B := by
  refine ⟨by decide, ?_⟩
  intro B
  constructor
  · intro h
    have hB : B ∈ ({5, 7, 8, 9} : Finset Nat).powerset := by
      obtain ⟨-, s, hs, hsub⟩ := h
      rw [Finset.mem_powerset]
      refine hsub.trans ?_
      have : ∀ s ∈ [[7, 5], [5, 9], [9], [7, 9], [5, 7], [8, 9]], s.toFinset ⊆ ({5, 7, 8, 9} : Finset Nat) := by decide
      exact this s hs
    have : ∀ B ∈ ({5, 7, 8, 9} : Finset Nat).powerset, (B.Nonempty ∧ ∃ s ∈ [[7, 5], [5, 9], [9], [7, 9], [5, 7], [8, 9]], B ⊆ s.toFinset) →
        ∃ A ∈ ({0, 1, 2, 3} : Finset Nat).powerset, (A.Nonempty ∧ ∃ s ∈ [[0, 1], [1, 2], [2, 0], [2, 3]], A ⊆ s.toFinset) ∧
          A.image (fun n => [5, 7, 9, 8].getD n 0) = B := by decide +kernel
    obtain ⟨A, -, h1, h2⟩ := this B hB h
    exact ⟨A, h1, h2⟩
  · rintro ⟨A, h, rfl⟩
    have hA : A ∈ ({0, 1, 2, 3} : Finset Nat).powerset := by
      obtain ⟨-, s, hs, hsub⟩ := h
      rw [Finset.mem_powerset]
      refine hsub.trans ?_
      have : ∀ s ∈ [[0, 1], [1, 2], [2, 0], [2, 3]], s.toFinset ⊆ ({0, 1, 2, 3} : Finset Nat) := by decide
      exact this s hs
    have : ∀ A ∈ ({0, 1, 2, 3} : Finset Nat).powerset, (A.Nonempty ∧ ∃ s ∈ [[0, 1], [1, 2], [2, 0], [2, 3]], A ⊆ s.toFinset) →
        ((A.image (fun n => [5, 7, 9, 8].getD n 0)).Nonempty ∧ ∃ s ∈ [[7, 5], [5, 9], [9], [7, 9], [5, 7], [8, 9]],
          A.image (fun n => [5, 7, 9, 8].getD n 0) ⊆ s.toFinset) := by decide +kernel
    exact this A hA h

end Toppo.Simp
