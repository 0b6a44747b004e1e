import Verif.Model.Homology
import Verif.Proof.Homology
import Verif.Props.Smith
import Verif.Props.FormalSum
set_option linter.unusedVariables false

/-
C44: `IntegralHomology::new`, for every finite chain complex of free abelian groups with explicit bases.
-/
namespace Toppo.Hom
open Toppo Toppo.ModProps Toppo.Smith Toppo.FSum Module

/-! ### specification -/

/-- the cycles of a boundary map: the kernel of the `n × m` matrix `f` -/
def Z (n m : Nat) (f : M) : Submodule ℤ (Fin m → ℤ) := LinearMap.ker (mat n m f).mulVecLin

/-- the boundaries: the image of the `m × l` matrix `g` -/
def Bd (m l : Nat) (g : M) : Submodule ℤ (Fin m → ℤ) := LinearMap.range (mat m l g).mulVecLin

/-- homology: cycles modulo boundaries -/
abbrev HGrp (n m l : Nat) (f g : M) : Type := Z n m f ⧸ (Bd m l g).submoduleOf (Z n m f)

/-- the boundary map above dimension `i`, as (number of columns, entries); above the top dimension it is the empty map -/
def upper {B : Type} (cplx : List (BMap B)) (i : Nat) : Nat × M :=
  match cplx[i + 1]? with
  | some c => (c.m, c.a)
  | none => (0, fun _ _ => 0)

/-- the coordinate vector of a formal sum of cells -/
def vec {B : Type} [LinearOrder B] (basis : List B) (m : Nat) (v : FSum Int B) : Fin m → ℤ :=
  fun j => (basis[j.1]?).elim 0 (coef v)

/-- A chain complex with explicit bases and non-empty boundary matrices: bases are duplicate-free and fit the matrices, consecutive
matrices fit, and the composition of consecutive boundary maps is zero. -/
structure ChainCplx {B : Type} (cplx : List (BMap B)) : Prop where
  nonempty : cplx ≠ []
  sizes : ∀ b ∈ cplx, 0 < b.n ∧ 0 < b.m ∧ b.basis.length = b.m ∧ b.basis.Nodup
  fit : ∀ i b c, cplx[i]? = some b → cplx[i + 1]? = some c → c.n = b.m
  zero : ∀ i b c, cplx[i]? = some b → cplx[i + 1]? = some c → mat b.n b.m b.a * mat b.m c.m c.a = 0

/-- rank over the rationals -/
noncomputable def rk (n m : Nat) (f : M) : Nat := ((mat n m f).map (Int.castRingHom ℚ)).rank

/-- What the output `o` for one dimension should be, with `b` the boundary map out of this dimension and `g` (with `l` columns) the
boundary map into it. -/
structure Correct {B : Type} [LinearOrder B] (b : BMap B) (l : Nat) (g : M) (o : Out B) : Prop where
  /-- the reported module is the homology group -/
  iso : Nonempty (HGrp b.n b.m l b.a g ≃+ Grp o.module)
  /-- its free rank is `dim - rank - rank` -/
  freeRank : o.module.freeRank + rk b.n b.m b.a + rk b.m l g = b.m
  /-- its torsion coefficients are not one or zero, each divides the later ones -/
  torsion : (∀ dk ∈ o.module.divisors, dk.1 ≠ 1 ∧ dk.1 ≠ 0 ∧ 0 < dk.2) ∧ o.module.divisors.Pairwise (fun x y => x.1 ∣ y.1)
  /-- the listed cycles generate all cycles, and they are as many as the rank of the group of cycles -/
  cycles : Submodule.span ℤ {v | ∃ c ∈ o.cycles, v = vec b.basis b.m c} = Z b.n b.m b.a ∧ o.cycles.length = b.m - rk b.n b.m b.a
  /-- the listed boundaries generate all boundaries, and they are as many as the rank -/
  boundaries : Submodule.span ℤ {v | ∃ c ∈ o.boundaries, v = vec b.basis b.m c} = Bd b.m l g ∧ o.boundaries.length = rk b.m l g
  /-- no other cells occur in them -/
  support : ∀ c, c ∈ o.cycles ∨ c ∈ o.boundaries → ∀ x, x ∉ b.basis → coef c x = 0
  /-- they are in normal form: cells in increasing order, no coefficient zero -/
  normal : ∀ c, c ∈ o.cycles ∨ c ∈ o.boundaries → Sorted c ∧ ∀ x ∈ c, x.1 ≠ 0

/-! ### bases changes -/

theorem span_coord {m : Nat} (φ : (Fin m → ℤ) ≃ₗ[ℤ] (Fin m → ℤ)) (p : Fin m → Prop) (c : Fin m → ℤ) (x : Fin m → ℤ) :
    x ∈ Submodule.span ℤ {v | ∃ i, p i ∧ v = c i • φ.symm (Pi.single i 1)} ↔ ∀ i, (p i → c i ∣ φ x i) ∧ (¬ p i → φ x i = 0) := by
  classical
  constructor
  · intro h
    induction h using Submodule.span_induction with
    | mem v hv =>
      obtain ⟨i, hp, rfl⟩ := hv
      intro j
      rw [map_smul, LinearEquiv.apply_symm_apply]
      by_cases hj : j = i
      · subst hj; exact ⟨fun _ => by simp, fun h => absurd hp h⟩
      · simp [hj]
    | zero => intro j; simp
    | add u v _ _ hu hv =>
      intro j
      rw [map_add, Pi.add_apply]
      exact ⟨fun h => dvd_add ((hu j).1 h) ((hv j).1 h), fun h => by rw [(hu j).2 h, (hv j).2 h, add_zero]⟩
    | smul a u _ hu =>
      intro j
      rw [map_smul, Pi.smul_apply, smul_eq_mul]
      exact ⟨fun h => ((hu j).1 h).mul_left a, fun h => by rw [(hu j).2 h, mul_zero]⟩
  · intro h
    have hx : x = ∑ i, (φ x i) • φ.symm (Pi.single i 1) := by
      apply φ.injective
      rw [map_sum]
      simp only [map_smul, LinearEquiv.apply_symm_apply]
      funext j
      simp [Finset.sum_apply, Pi.single_apply]
    rw [hx]
    refine Submodule.sum_mem _ (fun i _ => ?_)
    by_cases hp : p i
    · obtain ⟨t, ht⟩ := (h i).1 hp
      rw [ht, mul_comm, mul_smul]
      exact Submodule.smul_mem _ _ (Submodule.subset_span ⟨i, hp, rfl⟩)
    · rw [(h i).2 hp, zero_smul]; exact Submodule.zero_mem _

/-- the linear equivalence of an invertible matrix -/
noncomputable def equivOf {n : Nat} (A A' : Matrix (Fin n) (Fin n) ℤ) (h1 : A * A' = 1) (h2 : A' * A = 1) : (Fin n → ℤ) ≃ₗ[ℤ] (Fin n → ℤ) :=
  LinearEquiv.ofLinear A.mulVecLin A'.mulVecLin (by rw [← Matrix.mulVecLin_mul, h1, Matrix.mulVecLin_one]) (by rw [← Matrix.mulVecLin_mul, h2, Matrix.mulVecLin_one])

theorem diag_mulVec {n m R : Nat} {s : M} (h : DiagS n m R s) (z : Fin m → ℤ) (i : Fin n) :
    (mat n m s).mulVec z i = if hi : i.1 < R then s i i * z ⟨i.1, lt_of_lt_of_le hi h.hm⟩ else 0 := by
  simp only [Matrix.mulVec, dotProduct, mat, Matrix.of_apply]
  split
  · rename_i hi
    rw [Finset.sum_eq_single ⟨i.1, lt_of_lt_of_le hi h.hm⟩]
    · intro j _ hj
      rw [h.off i j i.2 j.2 (fun e => hj (Fin.ext e.symm)), zero_mul]
    · simp
  · rename_i hi
    apply Finset.sum_eq_zero
    intro j _
    by_cases e : i.1 = j.1
    · rw [← e, h.zr i (by omega) i.2 (by have := j.2; omega), zero_mul]
    · rw [h.off i j i.2 j.2 e, zero_mul]

/-- what Smith normal form says about kernel and image -/
theorem smith_data {fuel n m : Nat} {a : M} {st : St} (h : snf fuel n m a = some st) :
    ∃ (R : Nat) (φ : (Fin n → ℤ) ≃ₗ[ℤ] (Fin n → ℤ)) (ψ : (Fin m → ℤ) ≃ₗ[ℤ] (Fin m → ℤ)), rankOf n m st.a = R ∧ R ≤ n ∧ R ≤ m ∧
      (∀ i, i < R → st.a i i ≠ 0) ∧ (∀ i j, i < j → j < R → st.a i i ∣ st.a j j) ∧
      (φ.symm.toLinearMap = (mat n n st.pinv).mulVecLin) ∧ (ψ.symm.toLinearMap = (mat m m st.q).mulVecLin) ∧
      (∀ x, x ∈ Bd n m a ↔ ∀ i : Fin n, (i.1 < R → st.a i i ∣ φ x i) ∧ (R ≤ i.1 → φ x i = 0)) ∧
      (∀ x, x ∈ Z n m a ↔ ∀ i : Fin m, i.1 < R → ψ x i = 0) := by
  obtain ⟨R, h1, h2, h3⟩ := snf_all h
  obtain ⟨t1, t2, t3, t4⟩ := c33_transform h
  obtain ⟨u, hu⟩ := t4
  have hq1 : mat m m st.q * (u⁻¹ : (Matrix (Fin m) (Fin m) ℤ)ˣ).1 = 1 := by rw [← hu]; exact u.mul_inv
  have hq2 : (u⁻¹ : (Matrix (Fin m) (Fin m) ℤ)ˣ).1 * mat m m st.q = 1 := by rw [← hu]; exact u.inv_mul
  set Q' := (u⁻¹ : (Matrix (Fin m) (Fin m) ℤ)ˣ).1
  have cancel : ∀ v w : Fin n → ℤ, (mat n n st.p).mulVec v = (mat n n st.p).mulVec w → v = w := by
    intro v w e
    have := congrArg (fun v => (mat n n st.pinv).mulVec v) e
    simpa only [Matrix.mulVec_mulVec, t3, Matrix.one_mulVec] using this
  refine ⟨R, equivOf _ _ t2 t3, equivOf _ _ hq2 hq1, rankOf_eq h1, h1.hn, h1.hm, h1.nz, h3, rfl, rfl, ?_, ?_⟩
  · intro x
    have hφ : ∀ i, equivOf _ _ t2 t3 x i = (mat n n st.p).mulVec x i := fun _ => rfl
    constructor
    · rintro ⟨y, rfl⟩ i
      have : (mat n n st.p).mulVec ((mat n m a).mulVec y) = (mat n m st.a).mulVec (Q'.mulVec y) := by
        rw [← t1, Matrix.mulVec_mulVec, Matrix.mulVec_mulVec, Matrix.mul_assoc _ (mat m m st.q), hq1, Matrix.mul_one]
      rw [hφ, Matrix.mulVecLin_apply, this, diag_mulVec h1]
      refine ⟨fun hi => ?_, fun hi => ?_⟩
      · rw [dif_pos hi]; exact dvd_mul_right _ _
      · rw [dif_neg (by omega)]
    · intro hx
      have hz : ∃ z : Fin m → ℤ, (mat n m st.a).mulVec z = (mat n n st.p).mulVec x := by
        choose t ht using fun (i : Fin n) (hi : i.1 < R) => (hx i).1 hi
        refine ⟨fun j => if hj : j.1 < R then t ⟨j.1, lt_of_lt_of_le hj h1.hn⟩ hj else 0, ?_⟩
        funext i
        rw [diag_mulVec h1]
        split
        · rename_i hi
          simp only [hi, dif_pos]
          have := ht i hi
          rw [hφ] at this
          rw [this]
        · rename_i hi
          have := (hx i).2 (by omega)
          rw [hφ] at this
          exact this.symm
      obtain ⟨z, hz⟩ := hz
      refine ⟨(mat m m st.q).mulVec z, ?_⟩
      rw [Matrix.mulVecLin_apply]
      have h4 : (mat n n st.p).mulVec ((mat n m a).mulVec ((mat m m st.q).mulVec z)) = (mat n n st.p).mulVec x := by
        rw [Matrix.mulVec_mulVec, Matrix.mulVec_mulVec, t1, hz]
      exact cancel _ _ h4
  · intro x
    have hψ : ∀ i, equivOf _ _ hq2 hq1 x i = Q'.mulVec x i := fun _ => rfl
    have key : (mat n m st.a).mulVec (Q'.mulVec x) = (mat n n st.p).mulVec ((mat n m a).mulVec x) := by
      rw [← t1, Matrix.mulVec_mulVec, Matrix.mulVec_mulVec, Matrix.mul_assoc _ (mat m m st.q), hq1, Matrix.mul_one]
    have hz0 : x ∈ Z n m a ↔ (mat n m st.a).mulVec (Q'.mulVec x) = 0 := by
      rw [key]
      constructor
      · intro hx
        have : (mat n m a).mulVec x = 0 := hx
        rw [this, Matrix.mulVec_zero]
      · intro hx
        exact cancel _ _ (hx.trans (Matrix.mulVec_zero _).symm)
    rw [hz0]
    constructor
    · intro hx i hi
      have := congrFun hx ⟨i.1, lt_of_lt_of_le hi h1.hn⟩
      rw [diag_mulVec h1, dif_pos hi] at this
      rw [hψ]
      rcases mul_eq_zero.mp this with h6 | h6
      · exact absurd h6 (h1.nz i.1 hi)
      · exact h6
    · intro hx
      funext i
      rw [diag_mulVec h1]
      split
      · rename_i hi
        rw [← hψ, hx _ hi, mul_zero]; rfl
      · rfl

theorem mapM_some {α β : Type} {f : α → Option β} {g : α → β} : ∀ {l : List α}, (∀ x ∈ l, f x = some (g x)) → l.mapM f = some (l.map g)
  | [], _ => by simp
  | x :: l, h => by
    rw [List.mapM_cons, h x (by simp), mapM_some (fun y hy => h y (by simp [hy]))]
    simp

theorem coef_smul_single {B : Type} [LinearOrder B] (b x : B) (c : ℤ) : coef (smul (single b) c) x = if b = x then c else 0 := by
  rw [(c27_smul _ c).1]
  simp only [single, coef_cons, coef_nil]
  split <;> simp

theorem sum_zipIdx {B : Type} [LinearOrder B] (f : Nat → ℤ) (x : B) : ∀ (basis : List B) (k : Nat), basis.Nodup →
    ((basis.zipIdx k).map (fun bj => if bj.1 = x then f bj.2 else 0)).sum = if h : x ∈ basis then f (k + basis.idxOf x) else 0
  | [], k, _ => by simp
  | b :: basis, k, h => by
    rw [List.zipIdx_cons, List.map_cons, List.sum_cons, sum_zipIdx f x basis (k + 1) (List.nodup_cons.mp h).2]
    by_cases e : b = x
    · subst e
      have : b ∉ basis := (List.nodup_cons.mp h).1
      simp [this]
    · have e' : x ≠ b := fun h => e h.symm
      by_cases hm : x ∈ basis
      · simp only [e, if_false, hm, dif_pos, zero_add, List.mem_cons, or_true, List.idxOf_cons_ne _ e]
        congr 1; omega
      · simp [e, e', hm]

theorem changeBasis_spec {B : Type} [LinearOrder B] {n : Nat} (a : M) {basis : List B} (hl : basis.length = n) (hn : basis.Nodup) :
    ∃ L, changeBasis n a basis = some L ∧ L.length = n ∧ (∀ i (h : i < L.length), (∀ x ∉ basis, coef L[i] x = 0) ∧
      ∀ j (hj : j < n), (basis[j]?).elim 0 (coef L[i]) = a j i) ∧ ∀ c ∈ L, Sorted c ∧ ∀ x ∈ c, x.1 ≠ 0 := by
  have hterm : ∀ (b : B) (k : ℤ), smul (single b) k = [] ∨ smul (single b) k = [(k, b)] := by
    intro b k
    unfold smul single
    split
    · exact Or.inl rfl
    · right; simp
  choose r h1 h0 h3 h2 using fun i => c26_sum_sorted_partial (basis.zipIdx.map (fun bj => smul (single bj.1) (a bj.2 i))) (by
    intro v hv
    obtain ⟨bj, -, rfl⟩ := List.mem_map.mp hv
    rcases hterm bj.1 (a bj.2 i) with e | e <;> rw [e] <;> simp [Sorted]) (Or.inr (by
    rw [List.pairwise_map]
    have hz : (basis.zipIdx.map Prod.fst).Nodup := by rw [List.zipIdx_map_fst]; exact hn
    refine (List.pairwise_map.mp hz).imp ?_
    intro x y hxy u hu w hw
    rcases hterm x.1 (a x.2 i) with e | e <;> rcases hterm y.1 (a y.2 i) with e' | e' <;> rw [e] at hu <;> rw [e'] at hw
    all_goals simp at hu hw
    rw [hu, hw]; exact fun e => absurd e hxy))
  refine ⟨(List.range n).map r, ?_, by simp, ?_, ?_⟩
  rotate_left 2
  · intro c hc
    obtain ⟨i, -, rfl⟩ := List.mem_map.mp hc
    exact ⟨h0 i, h3 i⟩
  · rw [changeBasis, if_neg (by simp [hl])]
    exact mapM_some (fun i _ => h1 i)
  · intro i hi
    have hc : ∀ x, coef (((List.range n).map r)[i]) x = if h : x ∈ basis then a (basis.idxOf x) i else 0 := by
      intro x
      have := sum_zipIdx (fun j => a j i) x basis 0 hn
      simp only [Nat.zero_add] at this
      rw [← this, List.getElem_map, List.getElem_range, h2, List.map_map]
      congr 1
      apply List.map_congr_left
      intro bj _
      exact coef_smul_single _ _ _
    refine ⟨fun x hx => by rw [hc, dif_neg hx], fun j hj => ?_⟩
    rw [List.getElem?_eq_getElem (by omega), Option.elim_some, hc, dif_pos (List.getElem_mem _), List.Nodup.idxOf_getElem hn]

/-! ### grouping the divisors -/

/-- the listed divisors with their multiplicities, written out -/
def flat (l : List (Int × Nat)) : List Int := l.flatMap (fun dk => List.replicate dk.2 dk.1)

theorem flat_append (l l' : List (Int × Nat)) : flat (l ++ l') = flat l ++ flat l' := by simp [flat]

theorem flat_groupStep (a : M) (l : List (Int × Nat)) (i : Nat) : flat (groupStep a l i) = flat l ++ [a i i] := by
  unfold groupStep
  cases h : l.getLast? with
  | none => simp only; rw [flat_append]; simp [flat]
  | some dk =>
    obtain ⟨d, k⟩ := dk
    simp only
    split
    · rename_i e
      have hl : l = l.dropLast ++ [(d, k)] := (List.dropLast_append_getLast? (d, k) h).symm
      conv_rhs => rw [hl]
      rw [flat_append, flat_append]
      simp [flat, List.replicate_succ', e]
    · rw [flat_append]; simp [flat]

theorem groupStep_pos (a : M) (l : List (Int × Nat)) (i : Nat) (h : ∀ x ∈ l, 0 < x.2) : ∀ x ∈ groupStep a l i, 0 < x.2 := by
  unfold groupStep
  intro x hx
  cases hg : l.getLast? with
  | none => rw [hg] at hx; simp at hx; rcases hx with hx | rfl; exact h x hx; simp
  | some dk =>
    obtain ⟨d, k⟩ := dk
    rw [hg] at hx
    simp only at hx
    split at hx
    · rcases List.mem_append.mp hx with hx | hx
      · exact h x (List.mem_of_mem_dropLast hx)
      · simp at hx; rw [hx]; simp
    · rcases List.mem_append.mp hx with hx | hx
      · exact h x hx
      · simp at hx; rw [hx]; simp

theorem groupDiv_succ (a : M) (R : Nat) : groupDiv a (R + 1) = groupStep a (groupDiv a R) R := by
  simp [groupDiv, List.range_succ, List.foldl_append]

theorem flat_groupDiv (a : M) (R : Nat) : flat (groupDiv a R) = (List.range R).map (fun i => a i i) := by
  induction R with
  | zero => rfl
  | succ R ih => rw [groupDiv_succ, flat_groupStep, ih, List.range_succ, List.map_append]; rfl

theorem groupDiv_pos (a : M) (R : Nat) : ∀ x ∈ groupDiv a R, 0 < x.2 := by
  induction R with
  | zero => simp [groupDiv]
  | succ R ih => rw [groupDiv_succ]; exact groupStep_pos a _ R ih

theorem orders_flat (l : List (Int × Nat)) : orders l = (flat l).map Int.natAbs := by
  induction l with
  | nil => rfl
  | cons x l ih => rw [orders_cons, ih]; simp [flat]

theorem pick_flat : ∀ (l : List (Int × Nat)) (i : Nat), pick l i = (flat l)[i]?
  | [], i => by simp [pick, flat]
  | (d, k) :: l, i => by
    have : flat ((d, k) :: l) = List.replicate k d ++ flat l := by simp [flat]
    rw [pick, this]
    split
    · rename_i h
      rw [List.getElem?_append_right (by simpa using h), pick_flat l]
      simp
    · rename_i h
      rw [List.getElem?_append_left (by simp; omega), List.getElem?_replicate, if_pos (by omega)]

theorem map_fst_sublist_flat : ∀ (l : List (Int × Nat)), (∀ x ∈ l, 0 < x.2) → (l.map Prod.fst).Sublist (flat l)
  | [], _ => by simp [flat]
  | (d, k) :: l, h => by
    have h1 := h (d, k) (by simp)
    obtain ⟨k', rfl⟩ := Nat.exists_eq_succ_of_ne_zero (by simp at h1; omega : k ≠ 0)
    have : flat ((d, k' + 1) :: l) = d :: (List.replicate k' d ++ flat l) := by simp [flat, List.replicate_succ]
    rw [List.map_cons, this]
    exact ((map_fst_sublist_flat l (fun x hx => h x (by simp [hx]))).trans (List.sublist_append_right _ _)).cons_cons _

/-! ### one dimension -/

theorem zipIdx_filter_ge {α : Type} (R : Nat) : ∀ (l : List α) (k : Nat),
    ((l.zipIdx k).filter (fun xi => decide (R ≤ xi.2))).map (fun xi => xi.1) = l.drop (R - k)
  | [], k => by simp
  | x :: l, k => by
    rw [List.zipIdx_cons, List.filter_cons]
    by_cases h : R ≤ k
    · simp only [h, decide_true, if_true, List.map_cons, zipIdx_filter_ge R l (k + 1)]
      rw [show R - k = 0 by omega, show R - (k + 1) = 0 by omega]; simp
    · have ih := zipIdx_filter_ge R l (k + 1)
      rw [show R - k = (R - (k + 1)) + 1 by omega]
      simpa [h] using ih

theorem zipIdx_filter_lt {α : Type} (R : Nat) : ∀ (l : List α) (k : Nat),
    ((l.zipIdx k).filter (fun xi => decide (xi.2 < R))) = (l.zipIdx k).take (R - k)
  | [], k => by simp
  | x :: l, k => by
    rw [List.zipIdx_cons, List.filter_cons]
    by_cases h : k < R
    · simp only [h, decide_true, if_true, zipIdx_filter_lt R l (k + 1)]
      rw [show R - k = (R - (k + 1)) + 1 by omega]; simp
    · simp only [h, decide_false, zipIdx_filter_lt R l (k + 1)]
      rw [show R - k = 0 by omega, show R - (k + 1) = 0 by omega]; simp

/-- what the variables carried down say about the boundary map `g` (`m × l`) just treated -/
structure HiOK (m l : Nat) (g : M) (hi : Hi) : Prop where
  size : hi.size = m
  pos : ∀ x ∈ hi.divs, 0 < x.2
  le : hi.rank ≤ m
  rk : hi.rank = rk m l g
  ex : ∃ (s : Nat → ℤ) (φ : (Fin m → ℤ) ≃ₗ[ℤ] (Fin m → ℤ)), flat hi.divs = (List.range hi.rank).map s ∧
    (∀ i, i < hi.rank → s i ≠ 0) ∧ (∀ i j, i < j → j < hi.rank → s i ∣ s j) ∧
    φ.symm.toLinearMap = (mat m m hi.rowOp).mulVecLin ∧
    (∀ x, x ∈ Bd m l g ↔ ∀ i : Fin m, (i.1 < hi.rank → s i ∣ φ x i) ∧ (hi.rank ≤ i.1 → φ x i = 0))

theorem HiOK.init (m : Nat) : HiOK m 0 (fun _ _ => 0) { rank := 0, divs := [], rowOp := ident, size := m } where
  size := rfl
  pos := by simp
  le := Nat.zero_le _
  rk := by
    have : Hom.rk m 0 (fun _ _ => 0) ≤ 0 := by simpa [Hom.rk] using Matrix.rank_le_width ((mat m 0 (fun _ _ => 0)).map (Int.castRingHom ℚ))
    show 0 = _
    omega
  ex := by
    refine ⟨fun _ => 0, LinearEquiv.refl ℤ _, by simp [flat], by simp, by simp, ?_, ?_⟩
    · rw [mat_ident, Matrix.mulVecLin_one]; rfl
    · intro x
      constructor
      · rintro ⟨y, rfl⟩ i
        simp [Matrix.mulVec, dotProduct]
      · intro h
        refine ⟨0, ?_⟩
        rw [map_zero]
        funext i
        exact ((h i).2 (Nat.zero_le _)).symm

variable {B : Type} [LinearOrder B]

theorem vec_col {m : Nat} {basis : List B} {c : FSum Int B} {a : M} {i : Nat} (hi : i < m)
    (h : ∀ j, j < m → (basis[j]?).elim 0 (coef c) = a j i) : vec basis m c = (mat m m a).mulVecLin (Pi.single ⟨i, hi⟩ 1) := by
  funext j
  simp only [vec, Matrix.mulVecLin_apply, Matrix.mulVec_single_one, Matrix.col_apply, mat, Matrix.of_apply]
  exact h j j.2

theorem step_spec {b : BMap B} {l : Nat} {g : M} {hi : Hi} (hn : 0 < b.n) (hm : 0 < b.m) (hbl : b.basis.length = b.m) (hnd : b.basis.Nodup)
    (hok : HiOK b.m l g hi) (hle : Bd b.m l g ≤ Z b.n b.m b.a) :
    ∃ f0 o hi', (∀ fuel, f0 ≤ fuel → step fuel hi b = some (o, hi')) ∧ Correct b l g o ∧ HiOK b.n b.m b.a hi' := by
  obtain ⟨f0, st, hst⟩ := c36_terminates hn hm b.a
  have hst0 := hst f0 le_rfl
  obtain ⟨R, φ', ψ, hR, hRn, hRm, hnz, hdv, hφ', hψ, hBd, hZ⟩ := smith_data hst0
  have hrk : rankOf b.n b.m st.a = rk b.n b.m b.a := c35_rank hst0
  obtain ⟨s, φ, hfl, hsnz, hsdv, hφ, hI⟩ := hok.ex
  -- rank of the cycles
  have hZeq : Z b.n b.m b.a = coordSub ψ.toLinearMap (fun i => R ≤ i.1) := by
    ext x; rw [hZ, mem_coordSub]
    exact forall_congr' fun i => by rw [Nat.not_le]; rfl
  have hfr : finrank ℤ (Z b.n b.m b.a) = b.m - R := by rw [hZeq, finrank_coordSub_ge hRm]
  have hsat : ∀ (c : ℤ) x, c ≠ 0 → c • x ∈ Z b.n b.m b.a → x ∈ Z b.n b.m b.a := by
    intro c x hc hx
    rw [hZ] at hx ⊢
    intro i hi
    have := hx i hi
    rw [map_smul, Pi.smul_apply, smul_eq_mul] at this
    exact (mul_eq_zero.mp this).resolve_left hc
  obtain ⟨hle2, ⟨e⟩⟩ := quotient_structure (Z b.n b.m b.a) (Bd b.m l g) φ s hsnz hok.le hI hle hsat hfr
  obtain ⟨L1, c1, c2, c3, c4⟩ := changeBasis_spec st.q hbl hnd
  obtain ⟨L2, d1, d2, d3, d4⟩ := changeBasis_spec hi.rowOp hbl hnd
  -- the boundaries
  have hbnd : (L2.zipIdx.filter (fun xi => decide (xi.2 < hi.rank))).mapM (fun xi => do
      let d ← pick hi.divs xi.2
      return FSum.smul xi.1 d) = some ((L2.zipIdx.take hi.rank).map (fun xi => FSum.smul xi.1 (s xi.2))) := by
    rw [zipIdx_filter_lt, Nat.sub_zero]
    apply mapM_some
    intro xi hxi
    obtain ⟨k, hk, hxi2⟩ := List.getElem_of_mem hxi
    rw [List.getElem_take, List.getElem_zipIdx] at hxi2
    simp only [List.length_take, List.length_zipIdx] at hk
    have h1 : xi.2 = k := by rw [← hxi2]; simp
    have h2 : pick hi.divs xi.2 = some (s xi.2) := by
      rw [pick_flat, hfl, h1, List.getElem?_map, List.getElem?_range (by omega)]; rfl
    rw [h2]; rfl
  have hmemB : ∀ c, c ∈ (L2.zipIdx.take hi.rank).map (fun xi => FSum.smul xi.1 (s xi.2)) ↔
      ∃ i, ∃ (h : i < L2.length), i < hi.rank ∧ c = FSum.smul L2[i] (s i) := by
    intro c
    rw [List.mem_map]
    constructor
    · rintro ⟨xi, hxi, rfl⟩
      obtain ⟨k, hk, hxi2⟩ := List.getElem_of_mem hxi
      rw [List.getElem_take, List.getElem_zipIdx] at hxi2
      simp only [List.length_take, List.length_zipIdx] at hk
      refine ⟨k, by omega, by omega, ?_⟩
      rw [← hxi2]; simp
    · rintro ⟨i, h, h1, rfl⟩
      refine ⟨(L2[i], i), ?_, rfl⟩
      rw [List.mem_take_iff_getElem]
      exact ⟨i, by simp; omega, by simp⟩
  refine ⟨f0, { module := Mod.new (b.m - R - hi.rank) hi.divs, cycles := L1.drop R,
                boundaries := (L2.zipIdx.take hi.rank).map (fun xi => FSum.smul xi.1 (s xi.2)) },
    { rank := R, divs := groupDiv st.a R, rowOp := st.pinv, size := b.n }, ?_, ?_, ?_⟩
  · intro fuel hf
    have hd1 : changeBasis hi.size hi.rowOp b.basis = some L2 := by rw [hok.size]; exact d1
    have hcyc := zipIdx_filter_ge R L1 0
    rw [Nat.sub_zero] at hcyc
    simp only [step, hst fuel hf, Option.bind_eq_bind, Option.bind_some, hR]
    rw [if_neg (by omega), if_neg (by omega), c1, hd1]
    simp only [Option.bind_some, hcyc]
    have := hbnd
    simp only [Option.bind_eq_bind] at this
    rw [this]
    rfl
  · have hmem : ∀ dk ∈ hi.divs, ∃ i, i < hi.rank ∧ dk.1 = s i := by
      intro dk hdk
      have h1 := (map_fst_sublist_flat hi.divs hok.pos).subset (List.mem_map_of_mem hdk)
      rw [hfl, List.mem_map] at h1
      obtain ⟨i, h2, h3⟩ := h1
      exact ⟨i, List.mem_range.mp h2, h3.symm⟩
    constructor
    · obtain ⟨e2⟩ := (c43_new (b.m - R - hi.rank) hi.divs).1
      have ho : orders hi.divs = (List.range hi.rank).map fun i => (s i).natAbs := by
        rw [orders_flat, hfl, List.map_map]; rfl
      obtain ⟨e3⟩ := cyc_cast ho
      exact ⟨(e.trans ((AddEquiv.refl _).prodCongr e3.symm)).trans e2.symm⟩
    · show b.m - R - hi.rank + _ + _ = _
      rw [← hok.rk, ← hrk, hR]; omega
    · constructor
      · intro dk hdk
        have h0 : dk ∈ hi.divs := (c43_new _ _).2.2.2.1.subset hdk
        obtain ⟨i, h1, h2⟩ := hmem dk h0
        exact ⟨(c43_new _ _).2.1 dk hdk, by rw [h2]; exact hsnz i h1, hok.pos dk h0⟩
      · refine List.Pairwise.sublist (c43_new (b.m - R - hi.rank) hi.divs).2.2.2.1 ?_
        have h1 : (flat hi.divs).Pairwise (fun x y => x ∣ y) := by
          rw [hfl, List.pairwise_map]
          refine List.Pairwise.imp_of_mem ?_ (List.pairwise_lt_range (n := hi.rank))
          intro i j hi' hj' hij
          exact hsdv i j hij (List.mem_range.mp hj')
        have h2 := h1.sublist (map_fst_sublist_flat hi.divs hok.pos)
        exact List.pairwise_map.mp h2
    · constructor
      · have hset : {v | ∃ c ∈ L1.drop R, v = vec b.basis b.m c} = {v | ∃ i : Fin b.m, R ≤ i.1 ∧ v = (1 : ℤ) • ψ.symm (Pi.single i 1)} := by
          ext v
          constructor
          · rintro ⟨c, hc, rfl⟩
            obtain ⟨k, hk, rfl⟩ := List.getElem_of_mem hc
            rw [List.length_drop] at hk
            rw [List.getElem_drop]
            refine ⟨⟨R + k, by omega⟩, by simp, ?_⟩
            rw [vec_col (a := st.q) (i := R + k) (by omega) (c3 (R + k) (by omega)).2, one_smul, ← hψ]; rfl
          · rintro ⟨i, hi1, rfl⟩
            refine ⟨L1[i.1]'(by omega), ?_, ?_⟩
            · rw [List.mem_drop_iff_getElem]
              exact ⟨i.1 - R, by omega, by congr 1; omega⟩
            · rw [vec_col (a := st.q) (i := i.1) i.2 (c3 i.1 (by omega)).2, one_smul, ← hψ]; rfl
        show Submodule.span ℤ {v | ∃ c ∈ L1.drop R, v = vec b.basis b.m c} = _
        rw [hset]
        ext x
        rw [span_coord ψ (fun i => R ≤ i.1) (fun _ => 1), hZ]
        constructor
        · intro h i hi1; exact (h i).2 (by omega)
        · intro h i; exact ⟨fun _ => one_dvd _, fun h1 => h i (by omega)⟩
      · show (L1.drop R).length = _
        rw [List.length_drop, c2, ← hrk, hR]
    · constructor
      · have hset : {v | ∃ c ∈ (L2.zipIdx.take hi.rank).map (fun xi => FSum.smul xi.1 (s xi.2)), v = vec b.basis b.m c} =
            {v | ∃ i : Fin b.m, i.1 < hi.rank ∧ v = s i.1 • φ.symm (Pi.single i 1)} := by
          have key : ∀ i (h : i < L2.length) (h' : i < b.m), vec b.basis b.m (FSum.smul L2[i] (s i)) = s i • φ.symm (Pi.single ⟨i, h'⟩ 1) := by
            intro i h h'
            have := vec_col (a := hi.rowOp) (i := i) h' (d3 i h).2
            rw [← hφ] at this
            have h2 : vec b.basis b.m (FSum.smul L2[i] (s i)) = s i • vec b.basis b.m L2[i] := by
              funext j
              simp only [vec, Pi.smul_apply, smul_eq_mul]
              rw [List.getElem?_eq_getElem (by omega)]
              simp only [Option.elim_some]
              exact (c27_smul _ _).1 _
            rw [h2, this]; rfl
          ext v
          constructor
          · rintro ⟨c, hc, rfl⟩
            obtain ⟨i, h, h1, rfl⟩ := (hmemB c).mp hc
            exact ⟨⟨i, by omega⟩, h1, key i h (by omega)⟩
          · rintro ⟨i, hi1, rfl⟩
            exact ⟨_, (hmemB _).mpr ⟨i.1, by omega, hi1, rfl⟩, (key i.1 (by omega) i.2).symm⟩
        show Submodule.span ℤ {v | ∃ c ∈ (L2.zipIdx.take hi.rank).map (fun xi => FSum.smul xi.1 (s xi.2)), v = vec b.basis b.m c} = _
        rw [hset]
        ext x
        rw [span_coord φ (fun i => i.1 < hi.rank) (fun i => s i.1), hI]
        exact forall_congr' fun i => by rw [Nat.not_lt]
      · show ((L2.zipIdx.take hi.rank).map _).length = _
        rw [List.length_map, List.length_take, List.length_zipIdx, d2, ← hok.rk]
        have := hok.le
        omega
    · rintro c (hc | hc) x hx
      · obtain ⟨k, hk, rfl⟩ := List.getElem_of_mem hc
        simp only [List.length_drop] at hk
        simp only [List.getElem_drop]
        exact (c3 (R + k) (by omega)).1 x hx
      · obtain ⟨i, h, h1, rfl⟩ := (hmemB c).mp hc
        rw [(c27_smul _ _).1, (d3 i h).1 x hx, mul_zero]
    · rintro c (hc | hc)
      · exact c4 c (List.mem_of_mem_drop hc)
      · obtain ⟨i, h, h1, rfl⟩ := (hmemB c).mp hc
        obtain ⟨e1, e2⟩ := d4 _ (List.getElem_mem h)
        refine ⟨(c27_smul _ _).2.1 e1, ?_⟩
        intro x hx
        unfold smul at hx
        rw [if_neg (hsnz i h1)] at hx
        obtain ⟨y, hy, rfl⟩ := List.mem_map.mp hx
        exact mul_ne_zero (e2 y hy) (hsnz i h1)
  · exact ⟨rfl, groupDiv_pos _ _, hRn, by rw [← hrk, hR], fun i => st.a i i, φ', flat_groupDiv _ _, hnz, hdv, hφ', hBd⟩

/-! ### all dimensions -/

theorem upper_cons (b : BMap B) (l : List (BMap B)) (i : Nat) : upper (b :: l) (i + 1) = upper l i := by
  simp [upper]

theorem run_spec : ∀ (l : List (BMap B)) (init : Hi),
    (∀ b ∈ l, 0 < b.n ∧ 0 < b.m ∧ b.basis.length = b.m ∧ b.basis.Nodup) →
    (∀ i b c, l[i]? = some b → l[i + 1]? = some c → c.n = b.m) →
    (∀ i b c, l[i]? = some b → l[i + 1]? = some c → mat b.n b.m b.a * mat b.m c.m c.a = 0) →
    (∀ b, l.getLast? = some b → init = { rank := 0, divs := [], rowOp := ident, size := b.m }) →
    ∃ f0 outs hi, (∀ fuel, f0 ≤ fuel → run fuel init l = some (outs, hi)) ∧ outs.length = l.length ∧
      (∀ i b o, l[i]? = some b → outs[i]? = some o → Correct b (upper l i).1 (upper l i).2 o) ∧
      (∀ b, l.head? = some b → HiOK b.n b.m b.a hi) ∧ (l = [] → hi = init)
  | [], init, _, _, _, _ => ⟨0, [], init, fun _ _ => rfl, rfl, by simp, by simp, fun _ => rfl⟩
  | b :: rest, init, h1, h2, h3, h4 => by
    obtain ⟨f0, outs, hi, r1, r2, r3, r4, r5⟩ := run_spec rest init (fun c hc => h1 c (by simp [hc]))
      (fun i c d hc hd => h2 (i + 1) c d (by simpa using hc) (by simpa using hd))
      (fun i c d hc hd => h3 (i + 1) c d (by simpa using hc) (by simpa using hd))
      (fun c hc => h4 c (by cases rest with
        | nil => simp at hc
        | cons d rest => simpa using hc))
    have hhi : HiOK b.m (upper (b :: rest) 0).1 (upper (b :: rest) 0).2 hi ∧ Bd b.m (upper (b :: rest) 0).1 (upper (b :: rest) 0).2 ≤ Z b.n b.m b.a := by
      cases rest with
      | nil =>
        have e := h4 b (by simp)
        have : hi = _ := (r5 rfl).trans e
        rw [this]
        refine ⟨HiOK.init b.m, ?_⟩
        rintro x ⟨y, rfl⟩
        show (mat b.n b.m b.a).mulVec _ = 0
        have e2 : (mat b.m (upper [b] 0).1 (upper [b] 0).2).mulVecLin y = 0 := by
          have : (mat b.m (upper [b] 0).1 (upper [b] 0).2) = 0 := by ext i j; exact j.elim0
          rw [this, Matrix.mulVecLin_zero]; rfl
        rw [e2, Matrix.mulVec_zero]
      | cons c rest =>
        have hn : c.n = b.m := h2 0 b c (by simp) (by simp)
        have := r4 c (by simp)
        rw [hn] at this
        refine ⟨this, ?_⟩
        rintro x ⟨y, rfl⟩
        let y' : Fin c.m → ℤ := y
        show (mat b.n b.m b.a).mulVec ((mat b.m c.m c.a).mulVec y') = 0
        rw [Matrix.mulVec_mulVec, h3 0 b c (by simp) (by simp), Matrix.zero_mulVec]
    obtain ⟨q1, q2, q3, q4⟩ := h1 b (by simp)
    obtain ⟨f1, o, hi', s1, s2, s3⟩ := step_spec q1 q2 q3 q4 hhi.1 hhi.2
    refine ⟨max f0 f1, o :: outs, hi', ?_, by simp [r2], ?_, ?_, by simp⟩
    · intro fuel hf
      simp only [run, r1 fuel (by omega), s1 fuel (by omega), Option.bind_eq_bind, Option.bind_some]; rfl
    · intro i c p hc hp
      cases i with
      | zero =>
        simp only [List.getElem?_cons_zero, Option.some.injEq] at hc hp
        subst hc hp; exact s2
      | succ i =>
        simp only [List.getElem?_cons_succ] at hc hp
        rw [upper_cons]; exact r3 i c p hc hp
    · intro c hc
      simp only [List.head?_cons, Option.some.injEq] at hc
      subst hc; exact s3

theorem isZero_subsingleton {a : Mod} (h : a.isZero = true) : Subsingleton (Grp a) := by
  refine (c43_is_zero_partial a ?_).mp h
  intro dk hdk
  simp only [Mod.isZero, Bool.and_eq_true, List.isEmpty_iff] at h
  rw [h.2] at hdk; simp at hdk

/-- dropping trailing elements with a property: what remains is a prefix, everything dropped has the property, and the last
remaining one does not -/
theorem rdrop_spec {α : Type} (p : α → Bool) (l : List α) : (l.reverse.dropWhile p).reverse <+: l ∧
    (∀ i o, (l.reverse.dropWhile p).reverse.length ≤ i → l[i]? = some o → p o = true) ∧
    (∀ o, (l.reverse.dropWhile p).reverse.getLast? = some o → p o = false) := by
  have e : l.reverse.takeWhile p ++ l.reverse.dropWhile p = l.reverse := List.takeWhile_append_dropWhile
  have e2 : l = (l.reverse.dropWhile p).reverse ++ (l.reverse.takeWhile p).reverse := by
    rw [← List.reverse_append, e, List.reverse_reverse]
  refine ⟨⟨_, e2.symm⟩, ?_, ?_⟩
  · intro i o hi ho
    rw [e2, List.getElem?_append_right hi] at ho
    have := List.mem_of_getElem? ho
    rw [List.mem_reverse] at this
    exact List.mem_takeWhile_imp this
  · intro o ho
    rw [List.getLast?_reverse] at ho
    cases h : l.reverse.dropWhile p with
    | nil => rw [h] at ho; simp at ho
    | cons x t =>
      rw [h] at ho
      simp only [List.head?_cons, Option.some.injEq] at ho
      subst ho
      have := List.head_dropWhile_not (p := p) (l := l.reverse) (by rw [h]; simp)
      simpa [h] using this

/-- **C44.**  For every chain complex (with non-empty boundary matrices), `IntegralHomology::new` returns; entry `i` of the result
is correct for every dimension that is kept; a dimension that is not kept is above `max_dim` or has trivial homology; nothing
above `max_dim` is kept; and the last kept module is not the zero module. -/
theorem c44_homology {cplx : List (BMap B)} (h : ChainCplx cplx) (maxDim : Option Nat) :
    ∃ f0 res, (∀ fuel, f0 ≤ fuel → new fuel cplx maxDim = some res) ∧
      (∀ i b o, cplx[i]? = some b → res[i]? = some o → Correct b (upper cplx i).1 (upper cplx i).2 o) ∧
      (∀ i b, cplx[i]? = some b → res.length ≤ i → (∀ d, maxDim = some d → i ≤ d) →
        Subsingleton (HGrp b.n b.m (upper cplx i).1 b.a (upper cplx i).2)) ∧
      res.length ≤ cplx.length ∧ (∀ d, maxDim = some d → res.length ≤ d + 1) ∧
      (∀ o, res.getLast? = some o → o.module.isZero = false) := by
  obtain ⟨last, hlast⟩ : ∃ b, cplx.getLast? = some b := by
    cases e : cplx.getLast? with
    | none => exact absurd (List.getLast?_eq_none_iff.mp e) h.nonempty
    | some b => exact ⟨b, rfl⟩
  obtain ⟨f0, outs, hi, r1, r2, r3, r4, r5⟩ := run_spec cplx { rank := 0, divs := [], rowOp := ident, size := last.m } h.sizes h.fit h.zero
    (fun b hb => by rw [hlast] at hb; cases hb; rfl)
  set kept := (match maxDim with
    | none => outs
    | some d => outs.take (d + 1)) with hkept
  have hk1 : kept <+: outs := by
    rw [hkept]; cases maxDim with
    | none => exact List.prefix_refl _
    | some d => exact List.take_prefix _ _
  have hk2 : ∀ i o, outs[i]? = some o → (∀ d, maxDim = some d → i ≤ d) → kept[i]? = some o := by
    intro i o ho hd
    rw [hkept]; cases maxDim with
    | none => exact ho
    | some d =>
      simp only
      rw [List.getElem?_take, if_pos (by have := hd d rfl; omega)]; exact ho
  have hk3 : ∀ d, maxDim = some d → kept.length ≤ d + 1 := by
    intro d hd
    rw [hkept, hd]; simp
  obtain ⟨d1, d2, d3⟩ := rdrop_spec (fun o : Out B => o.module.isZero) kept
  refine ⟨f0, (kept.reverse.dropWhile (fun o => o.module.isZero)).reverse, fun fuel hf => ?_, ?_, ?_, ?_, ?_, d3⟩
  · simp only [new, hlast, r1 fuel hf, Option.bind_eq_bind, Option.bind_some]; rfl
  · intro i b o hb ho
    refine r3 i b o hb ?_
    obtain ⟨t, ht⟩ := d1.trans hk1
    rw [← ht, List.getElem?_append_left (List.getElem?_eq_some_iff.mp ho).1]; exact ho
  · intro i b hb hlen hd
    have hi : i < outs.length := by
      rw [r2]; exact (List.getElem?_eq_some_iff.mp hb).1
    have ho : outs[i]? = some outs[i] := List.getElem?_eq_getElem hi
    have hz := d2 i outs[i] hlen (hk2 i _ ho hd)
    obtain ⟨e⟩ := (r3 i b _ hb ho).iso
    have := isZero_subsingleton hz
    exact e.toEquiv.subsingleton
  · have := (d1.trans hk1).length_le; omega
  · intro d hd
    have := d1.length_le
    have := hk3 d hd
    omega

/-- **C44 and signs**: the torsion list may contain the unit `-1`.  For the complex `ℤ --(-1)--> ℤ --0--> ℤ` (one 0-cell, one 1-cell)
the reported module in dimension zero is not the zero module although the homology is trivial; `new` keeps it. -/
def exNeg : List (BMap Nat) :=
  [{ n := 1, m := 1, a := fun _ _ => 0, basis := [0] }, { n := 1, m := 1, a := fun _ _ => -1, basis := [1] }]

theorem c44_unit_false : (new 10 exNeg none).map (fun res => res.map (fun o => (o.module.freeRank, o.module.divisors))) = some [(0, [(-1, 1)])] := by
  decide +kernel

/-- a concrete case: a circle with two vertices and two edges, boundary matrix `[[-1, -1], [1, 1]]` -/
def exCircle : List (BMap Nat) :=
  [{ n := 1, m := 2, a := fun _ _ => 0, basis := [0, 1] }, { n := 2, m := 2, a := fun i _ => if i = 0 then -1 else 1, basis := [2, 3] }]

example : ChainCplx exCircle where
  nonempty := by simp [exCircle]
  sizes := by simp [exCircle]
  fit := by
    intro i b c h1 h2
    match i with
    | 0 => simp [exCircle] at h1 h2; subst h1 h2; rfl
    | 1 => simp [exCircle] at h2
    | i + 2 => simp [exCircle] at h2
  zero := by
    intro i b c h1 h2
    match i with
    | 0 =>
      simp [exCircle] at h1 h2; subst h1 h2
      ext i j
      simp [mat, Matrix.mul_apply]
    | 1 => simp [exCircle] at h2
    | i + 2 => simp [exCircle] at h2

end Toppo.Hom
