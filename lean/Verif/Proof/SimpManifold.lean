import Verif.Proof.SimpSum
import Verif.Proof.SimpWedge
set_option linter.unusedVariables false
set_option linter.unusedSectionVars false
/-!
# Homology of closed pseudomanifolds (used by C148)
-/
namespace Toppo.Simp
open Toppo

/-! ### specification -/
section spec
variable {T : Type} [DecidableEq T]

/-- a facet: a simplex of dimension `n` -/
def Facet (K : Finset T → Prop) (n : Nat) (A : Finset T) : Prop := K A ∧ A.card = n + 1

/-- A closed pseudomanifold of dimension `n`: every simplex is a face of one of dimension `n`; every simplex of dimension `n - 1` is a face
of exactly two simplices of dimension `n`; any two of these are joined by a sequence in which consecutive ones have a face of dimension
`n - 1` in common. -/
structure Pseudomanifold (K : Finset T → Prop) (n : Nat) : Prop where
  nonempty : ∃ A, K A
  pure : ∀ A, K A → ∃ C, Facet K n C ∧ A ⊆ C
  two : ∀ B, K B → B.card = n → ∃ C D, C ≠ D ∧ ∀ E, Facet K n E ∧ B ⊆ E ↔ E = C ∨ E = D
  connected : ∀ C D, Facet K n C → Facet K n D → Relation.ReflTransGen (fun C D => Facet K n C ∧ Facet K n D ∧ (C ∩ D).card = n) C D

/-- the sign of the face opposite to `x` in the boundary of `A`, for vertices ordered by `r` -/
def faceSign (r : T → ℤ) (A : Finset T) (x : T) : ℤ := (-1) ^ (A.filter (fun y => r y < r x)).card

/-- a choice of an orientation (a sign) for every facet, such that facets with a common face of dimension `n - 1` induce opposite
orientations on it -/
def Oriented (K : Finset T → Prop) (r : T → ℤ) (n : Nat) (o : Finset T → ℤ) : Prop :=
  (∀ A, o A = 1 ∨ o A = -1) ∧ ∀ (B : Finset T) (x y : T), B.card = n → x ∉ B → y ∉ B → x ≠ y → K (insert x B) → K (insert y B) →
    o (insert x B) * faceSign r (insert x B) x + o (insert y B) * faceSign r (insert y B) y = 0

end spec

variable {T : Type} [DecidableEq T] {K : Finset T → Prop} {r : T → ℤ}

theorem faceSign_unit (r : T → ℤ) (A : Finset T) (x : T) : faceSign r A x = 1 ∨ faceSign r A x = -1 := neg_one_pow_eq_or ℤ _

/-- the coefficient of a face in the boundary of a simplex -/
theorem coef_face (r : T → ℤ) {B : Finset T} {x : T} (hx : x ∉ B) : bdry r (Finsupp.single (insert x B) 1) B = faceSign r (insert x B) x := by
  rw [bdry_single, Finsupp.finsetSum_apply, Finset.sum_eq_single x]
  · rw [Finset.erase_insert hx, Finsupp.single_eq_same]; rfl
  · intro y hy hyx
    rw [Finsupp.single_apply, if_neg]
    intro e
    apply hx
    rw [← e]
    exact Finset.mem_erase.mpr ⟨Ne.symm hyx, Finset.mem_insert_self x B⟩
  · intro h; exact absurd (Finset.mem_insert_self x B) h

theorem coef_other (r : T → ℤ) {A B : Finset T} (h : ¬ B ⊆ A) : bdry r (Finsupp.single A 1) B = 0 := by
  rw [bdry_single, Finsupp.finsetSum_apply]
  refine Finset.sum_eq_zero (fun x hx => ?_)
  rw [Finsupp.single_apply, if_neg]
  intro e
  exact h (e ▸ Finset.erase_subset _ _)

theorem chain_off {i : Nat} {f : Finset T →₀ ℤ} (hf : f ∈ Chains K i) {A : Finset T} (h : ¬ Facet K i A) : f A = 0 :=
  (Finsupp.mem_supported' ℤ f).mp hf A (by intro hA; exact h hA)

theorem chain_of_off {i : Nat} {f : Finset T →₀ ℤ} (h : ∀ A, ¬ Facet K i A → f A = 0) : f ∈ Chains K i :=
  (Finsupp.mem_supported' ℤ f).mpr (fun A hA => h A hA)

section
variable {k : Nat} (M : Pseudomanifold K (k + 1)) (hcl : ∀ A B, K A → B ⊆ A → B.Nonempty → K B)
  (hr : ∀ A, K A → ∀ x ∈ A, ∀ y ∈ A, r x = r y → x = y) (F : Finset (Finset T)) (hF : ∀ A, K A → A ∈ F)

/-- the coefficient of a common face of two facets in the boundary of a chain -/
theorem bdry_ridge {B : Finset T} {x y : T} (hB : B.card = k + 1) (hx : x ∉ B) (hy : y ∉ B) (hxy : x ≠ y)
    (M : Pseudomanifold K (k + 1)) (hcl : ∀ A B, K A → B ⊆ A → B.Nonempty → K B) (hKx : K (insert x B)) (hKy : K (insert y B))
    {f : Finset T →₀ ℤ} (hf : f ∈ Chains K (k + 1)) :
    bdry r f B = f (insert x B) * faceSign r (insert x B) x + f (insert y B) * faceSign r (insert y B) y := by
  have hne : insert x B ≠ insert y B := by
    intro e
    have : x ∈ insert y B := e ▸ Finset.mem_insert_self x B
    rcases Finset.mem_insert.mp this with h | h
    · exact hxy h
    · exact hx h
  have hKB : K B := hcl _ _ hKx (Finset.subset_insert _ _) (Finset.card_pos.mp (by omega))
  obtain ⟨C, D, hCD, htwo⟩ := M.two B hKB hB
  have fx : Facet K (k + 1) (insert x B) := ⟨hKx, by rw [Finset.card_insert_of_notMem hx, hB]⟩
  have fy : Facet K (k + 1) (insert y B) := ⟨hKy, by rw [Finset.card_insert_of_notMem hy, hB]⟩
  have h1 := (htwo _).mp ⟨fx, Finset.subset_insert _ _⟩
  have h2 := (htwo _).mp ⟨fy, Finset.subset_insert _ _⟩
  have honly : ∀ E, Facet K (k + 1) E → B ⊆ E → E = insert x B ∨ E = insert y B := by
    intro E hE hBE
    have h3 := (htwo E).mp ⟨hE, hBE⟩
    rcases h1 with h1 | h1 <;> rcases h2 with h2 | h2 <;> rcases h3 with h3 | h3 <;> simp_all
  let L : (Finset T →₀ ℤ) →ₗ[ℤ] ℤ := (Finsupp.lapply B).comp (bdry r)
  let R : (Finset T →₀ ℤ) →ₗ[ℤ] ℤ := faceSign r (insert x B) x • Finsupp.lapply (insert x B) + faceSign r (insert y B) y • Finsupp.lapply (insert y B)
  have key : Chains K (k + 1) ≤ LinearMap.eqLocus L R := by
    refine chains_le (fun A hA hc => ?_)
    rw [LinearMap.mem_eqLocus]
    show bdry r (Finsupp.single A 1) B = faceSign r (insert x B) x * (Finsupp.single A (1 : ℤ)) (insert x B) +
      faceSign r (insert y B) y * (Finsupp.single A (1 : ℤ)) (insert y B)
    by_cases hBA : B ⊆ A
    · rcases honly A ⟨hA, hc⟩ hBA with rfl | rfl
      · rw [coef_face r hx, Finsupp.single_eq_same, Finsupp.single_apply, if_neg hne]; ring
      · rw [coef_face r hy, Finsupp.single_eq_same, Finsupp.single_apply, if_neg (Ne.symm hne)]; ring
    · rw [coef_other r hBA, Finsupp.single_apply, Finsupp.single_apply, if_neg (by rintro rfl; exact hBA (Finset.subset_insert _ _)),
        if_neg (by rintro rfl; exact hBA (Finset.subset_insert _ _))]; ring
  have := key hf
  rw [LinearMap.mem_eqLocus] at this
  have e : bdry r f B = faceSign r (insert x B) x * f (insert x B) + faceSign r (insert y B) y * f (insert y B) := this
  rw [e]; ring

/-- two neighbouring facets -/
theorem neighbours {C D : Finset T} (hC : Facet K (k + 1) C) (hD : Facet K (k + 1) D) (h : (C ∩ D).card = k + 1) :
    ∃ x y, x ∉ C ∩ D ∧ y ∉ C ∩ D ∧ x ≠ y ∧ C = insert x (C ∩ D) ∧ D = insert y (C ∩ D) := by
  obtain ⟨x, hx, ex⟩ := Finset.exists_eq_insert_iff.mpr ⟨Finset.inter_subset_left (s₁ := C) (s₂ := D), by rw [h, hC.2]⟩
  obtain ⟨y, hy, ey⟩ := Finset.exists_eq_insert_iff.mpr ⟨Finset.inter_subset_right (s₁ := C) (s₂ := D), by rw [h, hD.2]⟩
  refine ⟨x, y, hx, hy, ?_, ex.symm, ey.symm⟩
  rintro rfl
  apply hx
  have h1 : x ∈ C := by rw [← ex]; exact Finset.mem_insert_self _ _
  have h2 : x ∈ D := by rw [← ey]; exact Finset.mem_insert_self _ _
  exact Finset.mem_inter.mpr ⟨h1, h2⟩

include M hcl

theorem two_cofaces {B : Finset T} (hB : K B) (hc : B.card = k + 1) : ∃ x y, x ∉ B ∧ y ∉ B ∧ x ≠ y ∧ K (insert x B) ∧ K (insert y B) := by
  obtain ⟨C, D, hCD, h⟩ := M.two B hB hc
  obtain ⟨fC, bC⟩ := (h C).mpr (Or.inl rfl)
  obtain ⟨fD, bD⟩ := (h D).mpr (Or.inr rfl)
  obtain ⟨x, hx, ex⟩ := Finset.exists_eq_insert_iff.mpr ⟨bC, by rw [hc, fC.2]⟩
  obtain ⟨y, hy, ey⟩ := Finset.exists_eq_insert_iff.mpr ⟨bD, by rw [hc, fD.2]⟩
  refine ⟨x, y, hx, hy, ?_, by rw [ex]; exact fC.1, by rw [ey]; exact fD.1⟩
  rintro rfl
  exact hCD (ex.symm.trans ey)

theorem step_cong {m : ℤ} {f : Finset T →₀ ℤ} (hf : f ∈ Chains K (k + 1)) (hm : ∀ B, m ∣ bdry r f B) {C D : Finset T} (hC : Facet K (k + 1) C)
    (hD : Facet K (k + 1) D) (h : (C ∩ D).card = k + 1) : m ∣ f C - f D ∨ m ∣ f C + f D := by
  obtain ⟨x, y, hx, hy, hxy, eC, eD⟩ := neighbours hC hD h
  have := bdry_ridge (r := r) h hx hy hxy M hcl (by rw [← eC]; exact hC.1) (by rw [← eD]; exact hD.1) hf
  have hd := hm (C ∩ D)
  rw [this, ← eC, ← eD] at hd
  rcases faceSign_unit r C x with e1 | e1 <;> rcases faceSign_unit r D y with e2 | e2 <;> rw [e1, e2] at hd
  · right; simpa using hd
  · left; simpa [sub_eq_add_neg] using hd
  · left
    have := (dvd_neg (a := m)).mpr hd
    refine (Eq.subst (motive := fun z => m ∣ z) ?_ this); ring
  · right
    have := (dvd_neg (a := m)).mpr hd
    refine (Eq.subst (motive := fun z => m ∣ z) ?_ this); ring

theorem conn_cong {m : ℤ} {f : Finset T →₀ ℤ} (hf : f ∈ Chains K (k + 1)) (hm : ∀ B, m ∣ bdry r f B) {C D : Finset T} (hC : Facet K (k + 1) C)
    (hD : Facet K (k + 1) D) : m ∣ f C - f D ∨ m ∣ f C + f D := by
  have := M.connected C D hC hD
  clear hD
  induction this with
  | refl => left; simp
  | @tail P Q _ h ih =>
    obtain ⟨h1, h2, h3⟩ := h
    rcases ih with i | i <;> rcases step_cong M hcl hf hm h1 h2 h3 with j | j
    · left; have := dvd_add i j; refine (Eq.subst (motive := fun z => m ∣ z) ?_ this); ring
    · right; have := dvd_add i j; refine (Eq.subst (motive := fun z => m ∣ z) ?_ this); ring
    · right; have := dvd_sub i j; refine (Eq.subst (motive := fun z => m ∣ z) ?_ this); ring
    · left; have := dvd_sub i j; refine (Eq.subst (motive := fun z => m ∣ z) ?_ this); ring

theorem nonoriented {m : ℤ} {f : Finset T →₀ ℤ} (hno : ¬ ∃ o, Oriented K r (k + 1) o) (hf : f ∈ Chains K (k + 1)) (hm : ∀ B, m ∣ bdry r f B)
    {C : Finset T} (hC : Facet K (k + 1) C) : m ∣ 2 * f C := by
  classical
  by_contra hcon
  apply hno
  let o : Finset T → ℤ := fun D => if m ∣ f C - f D then 1 else -1
  have ho : ∀ D, Facet K (k + 1) D → m ∣ f D - o D * f C := by
    intro D hD
    by_cases h : m ∣ f C - f D
    · have e : o D = 1 := if_pos h
      rw [e]
      have := (dvd_neg (a := m)).mpr h
      refine (Eq.subst (motive := fun z => m ∣ z) ?_ this); ring
    · have e : o D = -1 := if_neg h
      rw [e]
      have := (conn_cong M hcl hf hm hC hD).resolve_left h
      refine (Eq.subst (motive := fun z => m ∣ z) ?_ this); ring
  have hu : ∀ D, o D = 1 ∨ o D = -1 := by
    intro D
    by_cases h : m ∣ f C - f D
    · exact Or.inl (if_pos h)
    · exact Or.inr (if_neg h)
  refine ⟨o, hu, fun B x y hB hx hy hxy hKx hKy => ?_⟩
  have fx : Facet K (k + 1) (insert x B) := ⟨hKx, by rw [Finset.card_insert_of_notMem hx, hB]⟩
  have fy : Facet K (k + 1) (insert y B) := ⟨hKy, by rw [Finset.card_insert_of_notMem hy, hB]⟩
  have hb := bdry_ridge (r := r) hB hx hy hxy M hcl hKx hKy hf
  have hd := hm B
  rw [hb] at hd
  have d1 := ho _ fx
  have d2 := ho _ fy
  have d3 : m ∣ (o (insert x B) * faceSign r (insert x B) x + o (insert y B) * faceSign r (insert y B) y) * f C := by
    have := dvd_sub hd (dvd_add (d1.mul_right (faceSign r (insert x B) x)) (d2.mul_right (faceSign r (insert y B) y)))
    refine (Eq.subst (motive := fun z => m ∣ z) ?_ this); ring
  rcases hu (insert x B) with o1 | o1 <;> rcases hu (insert y B) with o2 | o2 <;> rcases faceSign_unit r (insert x B) x with s1 | s1 <;>
    rcases faceSign_unit r (insert y B) y with s2 | s2 <;> rw [o1, o2, s1, s2] at d3 <;> rw [o1, o2, s1, s2] <;> norm_num at d3 ⊢ <;>
    exact hcon (by simpa using d3)

theorem oriented_cong {m : ℤ} {f : Finset T →₀ ℤ} {o : Finset T → ℤ} (ho : Oriented K r (k + 1) o) (hf : f ∈ Chains K (k + 1))
    (hm : ∀ B, m ∣ bdry r f B) {C D : Finset T} (hC : Facet K (k + 1) C) (hD : Facet K (k + 1) D) : m ∣ o D * f D - o C * f C := by
  have := M.connected C D hC hD
  clear hD
  induction this with
  | refl => simp
  | @tail P Q _ h ih =>
    obtain ⟨h1, h2, h3⟩ := h
    refine (Eq.subst (motive := fun z => m ∣ z) (by ring) (dvd_add ih (?_ : m ∣ o Q * f Q - o P * f P)))
    obtain ⟨x, y, hx, hy, hxy, eP, eQ⟩ := neighbours h1 h2 h3
    have hb := bdry_ridge (r := r) h3 hx hy hxy M hcl (by rw [← eP]; exact h1.1) (by rw [← eQ]; exact h2.1) hf
    have e := ho.2 _ x y h3 hx hy hxy (by rw [← eP]; exact h1.1) (by rw [← eQ]; exact h2.1)
    have hd := hm (P ∩ Q)
    rw [hb, ← eP, ← eQ] at hd
    rw [← eP, ← eQ] at e
    have hs : faceSign r P x * faceSign r P x = 1 := by rcases faceSign_unit r P x with e | e <;> rw [e] <;> norm_num
    have ht : faceSign r Q y * faceSign r Q y = 1 := by rcases faceSign_unit r Q y with e | e <;> rw [e] <;> norm_num
    have h4 := hd.mul_right (o Q * faceSign r Q y)
    have h5 : o Q * faceSign r Q y = -(o P * faceSign r P x) := by linarith
    have h6 : o Q * f Q - o P * f P = (f P * faceSign r P x + f Q * faceSign r Q y) * (o Q * faceSign r Q y) := by
      have : (f P * faceSign r P x + f Q * faceSign r Q y) * (o Q * faceSign r Q y) =
        f P * faceSign r P x * (o Q * faceSign r Q y) + f Q * o Q * (faceSign r Q y * faceSign r Q y) := by ring
      rw [this, h5, ht]
      have : f P * faceSign r P x * -(o P * faceSign r P x) = -(f P * o P * (faceSign r P x * faceSign r P x)) := by ring
      rw [this, hs]; ring
    rw [h6]; exact h4

omit M hcl

open Classical in
/-- the chain with given coefficients on the facets -/
noncomputable def ofFun (F : Finset (Finset T)) (K : Finset T → Prop) (n : Nat) (u : Finset T → ℤ) : Finset T →₀ ℤ :=
  Finsupp.onFinset (F.filter (Facet K n)) (fun A => if A ∈ F.filter (Facet K n) then u A else 0) (fun A h => by
    by_contra hA
    exact h (if_neg hA))

include hF in
theorem ofFun_facet {n : Nat} (u : Finset T → ℤ) {A : Finset T} (hA : Facet K n A) : ofFun F K n u A = u A := by
  classical
  rw [ofFun, Finsupp.onFinset_apply, if_pos (Finset.mem_filter.mpr ⟨hF A hA.1, hA⟩)]

theorem ofFun_off {n : Nat} (u : Finset T → ℤ) {A : Finset T} (hA : ¬ Facet K n A) : ofFun F K n u A = 0 := by
  classical
  rw [ofFun, Finsupp.onFinset_apply, if_neg (fun h => hA (Finset.mem_filter.mp h).2)]

theorem ofFun_mem {n : Nat} (u : Finset T → ℤ) : ofFun F K n u ∈ Chains K n := chain_of_off (fun A hA => ofFun_off F u hA)

/-- dividing a chain -/
theorem div_chain {m : ℤ} {n : Nat} {f : Finset T →₀ ℤ} (hf : f ∈ Chains K n) (hd : ∀ A, m ∣ f A) : ∃ h ∈ Chains K n, f = m • h := by
  refine ⟨f.mapRange (fun z => z / m) (by simp), chain_of_off (fun A hA => ?_), ?_⟩
  · rw [Finsupp.mapRange_apply, chain_off hf hA]; simp
  · ext A
    rw [Finsupp.smul_apply, Finsupp.mapRange_apply, smul_eq_mul, Int.mul_ediv_cancel' (hd A)]

theorem smul_inj {m : ℤ} (hm : m ≠ 0) {u v : Finset T →₀ ℤ} (h : m • u = m • v) : u = v := by
  have : m • (u - v) = 0 := by rw [smul_sub, h, sub_self]
  exact sub_eq_zero.mp ((smul_eq_zero.mp this).resolve_left hm)

include M in
theorem no_higher : Bounds K r (k + 1) = ⊥ := by
  have : Chains K (k + 1 + 1) = ⊥ := by
    rw [eq_bot_iff]
    refine chains_le (fun A hA hc => ?_)
    obtain ⟨C, hC, hAC⟩ := M.pure A hA
    have := Finset.card_le_card hAC
    rw [hC.2] at this
    omega
  rw [Bounds, this, Submodule.map_bot]

include hcl in
theorem bdry_off {f : Finset T →₀ ℤ} (hf : f ∈ Chains K (k + 1)) {B : Finset T} (hB : ¬ Facet K k B) : bdry r f B = 0 :=
  chain_off (bdry_chains hcl k ⟨f, hf, rfl⟩) hB

include M in
theorem some_facet : ∃ C, Facet K (k + 1) C := by
  obtain ⟨A, hA⟩ := M.nonempty
  obtain ⟨C, hC, -⟩ := M.pure A hA
  exact ⟨C, hC⟩

/-! ### orientable -/

include M hcl hF in
theorem fundamental {o : Finset T → ℤ} (ho : Oriented K r (k + 1) o) : bdry r (ofFun F K (k + 1) o) = 0 := by
  ext B
  rw [Finsupp.zero_apply]
  by_cases hB : Facet K k B
  · obtain ⟨x, y, hx, hy, hxy, hKx, hKy⟩ := two_cofaces M hcl hB.1 hB.2
    rw [bdry_ridge hB.2 hx hy hxy M hcl hKx hKy (ofFun_mem F o), ofFun_facet F hF o ⟨hKx, by rw [Finset.card_insert_of_notMem hx, hB.2]⟩,
      ofFun_facet F hF o ⟨hKy, by rw [Finset.card_insert_of_notMem hy, hB.2]⟩]
    exact ho.2 B x y hB.2 hx hy hxy hKx hKy
  · exact bdry_off hcl (ofFun_mem F o) hB

include M hcl hF in
/-- a chain whose boundary is divisible by `m` is a multiple of the fundamental cycle up to multiples of `m` -/
theorem oriented_split {o : Finset T → ℤ} (ho : Oriented K r (k + 1) o) {m : ℤ} {f : Finset T →₀ ℤ} (hf : f ∈ Chains K (k + 1))
    (hm : ∀ B, m ∣ bdry r f B) : ∃ (c : ℤ), ∃ h ∈ Chains K (k + 1), f = c • ofFun F K (k + 1) o + m • h := by
  obtain ⟨C, hC⟩ := some_facet M
  have hmem : f - (o C * f C) • ofFun F K (k + 1) o ∈ Chains K (k + 1) := Submodule.sub_mem _ hf (Submodule.smul_mem _ _ (ofFun_mem F o))
  obtain ⟨h, hh, e⟩ := div_chain (m := m) hmem (by
    intro A
    by_cases hA : Facet K (k + 1) A
    · rw [Finsupp.sub_apply, Finsupp.smul_apply, ofFun_facet F hF o hA, smul_eq_mul]
      have hd := (oriented_cong M hcl ho hf hm hC hA).mul_left (o A)
      have h1 : o A * o A = 1 := by rcases ho.1 A with e | e <;> rw [e] <;> norm_num
      have : f A - o C * f C * o A = o A * (o A * f A - o C * f C) := by
        rw [mul_sub, ← mul_assoc, h1]; ring
      rw [this]; exact hd
    · rw [chain_off hmem hA]; exact dvd_zero m)
  exact ⟨o C * f C, h, hh, by rw [← e]; abel⟩

include M hcl hF in
theorem oriented_top {o : Finset T → ℤ} (ho : Oriented K r (k + 1) o) : Nonempty (SimpHom K r (k + 1) ≃+ (Fin 1 → ℤ)) := by
  have hS : ofFun F K (k + 1) o ∈ Cycles K r (k + 1) := by
    rw [Cycles, if_neg (by omega)]
    exact ⟨ofFun_mem F o, LinearMap.mem_ker.mpr (fundamental M hcl F hF ho)⟩
  have hB : Bounds K r (k + 1) = ⊥ := no_higher M
  let g : ℤ →ₗ[ℤ] SimpHom K r (k + 1) := (Submodule.mkQ _).comp (LinearMap.toSpanSingleton ℤ _ ⟨ofFun F K (k + 1) o, hS⟩)
  have hinj : Function.Injective g := by
    rw [injective_iff_map_eq_zero]
    intro c e
    have : c • (⟨ofFun F K (k + 1) o, hS⟩ : Cycles K r (k + 1)) ∈ (Bounds K r (k + 1)).submoduleOf (Cycles K r (k + 1)) :=
      (Submodule.Quotient.mk_eq_zero _).mp e
    have h0 : c • ofFun F K (k + 1) o ∈ Bounds K r (k + 1) := this
    rw [hB, Submodule.mem_bot] at h0
    obtain ⟨C, hC⟩ := some_facet M
    have := congrArg (fun f => f C) h0
    simp only [Finsupp.smul_apply, Finsupp.zero_apply, smul_eq_mul, ofFun_facet F hF o hC] at this
    rcases ho.1 C with h | h <;> rw [h] at this <;> simpa using this
  have hsurj : Function.Surjective g := by
    intro q
    obtain ⟨⟨z, hz⟩, rfl⟩ := Submodule.Quotient.mk_surjective _ q
    obtain ⟨h1, h2⟩ := Submodule.mem_inf.mp hz
    rw [if_neg (by omega), LinearMap.mem_ker] at h2
    obtain ⟨c, h, hh, e⟩ := oriented_split M hcl F hF ho (m := 0) h1 (by rw [h2]; simp)
    rw [zero_smul, add_zero] at e
    subst e
    exact ⟨c, rfl⟩
  exact ⟨((LinearEquiv.ofBijective g ⟨hinj, hsurj⟩).symm.trans (LinearEquiv.funUnique (Fin 1) ℤ ℤ).symm).toAddEquiv⟩

include M hcl hF in
theorem oriented_torsion {o : Finset T → ℤ} (ho : Oriented K r (k + 1) o) {m : ℤ} (hm : m ≠ 0) (x : SimpHom K r k) (hx : m • x = 0) : x = 0 := by
  obtain ⟨⟨z, hz⟩, rfl⟩ := Submodule.Quotient.mk_surjective _ x
  have h1 : m • (⟨z, hz⟩ : Cycles K r k) ∈ (Bounds K r k).submoduleOf (Cycles K r k) := (Submodule.Quotient.mk_eq_zero _).mp hx
  have h2 : m • z ∈ Bounds K r k := h1
  obtain ⟨f, hf, e⟩ := h2
  have hf : f ∈ Chains K (k + 1) := hf
  obtain ⟨c, h, hh, e2⟩ := oriented_split M hcl F hF ho (m := m) hf (by
    intro B; rw [e, Finsupp.smul_apply, smul_eq_mul]; exact dvd_mul_right _ _)
  rw [e2, map_add, map_smul, map_smul, fundamental M hcl F hF ho, smul_zero, zero_add] at e
  refine (Submodule.Quotient.mk_eq_zero _).mpr ?_
  show z ∈ Bounds K r k
  exact ⟨h, hh, smul_inj hm e⟩

/-! ### not orientable -/

include M hcl in
theorem nonoriented_top (hno : ¬ ∃ o, Oriented K r (k + 1) o) : Nonempty (SimpHom K r (k + 1) ≃+ (Fin 0 → ℤ)) := by
  have hs : Subsingleton (SimpHom K r (k + 1)) := by
    refine (Submodule.Quotient.subsingleton_iff.mpr ?_)
    ext ⟨z, hz⟩
    simp only [Submodule.mem_top, iff_true]
    obtain ⟨h1, h2⟩ := Submodule.mem_inf.mp hz
    rw [if_neg (by omega), LinearMap.mem_ker] at h2
    have : z = 0 := by
      ext A
      rw [Finsupp.zero_apply]
      by_cases hA : Facet K (k + 1) A
      · have := nonoriented M hcl hno (m := 0) h1 (by rw [h2]; simp) hA
        rw [zero_dvd_iff] at this
        omega
      · exact chain_off h1 hA
    subst this
    exact Submodule.zero_mem _
  exact ⟨⟨⟨fun _ => 0, fun _ => 0, fun _ => hs.elim _ _, fun _ => Subsingleton.elim _ _⟩, fun _ _ => Subsingleton.elim _ _⟩⟩

include M hcl hF hr in
/-- the torsion of the homology below the top dimension has two elements -/
theorem nonoriented_torsion (hno : ¬ ∃ o, Oriented K r (k + 1) o) :
    ∃ τ : SimpHom K r k, τ ≠ 0 ∧ (2 : ℤ) • τ = 0 ∧ ∀ (m : ℤ) (x : SimpHom K r k), m ≠ 0 → m • x = 0 → x = 0 ∨ x = τ := by
  set e : Finset T →₀ ℤ := ofFun F K (k + 1) (fun _ => 1) with he
  have hem : e ∈ Chains K (k + 1) := ofFun_mem F _
  have heb : bdry r e ∈ Chains K k := bdry_chains hcl k ⟨e, hem, rfl⟩
  have heven : ∀ B, (2 : ℤ) ∣ bdry r e B := by
    intro B
    by_cases hB : Facet K k B
    · obtain ⟨x, y, hx, hy, hxy, hKx, hKy⟩ := two_cofaces M hcl hB.1 hB.2
      rw [bdry_ridge hB.2 hx hy hxy M hcl hKx hKy hem, he, ofFun_facet F hF _ ⟨hKx, by rw [Finset.card_insert_of_notMem hx, hB.2]⟩,
        ofFun_facet F hF _ ⟨hKy, by rw [Finset.card_insert_of_notMem hy, hB.2]⟩]
      rcases faceSign_unit r (insert x B) x with s1 | s1 <;> rcases faceSign_unit r (insert y B) y with s2 | s2 <;> rw [s1, s2] <;> norm_num
    · rw [bdry_off hcl hem hB]; exact dvd_zero _
  obtain ⟨c, hc, ec⟩ := div_chain heb heven
  have hcz : c ∈ Cycles K r k := by
    rw [Cycles]
    refine ⟨hc, ?_⟩
    split_ifs
    · trivial
    · rw [SetLike.mem_coe, LinearMap.mem_ker]
      refine smul_inj (m := 2) (by norm_num) ?_
      rw [← map_smul, ← ec, bdry_bdry hr hem, smul_zero]
  refine ⟨Submodule.Quotient.mk ⟨c, hcz⟩, ?_, ?_, ?_⟩
  · intro h0
    have h1 : (⟨c, hcz⟩ : Cycles K r k) ∈ (Bounds K r k).submoduleOf (Cycles K r k) := (Submodule.Quotient.mk_eq_zero _).mp h0
    obtain ⟨h, hh, e2⟩ : c ∈ Bounds K r k := h1
    have hh : h ∈ Chains K (k + 1) := hh
    obtain ⟨C, hC⟩ := some_facet M
    have hz : bdry r (e - (2 : ℤ) • h) = 0 := by
      rw [map_sub, map_smul, ec]
      show (2 : ℤ) • c - (2 : ℤ) • (bdry r h) = 0
      rw [e2, sub_self]
    have := nonoriented M hcl hno (m := 0) (f := e - (2 : ℤ) • h) (Submodule.sub_mem _ hem (Submodule.smul_mem _ _ hh)) (by rw [hz]; simp) hC
    rw [zero_dvd_iff, Finsupp.sub_apply, Finsupp.smul_apply, he, ofFun_facet F hF _ hC, smul_eq_mul] at this
    omega
  · refine (Submodule.Quotient.mk_eq_zero _).mpr ?_
    show (2 : ℤ) • c ∈ Bounds K r k
    rw [← ec]
    exact ⟨e, hem, rfl⟩
  · intro m x hm hx
    obtain ⟨⟨z, hz⟩, rfl⟩ := Submodule.Quotient.mk_surjective _ x
    have h1 : m • (⟨z, hz⟩ : Cycles K r k) ∈ (Bounds K r k).submoduleOf (Cycles K r k) := (Submodule.Quotient.mk_eq_zero _).mp hx
    obtain ⟨f, hf, e1⟩ : m • z ∈ Bounds K r k := h1
    have hf : f ∈ Chains K (k + 1) := hf
    have hmf : ∀ B, m ∣ bdry r f B := by intro B; rw [e1, Finsupp.smul_apply, smul_eq_mul]; exact dvd_mul_right _ _
    obtain ⟨h, hh, e2⟩ := div_chain (m := m) (f := (2 : ℤ) • f) (Submodule.smul_mem _ _ hf) (by
      intro A
      rw [Finsupp.smul_apply, smul_eq_mul]
      by_cases hA : Facet K (k + 1) A
      · exact nonoriented M hcl hno hf hmf hA
      · rw [chain_off hf hA]; simp)
    have e3 : bdry r h = (2 : ℤ) • z := by
      refine smul_inj hm ?_
      rw [← map_smul, ← e2, map_smul, e1, smul_comm]
    have hpar := fun {A B} (hA : Facet K (k + 1) A) (hB : Facet K (k + 1) B) =>
      conn_cong M hcl (m := 2) (f := h) (r := r) hh (by intro B; rw [e3, Finsupp.smul_apply, smul_eq_mul]; exact dvd_mul_right _ _) hA hB
    obtain ⟨C, hC⟩ := some_facet M
    rcases Int.even_or_odd (h C) with hev | hodd
    · left
      obtain ⟨h', hh', e4⟩ := div_chain (m := 2) hh (by
        intro A
        by_cases hA : Facet K (k + 1) A
        · have := hpar hC hA
          rw [even_iff_two_dvd] at hev
          rcases this with t | t <;> omega
        · rw [chain_off hh hA]; exact dvd_zero _)
      refine (Submodule.Quotient.mk_eq_zero _).mpr ?_
      show z ∈ Bounds K r k
      refine ⟨h', hh', smul_inj (m := 2) (by norm_num) ?_⟩
      rw [← e3, e4, map_smul]
    · right
      have hsub : h - e ∈ Chains K (k + 1) := Submodule.sub_mem _ hh hem
      obtain ⟨h', hh', e4⟩ := div_chain (m := 2) hsub (by
        intro A
        by_cases hA : Facet K (k + 1) A
        · have := hpar hC hA
          rw [Finsupp.sub_apply, he, ofFun_facet F hF _ hA]
          obtain ⟨q, hq⟩ := hodd
          rcases this with t | t <;> omega
        · rw [chain_off hsub hA]; exact dvd_zero _)
      refine (Submodule.Quotient.eq _).mpr ?_
      show z - c ∈ Bounds K r k
      refine ⟨h', hh', smul_inj (m := 2) (by norm_num) ?_⟩
      rw [← map_smul, ← e4, map_sub, e3, ec, smul_sub]

end
end Toppo.Simp
