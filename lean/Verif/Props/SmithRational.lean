import Verif.Props.SmithField
import Verif.Proof.SmithSim
import Verif.Props.Rational
import Verif.Props.LinAlg
import Verif.Props.FieldHomology
set_option linter.unusedVariables false
set_option linter.unusedSectionVars false

/-
C103: the generic linear algebra at the type `Rational` with checked `u64` arithmetic: `smith_normal_form`, `rank_as_linear_map` and the
homology with field coefficients, for every matrix of canonical rationals of every size and for every overflow behaviour `ok`.

Vocabulary: `val` is the number a representation stands for (C12); `rat ok` is the arithmetic of the code in which results outside `ok` panic
(`rat u64` is the machine, `rat (fun _ => true)` has no overflow).
-/
namespace Toppo.SmithF
open Toppo Toppo.Rational Toppo.RationalProps

/-- the representation `x` stands for the number `q`, in canonical form -/
def Stands (x : Rational) (q : ℚ) : Prop := Canonical x ∧ val x = q

theorem canonical_zero : Canonical Rational.zero := ⟨⟨by simp [Rational.zero], by simp [Rational.zero]⟩, by simp [Rational.zero]⟩
theorem canonical_one : Canonical Rational.one := ⟨⟨by simp [Rational.one], by simp [Rational.one]⟩, by simp [Rational.one]⟩
theorem val_zero : val Rational.zero = 0 := by simp [val, Rational.zero]
theorem val_one : val Rational.one = 1 := by simp [val, Rational.one]

theorem or_intro {α β : Type} {tot : Prop} {R : α → β → Prop} {x : Option α} {y : Option β} (h1 : ∀ r, x = some r → ∃ r', y = some r' ∧ R r r')
    (h2 : x = none → tot → y = none) : OR tot R x y := by
  match x with
  | some r => exact h1 r rfl
  | none => exact h2 rfl

theorem sim_rat (ok : Nat → Bool) : Sim (∀ x, ok x = true) Stands (rat ok) where
  zero := ⟨canonical_zero, val_zero⟩
  one := ⟨canonical_one, val_one⟩
  eqz := by
    rintro x x' ⟨hx, rfl⟩
    exact ⟨fun e => by rw [e]; exact val_zero, fun e => canonical_ext hx canonical_zero (by rw [e]; exact val_zero.symm)⟩
  add := by
    rintro x x' y y' ⟨hx, rfl⟩ ⟨hy, rfl⟩
    refine or_intro (fun r hr => ?_) (fun hn ht => ?_)
    · have := add_some hx.1.1 hy.1.1 hr
      exact ⟨_, rfl, this.1, this.2⟩
    · obtain ⟨r, hr⟩ := (c12_total x y hx hy).2.1
      rw [show ok = fun _ => true from funext ht] at hn
      exact absurd (show Rational.add _ x y = none from hn) (by rw [hr]; simp)
  sub := by
    rintro x x' y y' ⟨hx, rfl⟩ ⟨hy, rfl⟩
    refine or_intro (fun r hr => ?_) (fun hn ht => ?_)
    · have := sub_some hx.1.1 hy.1.1 hr
      exact ⟨_, rfl, this.1, this.2⟩
    · obtain ⟨r, hr⟩ := (c12_total x y hx hy).2.2.1
      rw [show ok = fun _ => true from funext ht] at hn
      exact absurd (show Rational.sub _ x y = none from hn) (by rw [hr]; simp)
  mul := by
    rintro x x' y y' ⟨hx, rfl⟩ ⟨hy, rfl⟩
    refine or_intro (fun r hr => ?_) (fun hn ht => ?_)
    · have := mul_some hx.1.1 hy.1.1 hr
      exact ⟨_, rfl, this.1, this.2⟩
    · obtain ⟨r, hr⟩ := (c12_total x y hx hy).1
      rw [show ok = fun _ => true from funext ht] at hn
      exact absurd (show Rational.mul _ x y = none from hn) (by rw [hr]; simp)
  div := by
    rintro x x' y y' ⟨hx, rfl⟩ ⟨hy, rfl⟩
    refine or_intro (fun r hr => ?_) (fun hn ht => ?_)
    · have h0 : y.numerator ≠ 0 := by
        intro e
        have : y = Rational.zero := canonical_ext hy canonical_zero (by rw [(val_eq_zero hy.1.1).mpr e, val_zero])
        subst this
        simp [rat, Rational.div] at hr
      have := div_some hx.1.1 hy.1.1 h0 hr
      refine ⟨_, ?_, this.1, this.2⟩
      simp only [exact]
      rw [if_neg]
      intro e; exact h0 ((val_eq_zero hy.1.1).mp e)
    · rw [show ok = fun _ => true from funext ht] at hn
      have := (c12_total x y hx hy).2.2.2.mp hn
      simp [exact, this]
  neg := by
    rintro x x' ⟨hx, rfl⟩ h0
    refine ⟨⟨hx.1, fun e => ?_⟩, val_neg x⟩
    exact absurd ((val_eq_zero hx.1.1).mpr e) h0

/-- the numbers of a matrix of rationals -/
def vals (a : Nat → Nat → Rational) : Nat → Nat → ℚ := fun i j => val (a i j)

/-- every entry inside the size is canonical (as produced by `Rational::new` and all operations except the negation of zero, C12) -/
def CanonM (n m : Nat) (a : Nat → Nat → Rational) : Prop := ∀ i j, i < n → j < m → Canonical (a i j)

theorem relM_vals {n m : Nat} {a : Nat → Nat → Rational} (h : CanonM n m a) : RelM Stands n m a (vals a) :=
  fun i j hi hj => ⟨h i j hi hj, rfl⟩

theorem RelM.canon {n m : Nat} {a : Nat → Nat → Rational} {a' : Nat → Nat → ℚ} (h : RelM Stands n m a a') : CanonM n m a :=
  fun i j hi hj => (h i j hi hj).1

theorem RelM.mat {n m : Nat} {a : Nat → Nat → Rational} {a' : Nat → Nat → ℚ} (h : RelM Stands n m a a') : mat n m (vals a) = mat n m a' :=
  mat_congr fun i j hi hj => (h i j hi hj).2

variable {n m : Nat}

/-- **C103** (Smith normal form of rational matrices). For every matrix `A` of canonical rationals and every overflow behaviour: whenever the
call returns, all entries of the five matrices are canonical and, as matrices of numbers, `P * A * Q = S`, `P_inv` and `Q_inv` are the two-sided
inverses of `P` and `Q`, `S` is zero off the diagonal, and exactly the first `rank A` diagonal entries are non-zero. -/
theorem c103_snf (ok : Nat → Bool) {a : Nat → Nat → Rational} (ha : CanonM n m a) {st : St Rational} (h : snf (rat ok) n m a = some st) :
    (CanonM n m st.a ∧ CanonM n n st.p ∧ CanonM n n st.pinv ∧ CanonM m m st.q ∧ CanonM m m st.qinv) ∧
    mat n n (vals st.p) * mat n m (vals a) * mat m m (vals st.q) = mat n m (vals st.a) ∧
    (mat n n (vals st.p) * mat n n (vals st.pinv) = 1 ∧ mat n n (vals st.pinv) * mat n n (vals st.p) = 1) ∧
    (mat m m (vals st.q) * mat m m (vals st.qinv) = 1 ∧ mat m m (vals st.qinv) * mat m m (vals st.q) = 1) ∧
    (∀ i j, i < n → j < m → i ≠ j → st.a i j = Rational.zero) ∧
    (∀ i, i < n → i < m → (st.a i i ≠ Rational.zero ↔ i < (mat n m (vals a)).rank)) := by
  have hnm : 0 < n ∧ 0 < m := by
    by_contra hh
    have : n = 0 ∨ m = 0 := by omega
    simp [snf, this] at h
  obtain ⟨st', h', hr⟩ := ((sim_rat ok).snf (relM_vals ha)).ret h
  obtain ⟨s, e, t1, t2, t3, t4, t5⟩ := c102_snf hnm.1 hnm.2 (vals a)
  have : s = st' := by rw [e] at h'; exact Option.some.inj h'
  subst this
  refine ⟨⟨hr.a.canon, hr.p.canon, hr.pinv.canon, hr.q.canon, hr.qinv.canon⟩, ?_, ?_, ?_, ?_, ?_⟩
  · rw [hr.p.mat, hr.q.mat, hr.a.mat]; exact t1
  · rw [hr.p.mat, hr.pinv.mat]; exact t2
  · rw [hr.q.mat, hr.qinv.mat]; exact t3
  · intro i j hi hj hij
    exact ((sim_rat ok).eqz (hr.a i j hi hj)).mpr (t4 i j hi hj hij)
  · intro i hi hj
    rw [← t5 i hi hj]
    exact not_congr ((sim_rat ok).eqz (hr.a i i hi hj))

/-- **C103** (no spurious panics). Without overflow the call returns for every non-empty matrix of canonical rationals. -/
theorem c103_snf_total (hn : 0 < n) (hm : 0 < m) {a : Nat → Nat → Rational} (ha : CanonM n m a) : ∃ st, snf (rat fun _ => true) n m a = some st := by
  obtain ⟨s, e, _⟩ := c102_snf hn hm (vals a)
  have := (sim_rat fun _ => true).snf (relM_vals ha)
  match hx : snf (rat fun _ => true) n m a with
  | some st => exact ⟨st, rfl⟩
  | none => rw [hx] at this; rw [this (fun _ => rfl)] at e; cases e

/-! ### the rank -/

section
variable {K : Type} [Field K] [DecidableEq K]

theorem rankPivot_exact (a : Nat → Nat → K) (k : Nat) : rankPivot (exact K) n m a k = some (LinAlg.rankPivot n m a k) ∧
    ((LinAlg.rankPivot n m a k).2 = false → (LinAlg.rankPivot n m a k).1 k k ≠ 0) := by
  have hc : ∀ b : Nat → Nat → K, (if b k k = (exact K).zero then
        match (rng (k + 2) n).find? (fun j => decide (b j k ≠ (exact K).zero)) with
        | some i => (rowOp (exact K) m b k i (exact K).one).bind fun a => some (a, false)
        | none => some (b, true)
      else some (b, false)) = some (if b k k = 0 then
        match (LinAlg.rng (k + 2) n).find? (fun j => decide (b j k ≠ 0)) with
        | some i => (LinAlg.rowOp b k i 1, false)
        | none => (b, true)
      else (b, false)) ∧ ((if b k k = 0 then
        match (LinAlg.rng (k + 2) n).find? (fun j => decide (b j k ≠ 0)) with
        | some i => (LinAlg.rowOp b k i 1, false)
        | none => (b, true)
      else (b, false)).2 = false → (if b k k = 0 then
        match (LinAlg.rng (k + 2) n).find? (fun j => decide (b j k ≠ 0)) with
        | some i => (LinAlg.rowOp b k i 1, false)
        | none => (b, true)
      else (b, false)).1 k k ≠ 0) := by
    intro b
    by_cases e : b k k = 0
    · rw [if_pos e, if_pos (show b k k = (exact K).zero from e)]
      have hf : (rng (k + 2) n).find? (fun j => decide (b j k ≠ (exact K).zero)) = (LinAlg.rng (k + 2) n).find? (fun j => decide (b j k ≠ 0)) := rfl
      rw [hf]
      cases hs : (LinAlg.rng (k + 2) n).find? (fun j => decide (b j k ≠ 0)) with
      | none => simp
      | some i =>
        simp only [rowOp_exact, Option.bind_some]
        refine ⟨rfl, fun _ => ?_⟩
        have : b i k ≠ 0 := by simpa using List.find?_some hs
        simpa [LinAlg.rowOp, e] using this
    · rw [if_neg e, if_neg (show ¬ b k k = (exact K).zero from e)]
      exact ⟨rfl, fun _ => e⟩
  simp only [rankPivot, LinAlg.rankPivot]
  by_cases e : a k k = 0
  · rw [if_pos (show a k k = (exact K).zero from e), if_pos e]
    have hf : (rng (k + 2) m).find? (fun i => decide (a k i ≠ (exact K).zero)) = (LinAlg.rng (k + 2) m).find? (fun i => decide (a k i ≠ 0)) := rfl
    rw [hf]
    cases hs : (LinAlg.rng (k + 2) m).find? (fun i => decide (a k i ≠ 0)) with
    | none => exact hc a
    | some j =>
      simp only [colOp_exact]
      exact hc (LinAlg.colOp a k j 1)
  · rw [if_neg (show ¬ a k k = (exact K).zero from e), if_neg e]
    exact hc a

theorem rankElim_exact (a : Nat → Nat → K) (k : Nat) (h : a k k ≠ 0) : rankElim (exact K) n m a k = some (LinAlg.rankElim n a k) := by
  have hfold : ∀ (l : List Nat) (b : Nat → Nat → K), l.foldlM (rankElimRow (exact K) m k) b =
      some (l.foldl (fun a l => if a l k = 0 then a else LinAlg.rowOp a l k ((0 - 1) * a l k)) b) := by
    intro l
    induction l with
    | nil => intro b; rfl
    | cons x l ih =>
      intro b
      have : rankElimRow (exact K) m k b x = some (if b x k = 0 then b else LinAlg.rowOp b x k ((0 - 1) * b x k)) := by
        by_cases e : b x k = 0
        · rw [if_pos e]; simp [rankElimRow, exact, e]
        · rw [if_neg e]
          have e' : ¬ b x k = (exact K).zero := e
          simp only [rankElimRow, if_neg e']
          exact rowOp_exact _ _ _ _ _
      rw [List.foldlM_cons, List.foldl_cons, this, Option.bind_eq_bind, Option.bind_some, ih]
  have hd : (exact K).div (exact K).one (a k k) = some (1 / a k k) := by simp [exact, h]
  simp only [rankElim, hd, Option.bind_eq_bind, Option.bind_some]
  rw [show (exact K).sub (1 / a k k) (exact K).one = some (1 / a k k - 1) from rfl]
  simp only [Option.bind_some, rowOp_exact, hfold]
  rfl

/-- with exact arithmetic the generic rank is the function of C37 -/
theorem rank_exact (a : Nat → Nat → K) : rankAsLinearMap (exact K) n m a = some (LinAlg.rankAsLinearMap n m a) := by
  have hfold : ∀ (l : List Nat) (s : (Nat → Nat → K) × Nat), l.foldlM (rankStep (exact K) n m) s = some (l.foldl (LinAlg.rankStep n m) s) := by
    intro l
    induction l with
    | nil => intro s; rfl
    | cons k l ih =>
      intro s
      have : rankStep (exact K) n m s k = some (LinAlg.rankStep n m s k) := by
        obtain ⟨h1, h2⟩ := rankPivot_exact (n := n) (m := m) s.1 k
        simp only [rankStep, h1, LinAlg.rankStep, Option.bind_eq_bind, Option.bind_some]
        rcases hp : LinAlg.rankPivot n m s.1 k with ⟨b, sk⟩
        rw [hp] at h2
        cases sk
        · simp only [Bool.false_eq_true, if_false]
          rw [rankElim_exact b k (h2 rfl)]; rfl
        · rfl
      rw [List.foldlM_cons, List.foldl_cons, this, Option.bind_eq_bind, Option.bind_some, ih]
  simp only [rankAsLinearMap, hfold]
  rfl
end

/-- **C103** (rank). For every matrix of canonical rationals: whatever `rank_as_linear_map` returns is what exact arithmetic would give (C37
says what that is), and without overflow it returns. -/
theorem c103_rank (ok : Nat → Bool) {a : Nat → Nat → Rational} (ha : CanonM n m a) :
    (∀ r, rankAsLinearMap (rat ok) n m a = some r → r = LinAlg.rankAsLinearMap n m (vals a)) ∧
    ((∀ x, ok x = true) → rankAsLinearMap (rat ok) n m a = some (LinAlg.rankAsLinearMap n m (vals a))) := by
  have hs := (sim_rat ok).rank (relM_vals ha)
  rw [rank_exact] at hs
  constructor
  · intro r hr
    obtain ⟨r', e, h⟩ := hs.ret hr
    rw [h]; exact (Option.some.inj e).symm
  · intro ht
    match hx : rankAsLinearMap (rat ok) n m a with
    | some r =>
      obtain ⟨r', e, h⟩ := hs.ret hx
      rw [h]; exact e.symm
    | none => rw [hx] at hs; cases hs ht

/-- **C103** (rank against the specification). A returned rank is never larger than the rank of the matrix of numbers, and it is the rank if it
is `min(rows, columns)`; the exact rank fails already without overflow (`c37_false`). -/
theorem c103_rank_bound (ok : Nat → Bool) {a : Nat → Nat → Rational} (ha : CanonM n m a) {r : Nat} (h : rankAsLinearMap (rat ok) n m a = some r) :
    r ≤ (mat n m (vals a)).rank ∧ (r = min n m → r = (mat n m (vals a)).rank) := by
  rw [(c103_rank ok ha).1 r h]
  exact ⟨LinAlg.c37_le_rank_partial _, fun e => LinAlg.c37_full_partial _ e⟩

/-- the boundary maps as matrices of numbers -/
def valMap (b : FHom.FMap Rational) : FHom.FMap ℚ := ⟨b.n, b.m, vals b.a⟩

/-- **C103** (homology with rational coefficients). For boundary maps with canonical entries: whatever the homology returns is what exact
arithmetic would give (C70 says what that is), and without overflow it returns exactly when exact arithmetic does. -/
theorem c103_homology (ok : Nat → Bool) {maps : List (FHom.FMap Rational)} (ha : ∀ b ∈ maps, CanonM b.n b.m b.a) :
    (∀ out, homology (rat ok) maps = some out → FHom.homology (maps.map valMap) = some out) ∧
    ((∀ x, ok x = true) → homology (rat ok) maps = FHom.homology (maps.map valMap)) := by
  have hik : ∀ b ∈ maps, OR (∀ x, ok x = true) Eq (imKer (rat ok) b) (FHom.imKer (valMap b)) := by
    intro b hb
    have hs := (sim_rat ok).rank (relM_vals (ha b hb))
    rw [rank_exact] at hs
    have e : FHom.imKer (valMap b) = (some (LinAlg.rankAsLinearMap b.n b.m (vals b.a))).bind fun im => if b.m < im then none else some (im, b.m - im) := rfl
    rw [e]
    refine OR.bind hs ?_
    rintro im _ rfl
    split
    · exact OR.none' rfl
    · exact OR.some' rfl
  have hmap : OR (∀ x, ok x = true) Eq (maps.mapM (imKer (rat ok))) ((maps.map valMap).mapM FHom.imKer) := by
    clear ha
    induction maps with
    | nil => exact OR.some' rfl
    | cons b maps ih =>
      rw [List.map_cons, List.mapM_cons, List.mapM_cons]
      refine OR.bind (hik b (by simp)) ?_
      rintro x _ rfl
      refine OR.bind (ih fun c hc => hik c (List.mem_cons_of_mem _ hc)) ?_
      rintro y _ rfl
      exact OR.some' rfl
  have hall : OR (∀ x, ok x = true) Eq (homology (rat ok) maps) (FHom.homology (maps.map valMap)) := by
    simp only [homology, FHom.homology]
    by_cases he : maps.isEmpty = true
    · rw [if_pos he, if_pos (by simpa using he)]; exact OR.some' rfl
    · rw [if_neg he, if_neg (by simpa using he)]
      refine OR.bind hmap ?_
      rintro ik _ rfl
      refine or_intro (fun r hr => ⟨r, hr, rfl⟩) (fun hn _ => hn)
  constructor
  · intro out ho
    obtain ⟨r, e, h⟩ := hall.ret ho
    rw [h]; exact e
  · intro ht
    match hx : homology (rat ok) maps with
    | some r => obtain ⟨r', e, h⟩ := hall.ret hx; rw [h]; exact e.symm
    | none => rw [hx] at hall; exact (hall ht).symm

/-! ### concrete cases -/

/-- `1/2, 2/3; 3/4, 1` -/
def exR : Nat → Nat → Rational := fun i j => if i = 0 then (if j = 0 then ⟨1, 2, true⟩ else ⟨2, 3, true⟩) else (if j = 0 then ⟨3, 4, true⟩ else ⟨1, 1, true⟩)

example : CanonM 2 2 exR := by
  intro i j hi hj
  have : (i = 0 ∨ i = 1) ∧ (j = 0 ∨ j = 1) := by omega
  obtain ⟨rfl | rfl, rfl | rfl⟩ := this <;> simp [exR, Canonical, Reduced] <;> decide

example : ((snf (rat u64) 2 2 exR).map fun st => [0, 1].map fun i => [0, 1].map fun j => st.a i j) =
    some [ [⟨1, 2, true⟩, ⟨0, 1, true⟩], [⟨0, 1, true⟩, ⟨0, 1, true⟩] ] := by decide +kernel

example : rankAsLinearMap (rat u64) 2 2 exR = some 1 := by decide +kernel

/-- overflow does happen on the machine with harmless-looking entries: the column `2^40, 1/2^40` makes the call panic; without overflow it returns -/
example : (snf (rat u64) 2 1 (fun i _ => if i = 0 then ⟨2 ^ 40, 1, true⟩ else ⟨1, 2 ^ 40, true⟩)).isNone = true ∧
    (snf (rat fun _ => true) 2 1 (fun i _ => if i = 0 then ⟨2 ^ 40, 1, true⟩ else ⟨1, 2 ^ 40, true⟩)).isSome = true := by decide +kernel

end Toppo.SmithF
