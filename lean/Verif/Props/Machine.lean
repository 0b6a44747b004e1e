import Verif.Model.SmithMachine
import Verif.Props.Smith
import Verif.Props.Homology
import Verif.Props.PID
set_option linter.unusedVariables false

/-
C100: Smith normal form and homology on machine integers.
-/
namespace Toppo.Smith
open Toppo

/-- whenever `x` returns, `y` returns the same -/
def Ref {α : Type} (x y : Option α) : Prop := ∀ v, x = some v → y = some v

theorem Ref.rfl' {α : Type} (x : Option α) : Ref x x := fun _ h => h

theorem Ref.bind {α β : Type} {x y : Option α} {f g : α → Option β} (h : Ref x y) (hf : ∀ v, Ref (f v) (g v)) : Ref (x >>= f) (y >>= g) := by
  intro v hv
  cases hx : x with
  | none => rw [hx] at hv; cases hv
  | some w =>
    rw [hx] at hv
    rw [h w hx]
    exact hf w v hv

theorem Ref.ite {α : Type} {c : Prop} [Decidable c] {x y x' y' : Option α} (h1 : Ref x y) (h2 : Ref x' y') : Ref (if c then x else x') (if c then y else y') := by
  split
  · exact h1
  · exact h2

theorem Ref.foldlM {α β : Type} {f g : β → α → Option β} (h : ∀ b a, Ref (f b a) (g b a)) : ∀ (l : List α) (b : β), Ref (l.foldlM f b) (l.foldlM g b)
  | [], b => Ref.rfl' _
  | a :: l, b => by
    rw [List.foldlM_cons, List.foldlM_cons]
    exact Ref.bind (h b a) (fun v => Ref.foldlM h l v)

theorem Ref.allM {α : Type} {f g : α → Option Bool} (h : ∀ a, Ref (f a) (g a)) : ∀ (l : List α), Ref (l.allM f) (l.allM g)
  | [] => Ref.rfl' _
  | a :: l => by
    unfold List.allM
    refine Ref.bind (h a) (fun v => ?_)
    cases v
    · exact Ref.rfl' _
    · exact Ref.allM h l

theorem Ref.mapM {α β : Type} {f g : α → Option β} (h : ∀ a, Ref (f a) (g a)) : ∀ (l : List α), Ref (l.mapM f) (l.mapM g)
  | [] => Ref.rfl' _
  | a :: l => by
    rw [List.mapM_cons, List.mapM_cons]
    exact Ref.bind (h a) (fun v => Ref.bind (Ref.mapM h l) (fun w => Ref.rfl' _))

/-- every integer that fits the first type fits the second -/
def Wider (ok ok' : Width) : Prop := ∀ x, ok x = true → ok' x = true

theorem wider_ideal (ok : Width) : Wider ok ideal := fun _ _ => rfl

theorem wider_fits {w w' : Nat} (h : w ≤ w') : Wider (fits w) (fits w') := by
  intro x hx
  simp only [fits, decide_eq_true_eq] at hx ⊢
  have : (2 ^ (w - 1) : Int) ≤ 2 ^ (w' - 1) := pow_le_pow_right₀ (by norm_num) (by omega)
  omega

variable {ok ok' : Width}

theorem ck_ref (h : Wider ok ok') (x : Int) : Ref (ck ok x) (ck ok' x) := by
  intro v hv
  unfold ck at hv ⊢
  split at hv
  · rename_i hx
    rw [if_pos (h x hx)]; exact hv
  · cases hv

theorem euclidDiv_ref (h : Wider ok ok') (a d : Int) : Ref (euclidDiv ok a d) (euclidDiv ok' a d) := by
  unfold euclidDiv
  refine Ref.ite (Ref.rfl' _) (Ref.bind (ck_ref h _) (fun q => ?_))
  simp only
  refine Ref.ite (Ref.ite ?_ ?_) (Ref.rfl' _)
  · exact Ref.bind (ck_ref h _) (fun _ => Ref.bind (ck_ref h _) (fun _ => Ref.rfl' _))
  · exact Ref.bind (ck_ref h _) (fun _ => Ref.bind (ck_ref h _) (fun _ => Ref.rfl' _))

theorem simplify_ref (h : Wider ok ok') (a : Int) : Ref (simplify ok a) (simplify ok' a) := by
  unfold simplify
  exact Ref.bind (ck_ref h _) (fun _ => Ref.rfl' _)

theorem divides_ref (h : Wider ok ok') (a n : Int) : Ref (divides ok a n) (divides ok' a n) :=
  Ref.bind (euclidDiv_ref h n a) (fun _ => Ref.rfl' _)

theorem bezoutRec_ref (h : Wider ok ok') : ∀ (k : Nat) (a b x1 x2 y1 y2 : Int), a.natAbs = k → Ref (bezoutRec ok a b x1 x2 y1 y2) (bezoutRec ok' a b x1 x2 y1 y2) := by
  intro k
  induction k using Nat.strong_induction_on with
  | _ k ih =>
    intro a b x1 x2 y1 y2 hk
    rw [bezoutRec, bezoutRec]
    refine Ref.ite ?_ ?_
    · exact Ref.bind (simplify_ref h b) (fun _ => Ref.bind (euclidDiv_ref h _ _) (fun _ => Ref.bind (euclidDiv_ref h _ _) (fun _ => Ref.rfl' _)))
    · cases e : euclidDiv ok b a with
      | none => intro v hv; cases hv
      | some qr =>
        obtain ⟨q, r⟩ := qr
        rw [euclidDiv_ref h b a _ e]
        have := euclidDiv_some e
        exact Ref.bind (ck_ref h _) (fun _ => Ref.bind (ck_ref h _) (fun _ => Ref.bind (ck_ref h _) (fun _ => Ref.bind (ck_ref h _) (fun _ =>
          ih r.natAbs (by omega) r a _ _ _ _ rfl))))

theorem bezout_ref (h : Wider ok ok') (a b : Int) : Ref (bezoutIdentity ok a b) (bezoutIdentity ok' a b) := bezoutRec_ref h _ a b _ _ _ _ rfl

theorem all_ref {α : Type} {l : List Nat} {p p' : Nat → Bool} (h : ∀ j, p j = true → p' j = true) (v : α) :
    Ref (if l.all p then some v else none) (if l.all p' then some v else none) := by
  intro w hw
  split at hw
  · rename_i ha
    rw [if_pos (List.all_eq_true.mpr (fun j hj => h j (List.all_eq_true.mp ha j hj)))]; exact hw
  · cases hw

theorem rowOpW_ref (h : Wider ok ok') (m : Nat) (a : M) (r1 r2 : Nat) (c : Int) : Ref (rowOpW ok m a r1 r2 c) (rowOpW ok' m a r1 r2 c) :=
  all_ref (fun j hj => by
    simp only [Bool.and_eq_true] at hj ⊢
    exact ⟨h _ hj.1, h _ hj.2⟩) _

theorem colOpW_ref (h : Wider ok ok') (m : Nat) (a : M) (r1 r2 : Nat) (c : Int) : Ref (colOpW ok m a r1 r2 c) (colOpW ok' m a r1 r2 c) :=
  all_ref (fun j hj => by
    simp only [Bool.and_eq_true] at hj ⊢
    exact ⟨h _ hj.1, h _ hj.2⟩) _

theorem mixRowsW_ref (h : Wider ok ok') (m : Nat) (a : M) (i k j0 : Nat) (x y z w : Int) : Ref (mixRowsW ok m a i k j0 x y z w) (mixRowsW ok' m a i k j0 x y z w) :=
  all_ref (fun j hj => by
    simp only [Bool.and_eq_true] at hj ⊢
    obtain ⟨⟨⟨⟨⟨h1, h2⟩, h3⟩, h4⟩, h5⟩, h6⟩ := hj
    exact ⟨⟨⟨⟨⟨h _ h1, h _ h2⟩, h _ h3⟩, h _ h4⟩, h _ h5⟩, h _ h6⟩) _

theorem mixColsW_ref (h : Wider ok ok') (m : Nat) (a : M) (i k j0 : Nat) (x y z w : Int) : Ref (mixColsW ok m a i k j0 x y z w) (mixColsW ok' m a i k j0 x y z w) :=
  all_ref (fun j hj => by
    simp only [Bool.and_eq_true] at hj ⊢
    obtain ⟨⟨⟨⟨⟨h1, h2⟩, h3⟩, h4⟩, h5⟩, h6⟩ := hj
    exact ⟨⟨⟨⟨⟨h _ h1, h _ h2⟩, h _ h3⟩, h _ h4⟩, h _ h5⟩, h _ h6⟩) _

theorem improveRowW_ref (h : Wider ok ok') (n m i j : Nat) (st : St) (k : Nat) : Ref (improveRowW ok n m i j st k) (improveRowW ok' n m i j st k) := by
  unfold improveRowW
  refine Ref.bind (divides_ref h _ _) (fun d => Ref.ite (Ref.rfl' _) ?_)
  refine Ref.bind (bezout_ref h _ _) (fun g => Ref.bind (euclidDiv_ref h _ _) (fun s => Ref.bind (euclidDiv_ref h _ _) (fun t => ?_)))
  refine Ref.bind (ck_ref h _) (fun t' => Ref.bind (mixRowsW_ref h _ _ _ _ _ _ _ _ _) (fun a => Ref.bind (mixRowsW_ref h _ _ _ _ _ _ _ _ _) (fun p => ?_)))
  exact Ref.bind (ck_ref h _) (fun y' => Ref.bind (mixColsW_ref h _ _ _ _ _ _ _ _ _) (fun pinv => Ref.rfl' _))

theorem improveColW_ref (h : Wider ok ok') (n m i j : Nat) (st : St) (k : Nat) : Ref (improveColW ok n m i j st k) (improveColW ok' n m i j st k) := by
  unfold improveColW
  refine Ref.bind (divides_ref h _ _) (fun d => Ref.ite (Ref.rfl' _) ?_)
  refine Ref.bind (bezout_ref h _ _) (fun g => Ref.bind (euclidDiv_ref h _ _) (fun s => Ref.bind (euclidDiv_ref h _ _) (fun t => ?_)))
  refine Ref.bind (ck_ref h _) (fun t' => Ref.bind (mixColsW_ref h _ _ _ _ _ _ _ _ _) (fun a => Ref.bind (mixColsW_ref h _ _ _ _ _ _ _ _ _) (fun p => ?_)))
  exact Ref.bind (ck_ref h _) (fun y' => Ref.bind (mixRowsW_ref h _ _ _ _ _ _ _ _ _) (fun pinv => Ref.rfl' _))

theorem colDivW_ref (h : Wider ok ok') (n i j : Nat) (st : St) : Ref (colDivW ok n i j st) (colDivW ok' n i j st) := Ref.allM (fun k => divides_ref h _ _) _
theorem rowDivW_ref (h : Wider ok ok') (n i j : Nat) (st : St) : Ref (rowDivW ok n i j st) (rowDivW ok' n i j st) := Ref.allM (fun k => divides_ref h _ _) _

theorem improveW_ref (h : Wider ok ok') (n m i j : Nat) : ∀ (fuel : Nat) (st : St), Ref (improveW ok n m i j fuel st) (improveW ok' n m i j fuel st)
  | 0, st => Ref.rfl' _
  | fuel + 1, st => by
    unfold improveW
    refine Ref.bind (colDivW_ref h _ _ _ _) (fun b => ?_)
    refine Ref.ite (Ref.bind (rowDivW_ref h _ _ _ _) (fun b => ?_)) (Ref.bind (Ref.rfl' _) (fun b => ?_))
    all_goals
      refine Ref.ite (Ref.rfl' _) ?_
      refine Ref.bind (Ref.foldlM (fun st k => improveRowW_ref h n m i j st k) _ _) (fun st => Ref.bind (colDivW_ref h _ _ _ _) (fun b => Ref.ite ?_ (Ref.rfl' _)))
      exact Ref.bind (Ref.foldlM (fun st k => improveColW_ref h n m i j st k) _ _) (fun st => Ref.bind (rowDivW_ref h _ _ _ _) (fun b => Ref.ite (improveW_ref h n m i j fuel st) (Ref.rfl' _)))

theorem elimRowW_ref (h : Wider ok ok') (n m i j : Nat) (st : St) (k : Nat) : Ref (elimRowW ok n m i j st k) (elimRowW ok' n m i j st k) := by
  unfold elimRowW
  refine Ref.ite (Ref.rfl' _) (Ref.bind (euclidDiv_ref h _ _) (fun r => Ref.bind (ck_ref h _) (fun r' => ?_)))
  exact Ref.bind (rowOpW_ref h _ _ _ _ _) (fun _ => Ref.bind (rowOpW_ref h _ _ _ _ _) (fun _ => Ref.bind (colOpW_ref h _ _ _ _ _) (fun _ => Ref.rfl' _)))

theorem elimColW_ref (h : Wider ok ok') (n m i j : Nat) (st : St) (k : Nat) : Ref (elimColW ok n m i j st k) (elimColW ok' n m i j st k) := by
  unfold elimColW
  refine Ref.ite (Ref.rfl' _) (Ref.bind (euclidDiv_ref h _ _) (fun r => Ref.bind (ck_ref h _) (fun r' => ?_)))
  exact Ref.bind (colOpW_ref h _ _ _ _ _) (fun _ => Ref.bind (colOpW_ref h _ _ _ _ _) (fun _ => Ref.bind (rowOpW_ref h _ _ _ _ _) (fun _ => Ref.rfl' _)))

theorem mainLoopW_ref (h : Wider ok ok') (n m : Nat) : ∀ (fuel i j : Nat) (st : St), Ref (mainLoopW ok n m fuel i j st) (mainLoopW ok' n m fuel i j st)
  | 0, _, _, _ => Ref.rfl' _
  | fuel + 1, i, j, st => by
    unfold mainLoopW
    refine Ref.ite ?_ (Ref.rfl' _)
    cases findCol n m i j st.a with
    | none => exact Ref.rfl' _
    | some j =>
      refine Ref.bind (Ref.rfl' _) (fun st => Ref.bind (improveW_ref h n m i j fuel st) (fun st => ?_))
      refine Ref.bind (Ref.foldlM (fun st k => elimRowW_ref h n m i j st k) _ _) (fun st => ?_)
      exact Ref.bind (Ref.foldlM (fun st k => elimColW_ref h n m i j st k) _ _) (fun st => mainLoopW_ref h n m fuel (i + 1) (j + 1) st)

theorem fixStepW_ref (h : Wider ok ok') (n m r : Nat) (st : St) (s : Nat) : Ref (fixStepW ok n m r st s) (fixStepW ok' n m r st s) := by
  unfold fixStepW
  refine Ref.bind (divides_ref h _ _) (fun d => Ref.ite (Ref.rfl' _) ?_)
  refine Ref.bind (colOpW_ref h _ _ _ _ _) (fun _ => Ref.bind (colOpW_ref h _ _ _ _ _) (fun _ => Ref.bind (rowOpW_ref h _ _ _ _ _) (fun _ => ?_)))
  refine Ref.bind (bezout_ref h _ _) (fun g => Ref.bind (euclidDiv_ref h _ _) (fun s => Ref.bind (euclidDiv_ref h _ _) (fun t => ?_)))
  refine Ref.bind (ck_ref h _) (fun t' => Ref.bind (mixRowsW_ref h _ _ _ _ _ _ _ _ _) (fun a => Ref.bind (mixRowsW_ref h _ _ _ _ _ _ _ _ _) (fun p => ?_)))
  refine Ref.bind (ck_ref h _) (fun y' => Ref.bind (mixColsW_ref h _ _ _ _ _ _ _ _ _) (fun pinv => Ref.bind (ck_ref h _) (fun _ => ?_)))
  exact Ref.bind (colOpW_ref h _ _ _ _ _) (fun _ => Ref.bind (colOpW_ref h _ _ _ _ _) (fun _ => Ref.bind (ck_ref h _) (fun _ => Ref.bind (rowOpW_ref h _ _ _ _ _) (fun _ => Ref.rfl' _))))

theorem snfW_ref (h : Wider ok ok') (fuel n m : Nat) (a : M) : Ref (snfW ok fuel n m a) (snfW ok' fuel n m a) := by
  unfold snfW
  refine Ref.ite (Ref.rfl' _) (Ref.bind (mainLoopW_ref h n m fuel 0 0 _) (fun st => ?_))
  refine Ref.bind (Ref.foldlM (fun st r => Ref.foldlM (fun st s => fixStepW_ref h n m r st s) _ _) _ _) (fun st => ?_)
  exact Ref.bind (Ref.allM (fun i => Ref.allM (fun k => divides_ref h _ _) _) _) (fun b => Ref.rfl' _)

/-! ### unbounded integers -/

theorem ck_ideal (x : Int) : ck ideal x = some x := rfl

theorem rowOpW_ideal (m : Nat) (a : M) (r1 r2 : Nat) (c : Int) : rowOpW ideal m a r1 r2 c = some (rowOp a r1 r2 c) := by simp [rowOpW, ideal]
theorem colOpW_ideal (m : Nat) (a : M) (r1 r2 : Nat) (c : Int) : colOpW ideal m a r1 r2 c = some (colOp a r1 r2 c) := by simp [colOpW, ideal]
theorem mixRowsW_ideal (m : Nat) (a : M) (i k j0 : Nat) (x y z w : Int) : mixRowsW ideal m a i k j0 x y z w = some (mixRows a i k j0 x y z w) := by simp [mixRowsW, ideal]
theorem mixColsW_ideal (m : Nat) (a : M) (i k j0 : Nat) (x y z w : Int) : mixColsW ideal m a i k j0 x y z w = some (mixCols a i k j0 x y z w) := by simp [mixColsW, ideal]

theorem improveRowW_ideal (n m i j : Nat) : improveRowW ideal n m i j = improveRow i j := by
  funext st k
  simp only [improveRowW, improveRow, ck_ideal, mixRowsW_ideal, mixColsW_ideal, Option.bind_eq_bind, Option.bind_some]

theorem improveColW_ideal (n m i j : Nat) : improveColW ideal n m i j = improveCol i j := by
  funext st k
  simp only [improveColW, improveCol, ck_ideal, mixRowsW_ideal, mixColsW_ideal, Option.bind_eq_bind, Option.bind_some]

theorem improveW_ideal (n m i j : Nat) : ∀ (fuel : Nat) (st : St), improveW ideal n m i j fuel st = improve n m i j fuel st
  | 0, st => rfl
  | fuel + 1, st => by
    unfold improveW improve
    simp only [improveRowW_ideal, improveColW_ideal, improveW_ideal n m i j fuel]
    rfl

theorem elimRowW_ideal (n m i j : Nat) : elimRowW ideal n m i j = elimRow i j := by
  funext st k
  simp only [elimRowW, elimRow, ck_ideal, rowOpW_ideal, colOpW_ideal, Option.bind_eq_bind, Option.bind_some]

theorem elimColW_ideal (n m i j : Nat) : elimColW ideal n m i j = elimCol i j := by
  funext st k
  simp only [elimColW, elimCol, ck_ideal, rowOpW_ideal, colOpW_ideal, Option.bind_eq_bind, Option.bind_some]

theorem mainLoopW_ideal (n m : Nat) : ∀ (fuel i j : Nat) (st : St), mainLoopW ideal n m fuel i j st = mainLoop n m fuel i j st
  | 0, _, _, _ => rfl
  | fuel + 1, i, j, st => by
    unfold mainLoopW mainLoop
    simp only [elimRowW_ideal, elimColW_ideal, improveW_ideal, mainLoopW_ideal n m fuel]
    split
    · cases findCol n m i j st.a <;> rfl
    · rfl

theorem fixStepW_ideal (n m r : Nat) : fixStepW ideal n m r = fixStep r := by
  funext st s
  simp only [fixStepW, fixStep, ck_ideal, rowOpW_ideal, colOpW_ideal, mixRowsW_ideal, mixColsW_ideal, Option.bind_eq_bind, Option.bind_some]

theorem snfW_ideal (fuel n m : Nat) (a : M) : snfW ideal fuel n m a = snf fuel n m a := by
  unfold snfW snf snfDiag
  split
  · rfl
  · simp only [mainLoopW_ideal, fixLoopW, fixLoop, fixStepW_ideal, Option.bind_eq_bind, Option.bind_assoc]
    rfl

end Toppo.Smith

namespace Toppo.Hom
open Toppo Smith

variable {B : Type} [LinearOrder B] {ok ok' : Width}

theorem smulW_ref (h : Wider ok ok') (v : FSum Int B) (d : Int) : Ref (smulW ok v d) (smulW ok' v d) := by
  unfold smulW
  refine Ref.ite (Ref.rfl' _) ?_
  intro w hw
  split at hw
  · rename_i ha
    rw [if_pos (List.all_eq_true.mpr (fun j hj => h _ (List.all_eq_true.mp ha j hj)))]; exact hw
  · cases hw

theorem stepW_ref (h : Wider ok ok') (fuel : Nat) (hi : Hi) (b : BMap B) : Ref (stepW ok fuel hi b) (stepW ok' fuel hi b) := by
  unfold stepW
  refine Ref.bind (snfW_ref h fuel b.n b.m b.a) (fun st => Ref.ite (Ref.rfl' _) (Ref.ite (Ref.rfl' _) ?_))
  refine Ref.bind (Ref.rfl' _) (fun cyc => Ref.bind (Ref.rfl' _) (fun bnd => Ref.bind (Ref.mapM (fun xi => ?_) _) (fun _ => Ref.rfl' _)))
  exact Ref.bind (Ref.rfl' _) (fun d => smulW_ref h _ _)

theorem runW_ref (h : Wider ok ok') (fuel : Nat) (init : Hi) : ∀ (l : List (BMap B)), Ref (runW ok fuel init l) (runW ok' fuel init l)
  | [] => Ref.rfl' _
  | b :: l => Ref.bind (runW_ref h fuel init l) (fun r => Ref.bind (stepW_ref h fuel _ b) (fun _ => Ref.rfl' _))

theorem newW_ref (h : Wider ok ok') (fuel : Nat) (cplx : List (BMap B)) (maxDim : Option Nat) : Ref (newW ok fuel cplx maxDim) (newW ok' fuel cplx maxDim) :=
  Ref.bind (Ref.rfl' _) (fun last => Ref.bind (runW_ref h fuel _ cplx) (fun _ => Ref.rfl' _))

theorem smulW_ideal (v : FSum Int B) (d : Int) : smulW ideal v d = some (FSum.smul v d) := by
  unfold smulW
  split
  · rename_i h; simp [h, FSum.smul]
  · simp [ideal]

theorem stepW_ideal (fuel : Nat) (hi : Hi) (b : BMap B) : stepW ideal fuel hi b = step fuel hi b := by
  simp only [stepW, step, snfW_ideal, smulW_ideal]
  rfl

theorem runW_ideal (fuel : Nat) (init : Hi) : ∀ (l : List (BMap B)), runW ideal fuel init l = run fuel init l
  | [] => rfl
  | b :: l => by
    rw [runW, run, runW_ideal fuel init l]
    simp only [stepW_ideal]

theorem newW_ideal (fuel : Nat) (cplx : List (BMap B)) (maxDim : Option Nat) : newW ideal fuel cplx maxDim = new fuel cplx maxDim := by
  simp only [newW, new, runW_ideal]
  cases maxDim <;> rfl

theorem step_mono {f f' : Nat} (h : f ≤ f') (hi : Hi) (b : BMap B) : Ref (step f hi b) (step f' hi b) :=
  Ref.bind (fun v hv => snf_mono h hv) (fun _ => Ref.rfl' _)

theorem run_mono {f f' : Nat} (h : f ≤ f') (init : Hi) : ∀ (l : List (BMap B)), Ref (run f init l) (run f' init l)
  | [] => Ref.rfl' _
  | b :: l => Ref.bind (run_mono h init l) (fun r => Ref.bind (step_mono h _ b) (fun _ => Ref.rfl' _))

theorem new_mono {f f' : Nat} (h : f ≤ f') (cplx : List (BMap B)) (maxDim : Option Nat) : Ref (new f cplx maxDim) (new f' cplx maxDim) :=
  Ref.bind (Ref.rfl' _) (fun last => Ref.bind (run_mono h _ cplx) (fun _ => Ref.rfl' _))

end Toppo.Hom

namespace Toppo.Smith
open Toppo

/-! ### all entries fit -/

/-- every entry of an `n × m` matrix is representable -/
def Fits (ok : Width) (n m : Nat) (a : M) : Prop := ∀ i j, i < n → j < m → ok (a i j) = true

/-- all five matrices of the algorithm are representable -/
structure AllFit (ok : Width) (n m : Nat) (st : St) : Prop where
  a : Fits ok n m st.a
  p : Fits ok n n st.p
  pinv : Fits ok n n st.pinv
  q : Fits ok m m st.q
  qinv : Fits ok m m st.qinv

variable {ok : Width} {n m : Nat}

theorem of_bind {α β : Type} {x : Option α} {f : α → Option β} {v : β} (h : (x >>= f) = some v) : ∃ w, x = some w ∧ f w = some v := Option.bind_eq_some_iff.mp h

theorem rowOpW_fits {a b : M} {r1 r2 : Nat} {c : Int} (h : rowOpW ok m a r1 r2 c = some b) (ha : Fits ok n m a) : Fits ok n m b := by
  unfold rowOpW at h
  split at h
  · rename_i hall
    cases h
    intro i j hi hj
    unfold rowOp
    split
    · have := List.all_eq_true.mp hall j (mem_rng.mpr ⟨by omega, hj⟩)
      simp only [Bool.and_eq_true] at this
      exact this.2
    · exact ha i j hi hj
  · cases h

theorem colOpW_fits {a b : M} {r1 r2 : Nat} {c : Int} (h : colOpW ok n a r1 r2 c = some b) (ha : Fits ok n m a) : Fits ok n m b := by
  unfold colOpW at h
  split at h
  · rename_i hall
    cases h
    intro i j hi hj
    unfold colOp
    split
    · have := List.all_eq_true.mp hall i (mem_rng.mpr ⟨by omega, hi⟩)
      simp only [Bool.and_eq_true] at this
      exact this.2
    · exact ha i j hi hj
  · cases h

theorem mixRowsW_fits {a b : M} {i k j0 : Nat} {x y z w : Int} (h : mixRowsW ok m a i k j0 x y z w = some b) (ha : Fits ok n m a) : Fits ok n m b := by
  unfold mixRowsW at h
  split at h
  · rename_i hall
    cases h
    intro r c hr hc
    unfold mixRows
    split
    · exact ha r c hr hc
    · have := List.all_eq_true.mp hall c (mem_rng.mpr ⟨by omega, hc⟩)
      simp only [Bool.and_eq_true] at this
      split
      · exact this.2
      · split
        · exact this.1.1.1.2
        · exact ha r c hr hc
  · cases h

theorem mixColsW_fits {a b : M} {i k j0 : Nat} {x y z w : Int} (h : mixColsW ok n a i k j0 x y z w = some b) (ha : Fits ok n m a) : Fits ok n m b := by
  unfold mixColsW at h
  split at h
  · rename_i hall
    cases h
    intro r c hr hc
    unfold mixCols
    split
    · exact ha r c hr hc
    · have := List.all_eq_true.mp hall r (mem_rng.mpr ⟨by omega, hr⟩)
      simp only [Bool.and_eq_true] at this
      split
      · exact this.2
      · split
        · exact this.1.1.1.2
        · exact ha r c hr hc
  · cases h

theorem swapRows_fits {a : M} {r1 r2 : Nat} (h1 : r1 < n) (h2 : r2 < n) (ha : Fits ok n m a) : Fits ok n m (swapRows a r1 r2) := by
  intro i j hi hj
  unfold swapRows
  split
  · exact ha _ _ h2 hj
  · split
    · exact ha _ _ h1 hj
    · exact ha _ _ hi hj

theorem swapCols_fits {a : M} {r1 r2 : Nat} (h1 : r1 < m) (h2 : r2 < m) (ha : Fits ok n m a) : Fits ok n m (swapCols a r1 r2) := by
  intro i j hi hj
  unfold swapCols
  split
  · exact ha _ _ hi h2
  · split
    · exact ha _ _ hi h1
    · exact ha _ _ hi hj

theorem ident_fits (h0 : ok 0 = true) (h1 : ok 1 = true) : Fits ok n m ident := by
  intro i j _ _
  unfold ident
  split
  · exact h1
  · exact h0

theorem improveRowW_fits {i j k : Nat} {st st' : St} (h : improveRowW ok n m i j st k = some st') (ha : AllFit ok n m st) : AllFit ok n m st' := by
  simp only [improveRowW, Option.bind_eq_bind, Option.bind_eq_some_iff] at h
  obtain ⟨d, -, h⟩ := h
  split at h
  · cases h; exact ha
  · simp only [Option.bind_eq_some_iff] at h
    obtain ⟨g, -, s, -, t, -, t', -, a, h1, p, h2, y', -, pinv, h3, h⟩ := h
    split at h
    · cases h
      exact ⟨mixRowsW_fits h1 ha.a, mixRowsW_fits h2 ha.p, mixColsW_fits h3 ha.pinv, ha.q, ha.qinv⟩
    · cases h

theorem improveColW_fits {i j k : Nat} {st st' : St} (h : improveColW ok n m i j st k = some st') (ha : AllFit ok n m st) : AllFit ok n m st' := by
  simp only [improveColW, Option.bind_eq_bind, Option.bind_eq_some_iff] at h
  obtain ⟨d, -, h⟩ := h
  split at h
  · cases h; exact ha
  · simp only [Option.bind_eq_some_iff] at h
    obtain ⟨g, -, s, -, t, -, t', -, a, h1, p, h2, y', -, pinv, h3, h⟩ := h
    split at h
    · cases h
      exact ⟨mixColsW_fits h1 ha.a, ha.p, ha.pinv, mixColsW_fits h2 ha.q, mixRowsW_fits h3 ha.qinv⟩
    · cases h

theorem foldlM_inv {α β : Type} {f : β → α → Option β} {P : β → Prop} (h : ∀ b a b', f b a = some b' → P b → P b') : ∀ (l : List α) (b b' : β), l.foldlM f b = some b' → P b → P b'
  | [], b, b', e, hb => by cases e; exact hb
  | a :: l, b, b', e, hb => by
    rw [List.foldlM_cons, Option.bind_eq_bind, Option.bind_eq_some_iff] at e
    obtain ⟨c, h1, h2⟩ := e
    exact foldlM_inv h l c b' h2 (h b a c h1 hb)

theorem improveW_fits {i j : Nat} : ∀ {fuel : Nat} {st st' : St}, improveW ok n m i j fuel st = some st' → AllFit ok n m st → AllFit ok n m st'
  | 0, _, _, h, _ => by cases h
  | fuel + 1, st, st', h, ha => by
    have main : ∀ b : Bool, (if b = true then pure st
        else do
          let st ← (rng (i + 1) n).foldlM (improveRowW ok n m i j) st
          let b ← colDivW ok n i j st
          if b then
            let st ← (rng (j + 1) m).foldlM (improveColW ok n m i j) st
            let b ← rowDivW ok m i j st
            if b then improveW ok n m i j fuel st else none
          else none) = some st' → AllFit ok n m st' := by
      intro b h
      split at h
      · cases h; exact ha
      · simp only [Option.bind_eq_bind, Option.bind_eq_some_iff] at h
        obtain ⟨st1, h1, b1, -, h⟩ := h
        have ha1 := foldlM_inv (P := AllFit ok n m) (fun _ _ _ e => improveRowW_fits e) _ _ _ h1 ha
        split at h
        · simp only [Option.bind_eq_some_iff] at h
          obtain ⟨st2, h2, b2, -, h⟩ := h
          have ha2 := foldlM_inv (P := AllFit ok n m) (fun _ _ _ e => improveColW_fits e) _ _ _ h2 ha1
          split at h
          · exact improveW_fits h ha2
          · cases h
        · cases h
    unfold improveW at h
    rw [Option.bind_eq_bind, Option.bind_eq_some_iff] at h
    obtain ⟨b, -, h⟩ := h
    simp only at h
    split at h
    · rw [Option.bind_eq_bind, Option.bind_eq_some_iff] at h
      obtain ⟨b, -, h⟩ := h
      exact main b h
    · exact main false h

theorem elimRowW_fits {i j k : Nat} {st st' : St} (h : elimRowW ok n m i j st k = some st') (ha : AllFit ok n m st) : AllFit ok n m st' := by
  unfold elimRowW at h
  split at h
  · cases h; exact ha
  · simp only [Option.bind_eq_bind, Option.bind_eq_some_iff] at h
    obtain ⟨r, -, r', -, a, h1, p, h2, pinv, h3, h⟩ := h
    cases h
    exact ⟨rowOpW_fits h1 ha.a, rowOpW_fits h2 ha.p, colOpW_fits h3 ha.pinv, ha.q, ha.qinv⟩

theorem elimColW_fits {i j k : Nat} {st st' : St} (h : elimColW ok n m i j st k = some st') (ha : AllFit ok n m st) : AllFit ok n m st' := by
  unfold elimColW at h
  split at h
  · cases h; exact ha
  · simp only [Option.bind_eq_bind, Option.bind_eq_some_iff] at h
    obtain ⟨r, -, r', -, a, h1, p, h2, pinv, h3, h⟩ := h
    cases h
    exact ⟨colOpW_fits h1 ha.a, ha.p, ha.pinv, colOpW_fits h2 ha.q, rowOpW_fits h3 ha.qinv⟩

theorem choosePivot_fits {i j : Nat} {st st' : St} (hi : i < n) (hj : j < m) (h : choosePivot n m i j st = some st') (ha : AllFit ok n m st) : AllFit ok n m st' := by
  simp only [choosePivot, Option.bind_eq_bind, Option.bind_eq_some_iff] at h
  obtain ⟨l, hl, h⟩ := h
  have hl' : l < m := (mem_rng.mp (List.mem_of_find?_eq_some hl)).2
  have ha1 : AllFit ok n m { st with a := swapCols st.a j l, q := swapCols st.q j l, qinv := swapRows st.qinv j l } :=
    ⟨swapCols_fits hj hl' ha.a, ha.p, ha.pinv, swapCols_fits hj hl' ha.q, swapRows_fits hj hl' ha.qinv⟩
  split at h
  · simp only [Option.bind_eq_some_iff] at h
    obtain ⟨k, hk, h⟩ := h
    have hk' : k < n := (mem_rng.mp (List.mem_of_find?_eq_some hk)).2
    obtain ⟨_, e, h⟩ := h
    cases e
    split at h
    · cases h
      exact ⟨swapRows_fits hi hk' ha1.a, swapRows_fits hi hk' ha1.p, swapCols_fits hi hk' ha1.pinv, ha1.q, ha1.qinv⟩
    · cases h
  · simp only [pure, Option.bind_some] at h
    split at h <;> cases h
    all_goals exact ha1

theorem mainLoopW_fits : ∀ {fuel i j : Nat} {st st' : St}, mainLoopW ok n m fuel i j st = some st' → AllFit ok n m st → AllFit ok n m st'
  | 0, _, _, _, _, h, _ => by cases h
  | fuel + 1, i, j, st, st', h, ha => by
    unfold mainLoopW at h
    split at h
    · rename_i hij
      cases hf : findCol n m i j st.a with
      | none => rw [hf] at h; cases h; exact ha
      | some j' =>
        rw [hf] at h
        simp only [Option.bind_eq_bind, Option.bind_eq_some_iff] at h
        obtain ⟨s1, h1, s2, h2, s3, h3, s4, h4, h5⟩ := h
        have hj' : j' < m := (mem_rng.mp (List.mem_of_find?_eq_some hf)).2
        have a1 := choosePivot_fits hij.1 hj' h1 ha
        have a2 := improveW_fits h2 a1
        have a3 := foldlM_inv (P := AllFit ok n m) (fun _ _ _ e => elimRowW_fits e) _ _ _ h3 a2
        have a4 := foldlM_inv (P := AllFit ok n m) (fun _ _ _ e => elimColW_fits e) _ _ _ h4 a3
        exact mainLoopW_fits h5 a4
    · cases h; exact ha

theorem diagLoop_fits (h0 : ok 0 = true) : ∀ (l : List Nat) (st : St), (∀ r ∈ l, r < n ∧ r < m) → AllFit ok n m st → AllFit ok n m (diagLoop m l st)
  | [], st, _, ha => ha
  | r :: l, st, hl, ha => by
    obtain ⟨hr1, hr2⟩ := hl r (by simp)
    unfold diagLoop
    split
    · exact diagLoop_fits h0 l st (fun x hx => hl x (List.mem_cons_of_mem _ hx)) ha
    · cases hf : (rng (r + 1) m).find? (fun s => st.a r s != 0) with
      | none => exact ha
      | some s =>
        have hs : s < m := (mem_rng.mp (List.mem_of_find?_eq_some hf)).2
        refine diagLoop_fits h0 l _ (fun x hx => hl x (List.mem_cons_of_mem _ hx)) ⟨?_, ha.p, ha.pinv, swapCols_fits hr2 hs ha.q, swapRows_fits hs hr2 ha.qinv⟩
        intro i j hi hj
        simp only
        split
        · exact h0
        · split
          · exact ha.a _ _ hr1 hs
          · exact ha.a _ _ hi hj

theorem fixStepW_fits {r s : Nat} {st st' : St} (h : fixStepW ok n m r st s = some st') (ha : AllFit ok n m st) : AllFit ok n m st' := by
  unfold fixStepW at h
  obtain ⟨d, -, h⟩ := of_bind h
  split at h
  · cases h; exact ha
  · obtain ⟨a1, h1, h⟩ := of_bind h
    obtain ⟨q1, h2, h⟩ := of_bind h
    obtain ⟨qi1, h3, h⟩ := of_bind h
    obtain ⟨⟨g, x, y⟩, -, h⟩ := of_bind h
    obtain ⟨⟨z, z'⟩, -, h⟩ := of_bind h
    obtain ⟨⟨w, w1⟩, -, h⟩ := of_bind h
    obtain ⟨w', -, h⟩ := of_bind h
    obtain ⟨a2, h4, h⟩ := of_bind h
    obtain ⟨p, h5, h⟩ := of_bind h
    obtain ⟨y', -, h⟩ := of_bind h
    obtain ⟨pinv, h6, h⟩ := of_bind h
    obtain ⟨c, -, h⟩ := of_bind h
    obtain ⟨a, h7, h⟩ := of_bind h
    obtain ⟨q, h8, h⟩ := of_bind h
    obtain ⟨c', -, h⟩ := of_bind h
    obtain ⟨qinv, h9, h⟩ := of_bind h
    simp only at h
    split at h
    · cases h
      exact ⟨colOpW_fits h7 (mixRowsW_fits h4 (colOpW_fits h1 ha.a)), mixRowsW_fits h5 ha.p, mixColsW_fits h6 ha.pinv,
        colOpW_fits h8 (colOpW_fits h2 ha.q), rowOpW_fits h9 (rowOpW_fits h3 ha.qinv)⟩
    · cases h

theorem snfW_fits (h0 : ok 0 = true) (h1 : ok 1 = true) {fuel : Nat} {a : M} {st : St} (ha : Fits ok n m a) (h : snfW ok fuel n m a = some st) : AllFit ok n m st := by
  unfold snfW at h
  split at h
  · cases h
  · simp only [Option.bind_eq_bind, Option.bind_eq_some_iff] at h
    obtain ⟨s1, e1, s2, e2, b, -, h⟩ := h
    have a1 := mainLoopW_fits e1 ⟨ha, ident_fits h0 h1, ident_fits h0 h1, ident_fits h0 h1, ident_fits h0 h1⟩
    have a2 := diagLoop_fits (n := n) (m := m) h0 (rng 0 (min n m)) s1 (fun r hr => by have := mem_rng.mp hr; omega) a1
    have a3 := foldlM_inv (P := AllFit ok n m) (fun st r st' e => foldlM_inv (P := AllFit ok n m) (fun _ _ _ e => fixStepW_fits e) _ _ _ e) _ _ _ e2 a2
    split at h
    · cases h; exact a3
    · cases h

/-! ### C100 -/

/-- **C100**: on `w`-bit integers (`w ≥ 2`), whenever the Smith normal form of a matrix of representable entries returns, all the entries of the five
matrices it returns are representable, and they are exactly what unbounded integers give: `P · A · Q` is the returned diagonal matrix, in which each
non-zero entry divides the later ones, `P · P⁻¹ = 1` and `Q` is invertible.  No overflow goes unnoticed. -/
theorem c100_smith (w : Nat) (hw : 2 ≤ w) {fuel : Nat} {a : M} {st : St} (ha : Fits (fits w) n m a) (h : snfW (fits w) fuel n m a = some st) :
    AllFit (fits w) n m st ∧ snf fuel n m a = some st ∧
    mat n n st.p * mat n m a * mat m m st.q = mat n m st.a ∧ mat n n st.p * mat n n st.pinv = 1 ∧ IsUnit (mat m m st.q) ∧
    (∀ i j, i < n → j < m → i ≠ j → st.a i j = 0) ∧ ∃ R, (∀ i, i < R → st.a i i ≠ 0) ∧ (∀ i, R ≤ i → i < n → i < m → st.a i i = 0) ∧ ∀ i j, i < j → j < R → st.a i i ∣ st.a j j := by
  have hpow : (2 : Int) ≤ 2 ^ (w - 1) := by
    calc (2 : Int) = 2 ^ 1 := by norm_num
      _ ≤ 2 ^ (w - 1) := pow_le_pow_right₀ (by norm_num) (by omega)
  have h0 : fits w 0 = true := by simp only [fits, decide_eq_true_eq]; omega
  have h1 : fits w 1 = true := by simp only [fits, decide_eq_true_eq]; omega
  have hs : snf fuel n m a = some st := by rw [← snfW_ideal]; exact snfW_ref (wider_ideal _) fuel n m a st h
  obtain ⟨t1, t2, t3, t4⟩ := c33_transform hs
  obtain ⟨R, r1, r2, r3, r4, r5, r6⟩ := c35_shape hs
  exact ⟨snfW_fits h0 h1 ha h, hs, t1, t2, t4, r3, R, r4, r5, r6⟩

/-- **C100**: a wider integer type gives the same result. -/
theorem c100_wider (w w' : Nat) (hw : w ≤ w') {fuel : Nat} {a : M} {st : St} (h : snfW (fits w) fuel n m a = some st) : snfW (fits w') fuel n m a = some st :=
  snfW_ref (wider_fits hw) fuel n m a st h

/-- a 1 × 2 matrix -/
def exWide : M := fun i j => if i = 0 ∧ j = 0 then 2 ^ 62 - 1 else if i = 0 ∧ j = 1 then 2 ^ 62 - 3 else 0

/-- one step on it overflows -/
theorem exWide_step : improveColW (fits 64) 1 2 0 0 { a := swapCols exWide 0 0, p := ident, pinv := ident, q := swapCols ident 0 0, qinv := swapRows ident 0 0 } 1 = none := by
  have h : (improveColW (fits 64) 1 2 0 0 { a := swapCols exWide 0 0, p := ident, pinv := ident, q := swapCols ident 0 0, qinv := swapRows ident 0 0 } 1).isNone = true := by decide +kernel
  exact Option.isNone_iff_eq_none.mp h

/-- **C100, the limit**: `smith_normal_form` of the `i64` matrix `[2^62 - 1, 2^62 - 3]` panics because of an overflow, although all the entries of the
result, `[1, 0]` with its transformations, are representable. -/
theorem c100_overflow_limit : Fits (fits 64) 1 2 exWide ∧ (∀ fuel, snfW (fits 64) fuel 1 2 exWide = none) ∧ ∃ st, snf 5 1 2 exWide = some st ∧ AllFit (fits 64) 1 2 st ∧ st.a 0 0 = 1 := by
  refine ⟨?_, ?_, ?_⟩
  · intro i j hi hj
    have : ∀ j < 2, fits 64 (exWide 0 j) = true := by decide +kernel
    obtain rfl : i = 0 := by omega
    exact this j hj
  · intro fuel
    let st0 : St := { a := exWide, p := ident, pinv := ident, q := ident, qinv := ident }
    let st1 : St := { a := swapCols exWide 0 0, p := ident, pinv := ident, q := swapCols ident 0 0, qinv := swapRows ident 0 0 }
    have hc : findCol 1 2 0 0 exWide = some 0 := by decide +kernel
    have hp : choosePivot 1 2 0 0 st0 = some st1 := by
      have h0 : swapCols exWide 0 0 0 0 ≠ 0 := by decide +kernel
      simp only [choosePivot, st0, hc, Option.bind_eq_bind, Option.bind_some]
      rw [if_neg h0]
      simp only [pure, Option.bind_some]
      rw [if_pos h0]
    have hcd : colDivW (fits 64) 1 0 0 st1 = some true := rfl
    have hd : rowDivW (fits 64) 2 0 0 st1 = some false := by decide +kernel
    have him : ∀ k, improveW (fits 64) 1 2 0 0 k st1 = none := by
      intro k
      cases k with
      | zero => rfl
      | succ k =>
        unfold improveW
        rw [hcd]
        simp only [Option.bind_eq_bind, Option.bind_some, if_true, hd]
        have e1 : (rng (0 + 1) 1).foldlM (improveRowW (fits 64) 1 2 0 0) st1 = some st1 := rfl
        have e2 : (rng (0 + 1) 2).foldlM (improveColW (fits 64) 1 2 0 0) st1 = none := by
          show (improveColW (fits 64) 1 2 0 0 st1 1).bind _ = none
          rw [exWide_step]; rfl
        rw [e1]
        simp only [Option.bind_some, hcd, if_true, e2, Option.bind_none]
        rfl
    have hml : mainLoopW (fits 64) 1 2 fuel 0 0 st0 = none := by
      cases fuel with
      | zero => rfl
      | succ k =>
        unfold mainLoopW
        rw [if_pos (by decide)]
        rw [show findCol 1 2 0 0 st0.a = some 0 from hc]
        simp only [hp, Option.bind_eq_bind, Option.bind_some, him, Option.bind_none]
    unfold snfW
    rw [if_neg (by decide)]
    show (mainLoopW (fits 64) 1 2 fuel 0 0 st0 >>= _) = none
    rw [hml]; rfl
  · let chk (n m : Nat) (a : M) : Bool := (List.range n).all (fun i => (List.range m).all (fun j => fits 64 (a i j)))
    have hchk : ∀ n m a, chk n m a = true → Fits (fits 64) n m a := by
      intro n m a h i j hi hj
      exact List.all_eq_true.mp (List.all_eq_true.mp h i (List.mem_range.mpr hi)) j (List.mem_range.mpr hj)
    have h : (snf 5 1 2 exWide).map (fun st => chk 1 2 st.a && chk 1 1 st.p && chk 1 1 st.pinv && chk 2 2 st.q && chk 2 2 st.qinv && (st.a 0 0 == 1)) = some true := by decide +kernel
    obtain ⟨st, e, h⟩ := Option.map_eq_some_iff.mp h
    simp only [Bool.and_eq_true, beq_iff_eq] at h
    obtain ⟨⟨⟨⟨⟨h1, h2⟩, h3⟩, h4⟩, h5⟩, h6⟩ := h
    exact ⟨st, e, ⟨hchk _ _ _ h1, hchk _ _ _ h2, hchk _ _ _ h3, hchk _ _ _ h4, hchk _ _ _ h5⟩, h6⟩

/-- An example: the 64-bit Smith normal form of `[[2, 4], [6, 8]]` returns. -/
def exSmall : M := fun i j => if i = 0 then (if j = 0 then 2 else 4) else (if j = 0 then 6 else 8)

example : (snfW (fits 64) 10 2 2 exSmall).map (fun st => (st.a 0 0, st.a 0 1, st.a 1 0, st.a 1 1)) = some (2, 0, 0, -4) := by decide +kernel

end Toppo.Smith

namespace Toppo.Hom
open Toppo Smith
variable {B : Type} [LinearOrder B]

/-- **C100**: on `w`-bit integers, whenever the homology of a chain complex returns, it is correct (see `Correct`, C44). -/
theorem c100_homology (w : Nat) {cplx : List (BMap B)} (h : ChainCplx cplx) (maxDim : Option Nat) {fuel : Nat} {res : List (Out B)}
    (hres : newW (fits w) fuel cplx maxDim = some res) :
    (∀ i b o, cplx[i]? = some b → res[i]? = some o → Correct b (upper cplx i).1 (upper cplx i).2 o) ∧
      (∀ i b, cplx[i]? = some b → res.length ≤ i → (∀ d, maxDim = some d → i ≤ d) →
        Subsingleton (HGrp b.n b.m (upper cplx i).1 b.a (upper cplx i).2)) ∧
      res.length ≤ cplx.length ∧ (∀ d, maxDim = some d → res.length ≤ d + 1) ∧
      (∀ o, res.getLast? = some o → o.module.isZero = false) := by
  obtain ⟨f0, res', h1, h2⟩ := c44_homology h maxDim
  have e1 : new fuel cplx maxDim = some res := by rw [← newW_ideal]; exact newW_ref (wider_ideal _) fuel cplx maxDim res hres
  have e2 := new_mono (Nat.le_max_left fuel f0) cplx maxDim res e1
  rw [h1 _ (Nat.le_max_right _ _)] at e2
  cases e2
  exact h2

/-- An example: the 64-bit homology of a chain complex with homology `Z/2` in dimension 0 returns. -/
example : (newW (fits 64) 10 [({ n := 1, m := 1, a := fun _ _ => 0, basis := [0] } : BMap Nat), { n := 1, m := 1, a := fun _ _ => 2, basis := [1] }] none).map
    (fun res => res.map (fun o => (o.module.freeRank, o.module.divisors))) = some [(0, [(2, 1)])] := by decide +kernel

end Toppo.Hom
