import Verif.Model.FormalSum
import Verif.Model.Sparse
import Mathlib.Analysis.SpecialFunctions.Pow.Real
import Mathlib.Analysis.SpecialFunctions.Trigonometric.Basic
set_option linter.unusedVariables false

/-
Model of analysis/src/lib.rs: symbolic smooth functions.

`f64` is replaced by exact reals and `i32` by the integers.  A column matrix argument is the function giving its entries; an index outside
the matrix (a panic) does not occur.  The derived `PartialOrd` (236) is taken to be some linear order: everything is proved for all of them.
The sum of formal sums (`Vector`) is that of Model/FormalSum.lean.
-/
namespace Toppo.Analysis

/-- `enum AtomicSmoothFn`, analysis/src/lib.rs:225-249 -/
inductive Fn where
  | zero
  | one
  | proj (n : Nat)
  | rpow (f : Fn) (a : ℝ)
  | sin (f : Fn)
  | cos (f : Fn)
  | sum (v : List (ℝ × Fn))
  | prod (v : List (ℤ × Fn))

noncomputable section
mutual
/-- `eval`, analysis/src/lib.rs:255-266 (`powf` agrees with the real power for a positive base) -/
def eval (x : Nat → ℝ) : Fn → ℝ
  | .zero => 0
  | .one => 1
  | .proj c => x c
  | .rpow f a => (eval x f) ^ a
  | .sin f => Real.sin (eval x f)
  | .cos f => Real.cos (eval x f)
  | .sum v => evalSum x v
  | .prod v => evalProd x v
/-- `v.iter().map(|(a,f)| a * f.eval(x)).sum()`, analysis/src/lib.rs:263 -/
def evalSum (x : Nat → ℝ) : List (ℝ × Fn) → ℝ
  | [] => 0
  | (a, f) :: v => a * eval x f + evalSum x v
/-- `v.iter().map(|(a, f)| f.eval(x).powi(*a)).product()`, analysis/src/lib.rs:264 -/
def evalProd (x : Nat → ℝ) : List (ℤ × Fn) → ℝ
  | [] => 1
  | (e, f) :: v => eval x f ^ e * evalProd x v
end

variable [LinearOrder Fn]

/-- `.sum()` of formal sums; `FSum.sum` is never `none` (C26). Used for analysis/src/lib.rs:32-56. -/
def vsum {K : Type} [Add K] [Zero K] [DecidableEq K] (vs : List (FSum K Fn)) : FSum K Fn := (FSum.sum vs).getD []

/-- `powi`, analysis/src/lib.rs:351-364 -/
def powi (f : Fn) (e : ℤ) : Fn :=
  if e = 1 then f
  else if e = 0 then .one
  else match f with
    | .prod v => .prod (FSum.smul v e)
    | _ => .prod (FSum.smul (FSum.single f) e)

/-- `powf`, analysis/src/lib.rs:366-372 -/
def powf (f : Fn) (a : ℝ) : Fn := if a ≠ 1 then .rpow f a else f

/-- `Mul<f64>`, analysis/src/lib.rs:178-192 -/
def smul (f : Fn) (c : ℝ) : Fn :=
  if f = .zero ∨ c = 0 then .zero
  else if c = 1 then f
  else match f with
    | .sum v => .sum (v.map (fun p => (p.1 * c, p.2)))
    | _ => .sum (FSum.smul (FSum.single f) c)

/-- `Div<f64>`, analysis/src/lib.rs:196-212; `none` is the panic -/
def sdiv (f : Fn) (c : ℝ) : Option Fn :=
  if c = 0 then none
  else if f = .zero then some f
  else if c = 1 then some f
  else match f with
    | .sum v => some (.sum (v.map (fun p => (p.1 / c, p.2))))
    | _ => some (.sum ((FSum.single f).map (fun p => (p.1 / c, p.2))))

/-- `if let Self::Sum(v) = s { v } else { Vector::from(s) }`, analysis/src/lib.rs:36-42 -/
def toSum : Fn → FSum ℝ Fn
  | .sum v => v
  | f => FSum.single f

/-- `Sum`, analysis/src/lib.rs:32-56 -/
def fsum (l : List Fn) : Fn :=
  match vsum ((l.filter (fun s => decide (s ≠ .zero))).map toSum) with
  | [(c, b)] => smul b c
  | [] => .zero
  | out => .sum out

/-- `Add`, analysis/src/lib.rs:19-24 -/
def add (f g : Fn) : Fn := fsum [f, g]

/-- `Sub`, analysis/src/lib.rs:58-74 -/
def sub (f g : Fn) : Fn :=
  match f, g with
  | .sum v, .sum w => .sum (vsum [v, FSum.neg w])
  | .sum v, g => .sum (vsum [v, FSum.neg (FSum.single g)])
  | f, .sum w => .sum (vsum [FSum.neg w, FSum.single f])
  | f, g => .sum (vsum [FSum.single f, FSum.neg (FSum.single g)])

/-- `Neg`, analysis/src/lib.rs:82-92 -/
def neg (f : Fn) : Fn :=
  match f with
  | .sum v => .sum (FSum.neg v)
  | f => .sum (FSum.neg (FSum.single f))

/-- `if let Self::Product(v) = s { v } else { Vector::from(s) }`, analysis/src/lib.rs:133-139 -/
def toProd : Fn → FSum ℤ Fn
  | .prod v => v
  | f => FSum.single f

/-- `Product`, analysis/src/lib.rs:129-159 -/
def fprod (l : List Fn) : Fn :=
  let out := vsum ((l.filter (fun s => decide (s ≠ .one))).map toProd)
  if out.any (fun p => decide (p.2 = .zero)) then .zero
  else match out with
    | [(e, b)] => powi b e
    | [] => .one
    | out => .prod out

/-- `Mul`, analysis/src/lib.rs:95-121 -/
def mul (f g : Fn) : Fn :=
  if f = .zero ∨ g = .zero then .zero
  else if f = .one then g
  else if g = .one then f
  else match f, g with
    | .sum [(c, b)], g => smul (mul b g) c
    | .sum v, g => fprod [.sum v, g]
    | f, .sum [(c, b)] => smul (mul f b) c
    | f, g => fprod [f, g]
termination_by sizeOf f + sizeOf g

/-- `Div`, analysis/src/lib.rs:161-166 -/
def div (f g : Fn) : Fn := mul f (powi g (-1))

/-- one term of the derivative of a product, analysis/src/lib.rs:320-332: `clone` is the rest of the factors, `d` the derivative of `f` -/
def prodTerm (clone : List (ℤ × Fn)) (e : ℤ) (f d : Fn) : Fn :=
  if d = .zero then .zero
  else
    match decide (e = 1) && decide (d = .one), clone with
    | true, [(c, b)] => powi b c
    | _, clone => mul (smul (mul (.prod clone) (powi f (e - 1))) e) d

mutual
/-- `partial_derivative`, analysis/src/lib.rs:298-340 -/
def pd (n : Nat) : Fn → Fn
  | .zero => .zero
  | .one => .zero
  | .proj m => if n = m then .one else .zero
  | .sin f => mul (.cos f) (pd n f)
  | .cos f => mul (neg (.sin f)) (pd n f)
  | .rpow f a => smul (mul (.rpow f (a - 1)) (pd n f)) a
  | .sum v => add (.sum (vsum (pdSum n v))) .zero
  | .prod v => fsum ((pdProd n [] v).filter (fun f => decide (f ≠ .zero)))
/-- the summands of the derivative of a sum, analysis/src/lib.rs:307-316 -/
def pdSum (n : Nat) : List (ℝ × Fn) → List (FSum ℝ Fn)
  | [] => []
  | (a, f) :: v => if pd n f = .zero then pdSum n v else FSum.smul (toSum (pd n f)) a :: pdSum n v
/-- the terms of the derivative of a product, analysis/src/lib.rs:321-333: `pre` are the factors before the current one -/
def pdProd (n : Nat) (pre : List (ℤ × Fn)) : List (ℤ × Fn) → List Fn
  | [] => []
  | (e, f) :: v => prodTerm (pre ++ v) e f (pd n f) :: pdProd n (pre ++ [(e, f)]) v
end

/-- `AtomicSmoothFn::jacobian`, analysis/src/lib.rs:342-349: the single row -/
def jacobianRow (f : Fn) (dim : Nat) : List Fn := (List.range dim).map (fun i => pd i f)

/-- the order of positions (pairs of `usize`), used for analysis/src/lib.rs:473, 689 -/
def posLt (p q : Nat × Nat) : Bool := decide (p.1 < q.1) || (decide (p.1 = q.1) && decide (p.2 < q.2))

/-- the bisection of `binary_search_by` / `binary_search_by_key` (of the standard library) over the entries `lo..hi` of a list with positions; `fuel` is at least
`hi - lo`. Used for analysis/src/lib.rs:473, 689. -/
def bisect {α : Type} (l : List ((Nat × Nat) × α)) (k : Nat × Nat) : Nat → Nat → Nat → Option α
  | 0, _, _ => none
  | fuel + 1, lo, hi =>
    if lo < hi then do
      let e ← l[lo + (hi - lo) / 2]?
      if posLt e.1 k then bisect l k fuel (lo + (hi - lo) / 2 + 1) hi
      else if posLt k e.1 then bisect l k fuel lo (lo + (hi - lo) / 2)
      else some e.2
    else none

/-- `tmp`, analysis/src/lib.rs:461-470: the entries that are not `Zero`, with their positions, row by row -/
def jacobianList (fns : List Fn) (dim : Nat) : List ((Nat × Nat) × Fn) :=
  (List.range fns.length).flatMap (fun i => (List.range dim).filterMap (fun j => do
    let f ← fns[i]?
    let d ← (jacobianRow f dim)[j]?
    if d ≠ .zero then some ((i, j), d) else none))

/-- what the closure passed to `SparseMatrix::from` answers, analysis/src/lib.rs:472-479 -/
def jacobianEntry (fns : List Fn) (dim : Nat) (i j : Nat) : Option Fn :=
  bisect (jacobianList fns dim) (i, j) (jacobianList fns dim).length 0 (jacobianList fns dim).length

/-- `MultiVarFn::jacobian`, analysis/src/lib.rs:460-486 -/
def jacobian (fns : List Fn) (dim : Nat) : Option (Sparse.SMat Fn) := Sparse.fromFn (fns.length, dim) (jacobianEntry fns dim)

/-- `eval` of a `MultiVarFn`, analysis/src/lib.rs:489-500 -/
def evalMulti (x : Nat → ℝ) (fns : List Fn) : List ℝ := fns.map (eval x)

/-- one row of `eval` of a sparse matrix of functions, analysis/src/lib.rs:680-684 -/
def evalRow (x : Nat → ℝ) (a : Sparse.SMat Fn) (i : Nat) : Option (List ((Nat × Nat) × ℝ)) := do
  let l ← a.rowIter i
  return l.map (fun p => ((i, p.1), eval x p.2))

/-- the closure `initializer`, analysis/src/lib.rs:688-694 -/
def evalEntry (out : List ((Nat × Nat) × ℝ)) (i j : Nat) : Option ℝ := bisect out (i, j) out.length 0 out.length

/-- `eval` of a sparse matrix of functions, analysis/src/lib.rs:674-697: the rows are collected, then searched by position -/
def evalSparse (x : Nat → ℝ) (a : Sparse.SMat Fn) : Option (Sparse.SMat ℝ) := do
  let rows ← (List.range a.size.1).mapM (evalRow x a)
  Sparse.fromFn a.size (evalEntry rows.flatten)

end
end Toppo.Analysis
