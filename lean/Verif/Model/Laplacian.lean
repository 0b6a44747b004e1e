import Verif.Model.Simplicial
import Verif.Model.MultiGraph
import Mathlib.Algebra.BigOperators.Ring.Finset
import Mathlib.Algebra.Field.Basic
import Mathlib.Algebra.Ring.Int.Defs

/-
Model of the programs in topo_spaces/examples that compute Laplacians: combinatorial_laplacian.rs (lines 28-55), weighted_laplacian.rs
(lines 29-106), graph_laplacian.rs (lines 84-86 and the eigenvalue count of line 128). Simplifications: the drawing and the calls of
`spectrum` are left out; the number type is a parameter (exact arithmetic instead of `f64`), so that the model says which matrices the
programs build up to rounding; the matrices are entry functions with sizes, and a product or sum of matrices whose sizes do not fit is
`none` (a panic), as in alg/src/lin_alg/matrix_impl.rs (C31, C32, C39).
-/
namespace Toppo.Lap
open Toppo

/-- a matrix with its size; entries outside are irrelevant. Models `Matrix<T>` as used in combinatorial_laplacian.rs:28-55. -/
structure Mt (K : Type) where
  n : Nat
  m : Nat
  a : Nat → Nat → K

namespace Mt
variable {K : Type} [CommRing K]

/-- `transpose()`, as used in combinatorial_laplacian.rs:38 (matrix_impl.rs, C30) -/
def tr (x : Mt K) : Mt K := ⟨x.m, x.n, fun i j => x.a j i⟩

/-- `*`, as used in combinatorial_laplacian.rs:38 (matrix_impl.rs, C39): panics if the sizes do not fit -/
def mul (x y : Mt K) : Option (Mt K) :=
  if x.m = y.n then some ⟨x.n, y.m, fun i j => ∑ k ∈ Finset.range x.m, x.a i k * y.a k j⟩ else none

/-- `+`, as used in combinatorial_laplacian.rs:38 (matrix_impl.rs, C39): panics if the sizes differ -/
def add (x y : Mt K) : Option (Mt K) :=
  if x.n = y.n ∧ x.m = y.m then some ⟨x.n, x.m, fun i j => x.a i j + y.a i j⟩ else none

/-- the matrix of a boundary map, boundaries[i].0 in combinatorial_laplacian.rs:32 -/
def ofMap {B : Type} (b : Hom.BMap B) : Mt Int := ⟨b.n, b.m, b.a⟩

/-- `to_real`, weighted_laplacian.rs:32-39, and combinatorial_laplacian.rs:47-53 -/
def cast (K : Type) [CommRing K] (x : Mt Int) : Mt K := ⟨x.n, x.m, fun i j => (x.a i j : K)⟩

/-- a diagonal matrix: `identity(n)` with other entries written on the diagonal, weighted_laplacian.rs:49-62 -/
def diag (n : Nat) (w : Nat → K) : Mt K := ⟨n, n, fun i j => if i = j then w i else 0⟩

end Mt
open Mt

/-- `x.transpose() * x + y * y.transpose()`, combinatorial_laplacian.rs:34-39 -/
def middle {B : Type} (x y : Hom.BMap B) : Option (Mt Int) := do
  let p ← (ofMap x).tr.mul (ofMap x)
  let q ← (ofMap y).mul (ofMap y).tr
  p.add q

/-- the Laplacians of all dimensions, combinatorial_laplacian.rs:29-55: consecutive maps are zipped, then the highest one is added -/
def combinatorial {B : Type} (K : Type) [CommRing K] (bs : List (Hom.BMap B)) : Option (List (Mt K)) := do
  let ls ← (bs.zip (bs.drop 1)).mapM (fun xy => middle xy.1 xy.2)
  let last ← bs.getLast?
  let top ← (ofMap last).tr.mul (ofMap last)
  return (ls ++ [top]).map (Mt.cast K)

variable {T : Type} [DecidableEq T]

/-- `n_cells_of_dim(i)` as `usize`, weighted_laplacian.rs:51 -/
def nCells (c : Simp.Cplx T) (i : Nat) : Option Nat := (c.nCellsOfDim i).map Int.toNat

/-- the diagonal matrix with the weights `w` of dimension `i` (or their inverses), weighted_laplacian.rs:49-62, 88-101 -/
def weightMat {K : Type} [Field K] (c : Simp.Cplx T) (i : Nat) (w : Nat → K) : Option (Mt K) := do
  let n ← nCells c i
  return diag n w

/-- `b_high`, weighted_laplacian.rs:71-75: the boundary map above, in the top dimension one column of zeros -/
def highMap {K : Type} [Field K] (c : Simp.Cplx T) (bs : List (Hom.BMap (Simp.Simplex T))) (i : Nat) : Option (Mt K) :=
  if i < bs.length - 1 then (bs[i + 1]?).map (fun b => Mt.cast K (ofMap b))
  else (c.dim.bind (nCells c)).map (fun n => ⟨n, 1, fun _ _ => 0⟩)

/-- `w_low`, weighted_laplacian.rs:81-85 -/
def lowWeights {K : Type} [Field K] (c : Simp.Cplx T) (w : Nat → Nat → K) (i : Nat) : Option (Mt K) :=
  if 0 < i then weightMat c (i - 1) (w (i - 1)) else some (diag 1 (fun _ => 1))

/-- `w_high_inv`, weighted_laplacian.rs:96-103 -/
def highWeights {K : Type} [Field K] (c : Simp.Cplx T) (bs : List (Hom.BMap (Simp.Simplex T))) (w : Nat → Nat → K) (i : Nat) : Option (Mt K) :=
  if i < bs.length - 1 then weightMat c (i + 1) (fun j => 1 / w (i + 1) j) else some (diag 1 (fun _ => 1))

/-- the weighted Laplacian of dimension `i`, weighted_laplacian.rs:66-109; `w i j` is the weight of cell `j` of dimension `i`
(`weights[i][t]` for one `t`) -/
def weighted {K : Type} [Field K] (c : Simp.Cplx T) (bs : List (Hom.BMap (Simp.Simplex T))) (w : Nat → Nat → K) (i : Nat) : Option (Mt K) := do
  let b ← bs[i]?
  let bLow := Mt.cast K (ofMap b)
  let bHigh ← highMap c bs i
  let wLow ← lowWeights c w i
  let wMid ← weightMat c i (w i)
  let wInv ← weightMat c i (fun j => 1 / w i j)
  let wHighInv ← highWeights c bs w i
  let d1 ← wInv.mul bLow.tr
  let d2 ← d1.mul wLow
  let down ← d2.mul bLow
  let u1 ← bHigh.mul wHighInv
  let u2 ← u1.mul bHigh.tr
  let up ← u2.mul wMid
  down.add up

end Toppo.Lap
