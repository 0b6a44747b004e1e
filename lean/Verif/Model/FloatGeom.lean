import Verif.Model.FloatAlg
import Verif.Model.Geom
set_option linter.unusedVariables false

/-
Model of geom/src/lib.rs with the arithmetic of `f64` (Model/Float64.lean): `Triangle::circum_circle_contains` (24-51) and
`delaunay_triangulation` (58-127); the triangulation loop is the one of Model/Geom.lean.  A `ConstVector<f64, 2>` is a pair, `none` is a panic.
The definitions take the square root as an argument, so that closed terms can be evaluated with the executable square root of
Proof/FloatEval.lean, which is proved to be the same function; the model of the code is the instance with `F64.sqrt`.
-/
namespace Toppo.FloatGeom
open F64 FloatAlg

abbrev P2 := F64 × F64

/-- `a - b` of vectors, alg/src/lin_alg/const_matrix_impl.rs:110-116 -/
def vsub (a b : P2) : P2 := (a.1 - b.1, a.2 - b.2)

/-- `a + b` of vectors, alg/src/lin_alg/const_matrix_impl.rs:101-107 -/
def vadd (a b : P2) : P2 := (a.1 + b.1, a.2 + b.2)

/-- `a * c`, alg/src/lin_alg/const_matrix_impl.rs:118-123 -/
def vmul (a : P2) (c : F64) : P2 := (a.1 * c, a.2 * c)

/-- `a / c`, alg/src/lin_alg/const_matrix_impl.rs:125-130 -/
def vdiv (a : P2) (c : F64) : P2 := (a.1 / c, a.2 / c)

/-- `two_norm`, alg/src/lin_alg/const_matrix_impl.rs:215-219 -/
def normW (sq : F64 → F64) (p : P2) : F64 := sq (fsum [p.1 * p.1, p.2 * p.2])

/-- the closure `orthogonal`, geom/src/lib.rs:25-30 -/
def orthogonal (m : P2) : P2 := (-m.2, m.1)

/-- the center computed by `circum_circle_contains`, geom/src/lib.rs:31-46: `m` has the columns `b` and `d*(-1.0)`; of its inverse only the first row is used -/
def center (d0 d1 d2 : P2) : P2 :=
  let a := vadd d0 (vdiv (vsub d1 d0) (lit 2))
  let b := orthogonal (vsub d1 d0)
  let c := vadd d0 (vdiv (vsub d2 d0) (lit 2))
  let d := vmul (orthogonal (vsub d2 d0)) (lit (-1))
  let det := b.1 * d.2 - b.2 * d.1
  let i00 := d.2 / det
  let i01 := -d.1 / det
  let t := i00 * (vsub c a).1 + i01 * (vsub c a).2
  vadd a (vmul b t)

/-- `circum_circle_contains`, geom/src/lib.rs:24-51, with `Sphere::contains`, geom/src/lib.rs:11-15 -/
def containsW (sq : F64 → F64) (d0 d1 d2 p : P2) : Bool :=
  let o := center d0 d1 d2
  (normW sq (vsub p o)).lt (normW sq (vsub d0 o))

/-- `max_by(|p, q| p.partial_cmp(q).unwrap())`, geom/src/lib.rs:63-66: panics as soon as a NaN is compared -/
def maxBy (acc : F64) : List F64 → Option F64
  | [] => some acc
  | x :: xs => if acc = nan ∨ x = nan then none else maxBy (if acc.le x then x else acc) xs

/-- the mean of the points, geom/src/lib.rs:60-62; `points.len() as f64` is the nearest number -/
def centroid (points : List P2) : P2 := vdiv (points.foldl vadd (0, 0)) (lit points.length)

/-- `original_points`, geom/src/lib.rs:59-72; `none` for no points or a comparison of NaN -/
def auxiliaryW (sq : F64 → F64) (points : List P2) : Option (List P2) := do
  let c := centroid points
  let m ← match points.map (fun p => normW sq (vsub p c)) with
    | [] => none
    | x :: xs => maxBy x xs
  let r := m + 1
  return [vadd c (0, lit 2 * r), vadd c (sq (lit 3) * r, -r), vadd c (-(sq (lit 3)) * r, -r)]

/-- `delaunay_triangulation`, geom/src/lib.rs:58-127 -/
def delaunayW (sq : F64 → F64) (points : List P2) : Option (List (P2 × P2 × P2) × List Geom.Triple) := do
  let sup ← auxiliaryW sq points
  Geom.triangulate (containsW sq) points sup

/-- `two_norm` of the code, alg/src/lin_alg/const_matrix_impl.rs:215-219 -/
noncomputable def norm : P2 → F64 := normW F64.sqrt
/-- `circum_circle_contains` of the code, geom/src/lib.rs:24-51 -/
noncomputable def contains : P2 → P2 → P2 → P2 → Bool := containsW F64.sqrt
/-- `original_points` of the code, geom/src/lib.rs:59-72 -/
noncomputable def auxiliary : List P2 → Option (List P2) := auxiliaryW F64.sqrt
/-- `delaunay_triangulation` of the code, geom/src/lib.rs:58-127 -/
noncomputable def delaunay : List P2 → Option (List (P2 × P2 × P2) × List Geom.Triple) := delaunayW F64.sqrt

end Toppo.FloatGeom
