import Verif.Model.TupleIter
import Mathlib.Data.List.Sort
import Mathlib.Analysis.SpecialFunctions.Pow.Real
set_option linter.unusedVariables false

/-
Model of geom/src/lib.rs: `Triangle::circum_circle_contains` (24-51) and `delaunay_triangulation` (58-127).

`f64` is replaced by exact reals.  A `ConstVector<f64, 2>` is a pair.  `none` is a panic.
The triangulation loop is modelled for an arbitrary type of points and an arbitrary in-circle test, so that what is proved about it
for all tests holds for the floating point test as well.
-/
namespace Toppo.Geom

/-! ### the triangulation loop -/

abbrev Triple := Nat × Nat × Nat

/-- `triangle.tuple_iter(2)`, geom/src/lib.rs:95, 99 (util/src/lib.rs:371-456): the three edges -/
def edgesOf (t : Triple) : Option (List (List Nat)) := tupleIter 10 [t.1, t.2.1, t.2.2] 2

/-- the closure `index`, geom/src/lib.rs:74-80 -/
def index {P : Type} (points sup : List P) (i : Nat) : Option P :=
  if i < points.length then points[i]? else sup[i - points.length]?

/-- the loop collecting `bad_triangles`, geom/src/lib.rs:86-92; `inC a b c p` is `circum_circle_contains` -/
def badTriangles {P : Type} (inC : P → P → P → P → Bool) (points sup : List P) (i : Nat) : List Triple → Option (List Triple)
  | [] => some []
  | t :: ts => do
    let a ← index points sup t.1
    let b ← index points sup t.2.1
    let c ← index points sup t.2.2
    let p ← points[i]?
    let rest ← badTriangles inC points sup i ts
    return if inC a b c p then t :: rest else rest

/-- all edges of the triangles in a list, `.map(|t| t.tuple_iter(2)).flatten()`, geom/src/lib.rs:99-100 -/
def allEdges : List Triple → Option (List (List Nat))
  | [] => some []
  | t :: ts => do
    let e ← edgesOf t
    let rest ← allEdges ts
    return e ++ rest

/-- `polygon.push([*edge[0], *edge[1]])`, geom/src/lib.rs:103 -/
def toPair : List Nat → Option (Nat × Nat)
  | a :: b :: _ => some (a, b)
  | _ => none

/-- the edges of one bad triangle that no other bad triangle has, geom/src/lib.rs:95-105 -/
def boundaryOf (bad : List Triple) (t : Triple) : Option (List (Nat × Nat)) := do
  let es ← edgesOf t
  let others ← allEdges (bad.filter (fun s => decide (s ≠ t)))
  (es.filter (fun e => others.all (fun e' => decide (e' ≠ e)))).mapM toPair

/-- `polygon`, geom/src/lib.rs:93-107 -/
def polygonOf (bad : List Triple) : List Triple → Option (List (Nat × Nat))
  | [] => some []
  | t :: ts => do
    let es ← boundaryOf bad t
    let rest ← polygonOf bad ts
    return es ++ rest

/-- `new_t.sort()` for an array of three, geom/src/lib.rs:112-113 (all sorting functions agree on numbers: insertion sort here) -/
def sort3 (a b c : Nat) : Option Triple :=
  match [a, b, c].insertionSort (fun x y => x ≤ y) with
  | [x, y, z] => some (x, y, z)
  | _ => none

/-- inserting the point `i`, geom/src/lib.rs:84-116 -/
def insertPoint {P : Type} (inC : P → P → P → P → Bool) (points sup : List P) (tri : List Triple) (i : Nat) : Option (List Triple) := do
  let bad ← badTriangles inC points sup i tri
  let polygon ← polygonOf bad bad
  let new ← polygon.mapM (fun e => sort3 e.1 e.2 i)
  return tri.filter (fun t => !bad.contains t) ++ new

/-- the last loop, geom/src/lib.rs:121-124, with its assertion -/
def collectTriangle {P : Type} (points : List P) (t : Triple) : Option (P × P × P) :=
  if t.1 ≠ t.2.1 ∧ t.1 ≠ t.2.2 ∧ t.2.1 ≠ t.2.2 then do
    let a ← points[t.1]?
    let b ← points[t.2.1]?
    let c ← points[t.2.2]?
    return (a, b, c)
  else none

/-- `delaunay_triangulation` with given in-circle test and auxiliary points, geom/src/lib.rs:82-127 -/
def triangulate {P : Type} (inC : P → P → P → P → Bool) (points sup : List P) : Option (List (P × P × P) × List Triple) := do
  let tri ← (List.range points.length).foldlM (insertPoint inC points sup)
    [(points.length, points.length + 1, points.length + 2)]
  let tri := tri.filter (fun t => decide (t.1 < points.length) && decide (t.2.1 < points.length) && decide (t.2.2 < points.length))
  let out ← tri.mapM (collectTriangle points)
  return (out, tri)

/-! ### the exact in-circle test and auxiliary points -/

abbrev Pt := ℝ × ℝ

/-- `two_norm`, alg/src/lin_alg/const_matrix_impl.rs:216-218 -/
noncomputable def twoNorm (p : Pt) : ℝ := Real.sqrt (p.1 * p.1 + p.2 * p.2)

/-- the closure `orthogonal`, geom/src/lib.rs:25-30 -/
def orthogonal (m : Pt) : Pt := (-m.2, m.1)

/-- `Sphere::contains`, geom/src/lib.rs:12-14 -/
def sphereContains (radius : ℝ) (center p : Pt) : Prop := twoNorm (p - center) < radius

/-- `circum_circle_contains`, geom/src/lib.rs:24-51.  `m` has the columns `b` and `-d`.  In floating point a zero determinant makes the
entries of `m_inv` infinite or NaN, hence so the center, and the comparison false: that case is modelled as false. -/
noncomputable def circumContains (d0 d1 d2 p : Pt) : Prop :=
  let a := d0 + (1 / 2 : ℝ) • (d1 - d0)
  let b := orthogonal (d1 - d0)
  let c := d0 + (1 / 2 : ℝ) • (d2 - d0)
  let d := orthogonal (d2 - d0)
  let m00 := b.1
  let m01 := d.1 * (-1)
  let m10 := b.2
  let m11 := d.2 * (-1)
  let det := m00 * m11 - m10 * m01
  let i00 := m11 / det
  let i01 := -m01 / det
  let t := i00 * (c - a).1 + i01 * (c - a).2
  let center := a + t • b
  let radius := twoNorm (d0 - center)
  det ≠ 0 ∧ sphereContains radius center p

/-- `points.iter().fold(zero, +) / len`, geom/src/lib.rs:60-62 -/
noncomputable def centroid (points : List Pt) : Pt :=
  let s := points.foldl (fun acc x => acc + x) (0, 0)
  (s.1 / points.length, s.2 / points.length)

/-- `max_by(partial_cmp)` over the distances, geom/src/lib.rs:63-66: `None` for no points -/
noncomputable def maxDist (center : Pt) : List Pt → Option ℝ
  | [] => none
  | p :: ps => some (ps.foldl (fun r q => max r (twoNorm (q - center))) (twoNorm (p - center)))

/-- `original_points`, geom/src/lib.rs:59-72 -/
noncomputable def auxiliary (points : List Pt) : Option (List Pt) := do
  let center := centroid points
  let m ← maxDist center points
  let r := m + 1
  return [center + (0, 2 * r), center + (Real.sqrt 3 * r, -r), center + (-Real.sqrt 3 * r, -r)]

open Classical in
/-- `delaunay_triangulation`, geom/src/lib.rs:58-127, in exact arithmetic -/
noncomputable def delaunay (points : List Pt) : Option (List (Pt × Pt × Pt) × List Triple) := do
  let sup ← auxiliary points
  triangulate (fun a b c p => decide (circumContains a b c p)) points sup

end Toppo.Geom
