import Verif.Model.CubeFlow
import Verif.Model.MatrixView
import Verif.Model.Sparse

/-
Model of the comparison operators that are not the ones used for sorting: `Ord` of `Cycle` (alg/src/non_commutative/permutation.rs:95-121), the derived `Ord` of
`CubeFactor` (topo_spaces/src/graph.rs:1308) and of `Cube` (topo_spaces/src/cubical.rs:436-437), and `==` between a view and a matrix (alg/src/lin_alg/matrix_impl.rs:575-585).
-/
namespace Toppo

/-- `Cycle::cmp`, permutation.rs:96-113; `partial_cmp`, 116-120, is `Some` of it -/
def Cycle.cmp (a b : Cycle) : Ordering :=
  if a = b then .eq
  else match a, b with
    | [], _ => .lt
    | _ :: _, [] => .gt
    | x :: _, y :: _ => compare x y

/-- the derived `Ord::cmp` of `CubeFactor`, graph.rs:1308-1312: first the variant (`Edge` is declared first), then the contents lexicographically -/
def RawGraph.Factor.ocmp : RawGraph.Factor → RawGraph.Factor → Ordering
  | .edge x y, .edge z w => (compare x z).then (compare y w)
  | .edge _ _, .vertex _ => .lt
  | .vertex _, .edge _ _ => .gt
  | .vertex x, .vertex y => compare x y

/-- the derived `Ord::cmp` of `Cube`, cubical.rs:436-437: that of `Vec<CubeFactor>`, lexicographic -/
def Cub.cocmp : List RawGraph.Factor → List RawGraph.Factor → Ordering
  | [], [] => .eq
  | [], _ :: _ => .lt
  | _ :: _, [] => .gt
  | a :: as, b :: bs => (RawGraph.Factor.ocmp a b).then (Cub.cocmp as bs)

/-- `Matrix == Matrix`, matrix_impl.rs:581-585: the comparison of the two views -/
def Mat.eq {K : Type} [DecidableEq K] (a b : Mat K) : Option Bool := View.eq a.data a.view b.data b.view

/-- `SubMatrix == Matrix`, matrix_impl.rs:575-579: the body `self == rhs` compares a `&SubMatrix` with a `&Matrix`, which is this very function. `depth` is the number of nested
calls the stack has room for; the result is `none` when it is used up. -/
def View.eqMat {K : Type} [DecidableEq K] (depth : Nat) (mem : List K) (v : View) (a : Mat K) : Option Bool :=
  match depth with
  | 0 => none
  | d + 1 => View.eqMat d mem v a

end Toppo
