import Mathlib.Data.List.AList
import Mathlib.Data.Real.Basic
import Verif.Model.ConstMatrix
import Verif.Model.MultiGraph
/-
Model of `SimpleGraph::modify_embedding`, topo_spaces/src/graph.rs:1191-1211, `Into<f64> for Rational`,
alg/src/commutative/rational_impl.rs:91-97, and `degree_in_maximal_tree`, topo_spaces/src/graph.rs:318-327.

A `HashMap` is an `AList` (entries with distinct keys); its order is not observable.  `f64` is modelled by the reals: rounding is not
modelled.  A `ConstVector<f64, N>` is a list of `N` numbers, as in `Verif.Model.ConstMatrix`.  `none` is a panic.
-/
namespace Toppo

/-- `Into<f64> for Rational`, rational_impl.rs:91-97 (the division is exact). -/
noncomputable def Rational.toReal (q : Rational) : ℝ :=
  let out := (q.numerator : ℝ) / (q.denominator : ℝ)
  if !q.sign then out * -1 else out

namespace SGraph
variable {α : Type} [DecidableEq α]

/-- the `match` computing the position of one vertex, graph.rs:1197-1206 -/
noncomputable def position (emb : AList (fun _ : α => List ℝ)) : SVertex α → Option (List ℝ)
  | .essential s => emb.lookup s
  | .redundant a b _ q => do
    let start ← emb.lookup a
    let stop ← emb.lookup b
    return CMat.vAdd start (CMat.vMul (CMat.vSub stop start) q.toReal)

/-- `modify_embedding`, graph.rs:1191-1211. -/
noncomputable def modifyEmbedding (g : SGraph α) (emb : AList (fun _ : α => List ℝ)) : Option (AList (fun _ : SVertex α => List ℝ)) :=
  if g.nEssential = emb.keys.length then
    g.verts.foldlM (fun out v => do
      let p ← position emb v
      return out.insert v p) ∅
  else none

end SGraph

namespace RawGraph

/-- the closure of the filter in `degree_in_maximal_tree`, graph.rs:321-325: the pair is sorted first -/
def inTree (g : RawGraph) (v w : Nat) : Option Bool := g.treeContains (min v w) (max v w)

/-- `filter(..).count()` with a panicking predicate. Used for graph.rs:318-327. -/
def countM (f : Nat → Option Bool) : List Nat → Option Nat
  | [] => some 0
  | w :: ws => do
    let b ← f w
    let k ← countM f ws
    return if b then k + 1 else k

/-- `degree_in_maximal_tree`, graph.rs:318-327. -/
def degreeInTree (g : RawGraph) (v : Nat) : Option Nat :=
  if v ≥ g.n then none
  else do
    let a ← g.adj v
    countM (g.inTree v) a

end RawGraph
end Toppo
