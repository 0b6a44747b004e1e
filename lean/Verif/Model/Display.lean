import Verif.Model.Rational
import Verif.Model.Permutation
import Verif.Model.Module
import Verif.Model.Morse
import Verif.Model.LabeledSet
import Verif.Model.MultiGraph
import Verif.Model.FormalSum
import Verif.Model.Sparse
import Verif.Model.Homology
set_option linter.unusedVariables false

/-
Model of the `Display` and `Debug` implementations, i.e. of what `to_string()` and `format!("{:?}", ..)` return.

A text is its list of characters.  Unsigned integers are printed in decimal, without leading zeros (`core::fmt`), modelled by Lean's
`Nat.toDigits 10`; negative numbers get a leading `-`.  A precision (`{:.3}`) is ignored by integers and by `Rational`, as documented for
`core::fmt` and as rational_impl.rs:233-245 does.  `none` is a panic.  Not modelled: the texts of `f64` numbers (a parameter in
Model/FnText.lean, which has the texts of `AtomicSmoothFn`).
-/
namespace Toppo.Text
open Toppo RawGraph

abbrev Text := List Char

/-- `Display` of `usize`, `u64`. Used for rational_impl.rs:218-246. -/
def dec (n : Nat) : Text := Nat.toDigits 10 n

/-- `Display` of `i64`. Used for lin_alg.rs:124-143. -/
def decI (z : Int) : Text := if z < 0 then '-' :: dec z.natAbs else dec z.natAbs

/-- several texts one after the other with `sep` between two of them. Used for permutation.rs:122-135. -/
def joinT (sep : Text) : List Text → Text
  | [] => []
  | [x] => x
  | x :: y :: l => x ++ sep ++ joinT sep (y :: l)

/-- `Display` and `Debug` of `Rational`, rational_impl.rs:218-246 -/
def rational (q : Rational) : Text :=
  (if q.sign then [] else ['-']) ++ (if q.denominator = 1 then dec q.numerator else dec q.numerator ++ ['/'] ++ dec q.denominator)

/-- `Display` of `Cycle`, permutation.rs:122-135 -/
def cycle (c : Cycle) : Text :=
  if c.isEmpty then ['(', '1', ')'] else ['('] ++ joinT [',', ' '] (List.map dec c) ++ [')']

/-- `Display` of `Permutation`, permutation.rs:322-329 -/
def permutation (p : Permutation) : Text := p.flatMap cycle

/-- one summand of the torsion part, lin_alg.rs:124-143, over the integers (`Coeff::symbol()` is `Z`, commutative.rs:39-56) -/
def torsion (dm : Int × Nat) : Text :=
  if dm.2 = 1 then ['Z', '_'] ++ decI dm.1 else ['(', 'Z', '_'] ++ decI dm.1 ++ [')', '^'] ++ dec dm.2

/-- `Display` of `Module<i64>`, lin_alg.rs:106-146 -/
def module (a : Mod) : Text :=
  if a.isZero then ['0']
  else
    (if a.freeRank = 1 then ['Z'] ++ (if !a.divisors.isEmpty then [' ', '+', ' '] else [])
     else if a.freeRank > 1 then ['Z', '^'] ++ dec a.freeRank ++ (if !a.divisors.isEmpty then [' ', '+', ' '] else [])
     else []) ++
    joinT [' ', '+', ' '] (a.divisors.map torsion)

/-- one line of the text of the homology, topo_spaces/src/lib.rs:177 -/
def homologyLine (mi : Mod × Nat) : Text := ['d', 'i', 'm', ' '] ++ dec mi.2 ++ [':', ' '] ++ module mi.1 ++ [',', '\n']

/-- `Display` of `IntegralHomology`, topo_spaces/src/lib.rs:174-181 -/
def homology (l : List Mod) : Text := l.zipIdx.flatMap homologyLine

/-- `Debug` of `BinaryPool`, util/src/lib.rs:157-174 -/
def pool (p : BinaryPool) : Option Text := do
  let bits ← (List.range p.len).mapM p.contains
  return ['l', 'e', 'n', ' ', '=', ' '] ++ dec p.len ++ [',', ' '] ++
    ['n', '_', 'e', 'l', 'e', 'm', 'e', 'n', 't', 's', ' ', '=', ' '] ++ dec p.nElements ++ [',', ' '] ++
    ['d', 'a', 't', 'a', ' ', '=', ' ', '['] ++ joinT [',', ' '] (bits.map (fun b => if b then ['1'] else ['0'])) ++ [']']

/-- `Display` of `LabeledSet`, util/src/lib.rs:322-335; `show` prints a label -/
def labeledSet {α : Type} (sh : α → Text) (s : LabeledSet α) : Option Text := do
  let l ← s.toList
  return ['{'] ++ joinT [',', ' '] (l.map sh) ++ ['}']

/-- `Display` of `RawSimpleGraph`, graph.rs:485-495 -/
def rawGraph (g : RawGraph) : Option Text := do
  let rows ← (List.range' 1 (g.n - 1)).mapM (fun j => do
    let bits ← (List.range j).mapM (fun i => g.contains i j)
    return bits.map (fun b => if b then '1' else '0') ++ ['\n'])
  return rows.flatten

/-- `Debug` of `RawSimpleGraph`, graph.rs:498-513 -/
def rawGraphDebug (g : RawGraph) : Option Text := do
  let rows ← (List.range g.n).mapM (fun i => do
    let bits ← (List.range' (i + 1) (g.n - (i + 1))).mapM (fun j => g.contains i j)
    return (List.replicate i [' ', ' ']).flatten ++ (if i < 10 then [' '] else []) ++ dec i ++
      bits.flatMap (fun b => [' ', if b then '+' else ' ']) ++ ['\n'])
  return rows.flatten

/-- `Display` of `CubeFactor`, graph.rs:1542-1549 -/
def factor : Factor → Text
  | .edge x y => ['['] ++ dec x ++ [' '] ++ dec y ++ [']']
  | .vertex x => dec x

/-- `Display` of `Cube`, cubical.rs:571-580: `unwrap` panics on the empty cube -/
def cube (c : List Factor) : Option Text :=
  if c.isEmpty then none else some (['{'] ++ joinT [',', ' '] (c.map factor) ++ ['}'])

/-- printing one cell of a complex, cubical.rs:246-260, 1137-1147; `last` is the last element of `final_branch_indeces` -/
def cellLine (idx last : Nat) (c : List Factor) : Text :=
  ['\n', '\t', '{'] ++ c.flatMap (fun f => factor f ++ [',', ' ']) ++ ['}'] ++ (if idx ≠ last then [',', ' '] else [])

/-- `filter(..)` with a predicate that may panic. Used for cubical.rs:244-260. -/
def filterOpt {α : Type} (p : α → Option Bool) : List α → Option (List α)
  | [] => some []
  | f :: fs => do
    let b ← p f
    let r ← filterOpt p fs
    return if b then f :: r else r

/-- the loop over the cells of one dimension, cubical.rs:244-260, 1136-1148 -/
def cellLines (s : Cub.Cplx) (cellAt : Nat → Option (List Factor)) (d : Nat) : Option (List Text) := do
  let idxs ← filterOpt (fun idx => do
    let e ← Cub.dimOf s.data (idx + 1) idx
    return decide (e = d)) s.final
  idxs.mapM (fun idx => do
    let c ← cellAt idx
    let last ← s.final.getLast?
    return cellLine idx last c)

/-- `Display` of `CubicalCplx`, cubical.rs:240-265 -/
def cubicalCplx (s : Cub.Cplx) : Option Text := do
  let parts ← (List.range (s.dim + 1)).mapM (fun i => do
    let cells ← cellLines s s.cellAt i
    return dec i ++ ['-', 'c', 'e', 'l', 'l', 's', ':'] ++ cells.flatten ++ ['\n'])
  return parts.flatten

/-- `Display` of `UdnMorseCplx`, cubical.rs:1132-1153 -/
def morseCplx (s : Cub.Cplx) : Option Text := do
  let parts ← (List.range (s.dim + 1)).mapM (fun i => do
    let k ← s.ranks[i]?
    let cells ← cellLines s (Cub.Morse.cellAt s) i
    return dec i ++ ['-', 'c', 'e', 'l', 'l', 's', ':', ' '] ++ dec k ++
      [' ', 'c', 'e', 'l', 'l', 's', ' ', 'i', 'n', ' ', 't', 'o', 't', 'a', 'l'] ++ cells.flatten ++ ['\n'])
  return parts.flatten

/-- `Display` of `SimpleVertex` and `VertexVector`, graph.rs:221-229, 238-245; labels are texts -/
def simpleVertex : SVertex Text → Text
  | .essential a => a
  | .redundant a b dir q => ['('] ++ rational q ++ [')', '('] ++ a ++ [',', ' '] ++ b ++ [')'] ++ (if dir ≠ 0 then dec dir else [])

/-- `Display` of `SimpleGraph`, graph.rs:1270-1294: a comma follows the edge number `i` unless `i = n_edges() - 1`; the subtraction underflows
only if an edge is printed although there is none -/
def simpleGraph (g : SGraph Text) : Option Text := do
  let es ← g.data.edgeIter
  let parts ← es.zipIdx.mapM (fun ei => do
    let vw ← ei.1.edgeOf
    let v ← g.verts[vw.1]?
    let w ← g.verts[vw.2]?
    let top ← csub g.data.nEdges 1
    return ['['] ++ simpleVertex v ++ [',', ' '] ++ simpleVertex w ++ [']'] ++ (if ei.2 ≠ top then [',', ' '] else []))
  return ['v', 'e', 'r', 't', 'i', 'c', 'e', 's', ':', ' '] ++ joinT [',', ' '] (g.verts.map simpleVertex) ++ ['\n'] ++
    ['e', 'd', 'g', 'e', 's', ':', ' '] ++ parts.flatten ++ ['\n']

/-- `Debug` and `Display` of `SubMatrix<i64>` and `Matrix<i64>`, matrix_impl.rs:756-783, 2124-2140 (integers ignore the precision), for the
`n × m` matrix with entries `a` -/
def matrix (n m : Nat) (a : Nat → Nat → Int) : Text :=
  ['\n'] ++ (List.range n).flatMap (fun i => ['|', ' '] ++ joinT ['\t'] ((List.range m).map (fun j => decI (a i j))) ++ [' ', '|', '\n'])

/-- one line of the text of a sparse matrix, sparse_matrix_impl.rs:289 -/
def sparseLine (e : Nat × Nat × Int) : Text := ['('] ++ dec e.1 ++ [',', ' '] ++ dec e.2.1 ++ [')', ':', ' '] ++ decI e.2.2 ++ ['\n']

/-- `Display` of `SparseMatrix<i64>`, sparse_matrix_impl.rs:285-294 -/
def sparse (a : Sparse.SMat Int) : Option Text := do
  let rows ← (List.range a.size.1).mapM (fun i => do
    let l ← a.rowIter i
    return l.flatMap (fun jv => sparseLine (i, jv.1, jv.2)))
  return rows.flatten

/-- the first term of a formal sum, lin_alg.rs:419-427 -/
def firstTerm {B : Type} (sh : B → Text) (t : Int × B) : Text :=
  if t.1 = 1 then sh t.2 else if t.1 = -1 then ['-'] ++ sh t.2 else decI t.1 ++ ['·'] ++ sh t.2

/-- a later term, lin_alg.rs:431 -/
def laterTerm {B : Type} (sh : B → Text) (t : Int × B) : Text := [' ', '+', ' ', '('] ++ decI t.1 ++ [')', '·'] ++ sh t.2

/-- `Display` of `Vector<i64, B>`, lin_alg.rs:409-435; `sh` prints a basis element -/
def formalSum {B : Type} (sh : B → Text) : FSum Int B → Text
  | [] => ['0']
  | t :: l => firstTerm sh t ++ l.flatMap (laterTerm sh)

/-- `i_cycles.iter().for_each(..)`, topo_spaces/src/lib.rs:147-149 and 158-160: one line for every generator -/
def generatorLine {B : Type} (sh : B → Text) (v : FSum Int B) : Text := ['\t'] ++ formalSum sh v ++ [',', ' ', '\n']

/-- `IntegralHomology::get_description_of_cycles`, topo_spaces/src/lib.rs:143-152; `sh` prints a cell -/
def describeCycles {B : Type} (sh : B → Text) (res : List (Hom.Out B)) : Text :=
  res.zipIdx.flatMap (fun oi => dec oi.2 ++ ['-', 'c', 'y', 'c', 'l', 'e', 's', ':', ' ', '\n'] ++ oi.1.cycles.flatMap (generatorLine sh))

/-- `IntegralHomology::get_description_of_boundaries`, topo_spaces/src/lib.rs:155-164 -/
def describeBoundaries {B : Type} (sh : B → Text) (res : List (Hom.Out B)) : Text :=
  res.zipIdx.flatMap (fun oi =>
    dec oi.2 ++ ['-', 'b', 'o', 'u', 'n', 'd', 'a', 'r', 'i', 'e', 's', ':', ' ', '\n'] ++ oi.1.boundaries.flatMap (generatorLine sh))

end Toppo.Text
