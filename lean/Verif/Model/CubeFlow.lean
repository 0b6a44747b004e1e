import Verif.Model.CubeCplx

/-
Model of `Cube`, topo_spaces/src/cubical.rs:429-569, and of the formal sums of cubes it uses (alg/src/lin_alg.rs:165-410).  The general
model of formal sums (Model/FormalSum.lean) assumes a total order on the basis; cubes are only partially ordered and the code unwraps the
comparison, so here the comparison may panic.

`none` is a panic.  `i64` is `Int`.
-/
namespace Toppo
namespace Cub
open RawGraph

/-- the derived `PartialOrd` of `Cube(Vec<CubeFactor>)`, cubical.rs:437-438: lexicographic, undefined at the first incomparable pair -/
def ccmp : List Factor → List Factor → Option Ordering
  | [], [] => some .eq
  | [], _ :: _ => some .lt
  | _ :: _, [] => some .gt
  | a :: as, b :: bs =>
    match Factor.pcmp a b with
    | some .eq => ccmp as bs
    | o => o

/-- a formal sum of cubes. Used for lin_alg.rs:371-396. -/
abbrev Ch := List (Int × List Factor)

/-- a stream of the merge: its current item and the remaining ones. Used for lin_alg.rs:367. -/
abbrev Str := (Int × List Factor) × Ch

/-- one insertion of the stable insertion sort std uses for up to 20 elements; the sorted prefix is given in reverse; the comparison may panic. Used for lin_alg.rs:367. -/
def insRevC (x : Str) : List Str → Option (List Str)
  | [] => some [x]
  | y :: ys =>
    match ccmp x.1.2 y.1.2 with
    | none => none
    | some .lt => (insRevC x ys).map (y :: ·)
    | some _ => some (x :: y :: ys)

/-- `sort_by(.. partial_cmp(..).unwrap())`, lin_alg.rs:367, 388 -/
def sortC (l : List Str) : Option (List Str) := (l.foldlM (fun acc x => insRevC x acc) []).map List.reverse

/-- `Merge::next` run to the end, lin_alg.rs:300-328 -/
def mergeFromC (curr : Str) : List Str → List Str → Option (List Str)
  | [], j => some (curr :: j)
  | x :: i, j =>
    match ccmp curr.1.2 x.1.2 with
    | none => none
    | some .lt => (mergeFromC x i j).map (curr :: ·)
    | some _ => (mergeFromC curr i j).map (x :: ·)

/-- `merge_by(..).collect()`, lin_alg.rs:330-345 -/
def mergeByC (i j : List Str) : Option (List Str) :=
  match j with
  | n :: j => mergeFromC n i j
  | [] =>
    match i with
    | [] => some []
    | c :: i => mergeFromC c i []

/-- `iter.next()` on every consumed stream, lin_alg.rs:379-387 -/
def advanceC (l : List Str) : List Str :=
  l.filterMap (fun s => match s.2 with
    | [] => none
    | x :: xs => some (x, xs))

/-- the `while` loop of `Sum`, lin_alg.rs:371-396; every round consumes an item, `fuel` bounds the number of rounds -/
def sumLoopC : Nat → List Str → Ch → Option Ch
  | _, [], out => some out
  | 0, _ :: _, _ => none
  | fuel + 1, s :: ss, out =>
    let n := ((s :: ss).takeWhile (fun t => decide (t.1.2 = s.1.2))).length
    let coeff := (ss.take (n - 1)).foldl (fun c t => c + t.1.1) s.1.1
    match sortC (advanceC ((s :: ss).take n)) with
    | none => none
    | some next =>
      match mergeByC ((s :: ss).drop n) next with
      | none => none
      | some iters => sumLoopC fuel iters (if coeff ≠ 0 then out ++ [(coeff, s.1.2)] else out)

/-- `Sum`, lin_alg.rs:359-397 -/
def sumC (vs : List Ch) : Option Ch :=
  match sortC (advanceC (vs.map (fun v => ((0, []), v)))) with
  | none => none
  | some l => sumLoopC (vs.map List.length).sum l []

/-- `Add`, lin_alg.rs:234-239 -/
def addC (v w : Ch) : Option Ch := sumC [v, w]

/-- `Neg`, lin_alg.rs:248-254 -/
def negC (v : Ch) : Ch := v.map (fun sb => (sb.1 * -1, sb.2))

/-- `Mul<Coeff>`, lin_alg.rs:256-263 -/
def smulC (v : Ch) (c : Int) : Ch := if c = 0 then [] else v.map (fun sb => (sb.1 * c, sb.2))

/-- `Index<&Basis>`, lin_alg.rs:401-406 -/
def coefC (v : Ch) (c : List Factor) : Option Int := (v.find? (fun ib => decide (ib.2 = c))).map Prod.fst

/-- the loop of `get_boundary`, cubical.rs:519-525, over the factors from position `i` on; `b2 - b1` is `Vector::from(b2) + -Vector::from(b1)` -/
def bdLoop (c : List Factor) : Nat → Int → Ch → List Factor → Option Ch
  | _, _, acc, [] => some acc
  | i, sign, acc, .vertex _ :: fs => bdLoop c (i + 1) sign acc fs
  | i, sign, acc, .edge x y :: fs =>
    let b1 := Factor.sort (c.set i (.vertex x))
    let b2 := Factor.sort (c.set i (.vertex y))
    match addC [(1, b2)] (negC [(1, b1)]) with
    | none => none
    | some d =>
      match addC acc (smulC d sign) with
      | none => none
      | some acc => bdLoop c (i + 1) (sign * -1) acc fs

/-- `get_boundary`, cubical.rs:516-528 -/
def getBoundary (c : List Factor) : Option Ch := bdLoop c 0 (-1) [] c

/-- `enum MorseProp`, cubical.rs:429-434 -/
inductive MorseProp where
  | critical
  | collapsible (i : Nat)
  | redundant (i : Nat)
deriving DecidableEq, Repr

/-- `self.0.iter().all(|&other| !other.is_vertex() || !other.is_disrespected_by(f))`, cubical.rs:535 -/
def noneBetween (f : Factor) : List Factor → Option Bool
  | [] => some true
  | o :: os =>
    if !o.isVertex then noneBetween f os
    else match o.isDisrespectedBy f with
      | none => none
      | some true => some false
      | some false => noneBetween f os

/-- the closure of the filter in `property`, cubical.rs:533-536 -/
def eligible (g : RawGraph) (c : List Factor) (f : Factor) : Option Bool :=
  if f.isVertex then (f.isBlocked g c).map not
  else
    match f.isInMaximalTree g with
    | none => none
    | some false => some false
    | some true =>
      match f.isOrderRespecting with
      | none => none
      | some true => some true
      | some false => noneBetween f c

/-- `enumerate().filter(..).next()`, cubical.rs:531-537, from position `i` on -/
def firstEligible (g : RawGraph) (c : List Factor) : Nat → List Factor → Option (Option (Nat × Factor))
  | _, [] => some none
  | i, f :: fs =>
    match eligible g c f with
    | none => none
    | some true => some (some (i, f))
    | some false => firstEligible g c (i + 1) fs

/-- `property`, cubical.rs:530-543 -/
def property (g : RawGraph) (c : List Factor) : Option MorseProp :=
  match firstEligible g c 0 c with
  | none => none
  | some none => some .critical
  | some (some (i, f)) => some (if f.isVertex then .redundant i else .collapsible i)

/-- the vertices of the factors other than the moving vertex, cubical.rs:477-487 -/
def otherVertices (v : Nat) (c : List Factor) : List Nat :=
  (c.filter (fun f => f != .vertex v)).flatMap (fun f => match f with
    | .edge x y => [y, x]
    | .vertex x => [x])

/-- `flow`, cubical.rs:466-514; `fuel` bounds the recursion depth, the sum of the positions of the factors plus one is proved to be enough -/
def flowC (g : RawGraph) : Nat → List Factor → Option Ch
  | 0, _ => none
  | fuel + 1, c =>
    match property g c with
    | none => none
    | some (.collapsible _) => some []
    | some .critical => some [(1, c)]
    | some (.redundant i) =>
      match c[i]? with
      | some (.vertex v) =>
        match Factor.flow g (.vertex v) with
        | some (.edge t u) =>
          if (otherVertices u c).all (fun w => decide (w < t) || decide (u < w)) then flowC g fuel (Factor.sort (c.set i (.vertex t)))
          else
            match getBoundary (Factor.sort (c.set i (.edge t u))) with
            | none => none
            | some b =>
              match coefC b c with
              | none => none
              | some k =>
                match (if k = 1 then addC (negC b) [(1, c)] else if k = -1 then addC b [(1, c)] else none) with
                | none => none
                | some b' =>
                  match b'.mapM (fun ic => (flowC g fuel ic.2).map (fun v => smulC v ic.1)) with
                  | none => none
                  | some vs => sumC vs
        | _ => none
      | _ => none

/-- `get_ends`, cubical.rs:546-569 -/
def getEnds (c : List Factor) : Option (List Factor × List Factor) :=
  if c.countP Factor.isEdge = 1 then
    some (c.map (fun f => match f with | .edge v _ => .vertex v | .vertex v => .vertex v), c.map (fun f => match f with | .edge _ w => .vertex w | .vertex v => .vertex v))
  else none

end Cub
end Toppo
