import Mathlib.Order.Defs.LinearOrder
import Mathlib.Algebra.Group.Defs
set_option linter.unusedVariables false

/-
Model of the formal sums `Vector<Coeff, Basis>` and of `Module`, alg/src/lin_alg.rs:72-410.

The coefficient type is any type with the operations the code uses; the basis type is linearly ordered
(`partial_cmp(..).unwrap()` is assumed never to panic, i.e. `PartialOrd` is total on the basis elements used).
-/
namespace Toppo

/-- `struct Vector`, lin_alg.rs:172-175. -/
abbrev FSum (K B : Type) := List (K × B)

namespace FSum
variable {K B : Type}

/-- A stream of the k-way merge: the current item and the remaining ones. Used for lin_alg.rs:300-328. -/
abbrev Stream (K B : Type) := (K × B) × List (K × B)

/-- `Vector::zero`, lin_alg.rs:178-180. -/
def zero : FSum K B := []

/-- `From<Vec<Basis>>` / `From<[Basis; N]>`, lin_alg.rs:191-203: a stable sort, every coefficient one, duplicates are kept. -/
def ofList [One K] [LinearOrder B] (l : List B) : FSum K B :=
  (l.mergeSort (fun x y => decide (x ≤ y))).map (fun b => (1, b))

/-- `From<Basis>`, lin_alg.rs:205-209. -/
def single [One K] (b : B) : FSum K B := [(1, b)]

/-- `Neg`, lin_alg.rs:248-254. -/
def neg [Neg K] [One K] [Mul K] (v : FSum K B) : FSum K B := v.map (fun sb => (sb.1 * -1, sb.2))

/-- `Mul<Coeff>`, lin_alg.rs:256-263. -/
def smul [Mul K] [Zero K] [DecidableEq K] (v : FSum K B) (c : K) : FSum K B :=
  if c = 0 then [] else v.map (fun sb => (sb.1 * c, sb.2))

/-- `Merge::next` run to the end, lin_alg.rs:300-328: `curr` is compared with the items of `i`; `j` is only consulted after
`i` is exhausted. -/
def mergeFrom [LinearOrder B] (curr : Stream K B) : List (Stream K B) → List (Stream K B) → List (Stream K B)
  | x :: i, j => if curr.1.2 < x.1.2 then curr :: mergeFrom x i j else x :: mergeFrom curr i j
  | [], j => curr :: j

/-- `merge_by(..).collect()`, lin_alg.rs:330-345. -/
def mergeBy [LinearOrder B] (i j : List (Stream K B)) : List (Stream K B) :=
  match j with
  | n :: j => mergeFrom n i j
  | [] => match i with
    | [] => []
    | c :: i => mergeFrom c i []

/-- Sorting the streams by their current basis element, lin_alg.rs:367 and 388 (stable). -/
def sortStreams [LinearOrder B] (l : List (Stream K B)) : List (Stream K B) :=
  l.mergeSort (fun x y => decide (x.1.2 ≤ y.1.2))

/-- `iter.next()` on every consumed stream, keeping those that still have an item, lin_alg.rs:379-388. -/
def advance (l : List (Stream K B)) : List (Stream K B) :=
  l.filterMap (fun s => match s.2 with
    | [] => none
    | x :: xs => some (x, xs))

/-- The `while` loop of `Sum`, lin_alg.rs:373-396.  `fuel` bounds the number of rounds. -/
def sumLoop [LinearOrder B] [Add K] [Zero K] [DecidableEq K] : Nat → List (Stream K B) → FSum K B → Option (FSum K B)
  | _, [], out => some out
  | 0, _ :: _, _ => none
  | fuel + 1, s :: ss, out =>
    -- `take_while(basis == iters[0].basis).count()`
    let n := ((s :: ss).takeWhile (fun t => decide (t.1.2 = s.1.2))).length
    let coeff := (ss.take (n - 1)).foldl (fun c t => c + t.1.1) s.1.1
    let next := sortStreams (advance ((s :: ss).take n))
    let iters := mergeBy ((s :: ss).drop n) next
    let out := if coeff ≠ 0 then out ++ [(coeff, s.1.2)] else out
    sumLoop fuel iters out

/-- The streams of the vectors, lin_alg.rs:361-368. -/
def streams (vs : List (FSum K B)) : List (Stream K B) :=
  vs.filterMap (fun v => match v with
    | [] => none
    | x :: xs => some (x, xs))

/-- `Sum`, lin_alg.rs:359-397.  Every round consumes at least one item, the round bound is the number of items. -/
def sum [LinearOrder B] [Add K] [Zero K] [DecidableEq K] (vs : List (FSum K B)) : Option (FSum K B) :=
  sumLoop (vs.map List.length).sum (sortStreams (streams vs)) []

/-- `Add`, lin_alg.rs:234-239. -/
def add [LinearOrder B] [Add K] [Zero K] [DecidableEq K] (v w : FSum K B) : Option (FSum K B) := sum [v, w]

/-- `Sub`, lin_alg.rs:241-246. -/
def sub [LinearOrder B] [Add K] [Zero K] [Neg K] [One K] [Mul K] [DecidableEq K] (v w : FSum K B) : Option (FSum K B) :=
  add v (neg w)

/-- `Index<&Basis>`, lin_alg.rs:401-406; `none` is the panic of `unwrap` for an absent basis element. -/
def index [DecidableEq B] (v : FSum K B) (b : B) : Option K :=
  (v.find? (fun ib => decide (ib.2 = b))).map (fun ib => ib.1)

end FSum
end Toppo
