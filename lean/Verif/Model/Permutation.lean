/-
Model of alg/src/non_commutative/permutation.rs (`Cycle`, `Permutation`, `Gset for Vec<T>`, `ConstPermutation`,
`VecPermutation`) and of the default methods in alg/src/non_commutative.rs.

`none` is a panic (or a loop that used up the stated number of rounds; it is proved where this cannot happen).
-/
namespace Toppo

/-- `struct Cycle`, permutation.rs:10-13 (derived `PartialEq`: equality of the lists). -/
abbrev Cycle := List Nat

namespace Cycle

/-- `Cycle::is_valid`, permutation.rs:17-27: no repetition, with the `checker` vector. -/
def isValidLoop (checker : List Nat) : List Nat → Bool
  | [] => true
  | e :: es => if checker.contains e then false else isValidLoop (checker ++ [e]) es

/-- `Cycle::bring_smallest_first`, permutation.rs:55-69.  `min_by_key` returns the first minimum, `unwrap` panics on the
empty cycle. -/
def bringSmallestFirst (data : Cycle) : Option Cycle :=
  match data.min? with
  | none => none
  | some m =>
    let minIdx := data.idxOf m
    if minIdx = 0 then some data
    else some (data.drop minIdx ++ data.takeWhile (fun e => e != m))

/-- `Cycle::from`, permutation.rs:44-53. -/
def mk (data : List Nat) : Option Cycle :=
  if data.length = 1 then some []
  else if !isValidLoop [] data then none
  else bringSmallestFirst data

/-- `Cycle::cyclic_from`, permutation.rs:29-37, on the range `lo..hi`. -/
def cyclicFrom (lo hi : Nat) : Cycle :=
  let data := List.range' lo (hi - lo)
  if data.length = 1 then [] else data

/-- `Cycle::map`, permutation.rs:71-82 (`self[pos]` cannot be out of range). -/
def map (c : Cycle) (n : Nat) : Nat :=
  match c.findIdx? (fun k => k == n) with
  | none => n
  | some pos =>
    let pos := if pos = c.length - 1 then 0 else pos + 1
    c.getD pos 0

/-- `Ord for Cycle`, permutation.rs:95-114, as the comparison `a ≤ b` used by `sort`. -/
def le (a b : Cycle) : Bool :=
  if a = b then true
  else match a, b with
    | [], _ => true
    | _ :: _, [] => false
    | x :: _, y :: _ => decide (x ≤ y)

end Cycle

/-- `struct Permutation`, permutation.rs:168-176 (derived `PartialEq`). -/
abbrev Permutation := List Cycle

namespace Permutation

/-- `Permutation::identity`, permutation.rs:401-403. -/
def identity : Permutation := [[]]

/-- `UnfixedIndexIter::next` after the first cycle, permutation.rs:292-313: it stops at the end or at an empty cycle. -/
def unfixedTail : List Cycle → List Nat
  | [] => []
  | [] :: _ => []
  | (x :: xs) :: cs => (x :: xs) ++ unfixedTail cs

/-- `unfixed_indeces_iter().collect()`, permutation.rs:272-321: panics when there is no cycle at all. -/
def unfixed : Permutation → Option (List Nat)
  | [] => none
  | c :: cs => some (c ++ unfixedTail cs)

/-- `Permutation::is_valid`, permutation.rs:181-191. -/
def isValid (p : Permutation) : Option Bool := (unfixed p).map (Cycle.isValidLoop [])

/-- insertion before the first cycle that is not smaller. Used for permutation.rs:239. -/
def insertCycle (x : Cycle) : List Cycle → List Cycle
  | [] => [x]
  | y :: ys => if Cycle.le x y then x :: y :: ys else y :: insertCycle x ys

/-- `cycles.sort()`, permutation.rs:239: a stable sort by `Ord for Cycle` -/
def sortCycles (l : List Cycle) : List Cycle := l.foldr insertCycle []

/-- `from_disjoint_cycles`, permutation.rs:231-249. -/
def fromDisjointCycles (cycles : List Cycle) : Option Permutation :=
  let cs := cycles.filter (fun c => !c.isEmpty)
  let cs := if cs.isEmpty then [[]] else cs
  let p : Permutation := sortCycles cs
  match isValid p with
  | some true => some p
  | _ => none

/-- `from_cycle`, permutation.rs:251-253. -/
def fromCycle (c : Cycle) : Permutation := [c]

/-- `Permutation::cyclic_from`, permutation.rs:193-195. -/
def cyclicFrom (lo hi : Nat) : Permutation := [Cycle.cyclicFrom lo hi]

/-- `Permutation::map`, permutation.rs:255-260: the first cycle that moves `n`. -/
def map : Permutation → Nat → Nat
  | [], n => n
  | c :: cs, n => if Cycle.map c n != n then Cycle.map c n else map cs n

/-- The inner `while` of `Mul`, permutation.rs:341-346: `elem` runs through the orbit of `first` until it returns.
`fuel` bounds the number of rounds. -/
def orbitLoop (f : Nat → Nat) (first : Nat) : Nat → Nat → List Nat → Option (List Nat)
  | 0, _, _ => none
  | fuel + 1, elem, cycle =>
    if f elem = first then some cycle
    else orbitLoop f first fuel (f elem) (cycle ++ [f elem])

theorem orbitLoop_mem (f : Nat → Nat) (first : Nat) : ∀ (fuel elem : Nat) (cycle out : List Nat),
    first ∈ cycle → orbitLoop f first fuel elem cycle = some out → first ∈ out := by
  intro fuel
  induction fuel with
  | zero => intro _ _ _ _ h; cases h
  | succ fuel ih =>
    intro elem cycle out hm h
    unfold orbitLoop at h
    split at h
    · injection h with h; exact h ▸ hm
    · exact ih _ _ _ (List.mem_append_left _ hm) h

/-- The outer `while` of `Mul`, permutation.rs:338-354. -/
def mulLoop (f : Nat → Nat) (fuel : Nat) (unfixedIdx : List Nat) (product : List Cycle) : Option (List Cycle) :=
  match unfixedIdx with
  | [] => some product
  | first :: rest =>
    match h : orbitLoop f first fuel first [first] with
    | none => none
    | some cycle =>
      match Cycle.mk cycle with
      | none => none
      | some c =>
        mulLoop f fuel ((first :: rest).filter (fun x => !cycle.contains x)) (product ++ [c])
termination_by unfixedIdx.length
decreasing_by
  have hm := orbitLoop_mem f first fuel first [first] cycle (List.mem_singleton.mpr rfl) h
  have hc : cycle.contains first = true := by simpa using hm
  rw [List.filter_cons, hc]
  have := List.length_filter_le (fun x => !cycle.contains x) rest
  simp only [Bool.not_true, List.length_cons, Bool.false_eq_true, if_false]; omega

/-- `Mul for Permutation`, permutation.rs:332-357.  The orbit of an element of two finitely supported permutations has
at most as many elements as the list of unfixed indices; the round bound of the inner loop is that length plus one. -/
def mul (p q : Permutation) : Option Permutation := do
  let uq ← unfixed q
  let up ← unfixed p
  let u := uq ++ up
  let product ← mulLoop (fun x => map p (map q x)) (u.length + 1) u []
  fromDisjointCycles product

/-- `Product for Permutation`, permutation.rs:378-382: `fold(identity, |accum, p| p * accum)`. -/
def product (l : List Permutation) : Option Permutation := l.foldlM (fun accum p => mul p accum) identity

/-- `permutation!{ (a, b) }`, permutation.rs:360-375 with one pair. -/
def pair (a b : Nat) : Option Permutation := do
  let c ← Cycle.mk [a, b]
  fromDisjointCycles [c]

/-- The generators of one cycle, permutation.rs:417-419: `(first elem)` for every `elem ≠ first`; `first().unwrap()` panics
on an empty cycle. -/
def gensOfCycle (c : Cycle) : Option (List Permutation) :=
  match c with
  | [] => none
  | first :: _ => (c.filter (fun e => first != e)).mapM (fun e => pair first e)

/-- `in_terms_of_gens`, permutation.rs:410-429, including its `debug_assert!`. -/
def inTermsOfGens (p : Permutation) : Option (List Permutation) :=
  if p = identity then some [p]
  else do
    let gs ← p.mapM gensOfCycle
    let gens := gs.flatten
    let prod ← product gens
    if p = prod then some gens else none

/-- `inverse_of_gen`, permutation.rs:405-408. -/
def inverseOfGen (p : Permutation) : Permutation := p

/-- `Group::inverse` (default method), non_commutative.rs:8-12. -/
def inverse (p : Permutation) : Option Permutation := do
  let gens ← inTermsOfGens p
  product (gens.reverse.map inverseOfGen)

/-- `BitXor<i64>`, permutation.rs:385-397; `(1..=power)` is empty for negative `power`. -/
def pow (p : Permutation) (power : Int) : Option Permutation :=
  if power = 0 then some identity
  else if power > 0 then product (List.replicate power.toNat p)
  else do
    let inv ← inverse p
    product (List.replicate power.toNat inv)

/-- `swap_ranges_of_the_same_length`, permutation.rs:220-229, with its `debug_assert!`s; ranges are `(start, end)` and
`end - start` underflows (panics) for inverted ranges. -/
def swapSame (r1 r2 : Nat × Nat) : Option Permutation :=
  if r1.2 < r1.1 ∨ r2.2 < r2.1 then none
  else if ¬ (r1.2 ≤ r2.1) then none
  else if r1.2 - r1.1 ≠ r2.2 - r2.1 then none
  else ((List.range' r1.1 (r1.2 - r1.1)).zip (List.range' r2.1 (r2.2 - r2.1))).mapM
    (fun ij => Cycle.mk [ij.1, ij.2])

/-- `Permutation::swap`, permutation.rs:197-218.  The statement `if r1.is_empty() || r2.is_empty() { identity(); }` on line
199 has no effect (missing `return`).  `fuel` bounds the recursion depth; `none` = panic or deeper recursion. -/
def swap : Nat → Nat × Nat → Nat × Nat → Option Permutation
  | 0, _, _ => none
  | fuel + 1, r1, r2 =>
    if ¬ (r1.2 ≤ r2.1 ∨ r2.2 ≤ r1.1) then none
    else if r2.2 < r1.1 then swap fuel r2 r1
    else if r1.2 < r1.1 ∨ r2.2 < r2.1 then none
    else
      let s1 := r1.2 - r1.1
      let s2 := r2.2 - r2.1
      if s1 < s2 then do
        let p ← swap fuel (r1.1, r2.1) (r2.1, r2.2 - s1)
        let q ← swapSame r1 (r2.2 - s1, r2.2)
        mul p q
      else if s1 > s2 then do
        let p ← swap fuel (r1.1 + s2, r1.2) (r1.2, r2.2)
        let q ← swapSame (r1.1, r1.1 + s2) r2
        mul p q
      else swapSame r1 r2

/-- `Vec::swap(i, j)` on a list; out-of-range indices panic. Used for permutation.rs:555-568. -/
def vecSwap {α : Type} (v : List α) (i j : Nat) : Option (List α) := do
  let x ← v[i]?
  let y ← v[j]?
  return (v.set i y).set j x

/-- `gen_action_by` for `Vec<T>`, permutation.rs:555-568, with its `debug_assert!`. -/
def genActionBy {α : Type} (v : List α) (g : Permutation) : Option (List α) :=
  if g = identity then some v
  else
    match unfixed g with
    | some [i, j] => vecSwap v i j
    | _ => none

/-- `action_by` (default method), non_commutative.rs:27-32; also `<<` and `<<=`, permutation.rs:570-583. -/
def actionBy {α : Type} (v : List α) (p : Permutation) : Option (List α) := do
  let gens ← inTermsOfGens p
  gens.foldlM genActionBy v

end Permutation

/-! ### array permutations -/

namespace ArrayPerm

/-- `permutation_mul_impl`, permutation.rs:613-617, for an output of length `n`: `out[i] = p1[p2[i]]`. -/
def mulImpl (n : Nat) (p1 p2 : List Nat) : Option (List Nat) :=
  (List.range n).mapM (fun i => do
    let j ← p2[i]?
    p1[j]?)

/-- `ConstPermutation::mul`, permutation.rs:622-629 (and `mul_assign`, 631-637); both arrays have length `n`. -/
def constMul (n : Nat) (p q : List Nat) : Option (List Nat) := mulImpl n p q

/-- `ConstPermutation::identity`, permutation.rs:652-656. -/
def constId (n : Nat) : List Nat := List.range n

/-- The loop of `inverse`, permutation.rs:658-666 and 762-770: `curr = 0; while curr != 0 {..}`. -/
def inverseLoop (p : List Nat) : Nat → Nat → List Nat → Option (List Nat)
  | 0, _, _ => none
  | fuel + 1, curr, out =>
    if curr != 0 then do
      let j ← p[curr]?
      if j < out.length then inverseLoop p fuel j (out.set j curr) else none
    else some out

/-- `ConstPermutation::inverse`, permutation.rs:658-666 and `VecPermutation::inverse`, 762-770 (same body).  One round of
the loop test is enough because the loop body is never entered. -/
def inverse (p : List Nat) : Option (List Nat) := inverseLoop p 1 0 (List.replicate p.length 0)

/-- The loop of `order`, permutation.rs:674-685 / 778-789. -/
def orderLoop (mul : List Nat → List Nat → Option (List Nat)) (p id : List Nat) :
    Nat → List Nat → Nat → Option Nat
  | 0, _, _ => none
  | fuel + 1, power, order =>
    if power = id then some order
    else do
      let power' ← mul power p
      orderLoop mul p id fuel power' (order + 1)

/-- `ConstPermutation::order`, permutation.rs:674-685. -/
def constOrder (fuel n : Nat) (p : List Nat) : Option Nat := orderLoop (constMul n) p (constId n) fuel p 1

/-- Padding loop, permutation.rs:702-704: push `small.len()` until the lengths agree. -/
def padTo (p : List Nat) (n : Nat) : List Nat := p ++ List.range' p.length (n - p.length)

/-- `VecPermutation::mul`, permutation.rs:692-714 (and `mul_assign`, 716-735). -/
def vecMul (p q : List Nat) : Option (List Nat) :=
  let n := max p.length q.length
  mulImpl n (padTo p n) (padTo q n)

/-- `VecPermutation::identity`, permutation.rs:758-760. -/
def vecId : List Nat := []

/-- `VecPermutation::order`, permutation.rs:778-789. -/
def vecOrder (fuel : Nat) (p : List Nat) : Option Nat := orderLoop vecMul p vecId fuel p 1

/-- `VecPermutation::eval`, permutation.rs:793-799. -/
def eval (p : List Nat) (i : Nat) : Nat := if i < p.length then p.getD i 0 else i

end ArrayPerm
end Toppo
