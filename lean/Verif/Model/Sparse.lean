import Mathlib.Algebra.Ring.Defs
import Mathlib.Data.List.Sort
set_option linter.unusedVariables false

/-
Model of alg/src/lin_alg/sparse_matrix_impl.rs:1-283 (and the types, lin_alg.rs:17-34).

Nodes are immutable and shared through `Rc`; sharing is invisible, so they are trees here.  `none` is a panic.  Dense operands and
results are entry functions (their memory-level operations are C29 and C31).  Rust's `sort_by` is
taken by its documented contract, a stable sort by the key; `binary_search_by` is the bisection of the standard library, which relies on the order.
-/
namespace Toppo.Sparse

/-- `enum SparseNode`, lin_alg.rs:25-34. -/
inductive Node (K : Type) where
  | start (idx : Nat) (ptr : Node K)
  | endN
  | entry (i j : Nat) (v : K) (rowNext colNext : Node K)

/-- `struct SparseMatrix`, lin_alg.rs:17-23. -/
structure SMat (K : Type) where
  rows : List (Node K)
  cols : List (Node K)
  size : Nat × Nat
  transposed : Bool

variable {K : Type}

/-- `start_node_idx`, sparse_matrix_impl.rs:31-37. -/
def Node.startIdx : Node K → Option Nat
  | .start i _ => some i
  | _ => none

/-- `start_ptr` / `start_ref`, sparse_matrix_impl.rs:23-29, 39-45. -/
def Node.startPtr : Node K → Option (Node K)
  | .start _ r => some r
  | _ => none

def Node.isEnd : Node K → Bool
  | .endN => true
  | _ => false

/-- replacing the first start node with index `j` by a new one whose pointer is made from the old pointer,
sparse_matrix_impl.rs:63-73; the flag says whether there was one (`find` panics on a node that is not a start node) -/
def updateFirst (j : Nat) (mk : Node K → Node K) : List (Node K) → Option (Option (Node K × List (Node K)))
  | [] => some none
  | nd :: rest => do
    let i ← nd.startIdx
    if i = j then
      let old ← nd.startPtr
      let new := mk old
      return some (new, .start j new :: rest)
    else
      match ← updateFirst j mk rest with
      | none => return none
      | some (new, rest') => return some (new, nd :: rest')

/-- the body of the inner loop, sparse_matrix_impl.rs:55-84; state: `m.cols` and `curr_node` -/
def fromEntry (f : Nat → Nat → Option K) (i : Nat) (s : List (Node K) × Node K) (j : Nat) : Option (List (Node K) × Node K) :=
  match f i j with
  | none => some s
  | some v => do
    match ← updateFirst j (fun old => .entry i j v s.2 old) s.1 with
    | some (new, cols) => return (cols, new)
    | none =>
      let new := Node.entry i j v s.2 .endN
      return (s.1 ++ [.start j new], new)

/-- the body of the outer loop, sparse_matrix_impl.rs:53-91; state: `m.rows` and `m.cols` -/
def fromRow (m : Nat) (f : Nat → Nat → Option K) (s : List (Node K) × List (Node K)) (i : Nat) : Option (List (Node K) × List (Node K)) := do
  let (cols, curr) ← (List.range m).reverse.foldlM (fromEntry f i) (s.2, .endN)
  if curr.isEnd then return (s.1, cols) else return (s.1 ++ [.start i curr], cols)

/-- comparison used by the sorts, sparse_matrix_impl.rs:94-95 -/
def leStart (x y : Node K) : Bool := decide (x.startIdx.getD 0 ≤ y.startIdx.getD 0)

/-- `SparseMatrix::from`, sparse_matrix_impl.rs:49-106. -/
def fromFn (size : Nat × Nat) (f : Nat → Nat → Option K) : Option (SMat K) := do
  let (rows, cols) ← (List.range size.1).reverse.foldlM (fromRow size.2 f) ([], [])
  let rows := rows.mergeSort leStart
  let cols := cols.mergeSort leStart
  if rows.isEmpty then return { rows := rows ++ [.endN], cols := cols ++ [.endN], size := size, transposed := false }
  else return { rows := rows, cols := cols, size := size, transposed := false }

/-- the loop of `binary_search_by` (of the standard library) on the start indices of the nodes `lo..hi`: the node in the middle is compared, and one half is searched;
panics if a probed node is not a start node. `fuel` is at least `hi - lo`. Used for sparse_matrix_impl.rs:117-148. -/
def bisect (l : List (Node K)) (i : Nat) : Nat → Nat → Nat → Option (Option (Node K))
  | 0, _, _ => some none
  | fuel + 1, lo, hi =>
    if lo < hi then do
      let nd ← l[lo + (hi - lo) / 2]?
      let k ← nd.startIdx
      if k < i then bisect l i fuel (lo + (hi - lo) / 2 + 1) hi
      else if i < k then bisect l i fuel lo (lo + (hi - lo) / 2)
      else return some nd
    else some none

/-- `binary_search_by` on the start indices, sparse_matrix_impl.rs:119, 135: the node with the index if the bisection meets it -/
def search (l : List (Node K)) (i : Nat) : Option (Option (Node K)) := bisect l i l.length 0 l.length

/-- the items produced by `Iter` from a node, sparse_matrix_impl.rs:164-185 (`dir`: follow the row pointers) -/
def walk (dir : Bool) : Node K → Option (List (Nat × K))
  | .start .. => none
  | .endN => some []
  | .entry i j v r c => do
    let rest ← if dir then walk dir r else walk dir c
    return ((if dir then j else i), v) :: rest

/-- `row_iter(i)`, collected, sparse_matrix_impl.rs:117-132. -/
def SMat.rowIter (a : SMat K) (i : Nat) : Option (List (Nat × K)) := do
  match ← search a.rows i with
  | some nd => do
    let p ← nd.startPtr
    walk (!a.transposed) p
  | none => if a.rows.isEmpty then none else some []

/-- `col_iter(i)`, collected, sparse_matrix_impl.rs:134-148. -/
def SMat.colIter (a : SMat K) (i : Nat) : Option (List (Nat × K)) := do
  match ← search a.cols i with
  | some nd => do
    let p ← nd.startPtr
    walk a.transposed p
  | none => if a.rows.isEmpty then none else some []

/-- `transpose`, sparse_matrix_impl.rs:155-161. -/
def SMat.transpose (a : SMat K) : SMat K :=
  { rows := a.cols, cols := a.rows, size := (a.size.2, a.size.1), transposed := !a.transposed }

/-- comparing one row, sparse_matrix_impl.rs:194-203 (`g` the dense row, `j` the first column not yet compared) -/
def eqRow [Zero K] [DecidableEq K] (m : Nat) (g : Nat → K) : Nat → List (Nat × K) → Bool
  | j, [] => !((List.range' j (m - j)).any (fun k => g k != 0))
  | j, (k, v) :: rest => if (List.range' j (k - j)).any (fun l => g l != 0) || g k != v then false else eqRow m g (k + 1) rest

/-- `PartialEq<Matrix>`, sparse_matrix_impl.rs:187-208, against the dense matrix with size `size'` and entries `g`. -/
def SMat.eqDense [Zero K] [DecidableEq K] (a : SMat K) (size' : Nat × Nat) (g : Nat → Nat → K) : Option Bool :=
  if a.size ≠ size' then some false
  else (List.range a.size.1).foldlM (fun b i => if b then do
      let l ← a.rowIter i
      return eqRow a.size.2 (g i) 0 l
    else some false) true

/-- the merge loop of sparse * sparse, sparse_matrix_impl.rs:230-238: `l1` is what `it1` still yields, `(k2, v2)` the held item and
`l2` what `it2` still yields -/
def merge [Add K] [Mul K] (sum : K) (l1 : List (Nat × K)) (k2 : Nat) (v2 : K) (l2 : List (Nat × K)) : K :=
  match l1 with
  | [] => sum
  | (k1, v1) :: rest =>
    if k1 = k2 then merge (sum + v1 * v2) rest k2 v2 l2
    else if k1 > k2 then merge sum l2 k1 v1 rest
    else merge sum rest k2 v2 l2
termination_by l1.length + l2.length
decreasing_by all_goals (simp_wf <;> omega)

/-- collecting the entries of an `n × m` result computed by nested loops; `none` if one of the bodies panics. Used for sparse_matrix_impl.rs:210-245. -/
def forEntries (n m : Nat) (body : Nat → Nat → Option K) : Option (Nat → Nat → Option K) :=
  if (List.range n).all (fun i => (List.range m).all (fun j => (body i j).isSome)) then some body else none

/-- one entry of sparse * sparse, sparse_matrix_impl.rs:221-241 -/
def SMat.mulEntry [Zero K] [Add K] [Mul K] (a b : SMat K) (i j : Nat) : Option K := do
  let l1 ← a.rowIter i
  let l2 ← b.colIter j
  match l2 with
  | [] => return 0
  | (k2, v2) :: l2 => return merge 0 l1 k2 v2 l2

/-- `SparseMatrix * SparseMatrix`, sparse_matrix_impl.rs:210-245 (entries of the result). -/
def SMat.mul [Zero K] [Add K] [Mul K] (a b : SMat K) : Option (Nat → Nat → Option K) :=
  if a.size.2 ≠ b.size.1 then none
  else forEntries a.size.1 b.size.2 (fun i j => a.mulEntry b i j)

/-- `SparseMatrix * Matrix`, sparse_matrix_impl.rs:248-269; the dense factor has size `size'` and entries `g`. -/
def SMat.mulDense [Zero K] [Add K] [Mul K] (a : SMat K) (size' : Nat × Nat) (g : Nat → Nat → K) : Option (Nat → Nat → Option K) :=
  if a.size.2 ≠ size'.1 then none
  else forEntries a.size.1 size'.2 (fun i j => do
    let l ← a.rowIter i
    return l.foldl (fun s p => s + p.2 * g p.1 j) 0)

/-- `Matrix * SparseMatrix`, sparse_matrix_impl.rs:271-282. -/
def denseMul [Zero K] [Add K] [Mul K] (size' : Nat × Nat) (g : Nat → Nat → K) (b : SMat K) : Option (Nat → Nat → Option K) :=
  if size'.2 ≠ b.size.1 then none
  else (b.transpose.mulDense (size'.2, size'.1) (fun i j => g j i)).map (fun h => fun i j => h j i)

end Toppo.Sparse
