import Verif.Model.Real
import Mathlib.Data.List.Sort
set_option linter.unusedVariables false

/-
Model of the eigenvalue routines of alg/src/lin_alg/matrix_impl.rs over exact real numbers: `hessenberg_form`, `raw_francis_step`,
`raw_qr`, `spectrum`, `random_orthogonal`, `extract_householder_vecs`,
`householder_tridiagonalization`, `implicit_symmetric_qr_with_wilkinson_shift`, `symmetric_qr`, `spectrum_symmetric`.
Simplifications: exact real numbers instead of `f64` (`x / 0 = 0`); a matrix is a function of the two indices, its size is passed along;
an entry outside the size is never read.  `none` = panic.
-/
namespace Toppo.RealAlg
open Finset

/-- entries of a matrix. Used for matrix_impl.rs:1722-1723. -/
abbrev RM := Nat → Nat → ℝ

/-- `householder_vec` (matrix_impl.rs:1262-1286) of the vector `x 0, ..., x m`, indexed by numbers. -/
noncomputable def hvec (m : Nat) (x : Nat → ℝ) : (Nat → ℝ) × ℝ :=
  let r := householderVec (n := m) (fun i => x i)
  (fun i => if h : i < m + 1 then r.1 ⟨i, h⟩ else 0, r.2)

/-- the assignment `self[(lo..lo+len, c0..c1)] = &self[..] - v*(v^T * &self[..])*b` (e.g. matrix_impl.rs:1722-1723). -/
def rowsRefl (A : RM) (lo len c0 c1 : Nat) (v : Nat → ℝ) (b : ℝ) : RM := fun i j =>
  if lo ≤ i ∧ i < lo + len ∧ c0 ≤ j ∧ j < c1 then A i j - v (i - lo) * (∑ t ∈ range len, v t * A (lo + t) j) * b else A i j

/-- the assignment `self[(r0..r1, lo..lo+len)] = &self[..] - (&self[..]*v)*v^T*b` (e.g. matrix_impl.rs:1725-1726). -/
def colsRefl (A : RM) (r0 r1 lo len : Nat) (v : Nat → ℝ) (b : ℝ) : RM := fun i j =>
  if r0 ≤ i ∧ i < r1 ∧ lo ≤ j ∧ j < lo + len then A i j - (∑ t ∈ range len, A i (lo + t) * v t) * v (j - lo) * b else A i j

/-- one round of `hessenberg_form`, matrix_impl.rs:1717-1727. -/
noncomputable def hessStep (n : Nat) (A : RM) (k : Nat) : RM :=
  let p := hvec (n - k - 2) (fun t => A (k + 1 + t) k)
  colsRefl (rowsRefl A (k + 1) (n - k - 1) k n p.1 p.2) 0 n (k + 1) (n - k - 1) p.1 p.2

/-- `hessenberg_form`, matrix_impl.rs:1707-1728, on an `n × m` matrix. -/
noncomputable def hessenberg (n m : Nat) (A : RM) : Option RM :=
  if n ≠ m then none else if n < 2 then some A else some ((List.range (n - 2)).foldl (hessStep n) A)

/-- the state of the loop of `raw_francis_step`: the matrix and `x`, `y`, `z`. Used for matrix_impl.rs:1742-1746. -/
structure FState where
  a : RM
  x : ℝ
  y : ℝ
  z : ℝ

/-- before the loop of `raw_francis_step`, matrix_impl.rs:1742-1746. -/
noncomputable def francisInit (n : Nat) (A : RM) : FState :=
  let s := A (n - 2) (n - 2) + A (n - 1) (n - 1)
  let t := A (n - 2) (n - 2) * A (n - 1) (n - 1) - A (n - 2) (n - 1) * A (n - 1) (n - 2)
  { a := A, x := A 0 0 * A 0 0 + A 0 1 * A 1 0 - s * A 0 0 + t, y := A 1 0 * (A 0 0 + A 1 1 - s), z := A 1 0 * A 2 1 }

/-- one round of the loop of `raw_francis_step`, matrix_impl.rs:1748-1769. -/
noncomputable def francisRound (n : Nat) (f : FState) (k : Nat) : FState :=
  let p := hvec 2 (fun t => if t = 0 then f.x else if t = 1 then f.y else f.z)
  let q := k - 1
  let r := if k < n - 3 then k + 4 else n
  let A := colsRefl (rowsRefl f.a k 3 q n p.1 p.2) 0 r k 3 p.1 p.2
  { a := A, x := A (k + 1) k, y := A (k + 2) k, z := if k < n - 3 then A (k + 3) k else f.z }

/-- after the loop of `raw_francis_step`, matrix_impl.rs:1771-1779. -/
noncomputable def francisLast (n : Nat) (f : FState) : RM :=
  let p := hvec 1 (fun t => if t = 0 then f.x else f.y)
  colsRefl (rowsRefl f.a (n - 2) 2 (n - 3) n p.1 p.2) 0 n (n - 2) 2 p.1 p.2

/-- `raw_francis_step`, matrix_impl.rs:1730-1782, on an `n × n` matrix (for `n < 2` the size underflows, for `n = 2` the entry `(2,1)` is read).
The second component is `op` (1736-1740): it is never changed after the identity matrix is written to it. -/
noncomputable def francis (n : Nat) (A : RM) (returnOp : Bool) : Option (RM × RM) :=
  if n < 3 then none
  else some (francisLast n ((List.range (n - 2)).foldl (francisRound n) (francisInit n A)),
    if returnOp then (fun i j => if i = j then 1 else 0) else (fun i j => if i = 0 ∧ j = 0 then 1 else 0))

/-- what a loop without a bound on its rounds has come to after a given number of rounds. Used for matrix_impl.rs:1813-1837. -/
inductive Outcome (α : Type) where
  | running
  | panic
  | done (a : α)

/-- `tolerance` of `raw_qr`, matrix_impl.rs:1809 -/
noncomputable def qrTol : ℝ := 0.000000000000001

/-- the loop matrix_impl.rs:1814-1818: sub-diagonal entries that are small relative to their neighbours on the diagonal are set to 0
(the loop changes no entry it tests later). -/
noncomputable def deflate (n : Nat) (A : RM) : RM := fun i j =>
  if i = j + 1 ∧ i < n ∧ |A i j| < qrTol * (|A j j| + |A i i|) then 0 else A i j

open Classical in
/-- the search for `q`, matrix_impl.rs:1820-1822 (for `2 ≤ n`). -/
noncomputable def findQ (n : Nat) (A : RM) : Nat :=
  ((List.range (n - 2)).find? (fun i => decide (qrTol < |A (n - i - 1) (n - i - 2)| ∧ qrTol < |A (n - i - 2) (n - i - 3)|))).getD n

open Classical in
/-- the search for `p`, matrix_impl.rs:1824-1827. -/
noncomputable def findP (n q : Nat) (A : RM) : Nat :=
  ((List.range' 1 (n - q - 1)).reverse.find? (fun i => decide (|A i (i - 1)| < qrTol))).getD 0

/-- the view `self[(p.., p..)]`. Used for matrix_impl.rs:1813-1836. -/
def shift (p : Nat) (A : RM) : RM := fun i j => A (p + i) (p + j)

/-- writing to the view `self[(p..p+m, p..p+m)]`. Used for matrix_impl.rs:1813-1836. -/
def putBlock (A : RM) (p m : Nat) (B : RM) : RM := fun i j => if p ≤ i ∧ i < p + m ∧ p ≤ j ∧ j < p + m then B (i - p) (j - p) else A i j

/-- the product of two `n × n` matrices. Used for matrix_impl.rs:1813-1836. -/
def mulRM (n : Nat) (A B : RM) : RM := fun i j => ∑ t ∈ range n, A i t * B t j

/-- one round of the loop of `raw_qr`, matrix_impl.rs:1813-1836, on the matrix and `op`: `some (inl _)` when the loop ends after this round.
The product `op * ...` (1832) panics when the block is smaller than the matrix.  `q` and `p` are recomputed in every round. -/
noncomputable def qrStep (n : Nat) (returnsOp : Bool) (s : RM × RM) : Option ((RM × RM) ⊕ (RM × RM)) :=
  let A := deflate n s.1
  let q := findQ n A
  let p := findP n q A
  if q < n then
    match francis (n - q - p) (shift p A) returnsOp with
    | none => none
    | some (B, Q) =>
      if returnsOp then
        if n - q - p ≠ n then none else some (Sum.inr (putBlock A p (n - q - p) B, mulRM n s.2 Q))
      else some (Sum.inr (putBlock A p (n - q - p) B, s.2))
  else some (Sum.inl (A, s.2))

/-- the loop `while q != n`, matrix_impl.rs:1813-1837, for a number of rounds -/
noncomputable def qrLoop (n : Nat) (returnsOp : Bool) : Nat → RM × RM → Outcome (RM × RM)
  | 0, _ => .running
  | fuel + 1, s =>
    match qrStep n returnsOp s with
    | none => .panic
    | some (Sum.inl t) => .done t
    | some (Sum.inr t) => qrLoop n returnsOp fuel t

/-- `raw_qr`, matrix_impl.rs:1792-1840 (`qr`, `qr_with_op`: 1842-1848), on an `n × m` matrix, for a number of rounds. -/
noncomputable def rawQr (fuel n m : Nat) (A : RM) (returnsOp : Bool) : Outcome (RM × RM) :=
  if n ≠ m then .panic
  else if n < 2 then .done (A, fun i j => if i = 0 ∧ j = 0 then 1 else 0)
  else
    match hessenberg n n A with
    | none => .panic
    | some H => qrLoop n returnsOp fuel (H, if returnsOp then (fun i j => if i = j then 1 else 0) else (fun i j => if i = 0 ∧ j = 0 then 1 else 0))

/-- the loop that reads off the eigenvalues, matrix_impl.rs:1345-1355, from index `i` on; `none` = failed `unwrap`. -/
noncomputable def readOff (n : Nat) (A : RM) : Nat → Nat → Option (List ℝ)
  | 0, _ => some []
  | fuel + 1, i =>
    if i < n then
      if i = n - 1 ∨ |A (i + 1) i| < 0.00000000001 then (readOff n A fuel (i + 1)).map (A i i :: ·)
      else
        match realSpectrum2 (A i i) (A i (i + 1)) (A (i + 1) i) (A (i + 1) (i + 1)) with
        | none => none
        | some (a, b) => (readOff n A fuel (i + 2)).map (fun l => a :: b :: l)
    else some []

/-- `spectrum`, matrix_impl.rs:1338-1364, on an `n × m` matrix, for a number of rounds of `qr`. -/
noncomputable def spectrum (fuel n m : Nat) (A : RM) : Outcome (List ℝ) :=
  match rawQr fuel n m A false with
  | .running => .running
  | .panic => .panic
  | .done (B, _) =>
    match readOff n B n 0 with
    | none => .panic
    | some l => .done (l.insertionSort (· ≤ ·))

/-- the matrix `out` before the second loop of `random_orthogonal`, matrix_impl.rs:1150-1155: `x i t` is the entry `t` of the random
column `i`; columns are normalised and written below the diagonal. -/
noncomputable def randomInit (n : Nat) (x : Nat → Nat → ℝ) : RM := fun r c =>
  if c ≤ r ∧ r < n then x c (r - c) / Real.sqrt (∑ t ∈ range (n - c), x c t * x c t) else 0

/-- one round of the second loop of `random_orthogonal`, matrix_impl.rs:1157-1160. -/
noncomputable def randomStep (n : Nat) (A : RM) (i : Nat) : RM :=
  let p := hvec (n - i - 1) (fun t => A (i + t) i)
  rowsRefl A i (n - i) (i + 1) n p.1 p.2

/-- `random_orthogonal`, matrix_impl.rs:1149-1163; the random numbers drawn are an argument.  `none`: the size 0 underflows. -/
noncomputable def randomOrthogonal (n : Nat) (x : Nat → Nat → ℝ) : Option RM :=
  if n = 0 then none else some ((List.range (n - 1)).reverse.foldl (randomStep n) (randomInit n x))

/-- `extract_householder_vecs`, matrix_impl.rs:1880-1906, on an `n × n` matrix; the result has one row and column more.
`none`: there is no column 0. -/
noncomputable def extractHouseholder : Nat → RM → Option RM
  | 0, _ => none
  | 1, A =>
    let x := A 0 0
    let s := 2 / (x * x + 1)
    some (fun i j => if i = 0 then (if j = 0 then 1 - s else -s * x) else (if j = 0 then -s * x else 1 - s * x * x))
  | n + 2, A =>
    let v : Nat → ℝ := fun t => A t 0
    let s := 2 / ((∑ t ∈ range (n + 2), v t * v t) + 1)
    match extractHouseholder (n + 1) (shift 1 A) with
    | none => none
    | some q =>
      let qv : Nat → ℝ := fun i => ∑ t ∈ range (n + 2), q i t * v t
      some (fun i j =>
        if i = 0 then (if j = 0 then 1 - s else v (j - 1) * (-s))
        else if j = 0 then qv (i - 1) * (-s) else q (i - 1) (j - 1) - qv (i - 1) * (v (j - 1) * s))

/-- one round of `householder_tridiagonalization`, matrix_impl.rs:1853-1876: the trailing block is changed on and above the diagonal and
copied below it (1867-1873; no entry is read after it has been written); `(i+1, i)` and `(i, i+1)` get the norm of the column (1859-1860);
with `with_op` the tail of the vector is stored below (1874-1876). -/
noncomputable def triStep (n : Nat) (withOp : Bool) (A : RM) (i : Nat) : RM :=
  let q := hvec (n - i - 2) (fun t => A (i + 1 + t) i)
  let v := q.1
  let b := q.2
  let p : Nat → ℝ := fun j => (∑ t ∈ range (n - i - 1), A (i + 1 + j) (i + 1 + t) * v t) * b
  let vp := ∑ t ∈ range (n - i - 1), v t * p t
  let w : Nat → ℝ := fun j => p j - v j * b / 2 * vp
  let norm := Real.sqrt (∑ t ∈ range (n - i - 1), A (i + 1 + t) i * A (i + 1 + t) i)
  fun r c =>
    if i + 1 ≤ r ∧ i + 1 ≤ c ∧ r < n ∧ c < n then
      A (min r c) (max r c) - (v (min r c - (i + 1)) * w (max r c - (i + 1)) + v (max r c - (i + 1)) * w (min r c - (i + 1)))
    else if (r = i + 1 ∧ c = i) ∨ (r = i ∧ c = i + 1) then norm
    else if withOp = true ∧ c = i ∧ i + 2 ≤ r ∧ r < n then v (r - (i + 1))
    else A r c

/-- `householder_tridiagonalization`, matrix_impl.rs:1850-1878, on an `n × n` matrix; `none`: for `n < 2` the size underflows. -/
noncomputable def tridiagonalize (n : Nat) (withOp : Bool) (A : RM) : Option RM :=
  if n < 2 then none else some ((List.range (n - 2)).foldl (triStep n withOp) A)

/-- `givens.transpose() * &self[(i..i+2, lo..hi)]` written back, matrix_impl.rs:1926-1927 -/
def givRows (A : RM) (i lo hi : Nat) (c s : ℝ) : RM := fun r j =>
  if lo ≤ j ∧ j < hi then
    if r = i then c * A i j + -s * A (i + 1) j else if r = i + 1 then s * A i j + c * A (i + 1) j else A r j
  else A r j

/-- `&self[(lo..hi, i..i+2)] * givens` written back, matrix_impl.rs:1928-1929 -/
def givCols (A : RM) (i lo hi : Nat) (c s : ℝ) : RM := fun r j =>
  if lo ≤ r ∧ r < hi then
    if j = i then A r i * c + A r (i + 1) * -s else if j = i + 1 then A r i * s + A r (i + 1) * c else A r j
  else A r j

/-- the state of the loop of `implicit_symmetric_qr_with_wilkinson_shift`; `op i` is row `i` of `op` (it is all zero without `with_op`; the
model always records it). Used for matrix_impl.rs:1911-1917. -/
structure WState where
  a : RM
  x : ℝ
  z : ℝ
  op : Nat → ℝ × ℝ

/-- before the loop of `implicit_symmetric_qr_with_wilkinson_shift`, matrix_impl.rs:1911-1917. -/
noncomputable def wilkInit (n : Nat) (A : RM) : WState :=
  let d := (A (n - 2) (n - 2) - A (n - 1) (n - 1)) / 2
  let sign : ℝ := if 0 ≤ d then 1 else -1
  let m := A (n - 1) (n - 1) - A (n - 1) (n - 2) ^ 2 / (d + sign * Real.sqrt (d * d + A (n - 1) (n - 2) * A (n - 1) (n - 2)))
  { a := A, x := A 0 0 - m, z := A 1 0, op := fun _ => (0, 0) }

/-- one round of the loop, matrix_impl.rs:1920-1940. -/
noncomputable def wilkRound (n : Nat) (f : WState) (i : Nat) : WState :=
  let g := givens f.x f.z
  let lo := if i = 0 then 0 else i - 1
  let hi := min n (lo + 4)
  let A := givCols (givRows f.a i lo hi g.1 g.2) i lo hi g.1 g.2
  { a := A
    x := if i < n - 2 then A (i + 1) i else f.x
    z := if i < n - 2 then A (i + 2) i else f.z
    op := fun k => if k = i then g else f.op k }

/-- `implicit_symmetric_qr_with_wilkinson_shift`, matrix_impl.rs:1909-1943, on an `n × n` matrix; `none`: for `n < 2` the size underflows. -/
noncomputable def wilkinson (n : Nat) (A : RM) : Option WState :=
  if n < 2 then none else some ((List.range (n - 1)).foldl (wilkRound n) (wilkInit n A))

/-- `tolerance` of `symmetric_qr`, matrix_impl.rs:1947 -/
noncomputable def symTol : ℝ := 0.0000000001

/-- the loop matrix_impl.rs:1955-1960 -/
def zeroFar (n : Nat) (A : RM) : RM := fun i j => if i < n ∧ j < n ∧ (i + 2 ≤ j ∨ j + 2 ≤ i) then 0 else A i j

/-- the loop matrix_impl.rs:1964-1969 (the pairs of entries are disjoint) -/
noncomputable def symDeflate (n : Nat) (A : RM) : RM := fun i j =>
  if (i = j + 1 ∧ i < n ∧ |A i j| < symTol) ∨ (j = i + 1 ∧ j < n ∧ |A j i| < symTol) then 0 else A i j

open Classical in
/-- the search for `q`, matrix_impl.rs:1971-1973 (for `2 ≤ n`). -/
noncomputable def symQ (n : Nat) (A : RM) : Nat :=
  ((List.range (n - 2)).find? (fun i => decide (symTol < |A (n - i - 1) (n - i - 2)| ∧ symTol < |A (n - i - 2) (n - i - 3)|))).getD n

open Classical in
/-- the search for `p`, matrix_impl.rs:1975-1978. -/
noncomputable def symP (n q : Nat) (A : RM) : Nat :=
  ((List.range' 1 (n - q - 1)).reverse.find? (fun i => decide (|A i (i - 1)| < symTol))).getD 0

/-- applying the rotations of a round to `op`, matrix_impl.rs:1984-1989: to the rows `i` and `i + 1` of `op`, whatever the position `p` of the block is;
`len` rotations -/
def symOp (n len : Nat) (rot : Nat → ℝ × ℝ) (op : RM) : RM :=
  (List.range len).foldl (fun o i => givRows o i 0 n (rot i).1 (rot i).2) op

/-- one round of the loop of `symmetric_qr`, matrix_impl.rs:1964-1991: `inl` when the loop ends after this round; `none` = panic. -/
noncomputable def symStep (n : Nat) (withOp : Bool) (s : RM × RM) : Option ((RM × RM) ⊕ (RM × RM)) :=
  let A := symDeflate n s.1
  let q := symQ n A
  let p := symP n q A
  if q < n then
    match wilkinson (n - q - p) (shift p A) with
    | none => none
    | some f => some (Sum.inr (putBlock A p (n - q - p) f.a, if withOp then symOp n (n - q - p - 1) f.op s.2 else s.2))
  else some (Sum.inl (A, s.2))

/-- the loop `while q < n`, matrix_impl.rs:1963-1992, for a number of rounds -/
noncomputable def symLoop (n : Nat) (withOp : Bool) : Nat → RM × RM → Outcome (RM × RM)
  | 0, _ => .running
  | fuel + 1, s =>
    match symStep n withOp s with
    | none => .panic
    | some (Sum.inl t) => .done t
    | some (Sum.inr t) => symLoop n withOp fuel t

/-- the view `self[(2.., ..n-2)]`, matrix_impl.rs:1952 -/
def below2 (A : RM) : RM := fun i j => A (i + 2) j

/-- `symmetric_qr`, matrix_impl.rs:1945-1994, on an `n × n` matrix, for a number of rounds.  With `with_op` and `n = 2` the extraction of an empty matrix panics. -/
noncomputable def symmetricQr (fuel n : Nat) (A : RM) (withOp : Bool) : Outcome (RM × RM) :=
  match tridiagonalize n withOp A with
  | none => .panic
  | some T =>
    if withOp then
      match extractHouseholder (n - 2) (below2 T) with
      | none => .panic
      | some E => symLoop n true fuel (zeroFar n T, fun i j => if 1 ≤ i ∧ 1 ≤ j then E (i - 1) (j - 1) else if i = j then 1 else 0)
    else symLoop n false fuel (zeroFar n T, fun i j => if i = j then 1 else 0)

/-- the loop that reads off the eigenvalues, matrix_impl.rs:1412-1422, from index `i` on; `none` = failed `unwrap`. -/
noncomputable def symReadOff (n : Nat) (A : RM) : Nat → Nat → Option (List ℝ)
  | 0, _ => some []
  | fuel + 1, i =>
    if i < n then
      if i = n - 1 ∨ |A (i + 1) i| < 0.00000000000001 then (symReadOff n A fuel (i + 1)).map (A i i :: ·)
      else
        match realSpectrum2 (A i i) (A i (i + 1)) (A (i + 1) i) (A (i + 1) (i + 1)) with
        | none => none
        | some (a, b) => (symReadOff n A fuel (i + 2)).map (fun l => a :: b :: l)
    else some []

/-- `spectrum_symmetric`, matrix_impl.rs:1405-1431, on an `n × m` matrix, for a number of rounds of `symmetric_qr`. -/
noncomputable def spectrumSymmetric (fuel n m : Nat) (A : RM) : Outcome (List ℝ) :=
  if n ≠ m then .panic
  else
    match symmetricQr fuel n A false with
    | .running => .running
    | .panic => .panic
    | .done (B, _) =>
      match symReadOff n B n 0 with
      | none => .panic
      | some l => .done (l.insertionSort (· ≤ ·))

end Toppo.RealAlg
