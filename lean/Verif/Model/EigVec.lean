import Verif.Model.Eigen
import Verif.Model.LinAlg
set_option linter.unusedVariables false

/-
Model of the functions of `alg/src/lin_alg/matrix_impl.rs` that compute eigenvectors by inverse iteration, over exact real numbers:
`spectrum_with_invariant_space` (1366-1402), `spectrum_with_invariant_space_symmetric` (1433-1469), `spectrum_with_n_smallest_eigenvecs_symmetric` (1471-1505),
`spectrum_with_n_th_eigenvec_symmetric` (1507-1538).
-/
namespace Toppo.RealAlg
open Finset

/-- `m = self.clone(); m[(j,j)] -= lambda`, matrix_impl.rs:1388-1391, 1455-1458, 1493-1496, 1526-1529 -/
def shiftDiag (A : RM) (x : ℝ) : RM := fun i j => if i = j then A i j - x else A i j

/-- `update /= update.two_norm()`, matrix_impl.rs:1394 (`two_norm`: 1655-1661; an `n × 1` matrix) -/
noncomputable def unitVec (n : Nat) (v : Nat → ℝ) : Nat → ℝ := fun i => v i / Real.sqrt (∑ t ∈ range n, v t * v t)

/-- one step of the inverse iteration, matrix_impl.rs:1393-1395 (and 1396-1398); `none`: `solve` divides by zero, the entries are not numbers from then on. -/
noncomputable def invStep (n : Nat) (A : RM) (x : ℝ) (v : Nat → ℝ) : Option (Nat → ℝ) := (LinAlg.solve n (shiftDiag A x) v).map (unitVec n)

/-- the column computed for the value `x`: two steps from the vector with equal entries, matrix_impl.rs:1373-1379, 1388-1398 -/
noncomputable def invIter (n : Nat) (A : RM) (x : ℝ) : Option (Nat → ℝ) := (invStep n A x (fun _ => 1 / Real.sqrt n)).bind (invStep n A x)

/-- the values and the first `k` columns; a column is `none` when its entries are not numbers.  Reading a value that does not exist panics. Used for matrix_impl.rs:1366-1402. -/
noncomputable def withVecs (n k : Nat) (A : RM) (r : Outcome (List ℝ)) : Outcome (List ℝ × List (Option (Nat → ℝ))) :=
  match r with
  | .running => .running
  | .panic => .panic
  | .done l => if l.length < k then .panic else .done (l, (List.range k).map (fun i => invIter n A (l.getD i 0)))

/-- `spectrum_with_invariant_space`, matrix_impl.rs:1366-1402, on an `n × m` matrix (the size is asserted first, and in `spectrum` again) -/
noncomputable def spectrumVecs (fuel n m : Nat) (A : RM) : Outcome (List ℝ × List (Option (Nat → ℝ))) :=
  if n ≠ m then .panic else withVecs n n A (spectrum fuel n n A)

/-- `spectrum_with_n_smallest_eigenvecs_symmetric`, matrix_impl.rs:1471-1505, on an `n × m` matrix, for `k` columns -/
noncomputable def spectrumSmallest (fuel n m : Nat) (A : RM) (k : Nat) : Outcome (List ℝ × List (Option (Nat → ℝ))) :=
  if n ≠ m then .panic else withVecs n k A (spectrumSymmetric fuel n n A)

/-- `spectrum_with_invariant_space_symmetric`, matrix_impl.rs:1433-1469, on an `n × m` matrix -/
noncomputable def spectrumVecsSym (fuel n m : Nat) (A : RM) : Outcome (List ℝ × List (Option (Nat → ℝ))) := spectrumSmallest fuel n m A n

/-- `spectrum_with_n_th_eigenvec_symmetric`, matrix_impl.rs:1507-1538, on an `n × m` matrix, for the index `k` -/
noncomputable def spectrumNth (fuel n m : Nat) (A : RM) (k : Nat) : Outcome (ℝ × Option (Nat → ℝ)) :=
  if n ≠ m then .panic
  else
    match spectrumSymmetric fuel n n A with
    | .running => .running
    | .panic => .panic
    | .done l => if l.length ≤ k then .panic else .done (l.getD k 0, invIter n A (l.getD k 0))

end Toppo.RealAlg
