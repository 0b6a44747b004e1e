# Design: a Lean 4 model of shunski/toppo

## 1. Method

* One Lean module per piece of Rust source under `lean/Verif/Model/` (executable, total definitions, each with a
  `file:lines` citation), helper lemmas under `lean/Verif/Proof/`, and the property theorems, with their small
  independent specifications and satisfiability examples, under `lean/Verif/Props/`.
* A Rust panic (explicit `panic!`, failed `assert!`, out-of-range index, arithmetic underflow of `usize`, division by
  zero, `unwrap` of `None`) is the value `none` in an `Option` result.  A theorem "no panic" is `∃ r, f x = some r`.
* Unbounded loops are structural / well-founded recursion when termination holds, otherwise fuel-indexed with the
  theorem that enough fuel exists (or, for a non-terminating loop, that no fuel suffices).
* Where a property is false of the code we prove its negation on a concrete witness (`..._false`), then the strongest
  part that holds (`..._partial`).  These disagreements are listed in section 5.

## 2. Trusted base

* Lean 4.33.0's kernel; Mathlib's definitions used in statements (Finset, Matrix, Equiv.Perm, ℚ, ...).
* Axioms: at most `propext`, `Classical.choice`, `Quot.sound` (checked with `#print axioms` for each listed theorem).
* Faithfulness of the reading of the Rust source: the code is not compiled or run.  The citation beside every
  definition is the only tie.

## 3. Conventions and simplifications

* `usize`/`i64` values are `Nat`/`Int` unless the property is about machine width: u64 words in `BinaryPool`
  (`BitVec 64` bits), the u64 checked arithmetic of `Rational`, and the 16-bit packing of matrix shapes are modelled at
  machine width.
* `&mut self` methods return the new value.  Heap aliasing of matrix views is modelled by an explicit heap function
  and (base, shape, strides) views.
* Debug-profile arithmetic (overflow and underflow panic) is assumed, as in `cargo test`/`cargo run`.
* Floating point: C104-C112, C119, C122 and C127 model `f64` as IEEE 754 binary64 (`Model/Float64.lean`: signed zeros, subnormal numbers, infinities, one NaN,
  round to nearest even).  The rounding is proved to be the nearest representable number; the definitions were also compared with the
  hardware `Float` of the Lean runtime on 140000 random operations (a sanity check outside the proofs).  The other numeric algorithms
  (C37, C38, C42, C63-C72, C79-C89) are modelled over an exact field or the reals.
* `Display`/`Debug` formatting is modelled for integers and everything built from them (C90-C98), not for `f64`; tests are not modelled, of the examples only the matrices of the three Laplacian programs (C137-C139).

## 4. Plan per property

| id | model | proof |
|---|---|---|
| C01-C04 | `BinaryPool` = len, count, list of 64-bit words; every method | representation invariant + abstraction to `Finset ℕ`, refinement by induction over op histories |
| C05 | the `data &= data-1` loop on `BitVec 64` | well-founded recursion, popcount spec |
| C06 | `LabeledSet` over `BinaryPool` | refinement corollary |
| C07 | `TupleIterator` state machine | invariant: state = strictly increasing index list; next = lexicographic successor; sorted, complete list |
| C08-C11 | integer PID functions | induction on Euclid's algorithm; negation for C11 |
| C12-C15 | `Rational` with checked u64 | value map to ℚ; negations with -0; partial theorems |
| C16-C23 | cycles as lists, permutations as lists of cycles | abstraction to functions ℕ→ℕ, canonical-form uniqueness, induction on loop; negations for C20, C23 |
| C24 | index lists | composition; negation for inverse |
| C25-C27 | formal sums as sorted lists of pairs; `merge_by`, `sum` | merge invariants; negation with concrete witness for C26 |
| C28-C32 | packed shape, heap, views | bit-field arithmetic, stride arithmetic; negations for C28/C30 |
| C33-C36 | `smith_normal_form` over ideal ℤ as loop over matrices | invariants: products of elementary matrices; well-founded measure; negation for C34 |
| C37-C39 | rank, LU, det, solve over exact field; from_array | invariants; negations for C37, C39 |
| C40-C42 | sparse nodes lists, merge-join product | refinement to `Matrix` |
| C43-C44 | `Module`, homology bookkeeping | list lemmas and linear algebra over ℤ |
| C45-C48 | cells as word lists of any length / vertex sets, attach, boundary | induction over histories; word-lexicographic order as a weight of sets; sign cancellation; inclusion-exclusion |
| C49-C57 | triangular bit-array graph, traversals | refinement to symmetric relation; reachability invariants; negations for C53, C56 |
| C54, C74 | edge paths of configurations (`get_edge_path` family, graph.rs) on graphs with a chosen depth-first tree | induction on the numbering of the tree; `Stem` invariant on subdivided graphs; negation on a branching tree |
| C58, C75 | the branch arena of `CubicalCplx::udc`, `get_index_of`, `get_boundaries_of`, `boundary_map` | arena invariant (every listed index is a path of disjoint factors), enumeration = all cells; sign cancellation; negations for `get_boundary`, empty bases |
| C59, C73 | `EdgePath` as lists of commuting steps; `reduce_to_geodesic`, `composed_with`, permutation of particles | trace-monoid / partially commutative group argument; negations for the panic and the trivial path |
| C60 | `Cube::property`, pairing, `flow` | first-eligible-factor characterisation; descent of the sum of positions; negation on a subdivided tree |
| C61-C62, C71, C72 | Laplacian; Delaunay loop with arbitrary in-circle oracle, then with the exact one | induction; exact real geometry |
| C63-C64 | expression trees over ℝ | structural induction, Mathlib derivatives |
| C65-C69 | Householder, Hessenberg, QR, eigenvalues over exact reals | direct computation, induction; negations C65, C68 |
| C70 | field homology through `rank_as_linear_map` | rank inequalities; negation inherited from C37 |
| C76 | `UdnMorseCplx`: `expand`, listing of cells, `boundary_map` | arena invariant as for C75; negation for criticality |
| C77 | `UdnMorseCplx` on subdivided trees | the shared set of candidates is shown to be restored after every branch; invariant on paths (the vertices chosen have one child); exact description of the cells missed; negation in dimension 3 |
| C78 | the models of C58, C75–C77 and C44 together | cells as sets of vertices and one or two edges; every 1-cell is homologous to a combination of critical ones (generation by a measure on configurations), independence by a map that counts, for every critical cell, the passages of its collisions; H_1 free on the critical cells; same rank as listed by the Morse complex |
| C79 | `hessenberg_form` over exact reals (Model/Eigen) | every round is a conjugation by `I - b v vᵀ` on a window; rounds preserve the zeros made before; similarity by composing reflections as long as `householder_vec` was right (sign of the sub-diagonal entry tells), determinant counts the wrong ones |
| C80 | `raw_francis_step` over exact reals | invariant of the bulge below column k-1; the last entry of the reflected vector never vanishes on unreduced input, so all reflections but the last are right |
| C81 | `raw_qr`, `spectrum` with the number of rounds as fuel | the block found is unreduced (so C80 applies); a block triangular matrix has the product of the characteristic polynomials; in an exact run every round preserves it; the values read off are its roots; a fixed point shows that the loop need not end |
| C82 | `random_orthogonal` (draws as arguments), `extract_householder_vecs` | trailing blocks: reflection times the bordered smaller matrix; induction on the size |
| C83 | `householder_tridiagonalization`, the matrix `op` of `symmetric_qr` | invariant over the rounds: cleaned of leftovers the matrix is symmetric and is the input conjugated by the reflections so far; the stored vectors give the same product of reflections through C82 |
| C84 | `implicit_symmetric_qr_with_wilkinson_shift` with the rotations it records | invariant over the rounds: conjugated by the rotations so far, one bulge; after a cut-off all later rotations are the identity; the rotations also triangularise `A - m`; then the argument of Hoffmann and Parlett on the last column of `Q` |
| C85 | `symmetric_qr`, `spectrum_symmetric` on n×n real matrices, for a number of rounds | the block of a round is bounded by rounded entries; a potential (position of the block, then b⁴c² of C84, which halves and stays above tol⁶) decreases; the characteristic polynomial changes only when entries are rounded; Weyl's inequality (proved from the min-max argument) for each rounded entry, and every entry is rounded at most once |
| C86 | `lll_lattice_reduce` on sequences of real columns, for a number of rounds | loop invariant: the orthogonal columns and coefficients are the Gram-Schmidt data of the current columns and those before `i` are reduced; termination by the product of Gram determinants, which a swap multiplies by at most δ and a lower bound on the lengths of all orthogonal columns, which a swap keeps |
| C87 | the four functions with eigenvectors on real matrices; a column whose entries are not numbers is `none` | `solve` of C38; two Cauchy-Schwarz inequalities: the second step of the iteration never loses against the first; negations for exact values and for matrices with equal row sums |
| C88 | `modify_embedding` with a hash map as a list of entries with distinct keys, `f64` as reals | the vertices of the result from C57, the vector operations from C42, the fold by induction; negations for two marked points, loops and parallel edges |
| C89 | `degree_in_maximal_tree` | bijection with the neighbours in Mathlib's `SimpleGraph`, handshake lemma and the tree of C55 |
| C90-C92 | `Display` of `Rational`, `Permutation`, `Module`, `IntegralHomology`; a text is a list of characters, decimal numbers are `Nat.toDigits 10` | independent readers (`Props/TextRead.lean`, `readRat`, `readCycles`, `readModule`, ..) applied to the printed text give the value back; combined with C12, C17, C43, C44; negations for `-0` and negative divisors |
| C93, C94 | `Display` and `Debug` of `RawSimpleGraph`, `Debug` of `BinaryPool`, `Display` of `LabeledSet` | readers; combined with C49, C01, C06; negation for the columns beyond line 99 |
| C95 | `Display` of `Cube`, `CubicalCplx`, `UdnMorseCplx` | readers; combined with C75, C76 |
| C96 | `Display` of `SimpleVertex`, `SimpleGraph` | a reader with brackets; combined with C53, C57 |
| C97, C98 | `Display`/`Debug` of integer matrices, `Display` of sparse matrices and formal sums | readers; combined with C40, C25; negation for sparse matrices without entries |
| C99 | `get_description_of_cycles`, `get_description_of_boundaries` (`Model/Display.lean`); the cells print through an arbitrary function | a reader for headings and generator lines (`readDescription`); combined with C44 (kernel, image, ranks) and C98 |
| C100 | `smith_normal_form`, `IntegralHomology::new` with every product, sum, negation and quotient checked (`Model/SmithMachine.lean`) | whatever the checked run returns, the run with a wider type returns (`Ref`, through binds, folds and loops); representability is an invariant; then C33, C35, C44 |
| C101 | `n_cells_of_dim` with checked `usize` products and sums, the wrapping casts `as i64`/`as usize` and the checked `i64` total (`Model/SimplicialMachine.lean`) | the machine loop stays congruent modulo 2^64 to the unbounded one (C47) and the count is at most the first sum, which fits; one round is characterised exactly (`roundW`) |
| C102 | the `PID` operations of `pid_impl_for_fields!`, `gcd`, `bezout_identity`, `smith_normal_form` over a parameter `Arith` (exact field or checked `Rational`); the bodies guarded by `!divides` are unreachable at a field and left out, the guards are kept (`Model/SmithField.lean`) | the loop invariants of C33 over a field: five matrices in step, echelon shape, then diagonal; rank by invertibility of P and Q |
| C103 | the same code with `Arith` = `Rational` with checked `u64`, plus the field homology | a relational proof: every step of the run on representations is matched by the exact run (`Sim`, `OR`), negation is only applied to non-zero ratios |
| C104 | `f64` as NaN, infinities and signed rational magnitudes, operations = exact operation followed by rounding to 53 bits, nearest even, with subnormal numbers and overflow (`Model/Float64.lean`); the product of C31 with the sum as a fold instantiated at this type | rounding is nearest and monotone (proved against the definition of representable numbers); error of a fold of additions by induction; integers up to 2^53 are representable |
| C105 | `lu` in `f64` (`Model/FloatAlg.lean`) | every entry of the result is the end of a chain of subtractions of products; error of a chain by induction, relative to its end |
| C106 | `solve` in `f64` | the two substitutions as equations, error of one row, then b - Ax = (b - Ly) + L(y - Ux) + (LU - A)x |
| C107 | `det` in `f64` | finite diagonal implies finite factors; running product by induction; determinant of triangular matrices from Mathlib |
| C108 | `one_norm`, `inf_norm`, `two_norm`, `frobenius_norm` in `f64`, `sqrt` = rounded real square root | the maximum loop by induction on values that are not NaN; the square root changes squares by a factor (1+u)^2 |
| C109 | `givens_rotation` in `f64` | all intermediate results are in the normal range, so errors are factors; underflow of the quotient costs at most eta |
| C110 | `householder_vec` in `f64` | all intermediate results are in the normal range (ranges of exponents), errors are factors (1+u)^k; the exact identities of the two formulas for the first entry with these factors |
| C111 | `circum_circle_contains` in `f64` | every operation as an exact value with an absolute error bound (`Ap`), from the corners to the center and the two distances; the special values by cases |
| C112 | `delaunay_triangulation` in `f64` | the auxiliary triangle is an equilateral one perturbed by less than 1/256, all points inside; the loop with the rounded test takes the same steps as the loop with the exact test (simulation along the invariant of C72), then C72 |
| C113 | `derive(PartialOrd)` of `AtomicSmoothFn`, all constructors of expressions | lexicographic comparison by structural recursion, shown to be a linear order; a normal-form predicate preserved by every operator, for an arbitrary order; counterexamples computed with the derived order |
| C114 | `Display` of `AtomicSmoothFn`, `MultiVarFn`, `Vector`; the text of a number is a parameter | a recursive-descent reader that returns the values, proved to read back every text; lines are cut at the line breaks |
| C115 | `SimplicialCplx` from `attach` to the homology (composition of the models of C44-C46) | a textbook definition of simplicial homology on finitely supported functions; an isomorphism from the chains of the computed matrices, with the signs of the permutation that sorts the vertices; uniqueness of the invariants of a finitely generated abelian group |
| C116 | composition of the models of C44-C47 | rank equation of C44 also for dropped dimensions; telescoping sum |
| C117 | composition of the models of C44-C48 | homology in dimension zero of the abstract complex is free on the components; uniqueness of invariants (C115) |
| C118 | composition of the models of C44-C46 | joining with the first vertex is a contraction of the chains; the cycles of the top dimension of a sphere are the multiples of the boundary of the simplex |
| C119 | ConstMatrix model (C42) over the model of f64 (C104) | entry-wise rounding bounds; error bound of sums of products from C106 |
| C120 | composition of the models of C44-C46 | quotients of an internal direct sum; faces of simplices of one part stay in it; counting homomorphisms for the ranks |
| C121 | composition of the models of C44-C46 | a retraction of the chains that moves cycles by boundaries; induction on the sequence of collapses |
| C122 | sparse model (C40) over the model of f64 (C104) | the merge loop is the fold over the positions stored on both sides (only commutativity of the product is used); error bounds of folds; adding a zero changes at most the sign of a zero |
| C123 | the generic matrix code instantiated at checked integers: a value is an integer or `none` after an overflow; one overflowed entry makes the whole operation panic (`Model/Checked.lean`) | the folds of C31, C40, C122 and the entrywise laws need no ring laws; induction on the list of terms shows that a checked fold returns the exact sum iff every term and prefix sum is in range |
| C124 | the generic matrix code instantiated at `Rational` with checked `u64` parts (`RChk ok` in `Model/Checked.lean`) | relation "is the number q, unless something has overflowed" preserved by the operators (C12) and hence by folds; for integers explicit evaluation of the operators |
| C125 | the merge of `FormalSum` instantiated at checked `w`-bit coefficients (`Chk w`, `FSum.run` in `Model/Checked.lean`) | one round of the merge commutes with changing the coefficients; simulation between checked and unbounded coefficients; invariants of the streams excluding overflow |
| C126 | `len`, `remove`, `Div`, the operators with generators and those of `formal_sum_impl!` (`Model/FormalOps.lean`) on top of C25-C27 | a list of terms stands for an element of `B →₀ K`; normal forms biject with the elements; induction over histories |
| C127 | `Vector<f64, Basis>`: the merge with `f64` coefficients and `==` of `f64` (`Model/FloatFormal.lean`) | the rounds of the merge do not depend on the coefficients; their structure comes from C25 with all coefficients one; rounding lemmas of C104 |
| C128 | no new code; two runs compared through C115 | reduced homology; a cycle of the union splits because boundaries of the parts meet in multiples of the common vertex only, and those are no cycles |
| C129 | no new code; two runs compared through C115 | the link of the first apex maps cycles of the suspension onto reduced cycles; coning with the apexes gives surjectivity and the kernel |
| C130 | no new code; C115 and C116 | without simplices of the next dimension there are no boundaries, and cycles form a subgroup of a free group; graphs by the Euler characteristic |
| C131 | no new code; two runs compared through C115 | rank of homology = chains - rank of two boundary maps; the new simplex adds one chain, and one to the rank of its boundary map unless a multiple of its boundary already is a boundary |
| C132 | `Ord` of cycles, `PartialOrd` and derived `Ord` of cube factors and cubes (`Model/Orders.lean`) | case analysis; lexicographic orders by induction; counterexamples for the parts that fail |
| C133 | `==` of matrices and of a view with a matrix (`Model/Orders.lean`) | from C31; induction over the depth of the recursion |
| C134 | no new code; `IntegralHomology::new` (C44) and `homology()` over a field (C70) on the same matrices | homomorphisms into the field: those from the chains that vanish on boundaries split into those from homology and those from the (free) image of the boundary map; comparison with the rationals |
| C135 | no new code; the ranks and the dimension of `CubicalCplx` (C75) | bijection between cells of dimension d and pairs of a matching and a set of free vertices |
| C136 | no new code; the diagonal of `smith_normal_form` (C33, C35) | minors of a product by multilinearity of the determinant; minors of a diagonal chain matrix; `P A Q = S` |
| C137 | `Model/Laplacian.lean`: the matrices built by examples/combinatorial_laplacian.rs | `Lx = 0` iff `∂x = 0` and `∂'ᵀx = 0`; dimensions by orthogonality; ranks over the reals from C134; spectral theorem |
| C138 | `Model/Laplacian.lean`: the matrices built by examples/weighted_laplacian.rs, any positive diagonal weights | as C137 after conjugation with the square roots of the weights; sizes from C47 |
| C139 | no new code; `laplacian` (C61) | `2 xᵀLx = Σ w (xᵢ - xⱼ)²`; null space = functions on the quotient by the edge relation |
| C140 | no new code (C115, C121) | one bigger complex collapses to the complex and to its subdivision; a lemma removes an upwards closed set of pairs `F`, `F ∪ {w}`, largest first |
| C141 | no new code | the pairs `F ∋ x`, `F ∪ {y}` |
| C142 | no new code | fill in the simplices with both ends of the edge; the result collapses to the complex (link condition) and, as one end is dominated, to the contraction |
| C143 | no new code | the simplices are subdivided one after the other, largest first (C140), on labels `T ⊕ Finset T`; both ends renamed (C115) |
| C144 | no new code | cycles of the whole are split along the common part, where every cycle bounds; dimension zero by reduced homology (C128), the point by C118 |
| C145 | no new code | ranks of boundaries of a sum by the formula for sums and intersections of submodules; ranks of homology as in C131 |
| C146 | no new code | the rank answers cancel in the alternating sum, right or wrong; cells of configuration complexes by C135, simplicial complexes by C116 |
| C147 | no new code (Model/Laplacian, Model/Checked) | entries of the boundary by C45, sums bounded by the number of terms (C123), integers below 2^53 are represented exactly (C104) |
| C148 | no new code | chains with boundary divisible by m: coefficients of neighbouring facets agree up to sign modulo m, along chains of facets; top homology and torsion from C118's group, surfaces by C116 |
| C149 | no new code | a chain of facets with boundary divisible by m is divisible by m, starting at a facet with a free face and going along the chain of facets (C148's sign argument); m = 0 gives the top group, m ≠ 0 the torsion below it |
| C150 | no new code | C134 (universal coefficients) applied to the groups of C148 and C149; the torsion coefficient 2 counts in characteristic two only |
| C151 | no new code | C47 (the counts are the numbers of listed simplices) and double counting of pairs (facet, face) |
| C152 | no new code | chains in dimensions i and i+1 agree (or include), C115 transports this to the reports and classification of finitely generated groups (`same_numbers`) gives the numbers; skeleta by a cone argument, C130 and the Euler characteristic |
| C153 | no new code | the connecting map is built on the chains of `Proof/SimpHom.lean` (boundary of the part of a cycle in the first complex), exactness by diagram chasing, then C115 transports the sequence to the reports; links by C144 applied to the star |
| C154 | no new code | induction over the steps: collapses by C121, a single simplex by C131 (ranks) and C152 (quotients, torsion), on the chains of `Proof/SimpHom.lean`; C115 transports to the report |
| C155 | no new code | the pieces of all strands are counted (a piece determines its strand, `Proof/OnePoint.lean`) and matched with the edges by C57; C78 for degree 0, rank and nullity over the integers for degree 1; C146 over a field |
| C156 | no new code | matchings of size 2 are the pairs of edges less the pairs of edge ends at each vertex (double counting, `Proof/TwoPoints.lean`); the degrees of the subdivided graph from the proof of C57 (`Proof/SubdivideRoot.lean`), the number of edges from C155, the cells from C135, the fields from C146 |
| C157 | no new code | H_0 = Z (C78) gives the rank of the boundary map over every field by applying Hom(-, K) (`core` of C134); the answers from C70 with `homology_eq`; C155 for one point |
| C158 | no new code | the order in which the cells are listed (edges by their larger ends, one for each vertex of a tree) makes the leading minors of the boundary matrix invertible (`Proof/TreePoint.lean`), so that C37 (minors) applies; the rest is C157 |

## 5. Disagreements between property and code (found while modelling)

Each is proved, on a concrete witness or for a whole class of inputs, by the theorem named.

| id | what the code does | theorem |
|---|---|---|
| C09 | Bezout coefficients of negative 64-bit numbers may overflow | `c09_bezout_machine_false` |
| C11 | the primality test accepts 4 | `c11_is_prime_false` |
| C12, C13, C15 | negating zero gives a second representation of zero; comparing zeros panics; dividing by it is not rejected | `c12_false`, `c13_false`, `c15_false` |
| C14 | `Product` of rationals is always zero | `c14_product_false` |
| C20 | negative powers of a permutation give the identity | `c20_pow_negative_false` |
| C23 | block permutations panic on touching reversed blocks and on empty blocks | `c23_swap_touching_false`, `c23_swap_empty_false` |
| C24 | `ConstPermutation::inverse` returns the zero array; `VecPermutation::order` does not return | `c24_inverse_false`, `c24_vec_order_false` |
| C26 | a sum of three or more formal sums sharing basis elements can be unsorted | `c26_sum_order_false` |
| C28 | sizes of 65536 or more are truncated | `c28_shape_false` |
| C30 | the slice formed for a whole matrix exceeds the allocation | `c30_slice_false` |
| C34 | line 1061 of matrix_impl.rs updates the wrong row, so `Q_inv` is the inverse exactly when the divisibility phase has nothing to do | `c34_iff`, `c34_false` |
| C37, C70 | pivot searches start at k+2, so ranks are too small and field Betti numbers too large | `c37_false`, `c70_false` |
| C38 | LU without pivoting fails on invertible matrices | `c38_no_pivot_false` |
| C39 | rows longer than the first are truncated silently | `c39_ragged_accepted_false` |
| C40, C41 | a sparse matrix without entries panics | `c40_empty_false`, `c41_empty_false` |
| C43, C44 | the divisor -1 is treated as torsion | `c43_unit_false`, `c44_unit_false` |
| C46 | with more than 64 labels cells are lost; `new_from_zero_skeleton` panics | `c46_false`, `c46_path_false`, `c46_zero_skeleton_false` |
| C50 | the one-vertex graph is reported as not connected | `c50_single_vertex_false` |
| C53 | `edge_iter` yields (0,1) even if it is not an edge | `c53_phantom_edge_false` |
| C54 | the base configuration is not reached on trees branching early | `c54_branching_false` |
| C55 | `choose_maximal_tree` panics on cycles; the advertised branch order fails for the last branch (graph.rs:897-898) | `c55_cycle_panics_false`, `c55_branch_order_false` |
| C56 | repeated loops panic or are miscounted | `c56_repeated_loops_false` |
| C57 | for 2 points the inner vertex has position 1; panics for the empty graph and exactly the connected graphs without a vertex that has one edge end, or at least three, no loop and a connected rest, e.g. cycles | `c57_loop_panics_false`, `c57_empty_panics`, `c57_iff`, `c57_cycles_false` |
| C58 | the bases returned by `CubicalCplx::boundary_map` are empty, so homology panics; `Cube::get_boundary` panics from two edges on | `c58_homology_panics_false`, `c58_get_boundary_false` |
| C59 | the reduction panics when an initial part is trivial; the reduced trivial path is `[[]]`, not `[]` | `c59_panics_false`, `c59_trivial_partial` |
| C60 | pairing (cubical.rs:535) fails on some subdivided trees, and the flow panics there | `c60_pairing_false`, `c60_flow_false` |
| C76 | `UdnMorseCplx::expand` lists cells that are not critical, omits critical ones, ignores a bound of 0 on the dimension; `boundary_map` panics on cells with two edges | `c76_extra_false`, `c76_missing_false`, `c76_upper_zero_false`, `c76_one_point_false`, `c76_boundary_map_false` |
| C77 | on trees `expand` omits critical cells of dimension 3 and more: it assumes that one vertex pays for one edge only (cubical.rs:853-858) | `c77_missing_false`; `c77_listed_partial` describes exactly the cells omitted |
| C62 | the empty list of points panics | `c62_empty_panics` |
| C64 | evaluating the jacobian of a constant `MultiVarFn` panics | `c64_constant_false` |
| C65 | Householder beta has the wrong sign for negative multiples of the first unit vector | `c65_false` |
| C68 | a double real eigenvalue with non-zero sub-diagonal panics | `c68_false` |
| C72 | the triangles need not cover the convex hull | `c72_hull_not_covered` |
| C79 | the same wrong reflection in `hessenberg_form`: a column already reduced with a negative entry scales the determinant by 9 | `c79_false` |
| C80 | the same in the last reflection of a Francis step; `francis_step_with_op` returns the identity whatever it did | `c80_false`, `c80_op_false` |
| C81 | `qr` never ends on the cyclic permutation matrix of order 3, a fixed point of the double-shift step | `c81_stall_false` |
| C81 | `qr_with_op` returns the identity (or panics once a block has split off) | `c81_op_false` |
| C83 | `householder_tridiagonalization` of the Laplacian of a path with three vertices has trace 20 instead of 4 (the reflection of C65) | `c83_false` |
| C83 | a column that needs no reflection is stored as if it had been reflected, so the rebuilt matrix is not the one of the similarity | `c83_op_false` |
| C85 | the loop need not end: a symmetric tridiagonal 4×4 matrix on which rounds alternate between two matrices for ever, because a rotation below the cut-off of `givens_rotation` is skipped and its entry never removed | `c85_stall_false` |
| C85 | an entry equal to the tolerance is neither rounded nor counted as large: `[[0,1e-10,0],[1e-10,0,1],[0,1,0]]` gives ∓1e-10, 0 instead of ∓1, 0 | `c85_tie_false` |
| C85 | 1×1 matrices panic (underflow) | `c85_small_false` |
| C85 | with `with_op`, the rotations of a block that starts at row p > 0 are applied to rows 0.. of the transformation | `c85_op_false` |
| C87 | if a value is exactly an eigenvalue `solve` divides by zero and the column is NaN, e.g. both columns for `[[2,1],[1,2]]` | `c87_exact_false`, `c87_two_false` |
| C87 | the iteration always starts at the vector with equal entries: if all rows have the same sum (graph Laplacians) every column is that vector up to sign | `c87_rows_false` |
| C88 | for two marked points (also `SimpleGraph::from`) the only inner vertex of an edge has position 1 instead of 1/2, so it is drawn on the end vertex | `c88_two_points_false` |
| C88 | loops are drawn as a point and parallel edges on top of each other | `c88_loop_false`, `c88_parallel_false` |
| C90 | the negative of zero is printed as `-0` | `c90_false` |
| C92 | a negative elementary divisor is printed as such, for instance `Z_-2`, and even the trivial group as `Z_-1` | `c92_false` |
| C93 | from line 100 on the marks of the Debug text are one column too far right | `c93_debug_columns_false` |
| C97 | printing a sparse matrix without entries panics | `c97_sparse_empty_false` |
| C101 | counting the top cell of a simplex with 21 labels panics | `c101_panics`, `c101_overflow_witness` |
| C11 | over a field `is_prime` is true for every element, zero and units included | `c11_field_false` |
| C105 | no row exchanges: infinities for an invertible matrix, L U far from A with a small pivot | `c105_lu_limits` |
| C106 | finite answers that are wrong in all digits (small pivot; overflow in `lu`) | `c106_solve_limits` |
| C107 | determinant 0, infinity or NaN for invertible matrices, non-zero for a singular one | `c107_det_limits` |
| C108 | NaN entries are ignored by `one_norm`, `inf_norm`; overflow and underflow of squares | `c108_norm_limits` |
| C109 | nothing is rotated for abs(b) below 1e-12 whatever `a` is; NaN for two infinities | `c109_givens_limits` |
| C110 | NaN or a matrix that is not orthogonal for columns of very large, very small or very different entries; wrong sign of beta for a negative multiple of the first unit vector | `c110_householder_limits` |
| C111 | a corner of a triangle inside its own circle; collinear corners with a point inside; overflow | `c111_corner_inside`, `c111_collinear_false`, `c111_overflow_false` |
| C112 | overlapping triangles on six points with small integer coordinates | `c112_overlap_false` |
| C113 | powers of constants are products containing constants; derivatives and sums can have unsorted or repeated summands | `c113_power_false`, `c113_derivative_false`, `c113_sum_false` |
| C124 | the negative of a zero entry is not equal to zero | `c124_neg` |
| C125 | the sum of three formal sums can panic in one order and return in another | `c125_order` |
| C125 | a difference panics, although it is representable, if the subtrahend has the coefficient `MIN` | `c125_sub_min` |
| C126 | `from` of a list with a repeated generator is not in normal form | `c126_from_repeated` |
| C127 | a multiple that underflows is not equal to the zero vector | `c127_underflow` |
| C132 | `cmp` of cycles with the same first element is `Equal` for different cycles; `<` on cube factors and cubes is not transitive; `cmp` and `partial_cmp` of cube factors disagree on a vertex and an edge | `c132_cycle_exact_false`, `c132_factor_trans_false`, `c132_cube_trans_false`, `c132_factor_agree_false` |
| C133 | `SubMatrix == Matrix` recurses for ever | `c133_view_matrix_false` |

## 6. Simplifications worth knowing

* `Vec::sort`/`sort_by` is modelled by the stable insertion sort std uses on short slices; on the total orders that occur
  every stable sort gives the same list, and where the order is only partial (C58) the lists are short.
* Matrices of the linear-algebra models are functions on indices with explicit sizes (`Mat.build` recomputes a table;
  it is the identity on entries).  Views and their aliasing are modelled separately (C28-C32).
* `f64` is an exact field or the real numbers in C37, C38, C42, C63-C72, C79-C89: rounding, NaN and infinities are modelled in C104-C112, C119, C122 and C127 only.
  There the sums start at `0.0`; newer versions of the standard library start at `-0.0`, which changes at most the sign of a zero.
* No modelled function uses threads, hash-map iteration order or the random generators (`Matrix::random` and friends are not modelled).

## 7. Not modelled

The texts of `f64` numbers (a parameter in C114) and of `Matrix<f64>`, derived `Debug` texts, `println!` progress messages, the example binaries except the matrices of the Laplacian programs (C137-C139), the disabled tests, and
commented-out functions.
