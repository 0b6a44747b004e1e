{
 "claims": [
  {
   "property": "C01",
   "status": "proved",
   "theorems": [
    "Toppo.PoolProps.c01_pool_refines_set"
   ],
   "note": ""
  },
  {
   "property": "C02",
   "status": "proved",
   "theorems": [
    "Toppo.PoolProps.c02_pool_iter"
   ],
   "note": ""
  },
  {
   "property": "C03",
   "status": "proved",
   "theorems": [
    "Toppo.PoolProps.c03_pool_set_algebra"
   ],
   "note": ""
  },
  {
   "property": "C04",
   "status": "proved",
   "theorems": [
    "Toppo.PoolProps.c04_pool_bounds"
   ],
   "note": ""
  },
  {
   "property": "C05",
   "status": "proved",
   "theorems": [
    "Toppo.PoolProps.c05_count_ones"
   ],
   "note": ""
  },
  {
   "property": "C06",
   "status": "proved",
   "theorems": [
    "Toppo.PoolProps.c06_labeled_set",
    "Toppo.PoolProps.c06_labeled_set_eq"
   ],
   "note": ""
  },
  {
   "property": "C07",
   "status": "proved",
   "theorems": [
    "Toppo.TupleProps.c07_tuple_iter",
    "Toppo.TupleProps.c07_tuple_iter_zero"
   ],
   "note": ""
  },
  {
   "property": "C08",
   "status": "proved",
   "theorems": [
    "Toppo.PIDProps.c08_euclid_div",
    "Toppo.PIDProps.c08_euclid_div_panics",
    "Toppo.PIDProps.c08_euclid_div_panics_machine"
   ],
   "note": ""
  },
  {
   "property": "C09",
   "status": "proved",
   "theorems": [
    "Toppo.PIDProps.c09_gcd",
    "Toppo.PIDProps.c09_gcd_total",
    "Toppo.PIDProps.c09_gcd_machine",
    "Toppo.PIDProps.c09_bezout",
    "Toppo.PIDProps.c09_bezout_total",
    "Toppo.PIDProps.c09_bezout_machine_partial",
    "Toppo.PIDProps.c09_bezout_machine_false"
   ],
   "note": "gcd and Bezout proved for all mathematical integers, and at any width for returned results; on w-bit integers gcd never panics except MIN, Bezout never panics for non-negative inputs, and a concrete i64 overflow for negative inputs is exhibited (c09_bezout_machine_false)."
  },
  {
   "property": "C10",
   "status": "proved",
   "theorems": [
    "Toppo.PIDProps.c10_simplify",
    "Toppo.PIDProps.c10_divides"
   ],
   "note": ""
  },
  {
   "property": "C11",
   "status": "partial",
   "theorems": [
    "Toppo.PIDProps.c11_is_prime_actual",
    "Toppo.PIDProps.c11_is_prime_false",
    "Toppo.PIDProps.c11_is_prime_partial",
    "Toppo.SmithF.c11_field_false"
   ],
   "note": "False of the code (4 is reported prime); negation and the surviving part are proved."
  },
  {
   "property": "C12",
   "status": "partial",
   "theorems": [
    "Toppo.RationalProps.c12_false",
    "Toppo.RationalProps.c12_exact_partial",
    "Toppo.RationalProps.c12_canonical_partial",
    "Toppo.RationalProps.c12_eq_partial",
    "Toppo.RationalProps.c12_total"
   ],
   "note": "False of the code because of negative zero; exact characterisation proved for histories not negating zero, values exact for all histories without zero divisors."
  },
  {
   "property": "C13",
   "status": "partial",
   "theorems": [
    "Toppo.RationalProps.c13_false",
    "Toppo.RationalProps.c13_cmp_partial"
   ],
   "note": "False only for comparing zero with zero (panic); everything else proved."
  },
  {
   "property": "C14",
   "status": "partial",
   "theorems": [
    "Toppo.RationalProps.c14_sum",
    "Toppo.RationalProps.c14_product_false",
    "Toppo.RationalProps.c14_product_actual"
   ],
   "note": "Sum proved; Product is false (always zero), shown by witness and exactly characterised."
  },
  {
   "property": "C15",
   "status": "partial",
   "theorems": [
    "Toppo.RationalProps.c15_false",
    "Toppo.RationalProps.c15_partial"
   ],
   "note": "False of the code for division by -0; proved for histories that never negate zero."
  },
  {
   "property": "C16",
   "status": "proved",
   "theorems": [
    "Toppo.Permutation.c16_mul_is_composition",
    "Toppo.Permutation.c16_map_bijective"
   ],
   "note": ""
  },
  {
   "property": "C17",
   "status": "proved",
   "theorems": [
    "Toppo.Permutation.c17_eq_iff_same_map",
    "Toppo.Permutation.c17_stored_form"
   ],
   "note": ""
  },
  {
   "property": "C18",
   "status": "proved",
   "theorems": [
    "Toppo.Permutation.c18_assoc",
    "Toppo.Permutation.c18_identity",
    "Toppo.Permutation.c18_inverse"
   ],
   "note": ""
  },
  {
   "property": "C19",
   "status": "proved",
   "theorems": [
    "Toppo.Permutation.c19_accepts",
    "Toppo.Permutation.c19_map"
   ],
   "note": ""
  },
  {
   "property": "C20",
   "status": "partial",
   "theorems": [
    "Toppo.Permutation.c20_pow_nonneg_partial",
    "Toppo.Permutation.c20_pow_negative_false"
   ],
   "note": "Proved for non-negative exponents; false of the code for negative ones (always the identity), proved by c20_pow_negative_false."
  },
  {
   "property": "C21",
   "status": "proved",
   "theorems": [
    "Toppo.Permutation.c21_generators"
   ],
   "note": ""
  },
  {
   "property": "C22",
   "status": "proved",
   "theorems": [
    "Toppo.Permutation.c22_action",
    "Toppo.Permutation.c22_action_compose",
    "Toppo.Permutation.c22_out_of_range"
   ],
   "note": ""
  },
  {
   "property": "C23",
   "status": "partial",
   "theorems": [
    "Toppo.Permutation.c23_swap_partial",
    "Toppo.Permutation.c23_swap_touching_false",
    "Toppo.Permutation.c23_swap_empty_false"
   ],
   "note": "Proved for non-empty blocks in order or separated by a gap; the code panics for touching reversed blocks and for empty blocks (negations proved)."
  },
  {
   "property": "C24",
   "status": "partial",
   "theorems": [
    "Toppo.ArrayPerm.c24_const_mul",
    "Toppo.ArrayPerm.c24_vec_mul",
    "Toppo.ArrayPerm.c24_inverse_false",
    "Toppo.ArrayPerm.c24_const_order",
    "Toppo.ArrayPerm.c24_vec_order_false"
   ],
   "note": "Products and ConstPermutation::order proved; inverse() returns the zero array and VecPermutation::order never returns (negations proved)."
  },
  {
   "property": "C25",
   "status": "proved",
   "theorems": [
    "Toppo.FSum.c25_add",
    "Toppo.FSum.c25_normal_form_unique"
   ],
   "note": ""
  },
  {
   "property": "C26",
   "status": "partial",
   "theorems": [
    "Toppo.FSum.c26_sum_coefficients_partial",
    "Toppo.FSum.c26_sum_sorted_partial",
    "Toppo.FSum.c26_terms",
    "Toppo.FSum.c26_sum_order_false"
   ],
   "note": "Coefficients right for any list. Order of the result proved for two summands, for summands with one term each, and if of any two summands sharing a basis element one ends with it; for three or more other summands the result can be unsorted (negation proved by witness)."
  },
  {
   "property": "C27",
   "status": "proved",
   "theorems": [
    "Toppo.FSum.c27_smul",
    "Toppo.FSum.c27_neg",
    "Toppo.FSum.c27_sub_self",
    "Toppo.FSum.c27_index"
   ],
   "note": ""
  },
  {
   "property": "C28",
   "status": "partial",
   "theorems": [
    "Toppo.MatrixProps.c28_shape_partial",
    "Toppo.MatrixProps.c28_shape_false",
    "Toppo.MatrixProps.c28_shape_false_reachable"
   ],
   "note": "True for sizes below 65536; for any larger size the reported size is wrong (proved for all such matrices)."
  },
  {
   "property": "C29",
   "status": "proved",
   "theorems": [
    "Toppo.MatrixProps.c29_write",
    "Toppo.MatrixProps.c29_views"
   ],
   "note": ""
  },
  {
   "property": "C30",
   "status": "partial",
   "theorems": [
    "Toppo.MatrixProps.c30_slice_false",
    "Toppo.MatrixProps.c30_slice_partial"
   ],
   "note": "False of the code: the slice formed for the whole of any matrix with >=2 columns exceeds the allocation; exact characterisation for every derived view proved. Element accesses themselves stay inside (C29)."
  },
  {
   "property": "C31",
   "status": "proved",
   "theorems": [
    "Toppo.MatrixProps.c31_add_sub",
    "Toppo.MatrixProps.c31_smul",
    "Toppo.MatrixProps.c31_sdiv",
    "Toppo.MatrixProps.c31_clone",
    "Toppo.MatrixProps.c31_transpose",
    "Toppo.MatrixProps.c31_matrix_transpose",
    "Toppo.MatrixProps.c31_dot",
    "Toppo.MatrixProps.c31_mul",
    "Toppo.MatrixProps.c31_zero",
    "Toppo.MatrixProps.c31_add_sub_assign",
    "Toppo.MatrixProps.c31_scale_assign",
    "Toppo.MatrixProps.c31_eq",
    "Toppo.MatrixProps.c31_is_diagonal",
    "Toppo.MatrixProps.c31_identity"
   ],
   "note": ""
  },
  {
   "property": "C32",
   "status": "proved",
   "theorems": [
    "Toppo.MatrixProps.c32_swap_rows",
    "Toppo.MatrixProps.c32_swap_cols",
    "Toppo.MatrixProps.c32_row_operation",
    "Toppo.MatrixProps.c32_col_operation"
   ],
   "note": ""
  },
  {
   "property": "C33",
   "status": "proved",
   "theorems": [
    "Toppo.Smith.c33_transform"
   ],
   "note": "Unbounded integers; every size n,m >= 1."
  },
  {
   "property": "C34",
   "status": "partial",
   "theorems": [
    "Toppo.Smith.c34_chain_partial",
    "Toppo.Smith.c34_vector_partial",
    "Toppo.Smith.c34_iff",
    "Toppo.Smith.c34_false"
   ],
   "note": "Q_inv is the inverse of Q if and only if the diagonal before the divisibility phase is already a divisor chain (c34_iff, all sizes and ranks); the full claim is false (c34_false): line 1061 updates the wrong row"
  },
  {
   "property": "C35",
   "status": "proved",
   "theorems": [
    "Toppo.Smith.c35_shape",
    "Toppo.Smith.c35_rank"
   ],
   "note": ""
  },
  {
   "property": "C36",
   "status": "proved",
   "theorems": [
    "Toppo.Smith.c36_terminates",
    "Toppo.Smith.c36_empty"
   ],
   "note": "Non-empty matrices, unbounded integers; an empty matrix is rejected by a debug assertion (c36_empty)."
  },
  {
   "property": "C37",
   "status": "partial",
   "theorems": [
    "Toppo.LinAlg.c37_le_rank_partial",
    "Toppo.LinAlg.c37_full_partial",
    "Toppo.LinAlg.c37_vector_partial",
    "Toppo.LinAlg.c37_minors_partial",
    "Toppo.LinAlg.c37_false"
   ],
   "note": "False of the code (the pivot searches start at k+2): c37_false; the value never exceeds the rank, a full-rank answer is right, and the answer is exactly the rank whenever the leading principal minors of sizes 1..rank are non-zero (c37_minors_partial)."
  },
  {
   "property": "C38",
   "status": "partial",
   "theorems": [
    "Toppo.LinAlg.c38_lu",
    "Toppo.LinAlg.c38_lu_iff",
    "Toppo.LinAlg.c38_det",
    "Toppo.LinAlg.c38_det_nonsquare",
    "Toppo.LinAlg.c38_no_pivot_false",
    "Toppo.LinAlg.c38_solve",
    "Toppo.LinAlg.c38_solve_iff"
   ],
   "note": "Exact field arithmetic instead of f64. lu/det/solve are right whenever they return and return exactly when the leading principal minors are non-zero; no pivoting, so they break down on some invertible matrices (c38_no_pivot_false)."
  },
  {
   "property": "C39",
   "status": "partial",
   "theorems": [
    "Toppo.MatrixProps.c39_literal_partial",
    "Toppo.MatrixProps.c39_short_row_panics_partial",
    "Toppo.MatrixProps.c39_ragged_accepted_false"
   ],
   "note": "False of the code: rows longer than the first are silently truncated; rectangular literals and shorter rows proved."
  },
  {
   "property": "C40",
   "status": "partial",
   "theorems": [
    "Toppo.Sparse.c40_from_partial",
    "Toppo.Sparse.c40_empty_false",
    "Toppo.Sparse.c40_transpose",
    "Toppo.Sparse.c40_transpose_twice",
    "Toppo.Sparse.c40_eq_dense"
   ],
   "note": "Proved for matrices with at least one entry; with none, every iterator panics (c40_empty_false)."
  },
  {
   "property": "C41",
   "status": "partial",
   "theorems": [
    "Toppo.Sparse.c41_sparse_sparse",
    "Toppo.Sparse.c41_sparse_dense",
    "Toppo.Sparse.c41_dense_sparse",
    "Toppo.Sparse.c41_size_mismatch",
    "Toppo.Sparse.c41_empty_false"
   ],
   "note": "All three products proved for every sparse matrix with at least one entry, over any commutative ring; a sparse factor without entries panics (c41_empty_false)."
  },
  {
   "property": "C42",
   "status": "proved",
   "theorems": [
    "Toppo.CMat.c42_vector_ops",
    "Toppo.CMat.c42_matrix_ops",
    "Toppo.CMat.c42_dot",
    "Toppo.CMat.c42_identity",
    "Toppo.CMat.c42_from_columns"
   ],
   "note": "Const-size matrices, exact field arithmetic instead of f64."
  },
  {
   "property": "C43",
   "status": "partial",
   "theorems": [
    "Toppo.ModProps.c43_is_isomorphic_to",
    "Toppo.ModProps.c43_new",
    "Toppo.ModProps.c43_is_zero_partial",
    "Toppo.ModProps.c43_unit_false",
    "Toppo.ModProps.c43_trivial"
   ],
   "note": "is_isomorphic_to decides isomorphism for canonical divisors, new keeps the group; is_zero/is_isomorphic_to are wrong for the divisor -1: c43_unit_false."
  },
  {
   "property": "C44",
   "status": "partial",
   "theorems": [
    "Toppo.Hom.c44_homology",
    "Toppo.Hom.c44_unit_false"
   ],
   "note": "Full structure theorem proved: module = cycles/boundaries up to isomorphism, ranks, cycle and boundary generators, termination; the torsion list may contain the unit -1: c44_unit_false. Unbounded integers, non-empty boundary matrices."
  },
  {
   "property": "C45",
   "status": "proved",
   "theorems": [
    "Toppo.Simp.c45_entries",
    "Toppo.Simp.c45_entries_small",
    "Toppo.Simp.c45_boundary_boundary",
    "Toppo.Simp.c45_homology"
   ],
   "note": "Any number of labels. c45_entries: exact entries and signs relative to a ranking of the labels; c45_entries_small: the ranking is the order of the labels for at most 64 labels; c45_homology: end to end with C44. Unbounded integers."
  },
  {
   "property": "C46",
   "status": "partial",
   "theorems": [
    "Toppo.Simp.c46_exact",
    "Toppo.Simp.c46_faithful",
    "Toppo.Simp.c46_complex",
    "Toppo.Simp.c46_cells_partial",
    "Toppo.Simp.c46_false",
    "Toppo.Simp.c46_zero_skeleton_false",
    "Toppo.Simp.c46_no_labels",
    "Toppo.Simp.c46_accepts",
    "Toppo.Simp.c46_path_false"
   ],
   "note": "c46_exact describes for any number of labels exactly which simplices are listed; c46_faithful says when this is the complex generated by the attached simplices, which is proved for at most 64 labels (c46_cells_partial) and false beyond (c46_false, c46_path_false, c46_zero_skeleton_false)."
  },
  {
   "property": "C47",
   "status": "proved",
   "theorems": [
    "Toppo.Simp.c47_n_cells",
    "Toppo.Simp.c47_history"
   ],
   "note": "Any number of labels, with unbounded integers; the machine arithmetic is C101. c47_history: in terms of the attached simplices, for at most 64 labels."
  },
  {
   "property": "C48",
   "status": "proved",
   "theorems": [
    "Toppo.Simp.c48_is_connected",
    "Toppo.Simp.c48_empty",
    "Toppo.Simp.c48_history"
   ],
   "note": "Any number of labels: the chain consists of simplices listed by the complex. c48_history: in terms of the attached simplices, for at most 64 labels (beyond that attach can lose simplices, C46)."
  },
  {
   "property": "C49",
   "status": "proved",
   "theorems": [
    "Toppo.GraphProps.c49_graph_refines_edge_set",
    "Toppo.GraphProps.c49_eq_iff"
   ],
   "note": "Every history of new/add_edge/remove_edge; equality of graphs is equality of vertex count, flag and edge set."
  },
  {
   "property": "C50",
   "status": "partial",
   "theorems": [
    "Toppo.GraphProps.c50_is_connected_partial",
    "Toppo.GraphProps.c50_single_vertex_false"
   ],
   "note": "Proved for two or more vertices; the single-vertex graph is reported as not connected (c50_single_vertex_false)."
  },
  {
   "property": "C51",
   "status": "proved",
   "theorems": [
    "Toppo.GraphProps.c51_swap",
    "Toppo.GraphProps.c51_action",
    "Toppo.GraphProps.c51_action_compose"
   ],
   "note": "Panics exactly outside i<j<n; the action is a left action."
  },
  {
   "property": "C52",
   "status": "proved",
   "theorems": [
    "Toppo.GraphProps.c52_adjacent_vertices",
    "Toppo.GraphProps.c52_degree_simple",
    "Toppo.GraphProps.c52_remove_adjacent"
   ],
   "note": "Neighbours in increasing order, degree agrees with Mathlib's SimpleGraph.degree."
  },
  {
   "property": "C53",
   "status": "partial",
   "theorems": [
    "Toppo.GraphProps.c53_edge_iter_partial",
    "Toppo.GraphProps.c53_phantom_edge_false",
    "Toppo.GraphProps.c53_vertex_iter"
   ],
   "note": "edge_iter yields each edge once if (0,1) is an edge; otherwise it also yields the non-edge (0,1) first (c53_phantom_edge_false)."
  },
  {
   "property": "C54",
   "status": "partial",
   "theorems": [
    "Toppo.EdgePath.c54_base_partial",
    "Toppo.EdgePath.c54_edge_partial",
    "Toppo.EdgePath.c54_permutation",
    "Toppo.EdgePath.c54_branching_false"
   ],
   "note": "Proved for every graph with a chosen depth-first tree: no panic, moves are tree edges to unoccupied vertices, ends blocked; the base configuration {0..k-1} is reached if the tree does not branch before vertex k-1. c54_branching_false: it is not reached in general (star, {0,1,3}). C74 proves the full statement on subdivided graphs."
  },
  {
   "property": "C55",
   "status": "partial",
   "theorems": [
    "Toppo.GraphProps.c55_depth_first",
    "Toppo.GraphProps.c55_choose_maximal_tree_partial",
    "Toppo.GraphProps.c55_branch_order_false",
    "Toppo.GraphProps.c55_cycle_panics_false"
   ],
   "note": "Proved: depth-first step on every connected graph; the whole function up to existence of a suitable root, else it panics (c55_cycle_panics_false). The advertised branch order fails for the last branch (c55_branch_order_false); a weaker order is proved."
  },
  {
   "property": "C56",
   "status": "partial",
   "theorems": [
    "Toppo.MGraphProps.c56_from_partial",
    "Toppo.MGraphProps.c56_without_repeated_loops",
    "Toppo.MGraphProps.c56_repeated_loops_false"
   ],
   "note": "Succeeds iff loops <= different pairs; repeated loops panic or miscount (counterexample), otherwise all counts and multiplicities proved."
  },
  {
   "property": "C57",
   "status": "partial",
   "theorems": [
    "Toppo.SubdivideProps.c57_subdivision",
    "Toppo.SubdivideProps.c57_leaf",
    "Toppo.SubdivideProps.c57_empty_panics",
    "Toppo.SubdivideProps.c57_loop_panics_false",
    "Toppo.SubdivideProps.c57_iff",
    "Toppo.SubdivideProps.c57_cycles_false"
   ],
   "note": "Vertices, positions and adjacency of the result proved for every connected input on which it returns; it returns exactly if some vertex has one edge end, or at least three, no loop, and a connected rest (c57_iff); otherwise it panics, e.g. for cycles (c57_cycles_false; inherited from choose_maximal_tree). For 2 points the inner vertex of an edge has position 1, not 1/2 (see C88)."
  },
  {
   "property": "C58",
   "status": "partial",
   "theorems": [
    "Toppo.CubeProps.c58_boundary_map_partial",
    "Toppo.CubeProps.c58_boundary_map_of_graph_partial",
    "Toppo.CubeProps.c58_homology_panics_false",
    "Toppo.CubeProps.c58_get_boundary_vertices",
    "Toppo.CubeProps.c58_get_boundary_edge_partial",
    "Toppo.CubeProps.c58_get_boundary_false"
   ],
   "note": "Proved: boundary_map of the configuration complex is computed for every connected multigraph, its entries are the signed incidence numbers, consecutive maps fit and compose to zero. False: the bases returned with the matrices are empty, so IntegralHomology of a CubicalCplx always panics (c58_homology_panics_false); Cube::get_boundary of a single cube panics for every cube with at least two edges (c58_get_boundary_false), because faces are compared by a partial order and unwrapped; with no or one edge it is right."
  },
  {
   "property": "C59",
   "status": "partial",
   "theorems": [
    "Toppo.EdgePath.c59_reduce",
    "Toppo.EdgePath.c59_earliest",
    "Toppo.EdgePath.c59_idempotent",
    "Toppo.EdgePath.c59_canonical",
    "Toppo.EdgePath.c59_panics",
    "Toppo.EdgePath.c59_panics_false",
    "Toppo.EdgePath.c59_trivial_partial",
    "Toppo.EdgePath.c59_inverse",
    "Toppo.EdgePath.c59_compose_inverse"
   ],
   "note": "Preservation up to commuting and cancelling, geodesicity, idempotence, canonicity and composition with the inverse (of a reduced path) are proved; two parts of the claim are false of the code and proved false: the reduction panics exactly when a non-empty proper initial part is equivalent to the trivial path (out[0] on an empty vector, cubical.rs:1212), and the result is never the value of trivial_path() but a path with one empty step."
  },
  {
   "property": "C60",
   "status": "partial",
   "theorems": [
    "Toppo.CubeProps.c60_property",
    "Toppo.CubeProps.c60_pairing_partial",
    "Toppo.CubeProps.c60_pairing_zero",
    "Toppo.CubeProps.c60_pairing_false",
    "Toppo.CubeProps.c60_flow_partial",
    "Toppo.CubeProps.c60_flow_zero",
    "Toppo.CubeProps.c60_flow_false",
    "Toppo.CubeProps.c60_get_ends"
   ],
   "note": "Proved on every graph with a depth-first maximal tree: property never panics and gives exactly one class, determined by the first factor that can move or is collapsing (c60_property); the pairing is a bijection between redundant 0-cubes and collapsible 1-cubes, and in every dimension under the stated condition; the flow of every cube ends within (sum of positions) steps and is described exactly; for 0-cubes it is a critical configuration, the base one if the tree does not branch early; get_ends. False in general (c60_pairing_false): on a sufficiently subdivided tree with two essential vertices and three points a redundant cube would be paired with a critical one (property treats every vertex between the ends of a tree edge as disrespecting it, cubical.rs:535, not only those adjacent to the lower end). c60_flow_false: the flow panics there because get_boundary panics on cubes with two edges."
  },
  {
   "property": "C61",
   "status": "proved",
   "theorems": [
    "Toppo.WGraphProps.c61_from",
    "Toppo.WGraphProps.c61_laplacian"
   ],
   "note": "From and laplacian over any commutative ring."
  },
  {
   "property": "C62",
   "status": "proved",
   "theorems": [
    "Toppo.GeomProps.c62_well_formed",
    "Toppo.GeomProps.c62_delaunay_total",
    "Toppo.GeomProps.c62_empty_panics"
   ],
   "note": "Proved for an arbitrary point type, arbitrary in-circle test and arbitrary auxiliary points. The empty list panics (max_by().unwrap())."
  },
  {
   "property": "C63",
   "status": "proved",
   "theorems": [
    "Toppo.Analysis.c63_linear",
    "Toppo.Analysis.c63_compose",
    "Toppo.Analysis.c63_sdiv",
    "Toppo.Analysis.c63_mul",
    "Toppo.Analysis.c63_defined",
    "Toppo.Analysis.c63_case"
   ],
   "note": "f64 as exact reals, i32 as integers; x·x^-1 simplifies to One, so the multiplicative laws are stated where both operands are defined (Defined)."
  },
  {
   "property": "C64",
   "status": "partial",
   "theorems": [
    "Toppo.Analysis.c64_derivative",
    "Toppo.Analysis.c64_row",
    "Toppo.Analysis.c64_jacobian",
    "Toppo.Analysis.c64_eval_sparse",
    "Toppo.Analysis.c64_jacobian_eval_partial",
    "Toppo.Analysis.c64_constant_false",
    "Toppo.Analysis.c64_constant_case",
    "Toppo.Analysis.c64_case"
   ],
   "note": "Derivative proved in full wherever the expression is defined (c64_derivative). The jacobian of a MultiVarFn is correct unless all derivatives are Zero, in which case evaluating it panics (c64_constant_false)."
  },
  {
   "property": "C65",
   "status": "partial",
   "theorems": [
    "Toppo.RealAlg.c65_householder_partial",
    "Toppo.RealAlg.c65_false"
   ],
   "note": "Exact reals. False for negative multiples of the first unit vector (beta has the wrong sign): c65_false."
  },
  {
   "property": "C66",
   "status": "proved",
   "theorems": [
    "Toppo.RealAlg.c66_unnormalized",
    "Toppo.RealAlg.c66_normalized",
    "Toppo.RealAlg.c66_empty"
   ],
   "note": "Exact reals."
  },
  {
   "property": "C67",
   "status": "proved",
   "theorems": [
    "Toppo.RealAlg.c67_givens"
   ],
   "note": "Exact reals."
  },
  {
   "property": "C68",
   "status": "partial",
   "theorems": [
    "Toppo.RealAlg.c68_real_spectrum",
    "Toppo.RealAlg.c68_spectrum_partial",
    "Toppo.RealAlg.c68_triangular",
    "Toppo.RealAlg.c68_false"
   ],
   "note": "Exact reals. Repeated real eigenvalues with non-zero sub-diagonal make the call panic (c68_false); negligible sub-diagonal entries are dropped."
  },
  {
   "property": "C69",
   "status": "proved",
   "theorems": [
    "Toppo.RealAlg.c69_one_norm",
    "Toppo.RealAlg.c69_inf_norm",
    "Toppo.RealAlg.c69_one_norm_bound",
    "Toppo.RealAlg.c69_frobenius"
   ],
   "note": "Exact reals."
  },
  {
   "property": "C70",
   "status": "partial",
   "theorems": [
    "Toppo.FHom.c70_upper_bound_partial",
    "Toppo.FHom.c70_exact_partial",
    "Toppo.FHom.c70_minors_partial",
    "Toppo.FHom.c70_false"
   ],
   "note": "False because rank_as_linear_map is wrong (C37): c70_false. Proved: never panics, never below the Betti number, exact when the ranks are right, in particular when the leading principal minors of every boundary matrix up to its rank are non-zero (c70_minors_partial)."
  },
  {
   "property": "C71",
   "status": "proved",
   "theorems": [
    "Toppo.GeomProps.c71_circumcircle",
    "Toppo.GeomProps.c71_circle_exists",
    "Toppo.GeomProps.c71_corners",
    "Toppo.GeomProps.c71_order"
   ],
   "note": "Exact reals instead of f64."
  },
  {
   "property": "C72",
   "status": "proved",
   "theorems": [
    "Toppo.GeomProps.c72_auxiliary",
    "Toppo.GeomProps.c72_delaunay",
    "Toppo.GeomProps.c72_complete",
    "Toppo.GeomProps.c72_case",
    "Toppo.GeomProps.c72_hull_not_covered"
   ],
   "note": "Exact reals; all non-empty inputs, no general-position assumption. c72_hull_not_covered records that the triangles need not cover the convex hull, because the auxiliary triangle is finite."
  },
  {
   "property": "C73",
   "status": "proved",
   "theorems": [
    "Toppo.EdgePath.c73_evaluate",
    "Toppo.EdgePath.c73_compose",
    "Toppo.EdgePath.c73_inverse",
    "Toppo.EdgePath.c73_panics"
   ],
   "note": "Proved for all walks; particles are the entries of the array, ConstPermutation::from is the identity on the array."
  },
  {
   "property": "C74",
   "status": "proved",
   "theorems": [
    "Toppo.EdgePath.c74_path_to_base",
    "Toppo.EdgePath.c74_edge_loop"
   ],
   "note": "Edge-path code of graph.rs modelled in full; subdivided graphs from C57; n+1 < 2^63."
  },
  {
   "property": "C75",
   "status": "proved",
   "theorems": [
    "Toppo.CubeProps.c75_cells_of_graph",
    "Toppo.CubeProps.c75_udc",
    "Toppo.CubeProps.c75_zero_points_panics"
   ],
   "note": "Proved for the model of udc: the arena of branches is an enumeration (in depth-first order) of all sorted lists of n pairwise disjoint factors; lookup by following child indices is inverse to reading off a branch. c75_cells_of_graph is the same for any graph with the edge 0-1. Vec::sort and sort_by are modelled as std's insertion sort."
  },
  {
   "property": "C76",
   "status": "partial",
   "theorems": [
    "Toppo.CubeProps.c76_cells_of_graph_partial",
    "Toppo.CubeProps.c76_cells_partial",
    "Toppo.CubeProps.c76_boundary_map_false",
    "Toppo.CubeProps.c76_boundary_map_partial",
    "Toppo.CubeProps.c76_homology_partial",
    "Toppo.CubeProps.c76_extra_false",
    "Toppo.CubeProps.c76_missing_false",
    "Toppo.CubeProps.c76_upper_zero_false",
    "Toppo.CubeProps.c76_one_point_false"
   ],
   "note": "Proved for every connected multigraph, n >= 1 and bound: construction does not panic, lists distinct cells of the configuration complex, lookup/ranks/dimension/get_cells_of_dim agree, the base configuration is the only 0-cell (and critical), bounds >= 1 are respected; with bound 1 (or no listed cell with two edges) boundary_map gives zero maps with full bases and integral homology is Z in dimension 0 and free on the listed 1-cells in dimension 1. False: listed cells need not be critical (c76_extra_false), critical cells can be missing (c76_missing_false), a bound of 0 is ignored for the first factor, with one point collapsible edges are listed, and boundary_map panics as soon as a cell with two edges is listed (c76_boundary_map_false)."
  },
  {
   "property": "C77",
   "status": "partial",
   "theorems": [
    "Toppo.CubeProps.c77_listed_partial",
    "Toppo.CubeProps.c77_low_partial",
    "Toppo.CubeProps.c77_homology_partial",
    "Toppo.CubeProps.c77_missing_false"
   ],
   "note": "Proved for every tree, n >= 2 and every bound except 0: every listed cell is critical and within the bound, and a critical cell within the bound is listed iff it is not Missed (an explicit condition on the cell); hence exact in dimensions 0, 1, 2 and for bounds 1 and 2; homology in dimension 1. The full property is false in dimension 3 (c77_missing_false: four points on a tree with three forks)."
  },
  {
   "property": "C78",
   "status": "proved",
   "theorems": [
    "Toppo.CubeProps.c78_components",
    "Toppo.CubeProps.c78_tree",
    "Toppo.CubeProps.c78_morse_homology"
   ],
   "note": "Proved for trees of any shape and any number of points >= 2 (c78_tree, c78_morse_homology) and, in degree 0, for all connected multigraphs (c78_components). The statement is about the boundary matrices of the configuration complex; the homology routine itself panics on them (c58_homology_panics_false), it works on those of the Morse complex. Degrees above 1 are not claimed: the Morse boundary_map panics there (c76_boundary_map_false)."
  },
  {
   "property": "C79",
   "status": "partial",
   "theorems": [
    "Toppo.RealAlg.c79_shape",
    "Toppo.RealAlg.c79_similar_partial",
    "Toppo.RealAlg.c79_false",
    "Toppo.RealAlg.c79_nonsquare"
   ],
   "note": "shape for all square matrices; orthogonal similarity proved when no sub-diagonal entry of the result (except the last) is negative. Otherwise false: householder_vec is wrong on negative multiples of the first unit vector (C65) and the determinant is multiplied by 9 for each such column (c79_false)."
  },
  {
   "property": "C80",
   "status": "partial",
   "theorems": [
    "Toppo.RealAlg.c80_francis_partial",
    "Toppo.RealAlg.c80_false",
    "Toppo.RealAlg.c80_op_false",
    "Toppo.RealAlg.c80_small_panics"
   ],
   "note": "no panic and Hessenberg shape for all unreduced Hessenberg matrices with at least 3 rows; orthogonal similarity proved unless the entry (n-2,n-3) of the result is negative, when the determinant has been multiplied by 9 (c80_false). francis_step_with_op always returns the identity (c80_op_false)."
  },
  {
   "property": "C81",
   "status": "partial",
   "theorems": [
    "Toppo.RealAlg.c81_no_panic",
    "Toppo.RealAlg.c81_shape",
    "Toppo.RealAlg.c81_spectrum_partial",
    "Toppo.RealAlg.c81_nonsquare",
    "Toppo.RealAlg.c81_two",
    "Toppo.RealAlg.c81_op_false",
    "Toppo.RealAlg.c81_stall_false"
   ],
   "note": "no panic and quasi-triangular shape for all square matrices and any number of rounds; the eigenvalues are right and sorted for runs in which nothing is rounded to zero and no wrong reflection occurs, and there is no panic if they are real and different. qr need not end (c81_stall_false); qr_with_op returns the identity (c81_op_false)."
  },
  {
   "property": "C82",
   "status": "proved",
   "theorems": [
    "Toppo.RealAlg.c82_random",
    "Toppo.RealAlg.c82_random_zero",
    "Toppo.RealAlg.c82_extract",
    "Toppo.RealAlg.c82_extract_orthogonal",
    "Toppo.RealAlg.c82_extract_zero"
   ],
   "note": "random numbers are arguments of the model; exact reals."
  },
  {
   "property": "C83",
   "status": "partial",
   "theorems": [
    "Toppo.RealAlg.c83_shape",
    "Toppo.RealAlg.c83_similar_partial",
    "Toppo.RealAlg.c83_op_partial",
    "Toppo.RealAlg.c83_small_panics",
    "Toppo.RealAlg.c83_false",
    "Toppo.RealAlg.c83_op_false"
   ],
   "note": "shape and symmetry for all symmetric matrices; similarity if no column reflected is a negative multiple of the first unit vector, the stored transformation if none is a multiple of it; both hypotheses are necessary (c83_false, c83_op_false)."
  },
  {
   "property": "C84",
   "status": "proved",
   "theorems": [
    "Toppo.RealAlg.c84_step",
    "Toppo.RealAlg.c84_qr",
    "Toppo.RealAlg.c84_shift",
    "Toppo.RealAlg.c84_halves",
    "Toppo.RealAlg.c84_small_panics"
   ],
   "note": "exact reals; when the last off-diagonal entry is zero and the last two diagonal entries are equal the code divides zero by zero, which the theorems exclude (ShiftDefined). wshift is defined as a00 minus the start value x of the loop and characterised by c84_shift and c84_qr."
  },
  {
   "property": "C85",
   "status": "partial",
   "theorems": [
    "Toppo.RealAlg.c85_shape",
    "Toppo.RealAlg.c85_ends_partial",
    "Toppo.RealAlg.c85_spectrum_partial",
    "Toppo.RealAlg.c85_small_false",
    "Toppo.RealAlg.c85_nonsquare",
    "Toppo.RealAlg.c85_stall_false",
    "Toppo.RealAlg.c85_tie_false",
    "Toppo.RealAlg.c85_op_false"
   ],
   "note": "exact reals. Termination and accuracy hold only for runs without cut-off rotations / ties; c85_stall_false, c85_tie_false, c85_small_false and c85_op_false prove the unrestricted claims false."
  },
  {
   "property": "C86",
   "status": "proved",
   "theorems": [
    "Toppo.RealAlg.c86_lattice",
    "Toppo.RealAlg.c86_reduced",
    "Toppo.RealAlg.c86_ends",
    "Toppo.RealAlg.c86_panics",
    "Toppo.RealAlg.c86_short"
   ],
   "note": "exact reals; linearly dependent columns are excluded (the code divides 0 by 0)"
  },
  {
   "property": "C87",
   "status": "partial",
   "theorems": [
    "Toppo.RealAlg.c87_panics",
    "Toppo.RealAlg.c87_columns",
    "Toppo.RealAlg.c87_nth",
    "Toppo.RealAlg.c87_nth_panics",
    "Toppo.RealAlg.c87_general",
    "Toppo.RealAlg.c87_residual",
    "Toppo.RealAlg.c87_accurate_partial",
    "Toppo.RealAlg.c87_exact_false",
    "Toppo.RealAlg.c87_rows_false",
    "Toppo.RealAlg.c87_two_false"
   ],
   "note": "exact reals. A vector (unit, small residual) next to every value is what a user relies on; it is false for exact values and for equal row sums (c87_exact_false, c87_two_false, c87_rows_false); c87_accurate_partial inherits the hypotheses of C85."
  },
  {
   "property": "C88",
   "status": "partial",
   "theorems": [
    "Toppo.EmbeddingProps.c88_panics",
    "Toppo.EmbeddingProps.c88_equally_spaced_partial",
    "Toppo.EmbeddingProps.c88_distinct_partial",
    "Toppo.EmbeddingProps.c88_two_points_false",
    "Toppo.EmbeddingProps.c88_loop_false",
    "Toppo.EmbeddingProps.c88_parallel_false"
   ],
   "note": "proved for at least three marked points; false for two (c88_two_points_false); loops and parallel edges collapse (c88_loop_false, c88_parallel_false)."
  },
  {
   "property": "C89",
   "status": "proved",
   "theorems": [
    "Toppo.EmbeddingProps.c89_degree",
    "Toppo.EmbeddingProps.c89_panics",
    "Toppo.EmbeddingProps.c89_sum"
   ],
   "note": ""
  },
  {
   "property": "C90",
   "status": "partial",
   "theorems": [
    "Toppo.Text.c90_reads",
    "Toppo.Text.c90_text_eq_partial",
    "Toppo.Text.c90_lowest_partial",
    "Toppo.Text.c90_false"
   ],
   "note": "reading proved for all; uniqueness of the text and lowest terms for histories that negate no zero; -0 in c90_false."
  },
  {
   "property": "C91",
   "status": "proved",
   "theorems": [
    "Toppo.Text.c91_reads",
    "Toppo.Text.c91_text_eq",
    "Toppo.Text.c91_identity"
   ],
   "note": ""
  },
  {
   "property": "C92",
   "status": "partial",
   "theorems": [
    "Toppo.Text.c92_reads",
    "Toppo.Text.c92_text_eq_partial",
    "Toppo.Text.c92_homology_reads",
    "Toppo.Text.c92_homology",
    "Toppo.Text.c92_false"
   ],
   "note": "reading proved for all modules and all homology; same text for isomorphic groups proved for positive divisors, false for negative ones (c92_false)."
  },
  {
   "property": "C93",
   "status": "partial",
   "theorems": [
    "Toppo.Text.c93_display",
    "Toppo.Text.c93_text_eq",
    "Toppo.Text.c93_debug",
    "Toppo.Text.c93_debug_columns_partial",
    "Toppo.Text.c93_debug_columns_false"
   ],
   "note": "Display proved; Debug marks proved for all graphs, the common column for the first hundred lines, false afterwards."
  },
  {
   "property": "C94",
   "status": "proved",
   "theorems": [
    "Toppo.Text.c94_pool",
    "Toppo.Text.c94_pool_eq",
    "Toppo.Text.c94_labeled_set"
   ],
   "note": "labels of a set must have texts without blank, comma and closing brace."
  },
  {
   "property": "C95",
   "status": "proved",
   "theorems": [
    "Toppo.Text.c95_cube",
    "Toppo.Text.c95_cube_inj",
    "Toppo.Text.c95_complex_of_graph",
    "Toppo.Text.c95_udc",
    "Toppo.Text.c95_morse",
    "Toppo.Text.c95_complex_eq"
   ],
   "note": "the Morse text is proved to list the cells of the computed complex; whether these are the critical cells is C76."
  },
  {
   "property": "C96",
   "status": "proved",
   "theorems": [
    "Toppo.Text.c96_vertex",
    "Toppo.Text.c96_text",
    "Toppo.Text.c96_subdivided",
    "Toppo.Text.c96_other_labels"
   ],
   "note": ""
  },
  {
   "property": "C97",
   "status": "partial",
   "theorems": [
    "Toppo.Text.c97_matrix",
    "Toppo.Text.c97_matrix_eq",
    "Toppo.Text.c97_no_rows",
    "Toppo.Text.c97_sparse",
    "Toppo.Text.c97_sparse_empty_false"
   ],
   "note": "dense matrices proved; sparse matrices proved if there is an entry, printing one without entries panics (c97_sparse_empty_false)."
  },
  {
   "property": "C98",
   "status": "proved",
   "theorems": [
    "Toppo.Text.c98_reads",
    "Toppo.Text.c98_text_eq",
    "Toppo.Text.c98_coefficients",
    "Toppo.Text.c98_cubes",
    "Toppo.Text.c98_other_texts"
   ],
   "note": ""
  },
  {
   "property": "C99",
   "status": "proved",
   "theorems": [
    "Toppo.Text.c99_cycles_read",
    "Toppo.Text.c99_boundaries_read",
    "Toppo.Text.c99_generate"
   ],
   "note": ""
  },
  {
   "property": "C100",
   "status": "proved",
   "theorems": [
    "Toppo.Smith.c100_smith",
    "Toppo.Smith.c100_wider",
    "Toppo.Smith.c100_overflow_limit",
    "Toppo.Hom.c100_homology"
   ],
   "note": "Overflow panics can occur although the result is representable: c100_overflow_limit."
  },
  {
   "property": "C101",
   "status": "proved",
   "theorems": [
    "Toppo.Simp.c101_never_wrong",
    "Toppo.Simp.c101_total",
    "Toppo.Simp.c101_panics",
    "Toppo.Simp.c101_simplex",
    "Toppo.Simp.c101_overflow_witness"
   ],
   "note": "The overflow panics are characterised (c101_panics, c101_simplex)."
  },
  {
   "property": "C102",
   "status": "proved",
   "theorems": [
    "Toppo.SmithF.c102_snf",
    "Toppo.SmithF.c102_empty",
    "Toppo.SmithF.c102_euclid",
    "Toppo.SmithF.c102_bezout"
   ],
   "note": "f64, the other field type of the macro, is not exact and not covered. is_prime over a field: c11_field_false."
  },
  {
   "property": "C103",
   "status": "proved",
   "theorems": [
    "Toppo.SmithF.c103_snf",
    "Toppo.SmithF.c103_snf_total",
    "Toppo.SmithF.c103_rank",
    "Toppo.SmithF.c103_rank_bound",
    "Toppo.SmithF.c103_homology"
   ],
   "note": "Entries must be canonical; a negated zero is not (C12)."
  },
  {
   "property": "C104",
   "status": "proved",
   "theorems": [
    "Toppo.FloatProps.c104_ieee_unique",
    "Toppo.FloatProps.c104_ieee",
    "Toppo.FloatProps.c104_ieee_sqrt",
    "Toppo.FloatProps.c104_ieee_special",
    "Toppo.FloatProps.c104_ieee_compare",
    "Toppo.FloatProps.c104_mul",
    "Toppo.FloatProps.c104_mul_finite",
    "Toppo.FloatProps.c104_mul_integers",
    "Toppo.FloatProps.c104_add_sub",
    "Toppo.FloatProps.c104_representable",
    "Toppo.FloatProps.c104_nearest"
   ],
   "note": "Sums start at 0.0. u, eta: c104's u_value, eta_value."
  },
  {
   "property": "C105",
   "status": "proved",
   "theorems": [
    "Toppo.FloatProps.c105_lu",
    "Toppo.FloatProps.c105_lu_limits"
   ],
   "note": "c105_lu_limits shows that the bound cannot be replaced by one in terms of A."
  },
  {
   "property": "C106",
   "status": "proved",
   "theorems": [
    "Toppo.FloatProps.c106_solve",
    "Toppo.FloatProps.c106_solve_limits"
   ],
   "note": "c106_solve_limits: wrong finite answers outside of the hypotheses or with large factors."
  },
  {
   "property": "C107",
   "status": "proved",
   "theorems": [
    "Toppo.FloatProps.c107_det",
    "Toppo.FloatProps.c107_det_limits"
   ],
   "note": "c107_det_limits: what the bound does not exclude."
  },
  {
   "property": "C108",
   "status": "proved",
   "theorems": [
    "Toppo.FloatProps.c108_one_norm",
    "Toppo.FloatProps.c108_inf_norm",
    "Toppo.FloatProps.c108_two_norm",
    "Toppo.FloatProps.c108_frobenius_norm",
    "Toppo.FloatProps.c108_frobenius_finite",
    "Toppo.FloatProps.c108_norm_limits"
   ],
   "note": "c108_norm_limits: NaN, overflow, underflow."
  },
  {
   "property": "C109",
   "status": "proved",
   "theorems": [
    "Toppo.FloatProps.c109_givens",
    "Toppo.FloatProps.c109_givens_limits"
   ],
   "note": "c109_givens_limits: below the threshold."
  },
  {
   "property": "C110",
   "status": "proved",
   "theorems": [
    "Toppo.FloatProps.c110_householder",
    "Toppo.FloatProps.c110_householder_limits"
   ],
   "note": "c110_householder_limits: what fails outside of the hypotheses, and the wrong sign of beta."
  },
  {
   "property": "C111",
   "status": "partial",
   "theorems": [
    "Toppo.FloatGeom.c111_first_corner",
    "Toppo.FloatGeom.c111_repeated_corner",
    "Toppo.FloatGeom.c111_collinear",
    "Toppo.FloatGeom.c111_corner_inside",
    "Toppo.FloatGeom.c111_collinear_false",
    "Toppo.FloatGeom.c111_overflow_false",
    "Toppo.FloatGeom.c111_margin",
    "Toppo.FloatGeom.c111_exact"
   ],
   "note": "c111_corner_inside, c111_collinear_false, c111_overflow_false: what fails without the margin."
  },
  {
   "property": "C112",
   "status": "partial",
   "theorems": [
    "Toppo.FloatGeom.c112_panics",
    "Toppo.FloatGeom.c112_well_formed",
    "Toppo.FloatGeom.c112_overlap_false",
    "Toppo.FloatGeom.c112_delaunay"
   ],
   "note": "c112_overlap_false: without the margin the answer can overlap; the Delaunay property is proved under the margin (c112_delaunay)."
  },
  {
   "property": "C113",
   "status": "partial",
   "theorems": [
    "Toppo.Analysis.c113_unnested",
    "Toppo.Analysis.c113_order",
    "Toppo.Analysis.c113_kinds",
    "Toppo.Analysis.c113_same",
    "Toppo.Analysis.c113_plain_partial",
    "Toppo.Analysis.c113_power_false",
    "Toppo.Analysis.c113_derivative_false",
    "Toppo.Analysis.c113_sum_false"
   ],
   "note": "c113_power_false, c113_derivative_false, c113_sum_false: the documented structure fails in general; c113_plain_partial proves it for expressions built without these."
  },
  {
   "property": "C114",
   "status": "proved",
   "theorems": [
    "Toppo.Analysis.c114_text",
    "Toppo.Analysis.c114_built",
    "Toppo.Analysis.c114_lines"
   ],
   "note": ""
  },
  {
   "property": "C115",
   "status": "proved",
   "theorems": [
    "Toppo.Simp.c115_homology",
    "Toppo.Simp.c115_generated",
    "Toppo.Simp.c115_invariant",
    "Toppo.Simp.c115_same_faces"
   ],
   "note": ""
  },
  {
   "property": "C116",
   "status": "proved",
   "theorems": [
    "Toppo.Hom.c116_chain",
    "Toppo.Simp.c116_euler",
    "Toppo.Simp.c116_history"
   ],
   "note": ""
  },
  {
   "property": "C117",
   "status": "proved",
   "theorems": [
    "Toppo.Simp.c117_components",
    "Toppo.Simp.c117_connected"
   ],
   "note": ""
  },
  {
   "property": "C118",
   "status": "proved",
   "theorems": [
    "Toppo.Simp.c118_cone",
    "Toppo.Simp.c118_common_label",
    "Toppo.Simp.c118_sphere",
    "Toppo.Simp.c118_facets"
   ],
   "note": ""
  },
  {
   "property": "C119",
   "status": "proved",
   "theorems": [
    "Toppo.FloatProps.c119_vector_ops",
    "Toppo.FloatProps.c119_matrix_ops",
    "Toppo.FloatProps.c119_dot",
    "Toppo.FloatProps.c119_dot_finite"
   ],
   "note": ""
  },
  {
   "property": "C120",
   "status": "proved",
   "theorems": [
    "Toppo.Simp.c120_union",
    "Toppo.Simp.c120_append"
   ],
   "note": ""
  },
  {
   "property": "C121",
   "status": "proved",
   "theorems": [
    "Toppo.Simp.c121_collapse",
    "Toppo.Simp.c121_collapsible",
    "Toppo.Simp.c121_free_face"
   ],
   "note": ""
  },
  {
   "property": "C122",
   "status": "proved",
   "theorems": [
    "Toppo.FloatProps.c122_sparse_sparse",
    "Toppo.FloatProps.c122_sparse_dense",
    "Toppo.FloatProps.c122_dense_sparse",
    "Toppo.FloatProps.c122_agrees"
   ],
   "note": ""
  },
  {
   "property": "C123",
   "status": "proved",
   "theorems": [
    "Toppo.CheckedProps.c123_add",
    "Toppo.CheckedProps.c123_sub",
    "Toppo.CheckedProps.c123_smul",
    "Toppo.CheckedProps.c123_mul",
    "Toppo.CheckedProps.c123_mul_bound",
    "Toppo.CheckedProps.c123_sparse_sparse",
    "Toppo.CheckedProps.c123_sparse_dense",
    "Toppo.CheckedProps.c123_dense_sparse",
    "Toppo.CheckedProps.c123_const_vector",
    "Toppo.CheckedProps.c123_const_matrix",
    "Toppo.CheckedProps.c123_const_dot",
    "Toppo.CheckedProps.c123_order"
   ],
   "note": "exact characterisation of the panics; overflow checks of the debug profile are assumed"
  },
  {
   "property": "C124",
   "status": "proved",
   "theorems": [
    "Toppo.CheckedProps.c124_add_sub",
    "Toppo.CheckedProps.c124_scale",
    "Toppo.CheckedProps.c124_mul",
    "Toppo.CheckedProps.c124_sparse_sparse",
    "Toppo.CheckedProps.c124_sparse_dense",
    "Toppo.CheckedProps.c124_dense_sparse",
    "Toppo.CheckedProps.c124_const_vector",
    "Toppo.CheckedProps.c124_const_matrix",
    "Toppo.CheckedProps.c124_neg",
    "Toppo.CheckedProps.c124_integers"
   ],
   "note": "values are exact whenever returned; canonical entries assumed (C12 shows when operators produce them)"
  },
  {
   "property": "C125",
   "status": "proved",
   "theorems": [
    "Toppo.FSum.c125_sum",
    "Toppo.FSum.c125_add",
    "Toppo.FSum.c125_scale",
    "Toppo.FSum.c125_sub",
    "Toppo.FSum.c125_sub_min",
    "Toppo.FSum.c125_sum_bound",
    "Toppo.FSum.c125_order"
   ],
   "note": "all panics are those of overflow checks (debug builds)"
  },
  {
   "property": "C126",
   "status": "proved",
   "theorems": [
    "Toppo.FSum.c126_eq",
    "Toppo.FSum.c126_exists",
    "Toppo.FSum.c126_len",
    "Toppo.FSum.c126_single",
    "Toppo.FSum.c126_add",
    "Toppo.FSum.c126_neg",
    "Toppo.FSum.c126_sub",
    "Toppo.FSum.c126_smul",
    "Toppo.FSum.c126_basis",
    "Toppo.FSum.c126_remove",
    "Toppo.FSum.c126_from",
    "Toppo.FSum.c126_div",
    "Toppo.FSum.c126_history",
    "Toppo.FSum.c126_from_repeated"
   ],
   "note": "all operators of the type"
  },
  {
   "property": "C127",
   "status": "proved",
   "theorems": [
    "Toppo.FSumF.c127_sum",
    "Toppo.FSumF.c127_add",
    "Toppo.FSumF.c127_comm",
    "Toppo.FSumF.c127_add_value",
    "Toppo.FSumF.c127_neg",
    "Toppo.FSumF.c127_sub",
    "Toppo.FSumF.c127_scale",
    "Toppo.FSumF.c127_underflow",
    "Toppo.FSumF.c127_assoc_false"
   ],
   "note": "NaN and infinities included where stated; c127_underflow and c127_assoc_false record what is not claimed"
  },
  {
   "property": "C128",
   "status": "proved",
   "theorems": [
    "Toppo.Simp.c128_one_point",
    "Toppo.Simp.c128_append"
   ],
   "note": "c128_append: at most 64 labels, concatenated histories"
  },
  {
   "property": "C129",
   "status": "proved",
   "theorems": [
    "Toppo.Simp.c129_suspension",
    "Toppo.Simp.c129_history"
   ],
   "note": "c129_history: at most 64 labels, histories built from one history"
  },
  {
   "property": "C130",
   "status": "proved",
   "theorems": [
    "Toppo.Simp.c130_top",
    "Toppo.Simp.c130_graph"
   ],
   "note": "the number of components is C117"
  },
  {
   "property": "C131",
   "status": "proved",
   "theorems": [
    "Toppo.Simp.c131_attach",
    "Toppo.Simp.c131_history"
   ],
   "note": "c131_history: at most 64 labels, one more attach"
  },
  {
   "property": "C132",
   "status": "partial",
   "theorems": [
    "Toppo.c132_cycle_head",
    "Toppo.c132_cycle",
    "Toppo.c132_cycle_exact_false",
    "Toppo.RawGraph.Factor.c132_factor",
    "Toppo.RawGraph.Factor.c132_factor_trans_false",
    "Toppo.RawGraph.Factor.c132_factor_cmp",
    "Toppo.RawGraph.Factor.c132_factor_agree_false",
    "Toppo.RawGraph.Factor.c132_factor_agree_partial",
    "Toppo.Cub.c132_cube_cmp",
    "Toppo.Cub.c132_cube",
    "Toppo.Cub.c132_cube_trans_false"
   ],
   "note": "contracts that fail are proved to fail; agreement of cmp and partial_cmp on factors of the same kind in c132_factor_agree_partial"
  },
  {
   "property": "C133",
   "status": "partial",
   "theorems": [
    "Toppo.c133_matrix",
    "Toppo.c133_view_matrix_false"
   ],
   "note": "view == view is c31_eq; view == matrix never returns (proved)"
  },
  {
   "property": "C134",
   "status": "proved",
   "theorems": [
    "Toppo.Univ.c134_universal",
    "Toppo.Univ.c134_char_zero",
    "Toppo.Univ.c134_field_code",
    "Toppo.Simp.c134_simplicial"
   ],
   "note": "the field code is only bounded from below, because its rank function can be too small (C37, C70)"
  },
  {
   "property": "C135",
   "status": "proved",
   "theorems": [
    "Toppo.CubeProps.c135_ranks",
    "Toppo.CubeProps.c135_low",
    "Toppo.CubeProps.c135_dim"
   ],
   "note": ""
  },
  {
   "property": "C136",
   "status": "proved",
   "theorems": [
    "Toppo.Smith.c136_minors",
    "Toppo.Smith.c136_gcd",
    "Toppo.Smith.c136_det",
    "Toppo.Smith.c136_invariant",
    "Toppo.Smith.c136_transpose",
    "Toppo.Smith.c136_complete"
   ],
   "note": ""
  },
  {
   "property": "C137",
   "status": "proved",
   "theorems": [
    "Toppo.Lap.c137_combinatorial",
    "Toppo.Lap.c137_simplicial"
   ],
   "note": "exact real arithmetic; `spectrum` itself is not part of the claim (C79-C85)"
  },
  {
   "property": "C138",
   "status": "proved",
   "theorems": [
    "Toppo.Lap.c138_weighted"
   ],
   "note": "exact real arithmetic; any positive diagonal weights instead of those of the example"
  },
  {
   "property": "C139",
   "status": "proved",
   "theorems": [
    "Toppo.Lap.c139_graph",
    "Toppo.Lap.c139_joined"
   ],
   "note": "exact real arithmetic"
  },
  {
   "property": "C140",
   "status": "proved",
   "theorems": [
    "Toppo.Simp.c140_expansion",
    "Toppo.Simp.c140_stellar",
    "Toppo.Simp.c140_iterated"
   ],
   "note": "by C46 more than 64 labels break the list of faces; for such histories the claim is about the listed simplices"
  },
  {
   "property": "C141",
   "status": "proved",
   "theorems": [
    "Toppo.Simp.c141_dominated",
    "Toppo.Simp.c141_history"
   ],
   "note": "for histories with more than 64 labels the claim is about the listed simplices"
  },
  {
   "property": "C142",
   "status": "proved",
   "theorems": [
    "Toppo.Simp.c142_contraction",
    "Toppo.Simp.c142_history"
   ],
   "note": "for histories with more than 64 labels the claim is about the listed simplices"
  },
  {
   "property": "C143",
   "status": "proved",
   "theorems": [
    "Toppo.Simp.c143_barycentric",
    "Toppo.Simp.c143_history"
   ],
   "note": "for histories with more than 64 labels the claim is about the listed simplices (C46)"
  },
  {
   "property": "C144",
   "status": "proved",
   "theorems": [
    "Toppo.Simp.c144_glue",
    "Toppo.Simp.c144_unchanged",
    "Toppo.Simp.c144_append",
    "Toppo.Simp.c144_simplex"
   ],
   "note": "for histories with more than 64 labels the claim is about the listed simplices (C46)"
  },
  {
   "property": "C145",
   "status": "proved",
   "theorems": [
    "Toppo.Simp.c145_union",
    "Toppo.Simp.c145_inequalities",
    "Toppo.Simp.c145_append"
   ],
   "note": "for histories with more than 64 labels the claim is about the listed simplices (C46)"
  },
  {
   "property": "C146",
   "status": "proved",
   "theorems": [
    "Toppo.FHom.c146_chain",
    "Toppo.Simp.c146_simplicial",
    "Toppo.CubeProps.c146_configurations"
   ],
   "note": "exact field arithmetic, as in C70"
  },
  {
   "property": "C147",
   "status": "proved",
   "theorems": [
    "Toppo.Lap.c147_matrices",
    "Toppo.Lap.c147_convert",
    "Toppo.Lap.c147_simplicial"
   ],
   "note": "the sizes of the matrices are below 65536, which the code demands of every matrix view"
  },
  {
   "property": "C148",
   "status": "proved",
   "theorems": [
    "Toppo.Simp.c148_orientable",
    "Toppo.Simp.c148_nonorientable",
    "Toppo.Simp.c148_decides",
    "Toppo.Simp.c148_circle",
    "Toppo.Simp.c148_surface",
    "Toppo.Simp.c148_sphere",
    "Toppo.Simp.c148_projective_plane"
   ],
   "note": "for surfaces in terms of the attached simplices with at most 64 labels; the general theorems are in terms of the listed simplices, which differ from the attached ones only beyond 64 labels (C46)"
  },
  {
   "property": "C149",
   "status": "proved",
   "theorems": [
    "Toppo.Simp.c149_bounded",
    "Toppo.Simp.c149_surface",
    "Toppo.Simp.c149_strip"
   ],
   "note": "surfaces in terms of the attached simplices with at most 64 labels; the general theorem in terms of the listed simplices (C46)"
  },
  {
   "property": "C150",
   "status": "proved",
   "theorems": [
    "Toppo.Simp.c150_closed",
    "Toppo.Simp.c150_bounded",
    "Toppo.Simp.c150_projective_plane"
   ],
   "note": "about the boundary matrices the program lists; that homology() over K computes their Betti numbers only if its ranks are right is C70"
  },
  {
   "property": "C151",
   "status": "proved",
   "theorems": [
    "Toppo.Simp.c151_closed",
    "Toppo.Simp.c151_bounded"
   ],
   "note": "counts on unbounded integers; when they fit the machine integers is C101"
  },
  {
   "property": "C152",
   "status": "proved",
   "theorems": [
    "Toppo.Simp.c152_depends",
    "Toppo.Simp.c152_quotient",
    "Toppo.Simp.c152_skeleton",
    "Toppo.Simp.c152_k5"
   ],
   "note": "the skeleta are stated for at most 64 labels because of the bit masks in the code"
  },
  {
   "property": "C153",
   "status": "proved",
   "theorems": [
    "Toppo.Simp.c153_sequence",
    "Toppo.Simp.c153_shift",
    "Toppo.Simp.c153_link"
   ],
   "note": "without a bound on the dimension; the links for at most 64 labels and any bound"
  },
  {
   "property": "C154",
   "status": "proved",
   "theorems": [
    "Toppo.Simp.c154_morse",
    "Toppo.Simp.c154_gap",
    "Toppo.Simp.c154_certificate",
    "Toppo.Simp.c154_sphere"
   ],
   "note": "the perfect case is stated without a dimension bound, certificates for at most 64 labels"
  },
  {
   "property": "C155",
   "status": "proved",
   "theorems": [
    "Toppo.CubeProps.c155_edges",
    "Toppo.CubeProps.c155_cells",
    "Toppo.CubeProps.c155_one_point",
    "Toppo.CubeProps.c155_field",
    "Toppo.CubeProps.c155_morse"
   ],
   "note": "the number of points is bounded by 2^63 - 2 as in C57; the integral `IntegralHomology` itself panics on this complex (C58), so the homology of the boundary maps is stated"
  },
  {
   "property": "C156",
   "status": "proved",
   "theorems": [
    "Toppo.CubeProps.c156_cells",
    "Toppo.CubeProps.c156_euler",
    "Toppo.CubeProps.c156_field"
   ],
   "note": "the homology itself for two points is not computed, only the numbers of cells and the alternating sum"
  },
  {
   "property": "C157",
   "status": "proved",
   "theorems": [
    "Toppo.CubeProps.c157_first",
    "Toppo.CubeProps.c157_one_point"
   ],
   "note": "C37 shows that the rank function is wrong for some matrices; whether it is ever wrong for the matrices of dimension 1 of configuration complexes is left open, the theorem says what follows in either case"
  },
  {
   "property": "C158",
   "status": "proved",
   "theorems": [
    "Toppo.CubeProps.c158_tree"
   ],
   "note": ""
  }
 ]
}