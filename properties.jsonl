{"id": "C01", "title": "BinaryPool behaves as a finite set under every history", "statement": "After any sequence of constructions, add, remove, fill, resize, union and intersection calls that did not panic, contains(x) answers exactly whether x is in the mathematical set obtained by performing the same operations on sets of integers below the pool's length; the element count used by is_full is the cardinality of that set.", "quantifier": "every capacity, every finite history of operations and every query index", "why_tests_cant": "the set is packed in 64-bit words with a cached count; words, boundaries and histories are unbounded", "anchors": ["util/src/lib.rs:BinaryPool::{new,add,remove,fill,resize,union,intersection,contains,is_full}"]}
{"id": "C02", "title": "BinaryPool iteration is exact and ordered", "statement": "iter() on a pool yields every member exactly once, in strictly increasing order, and nothing else.", "quantifier": "every reachable pool", "why_tests_cant": "infinitely many pools; word boundary positions are unbounded", "anchors": ["util/src/lib.rs:BinaryPool::iter", "util/src/lib.rs:BinaryPoolIter"]}
{"id": "C03", "title": "BinaryPool subset, equality, union and intersection are the set-theoretic ones", "statement": "a.is_subset_of(&b), a==b, a.union(&b), a.intersection(&b) on pools of equal length agree with subset, equality, union and intersection of the represented sets; with different lengths the binary operations panic and never return.", "quantifier": "every pair of reachable pools", "why_tests_cant": "quantifies over pairs of arbitrary-size packed sets", "anchors": ["util/src/lib.rs:BinaryPool::{is_subset_of,union,intersection,check_len}"]}
{"id": "C04", "title": "BinaryPool rejects exactly the out-of-range elements", "statement": "add(x), remove(x), contains(x) on a pool of length n panic exactly when x >= n.", "quantifier": "every pool and every index", "why_tests_cant": "boundary between word range and logical length occurs at every size", "anchors": ["util/src/lib.rs:BinaryPool::{add,remove,contains}"]}
{"id": "C05", "title": "count_ones is the population count", "statement": "bitwise::count_ones(n) returns the number of one bits of n, and its loop terminates.", "quantifier": "every 64-bit integer", "why_tests_cant": "2^64 inputs", "anchors": ["util/src/lib.rs:bitwise::count_ones"]}
{"id": "C06", "title": "LabeledSet behaves as a set of registered labels", "statement": "After any sequence of add/remove of registered labels, iteration yields exactly the labels whose last update was an add, once each and in registration order, n_elements is their number, and two sets over the same labels are == exactly when they hold the same labels; adding or removing an unregistered label panics.", "quantifier": "every label list without duplicates and every history", "why_tests_cant": "unbounded label alphabets and histories", "anchors": ["util/src/lib.rs:LabeledSet"]}
{"id": "C07", "title": "tuple_iter enumerates combinations exactly once in lexicographic order", "statement": "data.tuple_iter(k) with 1<=k yields exactly the k-element sublists of data chosen by strictly increasing positions, each once, in lexicographic order of positions, then ends; it yields nothing when data.len()<k.", "quantifier": "every data length and every k>=1", "why_tests_cant": "C(n,k) outputs for all n and k; termination is over all inputs", "anchors": ["util/src/lib.rs:TupleIterator", "util/src/lib.rs:TupleIterable"]}
{"id": "C08", "title": "Euclidean division contract for integers", "statement": "a.euclid_div(d) with d!=0 returns (q,r) with a=q*d+r and 0<=r<|d|; d=0 panics.", "quantifier": "every pair of integers for which no machine overflow occurs", "why_tests_cant": "sign combinations on unbounded ranges", "anchors": ["alg/src/commutative.rs:PID::euclid_div", "alg/src/commutative.rs:euclid_div_impl"]}
{"id": "C09", "title": "gcd and Bezout coefficients", "statement": "gcd(a,b) terminates and returns the non-negative greatest common divisor; bezout_identity(a,b) returns (g,x,y) with g=gcd(a,b) and a*x+b*y=g.", "quantifier": "every pair of integers (as mathematical integers; on fixed-width integers: every pair for which no intermediate overflows)", "why_tests_cant": "termination and correctness for all pairs", "anchors": ["alg/src/commutative.rs:gcd", "alg/src/commutative.rs:bezout_identity"]}
{"id": "C10", "title": "simplify normalises up to a unit, divides decides divisibility", "statement": "simplify returns (unit, normal form) with unit*normal = input, unit invertible and normal form non-negative; a.divides(b) is true exactly when b is a multiple of a (a != 0).", "quantifier": "every integer (pair)", "why_tests_cant": "all integers", "anchors": ["alg/src/commutative.rs:PID::simplify", "alg/src/commutative.rs:PID::divides"]}
{"id": "C11", "title": "primality test is correct", "statement": "is_prime(n) is true exactly when n is prime, and n_prime_factors(n) counts prime factors with multiplicity.", "quantifier": "every integer n>=0", "why_tests_cant": "infinitely many n", "anchors": ["alg/src/commutative.rs:UFD::is_prime", "alg/src/commutative.rs:UFD::n_prime_factors"]}
{"id": "C12", "title": "Rational arithmetic is exact and canonical", "statement": "For rationals obtained from Rational::new and the arithmetic operators, every +,-,*,/ and unary minus that returns a result returns the exact value, in lowest terms with positive denominator, so that == coincides with equality of values.", "quantifier": "all operand pairs and all operation histories", "why_tests_cant": "equality of representations must hold after any history", "anchors": ["alg/src/commutative/rational_impl.rs:Rational::{new,optimize}", "alg/src/commutative/rational_impl.rs:Add,Sub,Mul,Div,Neg"]}
{"id": "C13", "title": "Rational ordering is the numeric order", "statement": "cmp never panics (barring overflow) and agrees with the order of the rational values; in particular it is total, antisymmetric and transitive.", "quantifier": "all pairs of rationals", "why_tests_cant": "order laws over all pairs/triples", "anchors": ["alg/src/commutative/rational_impl.rs:Ord for Rational"]}
{"id": "C14", "title": "Rational Sum and Product folds", "statement": "iter.sum() is the exact sum and iter.product() is the exact product of the items.", "quantifier": "every finite sequence of rationals", "why_tests_cant": "unbounded sequence length", "anchors": ["alg/src/commutative/rational_impl.rs:Sum for Rational", "alg/src/commutative/rational_impl.rs:Product for Rational"]}
{"id": "C15", "title": "No rational with zero denominator can be produced", "statement": "Division by a rational equal in value to zero panics; no operation returns a number whose denominator is zero.", "quantifier": "all histories of rational operations", "why_tests_cant": "depends on the history that produced the divisor", "anchors": ["alg/src/commutative/rational_impl.rs:Div for Rational"]}
{"id": "C16", "title": "Permutation product is composition", "statement": "(p*q).map(x) = p.map(q.map(x)) for every x, the loop building the product terminates, and no panic occurs for permutations built by the public constructors.", "quantifier": "all pairs of permutations of any (unbounded) support and all x", "why_tests_cant": "supports are unbounded", "anchors": ["alg/src/non_commutative/permutation.rs:Mul for Permutation", "alg/src/non_commutative/permutation.rs:Permutation::map"]}
{"id": "C17", "title": "Permutation representation is canonical", "statement": "two permutations built from public constructors and operators are == exactly when they act equally on every index; cycles stored are disjoint, non-trivial, start at their smallest element and are sorted.", "quantifier": "all pairs of permutations", "why_tests_cant": "extensional equality ranges over all indices", "anchors": ["alg/src/non_commutative/permutation.rs:PartialEq Permutation", "alg/src/non_commutative/permutation.rs:Cycle::bring_smallest_first", "alg/src/non_commutative/permutation.rs:from_disjoint_cycles"]}
{"id": "C18", "title": "Permutation group laws", "statement": "product is associative, identity is neutral on both sides, inverse() is a two-sided inverse (as == of values).", "quantifier": "all permutations", "why_tests_cant": "laws over all triples", "anchors": ["alg/src/non_commutative/permutation.rs:Group for Permutation", "alg/src/non_commutative.rs:Group::inverse"]}
{"id": "C19", "title": "Cycle constructors", "statement": "Cycle::from(v) accepts exactly the non-empty duplicate-free lists (others panic) and the resulting map sends v[i] to v[i+1 mod n], fixing all other indices.", "quantifier": "every list of indices", "why_tests_cant": "unbounded lists", "anchors": ["alg/src/non_commutative/permutation.rs:Cycle::{from,is_valid,map}"]}
{"id": "C20", "title": "Permutation powers", "statement": "p^k is the k-fold product for k>=0 and the |k|-fold product of the inverse for k<0.", "quantifier": "all permutations and all integers k", "why_tests_cant": "unbounded exponents", "anchors": ["alg/src/non_commutative/permutation.rs:BitXor for Permutation"]}
{"id": "C21", "title": "Decomposition into generators", "statement": "in_terms_of_gens(p) returns a list of generators (with exponents) whose ordered product is p, and inverse_of_gen inverts each generator.", "quantifier": "all permutations", "why_tests_cant": "unbounded cycle count and length", "anchors": ["alg/src/non_commutative/permutation.rs:Group for Permutation in_terms_of_gens"]}
{"id": "C22", "title": "Action of permutations on vectors", "statement": "v<<p (or v<<=p) places entry i at position p(i), leaves the length unchanged, and acting by p then q equals acting by q*p.", "quantifier": "all vectors and permutations with support inside the vector", "why_tests_cant": "all lengths and permutations", "anchors": ["alg/src/non_commutative/permutation.rs:Gset action on Vec"]}
{"id": "C23", "title": "Permutation::swap exchanges two blocks", "statement": "swap(r1,r2) for disjoint ranges returns the permutation that exchanges the two blocks, keeping the inner order of each block and of the part between them and fixing everything outside.", "quantifier": "all pairs of disjoint ranges, in either argument order", "why_tests_cant": "unbounded range sizes; recursion on size difference", "anchors": ["alg/src/non_commutative/permutation.rs:Permutation::swap", "alg/src/non_commutative/permutation.rs:swap_ranges_of_the_same_length"]}
{"id": "C24", "title": "Array-form permutations", "statement": "VecPermutation / ConstPermutation products compose maps, inverse() is the inverse, and order() returns the least positive k with p^k = identity.", "quantifier": "all array permutations", "why_tests_cant": "unbounded lengths", "anchors": ["alg/src/non_commutative/permutation.rs:ConstPermutation", "alg/src/non_commutative/permutation.rs:VecPermutation"]}
{"id": "C25", "title": "Formal sums: binary addition", "statement": "For vectors with strictly increasing basis lists, a+b has strictly increasing basis, no zero coefficients, and coefficient of each basis element equal to the sum of the coefficients.", "quantifier": "all pairs of formal sums over any ordered basis and integral coefficients", "why_tests_cant": "merge loop over unbounded lists", "anchors": ["alg/src/lin_alg.rs:Add for Vector", "alg/src/lin_alg.rs:merge_by"]}
{"id": "C26", "title": "Formal sums: sum of many vectors", "statement": "iter.sum() of formal sums has, for each basis element, total coefficient equal to the sum of coefficients, lists no zero coefficient, and keeps the basis strictly sorted so that == is equality of formal sums.", "quantifier": "all finite families of formal sums", "why_tests_cant": "k-way merge over unbounded families", "anchors": ["alg/src/lin_alg.rs:Sum for Vector", "alg/src/lin_alg.rs:merge_by"]}
{"id": "C27", "title": "Formal sums: scalar and negation", "statement": "c*v and -v scale every coefficient; 0*v is the zero vector; v + (-v) is the zero vector.", "quantifier": "all scalars and vectors", "why_tests_cant": "all vectors", "anchors": ["alg/src/lin_alg.rs:Mul for Vector", "alg/src/lin_alg.rs:Neg for Vector"]}
{"id": "C28", "title": "Matrix shape packing", "statement": "the size and strides reported by a matrix are those it was created with.", "quantifier": "all matrix sizes representable by the API (usize pairs)", "why_tests_cant": "all sizes", "anchors": ["alg/src/lin_alg/matrix_impl.rs:compress", "alg/src/lin_alg/matrix_impl.rs:extract"]}
{"id": "C29", "title": "Matrix views alias exactly the selected entries", "statement": "For in-range bounds, writing through a (possibly nested, possibly transposed) sub-matrix view changes exactly the selected entry of the parent matrix, and reading through it returns that entry; distinct view positions address distinct entries.", "quantifier": "all matrices, all range selections, all nestings and transposes", "why_tests_cant": "address arithmetic for all sizes, nestings", "anchors": ["alg/src/lin_alg/matrix_impl.rs:SubMatrix indexing", "alg/src/lin_alg/matrix_impl.rs:slice_from_sub_matrix", "alg/src/lin_alg/matrix_impl.rs:unpack_bounds"]}
{"id": "C30", "title": "Matrix views stay inside the allocation", "statement": "Every memory slice the library forms for a view lies within the parent matrix's allocation.", "quantifier": "all matrices and all views", "why_tests_cant": "undefined behaviour is invisible to tests", "anchors": ["alg/src/lin_alg/matrix_impl.rs:slice_from_sub_matrix"]}
{"id": "C31", "title": "Matrix arithmetic", "statement": "addition, subtraction, product, scalar product, transpose and dot implement the mathematical operations entry by entry; size mismatch panics.", "quantifier": "all sizes and entries in any commutative ring", "why_tests_cant": "all sizes", "anchors": ["alg/src/lin_alg/matrix_impl.rs:Add,Sub,Mul", "alg/src/lin_alg/matrix_impl.rs:transpose"]}
{"id": "C32", "title": "Elementary row and column operations", "statement": "row_operation(i,j,c) adds c times row j to row i and changes nothing else; swap_rows/swap_cols exchange exactly the two lines; the column versions likewise.", "quantifier": "all matrices, indices and scalars", "why_tests_cant": "all sizes", "anchors": ["alg/src/lin_alg/matrix_impl.rs:row_operation", "alg/src/lin_alg/matrix_impl.rs:col_operation", "alg/src/lin_alg/matrix_impl.rs:swap_rows", "alg/src/lin_alg/matrix_impl.rs:swap_cols"]}
{"id": "C33", "title": "Smith normal form: transformation matrices", "statement": "smith_normal_form(A) returns (P_inv,P,S,Q,Q_inv) with P*A*Q=S and P*P_inv=I.", "quantifier": "all integer matrices of all sizes", "why_tests_cant": "long adaptive sequences of elementary operations", "anchors": ["alg/src/lin_alg/matrix_impl.rs:smith_normal_form"]}
{"id": "C34", "title": "Smith normal form: inverse column transformation", "statement": "smith_normal_form(A) returns (P_inv,P,S,Q,Q_inv) with Q*Q_inv=I.", "quantifier": "all integer matrices of all sizes", "why_tests_cant": "depends on the divisibility phase for all diagonals", "anchors": ["alg/src/lin_alg/matrix_impl.rs:smith_normal_form"]}
{"id": "C35", "title": "Smith normal form: shape", "statement": "S is diagonal, every diagonal entry divides the next, and zero diagonal entries come last.", "quantifier": "all integer matrices of all sizes", "why_tests_cant": "all matrices", "anchors": ["alg/src/lin_alg/matrix_impl.rs:smith_normal_form"]}
{"id": "C36", "title": "Smith normal form terminates", "statement": "smith_normal_form terminates on every integer matrix.", "quantifier": "all integer matrices of all sizes", "why_tests_cant": "termination", "anchors": ["alg/src/lin_alg/matrix_impl.rs:smith_normal_form"]}
{"id": "C37", "title": "Rank of a linear map", "statement": "rank_as_linear_map(A) equals the rank of A over the field.", "quantifier": "all matrices over a field", "why_tests_cant": "all sizes", "anchors": ["alg/src/lin_alg/matrix_impl.rs:rank_as_linear_map"]}
{"id": "C38", "title": "LU decomposition, determinant and solve", "statement": "When lu() succeeds, L is unit lower triangular, U upper triangular and L*U=A; det(A) is the determinant; solve(b) returns x with A*x=b.", "quantifier": "all square matrices over an exact field with non-zero pivots", "why_tests_cant": "all sizes", "anchors": ["alg/src/lin_alg/matrix_impl.rs:lu", "alg/src/lin_alg/matrix_impl.rs:det", "alg/src/lin_alg/matrix_impl.rs:solve"]}
{"id": "C39", "title": "Matrix literals must be rectangular", "statement": "Building a matrix from rows of unequal length panics; otherwise the entries are the given ones.", "quantifier": "all row lists", "why_tests_cant": "all shapes", "anchors": ["alg/src/lin_alg/matrix_impl.rs:from_array"]}
{"id": "C40", "title": "Sparse matrices represent what they are built from", "statement": "SparseMatrix built from a list of (row, column, value) entries equals the dense matrix with those entries, row and column iterators list exactly the entries of the line in increasing order, and transpose swaps indices.", "quantifier": "all entry lists and sizes", "why_tests_cant": "linked representation with unbounded entries", "anchors": ["alg/src/lin_alg/sparse_matrix_impl.rs:SparseMatrix::from", "alg/src/lin_alg/sparse_matrix_impl.rs:row_iter,col_iter", "alg/src/lin_alg/sparse_matrix_impl.rs:transpose"]}
{"id": "C41", "title": "Sparse products agree with dense products", "statement": "sparse*sparse, sparse*dense and dense*sparse equal the dense matrix product of the represented matrices.", "quantifier": "all pairs of compatible matrices", "why_tests_cant": "merge-join loop with swapping for all patterns", "anchors": ["alg/src/lin_alg/sparse_matrix_impl.rs:Mul"]}
{"id": "C42", "title": "Fixed-size matrices", "statement": "ConstMatrix/ConstVector operators compute the mathematical operations; zero, identity, construction from columns or rows and dot have their usual entries.", "quantifier": "all sizes and entries", "why_tests_cant": "all sizes", "anchors": ["alg/src/lin_alg/const_matrix_impl.rs"]}
{"id": "C43", "title": "Finitely generated modules", "statement": "Module::new drops the trivial divisors (units), is_zero is true exactly for rank 0 and no divisors, and is_isomorphic_to decides isomorphism of modules given by rank and divisibility-ordered divisors.", "quantifier": "all ranks and divisor lists", "why_tests_cant": "all divisor lists", "anchors": ["alg/src/lin_alg.rs:Module"]}
{"id": "C44", "title": "Integral homology from Smith forms", "statement": "for a chain complex of free modules, the computed free rank in degree i is (number of i-cells) - rank(d_i) - rank(d_{i+1}), the torsion is the list of non-unit divisors of d_{i+1}, cycles returned are in the kernel of d_i, and trailing zero modules are dropped.", "quantifier": "all finite chain complexes", "why_tests_cant": "all complexes", "anchors": ["topo_spaces/src/lib.rs:IntegralHomology::new"]}
{"id": "C45", "title": "Simplicial boundary of boundary is zero", "statement": "The product of consecutive boundary matrices of a simplicial complex is the zero matrix.", "quantifier": "all simplicial complexes", "why_tests_cant": "all complexes", "anchors": ["topo_spaces/src/simplicial/mod_impl.rs:boundary_map", "topo_spaces/src/simplicial/mod_impl.rs:get_face"]}
{"id": "C46", "title": "Attaching simplices builds the down-closure", "statement": "After any sequence of attach calls, the i-cells of the complex are exactly the (i+1)-subsets of some attached simplex.", "quantifier": "all histories of attach", "why_tests_cant": "histories and vertex counts unbounded", "anchors": ["topo_spaces/src/simplicial/mod_impl.rs:SimplicialCplx::attach", "topo_spaces/src/simplicial/mod_impl.rs:get_i_cells"]}
{"id": "C47", "title": "Cell counts", "statement": "n_cells_of_dim(i) equals the number of i-cells listed by the complex.", "quantifier": "all complexes and dimensions", "why_tests_cant": "inclusion-exclusion over all families of maximal cells", "anchors": ["topo_spaces/src/simplicial/mod_impl.rs:n_cells_of_dim"]}
{"id": "C48", "title": "Simplicial connectivity", "statement": "is_connected() of a simplicial complex is true exactly when any two of its maximal cells are linked by a chain of cells sharing vertices.", "quantifier": "all complexes", "why_tests_cant": "all complexes", "anchors": ["topo_spaces/src/simplicial/mod_impl.rs:is_connected"]}
{"id": "C49", "title": "Raw simple graph behaves as a set of unordered pairs", "statement": "After any history of add_edge/remove_edge, contains(i,j) is true exactly for the pairs whose last update was add; the edge index map is a bijection so updates never interfere.", "quantifier": "all vertex counts and histories", "why_tests_cant": "packed triangular indexing for all sizes", "anchors": ["topo_spaces/src/graph.rs:RawSimpleGraph"]}
{"id": "C50", "title": "Graph connectivity", "statement": "is_connected() is true exactly when every two vertices are joined by a path of edges.", "quantifier": "all graphs", "why_tests_cant": "all graphs", "anchors": ["topo_spaces/src/graph.rs:RawSimpleGraph::is_connected"]}
{"id": "C51", "title": "Relabelling a graph is an isomorphism", "statement": "swap(i,j) and the action of a permutation p give the graph whose edges are the images of the edges.", "quantifier": "all graphs and permutations", "why_tests_cant": "all graphs", "anchors": ["topo_spaces/src/graph.rs:RawSimpleGraph::swap", "topo_spaces/src/graph.rs:Gset for RawSimpleGraph"]}
{"id": "C52", "title": "Vertex adjacency and degree", "statement": "adjacent_vertices_iter(v) yields exactly the neighbours of v once each, degree_of(v) is their number, remove_edges_adjacent_to(v) removes exactly the edges at v.", "quantifier": "all graphs and vertices", "why_tests_cant": "all graphs", "anchors": ["topo_spaces/src/graph.rs:AdjacentVerticesIter", "topo_spaces/src/graph.rs:degree_of", "topo_spaces/src/graph.rs:remove_edges_adjacent_to"]}
{"id": "C53", "title": "Edge enumeration", "statement": "edge_iter() yields every edge of the graph exactly once and nothing else.", "quantifier": "all graphs", "why_tests_cant": "all graphs", "anchors": ["topo_spaces/src/graph.rs:EdgeIter"]}
{"id": "C54", "title": "Edge paths of configurations", "statement": "on a graph with a chosen maximal tree, get_edge_path_to_from_base_pt(c) of a configuration of distinct vertices terminates without panicking; the moves it collects are tree edges traversed by existing particles to unoccupied vertices and lead from c to the base configuration {0,..,k-1}; get_edge_path(e) of a cube with one edge collects a closed walk from the base configuration through the edge and back.", "quantifier": "all graphs with a chosen maximal tree and all configurations", "why_tests_cant": "recursion over unbounded trees and configurations", "anchors": ["topo_spaces/src/graph.rs:get_edge_path", "topo_spaces/src/graph.rs:get_edge_path_recc", "topo_spaces/src/graph.rs:get_edge_path_to_from_base_pt"]}
{"id": "C55", "title": "Depth-first maximal tree", "statement": "choosing the maximal tree renames the vertices by the returned permutation (a bijection carrying edges to edges); afterwards maximal_tree_contains describes a spanning tree in which each vertex other than the root 0 has exactly one smaller neighbour, every edge of the graph joins an ancestor and a descendant, the root is a leaf or an essential non-cut vertex of the old graph, and at every vertex the branches that meet the part before it come last; it never panics on a connected graph.", "quantifier": "all connected graphs and base points", "why_tests_cant": "all graphs", "anchors": ["topo_spaces/src/graph.rs:choose_maximal_tree_by_depth_first", "topo_spaces/src/graph.rs:maximal_tree_contains"]}
{"id": "C56", "title": "Graph construction counts", "statement": "Graph::from(edges) records each vertex once, each edge with its multiplicity, and never panics on a non-empty edge list.", "quantifier": "all edge lists", "why_tests_cant": "all multigraphs", "anchors": ["topo_spaces/src/graph.rs:Graph::from"]}
{"id": "C57", "title": "Subdivision for n points", "statement": "the subdivided graph replaces every edge by a path with the requested number of inner vertices and keeps the connectivity between essential vertices.", "quantifier": "all graphs and point counts", "why_tests_cant": "all graphs", "anchors": ["topo_spaces/src/graph.rs:SimpleGraph::subdivided_graph_from"]}
{"id": "C58", "title": "Unordered configuration complex boundary", "statement": "for every cube of the discretised configuration space, the boundary is computed without panicking and the boundary of the boundary is zero.", "quantifier": "all cubes", "why_tests_cant": "all cubes", "anchors": ["topo_spaces/src/cubical.rs:Cube::get_boundary", "topo_spaces/src/cubical.rs:CubicalCplx::boundary_map"]}
{"id": "C59", "title": "Edge path reduction and inverses", "statement": "composition with the inverse path reduces to the trivial path; reduction never panics, preserves the path up to commuting and cancelling moves, and is idempotent.", "quantifier": "all edge paths", "why_tests_cant": "free partially commutative words", "anchors": ["topo_spaces/src/cubical.rs:EdgePath"]}
{"id": "C60", "title": "Discrete Morse classification of cubes", "statement": "every cube is exactly one of critical, collapsible and redundant, the pairing of redundant with collapsible cubes is a bijection, and the flow of a redundant cube terminates.", "quantifier": "all graphs and cubes", "why_tests_cant": "all cubes", "anchors": ["topo_spaces/src/cubical.rs:Cube::property", "topo_spaces/src/cubical.rs:Cube::flow"]}
{"id": "C61", "title": "Graph Laplacian", "statement": "the Laplacian of a weighted simple graph is symmetric and each row sums to zero; off-diagonal entries are minus the weights.", "quantifier": "all weighted graphs", "why_tests_cant": "all graphs", "anchors": ["topo_spaces/src/graph.rs:WeightedSimpleGraph::laplacian"]}
{"id": "C62", "title": "Delaunay triangulation output is well-formed", "statement": "for any number of points and whatever the numerical in-circle tests answer, every triangle returned consists of three distinct input indices in increasing order.", "quantifier": "all point counts and all outcomes of the geometric predicate", "why_tests_cant": "adversarial rounding outcomes", "anchors": ["geom/src/lib.rs:delaunay_triangulation"]}
{"id": "C63", "title": "Symbolic functions: evaluation is a homomorphism", "statement": "evaluating f+g, f-g, f*g, -f, powers and compositions built by the operators gives the corresponding operation on the evaluations (over exact reals).", "quantifier": "all expressions and all points", "why_tests_cant": "all expression trees", "anchors": ["analysis/src/lib.rs:AtomicSmoothFn"]}
{"id": "C64", "title": "Symbolic functions: derivative", "statement": "partial_derivative(i) of an expression evaluates to the analytic partial derivative of its evaluation wherever the expression is defined; jacobian collects them.", "quantifier": "all expressions and points", "why_tests_cant": "all expression trees", "anchors": ["analysis/src/lib.rs:partial_derivative", "analysis/src/lib.rs:jacobian"]}
{"id": "C65", "title": "Householder reflection", "statement": "householder_vec(x) returns (v,beta) such that I - beta*v*v^T is orthogonal and maps x to a multiple of the first unit vector.", "quantifier": "all vectors over exact reals", "why_tests_cant": "all vectors", "anchors": ["alg/src/lin_alg/matrix_impl.rs:householder_vec"]}
{"id": "C66", "title": "Gram-Schmidt", "statement": "gram_schmidt returns pairwise orthogonal vectors whose successive spans equal those of the inputs (exact field arithmetic, independent input).", "quantifier": "all families", "why_tests_cant": "all families", "anchors": ["alg/src/lin_alg/matrix_impl.rs:gram_schmidt"]}
{"id": "C67", "title": "Givens rotation", "statement": "givens_rotation(a,b) returns (x,y) with x^2+y^2=1 and a*y+b*x=0, unless |b| is below the cut-off, when it returns (1,0).", "quantifier": "all reals a, b (exact)", "why_tests_cant": "all reals", "anchors": ["alg/src/lin_alg/matrix_impl.rs:givens_rotation"]}
{"id": "C68", "title": "Spectrum of 2x2 matrices", "statement": "spectrum of a 2x2 matrix with real eigenvalues returns them in increasing order.", "quantifier": "all real 2x2 matrices (exact)", "why_tests_cant": "all reals", "anchors": ["alg/src/lin_alg/matrix_impl.rs:spectrum", "alg/src/lin_alg/matrix_impl.rs:real_spectrum_of_two_by_two"]}
{"id": "C69", "title": "Matrix norms", "statement": "one_norm is the largest absolute column sum and bounds |Ax|_1 by |A|_1|x|_1, inf_norm is the largest absolute row sum, frobenius_norm squared is the trace of A^T A.", "quantifier": "all real matrices (exact)", "why_tests_cant": "all sizes and entries", "anchors": ["alg/src/lin_alg/matrix_impl.rs:one_norm", "alg/src/lin_alg/matrix_impl.rs:inf_norm", "alg/src/lin_alg/matrix_impl.rs:frobenius_norm"]}
{"id": "C70", "title": "Betti numbers over a field", "statement": "homology() of a complex with field coefficients lists, for every dimension, the dimension of cycles modulo boundaries, and never panics on a chain complex.", "quantifier": "all chain complexes over all fields", "why_tests_cant": "all lengths, sizes and entries", "anchors": ["topo_spaces/src/lib.rs:HomologyWithFieldCoefficients::homology"]}
{"id": "C71", "title": "Circumcircle test", "statement": "circum_circle_contains answers true exactly when the three corners are not collinear and the point lies strictly inside the circle through them; the answer does not depend on the order of the corners and is false for the corners themselves.", "quantifier": "all triangles and points (exact arithmetic)", "why_tests_cant": "all reals", "anchors": ["geom/src/lib.rs:Triangle::circum_circle_contains"]}
{"id": "C72", "title": "Delaunay property", "statement": "in exact arithmetic, for every non-empty list of points, the triangles returned have non-collinear corners, no input point lies strictly inside the circumcircle of a returned triangle, no two returned triangles overlap, and every three non-collinear input points whose circle has all other input points and the three auxiliary points strictly outside are returned.", "quantifier": "all non-empty lists of points, with repetitions, collinear and cocircular points allowed", "why_tests_cant": "all configurations of points", "anchors": ["geom/src/lib.rs:delaunay_triangulation"]}
{"id": "C73", "title": "Permutation of an edge path", "statement": "if carrying out the motions of an edge path one after the other moves particles standing at the vertices 0..n-1 to unoccupied vertices, evaluate_permutation of the reduced path sends i to the final vertex of particle i; for closed walks it turns composition into composition and inverse paths into inverse permutations; it panics exactly when a step contains a motion from a vertex at which no particle stands.", "quantifier": "all edge paths and numbers of particles", "why_tests_cant": "all motions of any number of particles", "anchors": ["topo_spaces/src/cubical.rs:EdgePath::evaluate_permutation"]}
{"id": "C74", "title": "Edge paths of configurations on subdivided graphs", "statement": "for every connected multigraph subdivided for n marked points (as the configuration-space code uses it) and every configuration of at most n distinct vertices, get_edge_path_to_from_base_pt collects tree edges along which the particles walk, each to an unoccupied vertex, from the configuration to {0,..,k-1} (and back); get_edge_path of a cube with one edge and at most n factors is a closed walk from {0,..,k-1} away from the root, through the edge, and back to {0,..,k-1}; its evaluation as a permutation exists and is the permutation the particles undergo.", "quantifier": "all connected multigraphs, all n, all configurations and all cubes with one edge", "why_tests_cant": "recursion over unbounded trees and configurations", "anchors": ["topo_spaces/src/graph.rs:get_edge_path", "topo_spaces/src/graph.rs:get_edge_path_recc", "topo_spaces/src/graph.rs:get_edge_path_to_from_base_pt", "topo_spaces/src/graph.rs:subdivided_graph_from", "topo_spaces/src/graph.rs:evaluate_permutation"]}
{"id": "C75", "title": "Cells of the unordered configuration complex", "statement": "for every connected multigraph and every positive number n of points for which the subdivision succeeds, CubicalCplx::udc succeeds; its cells are exactly the sets of n pairwise disjoint vertices and edges of the subdivided graph, each listed once and retrievable by its index; contains answers membership; the reported ranks count the cells of every dimension and the reported dimension is the largest; with zero points it panics.", "quantifier": "all connected multigraphs and numbers of points", "why_tests_cant": "recursive enumeration with pruning over unbounded graphs", "anchors": ["topo_spaces/src/cubical.rs:CubicalCplx::udc", "topo_spaces/src/cubical.rs:CubicalCplx::expand", "topo_spaces/src/cubical.rs:CubicalCplx::get_index_of", "topo_spaces/src/cubical.rs:CubicalCplx::contains", "topo_spaces/src/cubical.rs:CubicalCplx::get_cell_from_idx"]}
{"id": "C76", "title": "Discrete Morse complex of configurations", "statement": "for every connected multigraph and every positive number n of points for which the subdivision succeeds, UdnMorseCplx::new succeeds for every bound on the dimension; it lists cells of the configuration complex, each at most once, exactly the critical ones within the bound, among them the base configuration as the only cell of dimension 0; cells are found at their indices, get_cells_of_dim and the ranks agree with the list; boundary_map gives the boundary maps of the Morse complex with these cells as bases, so that homology in dimension 0 is Z and with a bound of 1 homology in dimension 1 is free on the listed cells.", "quantifier": "all connected multigraphs, numbers of points and bounds", "why_tests_cant": "recursive enumeration with pruning and a mutable set of candidates over unbounded graphs", "anchors": ["topo_spaces/src/cubical.rs:UdnMorseCplx::new", "topo_spaces/src/cubical.rs:UdnMorseCplx::expand", "topo_spaces/src/cubical.rs:UdnMorseCplx::get_cells_of_dim", "topo_spaces/src/cubical.rs:UdnMorseCplx::get_boundary_of", "topo_spaces/src/cubical.rs:UdnMorseCplx::boundary_map"]}
{"id": "C77", "title": "Critical cells of a tree", "statement": "for every tree (a connected multigraph with one vertex more than edges), every number n of at least two points and every bound on the dimension other than 0, UdnMorseCplx lists exactly the critical cells of the configuration complex within the bound, each once; with a bound of 1 the homology it gives in dimension 1 is free on the critical cells of dimension 1.", "quantifier": "all trees, numbers of points and bounds", "why_tests_cant": "the recursion shares one mutable set of candidate factors between all branches; every tree shape and number of points gives another history of that set", "anchors": ["topo_spaces/src/cubical.rs:UdnMorseCplx::expand", "topo_spaces/src/cubical.rs:UdnMorseCplx::new", "topo_spaces/src/cubical.rs:Cube::property"]}
{"id": "C78", "title": "Homology of configurations on a tree", "statement": "the configuration complex of a connected multigraph has homology Z in degree 0; for a tree and at least two points its homology in degree 1 is free with one generator per critical cell of dimension 1, and the integral homology computed from the Morse complex with a bound of 1 is, in degrees 0 and 1, the homology of the configuration complex.", "quantifier": "all connected multigraphs (degree 0), all trees and numbers of points", "why_tests_cant": "the two complexes have different sizes; equality of homology is a statement about all trees and numbers of points", "anchors": ["topo_spaces/src/cubical.rs:UdnMorseCplx::new", "topo_spaces/src/cubical.rs:UdnMorseCplx::boundary_map", "topo_spaces/src/cubical.rs:CubicalCplx::udc", "topo_spaces/src/cubical.rs:CubicalCplx::boundary_map", "topo_spaces/src/cubical.rs:Cube::property"]}
{"id": "C79", "title": "Hessenberg form", "statement": "hessenberg_form turns every square matrix into a matrix that vanishes below the first sub-diagonal and is orthogonally similar to the input (so it has the same eigenvalues); non-square matrices are rejected.", "quantifier": "all real square matrices of any size (exact arithmetic)", "why_tests_cant": "all sizes and entries, including columns that are already multiples of a unit vector", "anchors": ["alg/src/lin_alg/matrix_impl.rs:hessenberg_form"]}
{"id": "C80", "title": "Francis step", "statement": "francis_step turns every unreduced Hessenberg matrix with at least three rows into a Hessenberg matrix orthogonally similar to it; francis_step_with_op returns the orthogonal matrix of the similarity.", "quantifier": "all unreduced Hessenberg matrices of any size (exact arithmetic)", "why_tests_cant": "the bulge is chased through a window that moves over the whole matrix, all sizes and entries", "anchors": ["alg/src/lin_alg/matrix_impl.rs:raw_francis_step"]}
{"id": "C81", "title": "Eigenvalues by the QR iteration", "statement": "for every square matrix, qr ends without panicking with a quasi-triangular matrix (zero below the first sub-diagonal, no two consecutive entries on it above the tolerance) and spectrum returns the real eigenvalues with their multiplicities in increasing order; qr_with_op returns the orthogonal matrix of the similarity; non-square matrices are rejected.", "quantifier": "all real square matrices of any size (exact arithmetic)", "why_tests_cant": "the number of rounds has no bound, all sizes and entries", "anchors": ["alg/src/lin_alg/matrix_impl.rs:raw_qr", "alg/src/lin_alg/matrix_impl.rs:spectrum"]}
{"id": "C82", "title": "Orthogonal matrices from Householder vectors", "statement": "random_orthogonal(n), n at least 1, returns an orthogonal matrix whatever numbers of [0,1) are drawn, unless a whole column drawn is zero; extract_householder_vecs of a non-empty square matrix returns the product of the reflections along the vectors stored in its columns (last column first), which is orthogonal; both panic for size 0.", "quantifier": "all sizes, all draws, all matrices (exact arithmetic)", "why_tests_cant": "randomised, all draws; recursion over all sizes", "anchors": ["alg/src/lin_alg/matrix_impl.rs:random_orthogonal", "alg/src/lin_alg/matrix_impl.rs:extract_householder_vecs"]}
{"id": "C83", "title": "Tridiagonal form of a symmetric matrix", "statement": "for every symmetric matrix with at least two rows, householder_tridiagonalization returns (in its tridiagonal part) a symmetric tridiagonal matrix orthogonally similar to the input; with with_op the vectors stored below the sub-diagonal describe the orthogonal matrix of this similarity, as symmetric_qr rebuilds it.", "quantifier": "all real symmetric matrices of any size (exact arithmetic)", "why_tests_cant": "all sizes and entries; the trailing block is updated in place on one triangle only", "anchors": ["alg/src/lin_alg/matrix_impl.rs:householder_tridiagonalization", "alg/src/lin_alg/matrix_impl.rs:symmetric_qr"]}
{"id": "C84", "title": "Symmetric QR step with Wilkinson's shift", "statement": "on every symmetric tridiagonal matrix with at least two rows (last off-diagonal entry non-zero or last two diagonal entries different), implicit_symmetric_qr_with_wilkinson_shift replaces A by Q^T A Q where Q is the product of the rotations it records, an orthogonal matrix; the result is symmetric and tridiagonal up to one pair of entries below the cut-off 1e-12. If no recorded rotation is the identity, the step is a QR step A - m = QR, A' = RQ + m for the eigenvalue m of the last 2x2 block nearest to the last diagonal entry, the result is tridiagonal, and b^4 c^2 (b, c the last two sub-diagonal entries) is at least halved.", "quantifier": "all real symmetric tridiagonal matrices of any size (exact arithmetic)", "why_tests_cant": "all sizes and entries; the bulge is chased through the whole matrix", "anchors": ["alg/src/lin_alg/matrix_impl.rs:implicit_symmetric_qr_with_wilkinson_shift"]}
{"id": "C85", "title": "Eigenvalues of a symmetric matrix", "statement": "on every symmetric matrix with at least two rows spectrum_symmetric never panics, and what it returns is sorted and has one value per row. It ends whenever none of the rotations it makes is cut off to the identity. If moreover no reflected column is a negative multiple of the first unit vector and no sub-diagonal entry is exactly as large as the tolerance, every value returned is within (n-1)*1e-10 of the eigenvalue in the same place.", "quantifier": "all real symmetric matrices of any size at least two, any number of rounds (exact arithmetic)", "why_tests_cant": "all matrices; unboundedly many rounds", "anchors": ["alg/src/lin_alg/matrix_impl.rs:spectrum_symmetric", "alg/src/lin_alg/matrix_impl.rs:symmetric_qr"]}
{"id": "C86", "title": "Lattice basis reduction", "statement": "lll_lattice_reduce(delta) panics exactly when the matrix has more columns than rows or delta is not strictly between 1/4 and 1. On linearly independent columns it always ends, the columns returned generate the same lattice (integer combinations) and are LLL-reduced for delta: every Gram-Schmidt coefficient is at most 1/2 in absolute value and the Lovasz condition holds between neighbours. Hence the first column returned is at most (delta-1/4)^(-(m-1)/2) times as long as the shortest non-zero lattice vector.", "quantifier": "all matrices with linearly independent real columns, of any size, all delta (exact arithmetic); any number of rounds", "why_tests_cant": "all matrices; unboundedly many rounds; all lattice vectors", "anchors": ["alg/src/lin_alg/matrix_impl.rs:lll_lattice_reduce", "alg/src/lin_alg/matrix_impl.rs:gram_schmidt_coeff_update"]}
{"id": "C87", "title": "Eigenvectors by inverse iteration", "statement": "spectrum_with_invariant_space(_symmetric), spectrum_with_n_smallest_eigenvecs_symmetric and spectrum_with_n_th_eigenvec_symmetric return the values of spectrum(_symmetric) and, next to each value, a unit vector; on a symmetric matrix the vector v next to the value x satisfies |Av - xv| |sum u| <= sqrt(n) |e - x| |u| for every eigenvector u with eigenvalue e, so it nearly is an eigenvector if x is close to the eigenvalue of a vector whose entries do not sum to 0. Asking for more columns than rows panics.", "quantifier": "all real matrices (symmetric ones for the bound), any size, any number of columns (exact arithmetic)", "why_tests_cant": "all matrices; all eigenvectors", "anchors": ["alg/src/lin_alg/matrix_impl.rs:spectrum_with_invariant_space", "alg/src/lin_alg/matrix_impl.rs:spectrum_with_invariant_space_symmetric", "alg/src/lin_alg/matrix_impl.rs:spectrum_with_n_smallest_eigenvecs_symmetric", "alg/src/lin_alg/matrix_impl.rs:spectrum_with_n_th_eigenvec_symmetric"]}
{"id": "C88", "title": "Drawing a subdivided graph", "statement": "Given a position for every vertex of the input graph, modify_embedding returns a position for every vertex of the subdivided graph: the given one for the input vertices, and for the inner vertices of an edge equally spaced points strictly between the ends on the segment joining them. It panics exactly if the given names are not the vertices of the graph.", "quantifier": "all connected multigraphs, all numbers of marked points, all positions in any dimension (exact arithmetic)", "why_tests_cant": "all graphs and positions", "anchors": ["topo_spaces/src/graph.rs:SimpleGraph::modify_embedding", "alg/src/commutative/rational_impl.rs:Into<f64>"]}
{"id": "C89", "title": "Degree in the maximal tree", "statement": "degree_in_maximal_tree(v) is the number of edges of the chosen maximal tree at v; after choose_maximal_tree on a connected graph with n vertices these numbers add up to 2(n-1) and none is zero (n >= 2). It panics if v is no vertex, and without a chosen tree exactly if v has a neighbour.", "quantifier": "all graphs and vertices", "why_tests_cant": "all graphs", "anchors": ["topo_spaces/src/graph.rs:RawSimpleGraph::degree_in_maximal_tree"]}
{"id": "C90", "title": "The text of a rational", "statement": "The text of a rational number, read in decimal notation as an integer or a fraction, possibly with a minus sign, is its value; two rationals have the same text exactly if they are equal, and the text is the fraction in lowest terms, an integer without denominator.", "quantifier": "all rationals obtained by any sequence of operations", "why_tests_cant": "all numbers and histories", "anchors": ["alg/src/commutative/rational_impl.rs:Display for Rational"]}
{"id": "C91", "title": "The text of a permutation", "statement": "The text of a permutation, read in cycle notation, is a product of disjoint cycles equal to the permutation; two permutations have the same text exactly if they are equal; the identity, and nothing else, is printed as (1).", "quantifier": "all permutations obtained by any sequence of operations", "why_tests_cant": "all permutations", "anchors": ["alg/src/non_commutative/permutation.rs:Display for Permutation", "alg/src/non_commutative/permutation.rs:Display for Cycle"]}
{"id": "C92", "title": "The text of homology groups", "statement": "The text of a module, read as a direct sum of copies of Z and of cyclic groups, gives its free rank and its elementary divisors; the text of the homology of a chain complex has a line for every dimension, in order, saying which group it is; isomorphic groups have the same text.", "quantifier": "all modules and all chain complexes", "why_tests_cant": "all matrices", "anchors": ["alg/src/lin_alg.rs:Display for Module", "topo_spaces/src/lib.rs:Display for IntegralHomology"]}
{"id": "C93", "title": "The texts of a graph", "statement": "to_string of a graph is its lower triangular adjacency matrix, so graphs with the same text are equal; the Debug text has a line for every vertex with a mark for every larger neighbour, the marks of one vertex standing in one column.", "quantifier": "all graphs, all histories of added and removed edges", "why_tests_cant": "all graphs", "anchors": ["topo_spaces/src/graph.rs:Display for RawSimpleGraph", "topo_spaces/src/graph.rs:Debug for RawSimpleGraph"]}
{"id": "C94", "title": "The texts of pools and labeled sets", "statement": "The Debug text of a pool gives its length, its number of members and for every index whether it is a member, so pools with the same text are equal; the text of a labeled set lists its members in the order of declaration. Printing never panics.", "quantifier": "all pools, labeled sets and histories of operations", "why_tests_cant": "all histories", "anchors": ["util/src/lib.rs:Debug for BinaryPool", "util/src/lib.rs:Display for LabeledSet"]}
{"id": "C95", "title": "The texts of cubes and complexes", "statement": "The text of a cube lists its factors, so cubes with the same text are equal; printing panics exactly for the cube without factors. The text of a configuration complex lists dimension by dimension exactly its cells, each once; that of a Morse complex gives for every dimension the number of cells and lists them.", "quantifier": "all cubes, all connected graphs, all numbers of points", "why_tests_cant": "all graphs and numbers of points", "anchors": ["topo_spaces/src/cubical.rs:Display for Cube", "topo_spaces/src/cubical.rs:Display for CubicalCplx", "topo_spaces/src/cubical.rs:Display for UdnMorseCplx"]}
{"id": "C96", "title": "The text of a subdivided graph", "statement": "For labels without brackets, commas and line breaks, the text of a subdivided graph lists all its vertices, each once, as input labels or as points with their position on an edge, and all pairs of neighbouring vertices, each once.", "quantifier": "all connected multigraphs with such labels, all numbers of points", "why_tests_cant": "all graphs", "anchors": ["topo_spaces/src/graph.rs:Display for SimpleGraph", "topo_spaces/src/graph.rs:Display for SimpleVertex"]}
{"id": "C97", "title": "The texts of matrices", "statement": "The text of an integer matrix gives its entries row by row, so two matrices with at least one row have the same text exactly if they are equal; the text of a sparse matrix lists exactly its entries by rows and columns. Printing never panics.", "quantifier": "all integer matrices of all sizes, all sparse matrices", "why_tests_cant": "all sizes and entries", "anchors": ["alg/src/lin_alg/matrix_impl.rs:Display for SubMatrix", "alg/src/lin_alg/matrix_impl.rs:Debug for SubMatrix", "alg/src/lin_alg/sparse_matrix_impl.rs:Display for SparseMatrix"]}
{"id": "C98", "title": "The text of a formal sum", "statement": "If the texts of the basis elements contain no + and no multiplication dot, do not begin with a minus sign and are not 0, the text of a formal sum gives its terms in order; so if also different basis elements have different texts, normal formal sums have the same text exactly if they have the same coefficients. This applies to sums of cubes.", "quantifier": "all integer formal sums over all such bases", "why_tests_cant": "all sums", "anchors": ["alg/src/lin_alg.rs:Display for Vector"]}
{"id": "C99", "title": "The descriptions of cycles and boundaries", "statement": "get_description_of_cycles and get_description_of_boundaries have a heading for every dimension that is kept, in order, and below it one line for every generator; read back as integer combinations of cells, the cycles listed in a dimension generate the kernel of the boundary map out of it, the boundaries generate the image of the boundary map into it, and they are as many as the ranks say. Needed: different cells of a dimension have different texts, without line breaks and as in the property on texts of formal sums.", "quantifier": "all chain complexes, all limits on the dimension, all such texts of cells", "why_tests_cant": "all complexes", "anchors": ["topo_spaces/src/lib.rs:get_description_of_cycles", "topo_spaces/src/lib.rs:get_description_of_boundaries"]}
{"id": "C100", "title": "Smith normal form and homology on machine integers", "statement": "With w-bit integers (debug profile), smith_normal_form of a matrix of representable entries and the integral homology of a chain complex either panic or return exactly what unbounded integers give: the results are correct, every returned entry is representable and no overflow goes unnoticed; a wider integer type then gives the same result. An overflow in an intermediate value panics even if the result is representable.", "quantifier": "all widths of at least two bits, all integer matrices, all chain complexes", "why_tests_cant": "overflow depends on the intermediate coefficients of every elimination", "anchors": ["alg/src/lin_alg/matrix_impl.rs:smith_normal_form", "topo_spaces/src/lib.rs:IntegralHomology::new"]}
{"id": "C101", "title": "Cell counts on machine integers", "statement": "With 64-bit usize and i64 arithmetic (debug profile), SimplicialCplx::n_cells_of_dim either panics or returns exactly the number of cells of that dimension in the complex; the silent casts between usize and i64 never give a wrong number. With at most 45 attached simplices of at most 20 labels each (64 labels in all) it never panics. An attached simplex with n labels makes it panic as soon as n(n-1)...(n-dim) does not fit in 64 bits, even if the count itself is 1; for a single simplex this is the exact condition.", "quantifier": "all attach histories, all dimensions", "why_tests_cant": "overflow depends on all intersections of the maximal simplices", "anchors": ["topo_spaces/src/simplicial/mod_impl.rs:n_cells_of_dim"]}
{"id": "C102", "title": "The generic PID code over a field", "statement": "For every field with exact arithmetic: smith_normal_form returns for every non-empty matrix A a tuple (P_inv, P, S, Q, Q_inv) with P*A*Q = S, with P_inv and Q_inv the two-sided inverses of P and Q, with S zero off the diagonal and exactly the first rank(A) diagonal entries non-zero; euclid_div and divides panic exactly for the divisor zero, the remainder is zero and every non-zero element divides everything; gcd and bezout_identity return after at most two rounds with a*x + b*y = g and g = 0 only for a = b = 0.", "quantifier": "every field, all elements, all matrices of all sizes", "why_tests_cant": "all fields, all matrices; the inverse of Q holds here and fails over the integers", "anchors": ["alg/src/commutative.rs:pid_impl_for_fields", "alg/src/commutative.rs:bezout_identity", "alg/src/commutative.rs:gcd", "alg/src/lin_alg/matrix_impl.rs:smith_normal_form"]}
{"id": "C103", "title": "Linear algebra over machine rationals is exact", "statement": "For matrices of canonical Rational entries, with checked u64 arithmetic: whenever smith_normal_form returns, all entries of the five matrices are canonical and the equations of the Smith normal form (P*A*Q = S, both inverses, diagonal of length rank) hold exactly for the numbers represented; rank_as_linear_map and the homology with field coefficients return what exact arithmetic over the rationals gives. Without overflow none of them panics where exact arithmetic would not. Overflow is the only additional panic.", "quantifier": "all matrices of canonical rationals of all sizes, all overflow behaviours", "why_tests_cant": "all matrices; overflow depends on every intermediate entry, and unary minus on a zero would break the representation", "anchors": ["alg/src/lin_alg/matrix_impl.rs:smith_normal_form", "alg/src/lin_alg/matrix_impl.rs:rank_as_linear_map", "alg/src/commutative/rational_impl.rs", "topo_spaces/src/lib.rs:HomologyWithFieldCoefficients"]}
{"id": "C104", "title": "Products, sums and differences of f64 matrices round correctly", "statement": "With IEEE 754 binary64 arithmetic (rounding to nearest even, overflow, underflow, NaN): a finite entry of A*B comes from finite entries only and differs from the exact sum of products by at most ((1+u)^l - 1) times the sum of the absolute values of the products plus l(1+u)^l eta, where l is the common dimension, u = 2^-53, eta = 2^-1075; it is finite whenever the sum of these absolute values is (up to the same factor) below 2^1023. Products of matrices of integers are exact as long as these sums do not exceed 2^53. Every finite entry of A+B and A-B has a relative error of at most u.", "quantifier": "all sizes, all matrices of f64 (views into memory included)", "why_tests_cant": "all matrices; a test compares one rounded result with another", "anchors": ["alg/src/lin_alg/matrix_impl.rs:dot", "alg/src/lin_alg/matrix_impl.rs:Mul", "alg/src/lin_alg/matrix_impl.rs:Add", "alg/src/lin_alg/matrix_impl.rs:Sub"]}
{"id": "C105", "title": "LU of f64 matrices: backward error", "statement": "If lu returns finite numbers only, then no pivot it divides by is zero, the input was finite, and the product of the unit lower and the upper triangular factor differs from A in every entry by at most ((1+u)^n - 1) times the corresponding entry of |L||U| plus n(1 + |u_jj|)(1+u)^n eta. Nothing better can be promised, since rows are never exchanged: an invertible matrix can give infinities, and finite factors can have a product far from A.", "quantifier": "all n, all n x n matrices of f64", "why_tests_cant": "all matrices, all roundings", "anchors": ["alg/src/lin_alg/matrix_impl.rs:lu"]}
{"id": "C106", "title": "solve on f64: residual", "statement": "If the factors of lu and the answer x of solve are finite, then no pivot is zero, the right-hand side was finite, and every component of b - A x is at most ((1+u)^(3n+1) - 1) times the component of |L||U||x| plus an explicit multiple of eta. Finiteness of the answer alone promises nothing: after an overflow in lu, or with a small pivot, the finite answer can be wrong in all digits.", "quantifier": "all n, all systems of f64", "why_tests_cant": "all systems, all roundings", "anchors": ["alg/src/lin_alg/matrix_impl.rs:solve", "alg/src/lin_alg/matrix_impl.rs:lu"]}
{"id": "C107", "title": "det on f64: backward error", "statement": "det of a matrix that is not square is 0. If the answer d for a square matrix is finite, then all numbers of the factorization were finite, there is a matrix A' within the LU error bound of A, and d differs from the exact determinant of A' by at most ((1+u)^n - 1)|det A'| plus an explicit multiple of eta. An invertible matrix can have the answer 0, infinity or NaN, a singular one a non-zero answer.", "quantifier": "all n, all matrices of f64", "why_tests_cant": "all matrices, all roundings", "anchors": ["alg/src/lin_alg/matrix_impl.rs:det", "alg/src/lin_alg/matrix_impl.rs:lu"]}
{"id": "C108", "title": "Norms of f64 matrices", "statement": "For matrices of finite f64: one_norm and inf_norm are +infinity or the largest column or row sum with a relative error of at most (1+u)^(n-1) - 1, and finite if the exact norm is (by the factor (1+u)^n) below 2^1023; a finite two_norm (of a column, it panics otherwise) or frobenius_norm r satisfies |r^2 - S| <= ((1+u)^k - 1) S + (number of entries)(1+u)^k eta for the exact sum of squares S, with k = n+2 or n+m+2, and they are finite if S is (by such a factor) below 2^1023. NaN columns or rows are ignored by one_norm and inf_norm; the norms with squares overflow and underflow for entries like 2^600 and 2^-600.", "quantifier": "all sizes, all matrices of f64", "why_tests_cant": "all matrices, all roundings", "anchors": ["alg/src/lin_alg/matrix_impl.rs:one_norm", "alg/src/lin_alg/matrix_impl.rs:two_norm", "alg/src/lin_alg/matrix_impl.rs:inf_norm", "alg/src/lin_alg/matrix_impl.rs:frobenius_norm"]}
{"id": "C109", "title": "givens_rotation on f64", "statement": "For all finite a, b, without any bound on their size, the answer (c, s) is finite and (1+u)^-8 <= c^2 + s^2 <= (1+u)^8; if |b| is at least the threshold 1e-12, then |s a + c b| <= 3u min(|a|,|b|) + 3 eta max(|a|,|b|); below the threshold the answer is (1, 0), which rotates nothing.", "quantifier": "all pairs of finite f64", "why_tests_cant": "2^128 pairs, overflow and underflow at the extremes", "anchors": ["alg/src/lin_alg/matrix_impl.rs:givens_rotation"]}
{"id": "C110", "title": "householder_vec on f64", "statement": "On a column x of at most 2^50 finite f64, each zero or of absolute value from 2^-150 to 2^150, the answer (v, beta) is finite and v_0 = 1. If some entry below the first is not zero, then beta v^T v is 2 up to a factor (1+u)^(n+7), so I - beta v v^T is a reflection up to rounding, and every entry x_i, i >= 1, is annihilated by it up to ((1+u)^(7n+27) - 1)|x_i|. If all entries below the first are zero, v is the first unit vector and beta is 0 for x_0 >= 0 and -2 for x_0 < 0. Outside of this range of sizes it fails: NaN for (2^500, 2^-500) and (2^600, 2^600), a matrix far from a reflection for (0, 1.1875*2^-537); and for a negative multiple of the first unit vector beta has the wrong sign.", "quantifier": "all n up to 2^50, all columns of f64 of moderate size, all signs", "why_tests_cant": "all columns, all roundings; a test compares one rounded result with another", "anchors": ["alg/src/lin_alg/matrix_impl.rs:householder_vec", "alg/src/lin_alg/matrix_impl.rs:dot"]}
{"id": "C111", "title": "circum_circle_contains on f64", "statement": "On all f64 values, NaN and infinities included: the first corner of a triangle is never inside its circle, and nothing is inside the circle of a triangle with two equal corners, nor of three collinear corners whose side vectors at the first corner are computed without rounding. For coordinates of absolute value at most M <= 2^100, twice the area at least 2^-200 and condition number k (product of the lengths of the sides at the first corner, in the sum norm, over twice the area) at most 2^43: if the distances of the point and of the first corner from the exact center differ by more than 96 k^2 M 2^-53, the answer is that of exact geometry. Without this margin it fails: a corner can be inside its own circle and the answer depends on the order of the corners; a point can be inside the circle of three collinear corners; with coordinates of 2^600 the center is not inside.", "quantifier": "all triangles and points of f64", "why_tests_cant": "all roundings; a test looks at a few points far from the circle", "anchors": ["geom/src/lib.rs:Triangle::circum_circle_contains", "geom/src/lib.rs:Sphere::contains"]}
{"id": "C112", "title": "delaunay_triangulation on f64", "statement": "It panics exactly when there are no points, or at least two points of which one has a NaN or infinite coordinate. Otherwise, whatever the rounding, the index triples are strictly increasing, in range and pairwise different, and the triangles are those of the triples. For at most 2^40 points with coordinates of absolute value at most M <= 2^30, if no input point is within the margin of C111 of the circle through three other points (input or auxiliary), the answer is a Delaunay triangulation in exact geometry: triangles not degenerate, circles empty, interiors disjoint, and no triangle with a circle that is strictly empty is missing. Without the margin it fails: on six points with coordinates from 0 to 4 two of the returned triangles overlap.", "quantifier": "all lists of points of f64", "why_tests_cant": "all lists and all roundings, with cocircular and repeated points", "anchors": ["geom/src/lib.rs:delaunay_triangulation"]}
{"id": "C113", "title": "The order of symbolic functions and the documented structure", "statement": "The derived comparison of symbolic functions is a total order that agrees with ==. In every expression that can be built with the operators and functions of the crate no Sum directly contains a Sum and no Product directly contains a Product. Expressions built without derivatives, sums and products of lists, and powers of or division by the constants also have summands and factors in strictly increasing order and no Zero or One among the factors, as documented at the type. This fails in general: powers of constants, derivatives, and the sum of three lists whose order breaks the merge of Vector::sum.", "quantifier": "all expressions that can be built from constants and coordinates", "why_tests_cant": "all expression trees, of any size", "anchors": ["analysis/src/lib.rs:AtomicSmoothFn", "analysis/src/lib.rs:AtomicSmoothFn::powi", "analysis/src/lib.rs:AtomicSmoothFn::partial_deriv"]}
{"id": "C114", "title": "The text of a symbolic function determines the function", "statement": "Two expressions built with the operators of the crate that are printed alike have the same values at every point, if the text of a number determines the number; two multi-variable functions that are printed alike have as many components with the same values. (It is because of C113 that this holds: a product directly inside a product would be ambiguous.)", "quantifier": "all pairs of expressions and of functions with several components", "why_tests_cant": "all pairs of expression trees", "anchors": ["analysis/src/lib.rs:AtomicSmoothFn::fmt", "analysis/src/lib.rs:MultiVarFn::fmt", "alg/src/lin_alg.rs:Vector::fmt"]}
{"id": "C115", "title": "The homology of a simplicial complex", "statement": "What is reported for the complex obtained from a sequence of attach calls is, in every dimension, the homology of the abstract simplicial complex of its listed simplices, defined by integer combinations of simplices with the alternating boundary, whatever way the vertices are ordered; with at most 64 labels this is the complex generated by the attached simplices. Consequently the result does not depend on the order of the calls, on repetitions, or on the names of the labels: free ranks and (up to signs and units) torsion coefficients agree, and a dimension reported for one of the two only is trivial.", "quantifier": "all sequences of attach calls with non-empty simplices without repeated labels, all orders of the vertices, all injective renamings, all bounds on the dimension", "why_tests_cant": "the complexes, orders and renamings are unbounded in number and size", "anchors": ["topo_spaces/src/simplicial/mod_impl.rs:SimplicialCplx::attach", "topo_spaces/src/simplicial/mod_impl.rs:boundary_map", "topo_spaces/src/lib.rs:IntegralHomology::new"]}
{"id": "C116", "title": "The Euler characteristic of a simplicial complex", "statement": "The alternating sum of the free ranks of the reported homology equals the alternating sum of the numbers returned by n_cells_of_dim; with at most 64 labels it is the sum of (-1)^(k-1) over the sets of k labels contained in an attached simplex. The same holds for every chain complex with explicit bases whose first boundary map is zero.", "quantifier": "all sequences of attach calls; all chain complexes", "why_tests_cant": "the complexes are unbounded in number, size and dimension", "anchors": ["topo_spaces/src/simplicial/mod_impl.rs:n_cells_of_dim", "topo_spaces/src/lib.rs:IntegralHomology::new"]}
{"id": "C117", "title": "Homology in dimension zero counts connected components", "statement": "The homology in dimension zero of a complex is always reported and is free; its rank is the number of connected components; is_connected returns true exactly when this rank is one.", "quantifier": "all sequences of attach calls, all bounds on the dimension", "why_tests_cant": "the complexes are unbounded in number and size", "anchors": ["topo_spaces/src/simplicial/mod_impl.rs:is_connected", "topo_spaces/src/lib.rs:IntegralHomology::new"]}
{"id": "C118", "title": "Homology of cones and spheres", "statement": "A complex in which every simplex can be extended by one fixed label (for at most 64 labels: all attached simplices share a label, for example a single simplex) is reported to have the homology of a point. The complex of the proper faces of a simplex with n+2 labels, n at least 1, is reported to have the homology of the n-sphere: rank one in dimensions 0 and n, nothing else.", "quantifier": "all cones and all simplices with at least three labels (spheres: up to 64 labels when built from facets), all bounds on the dimension", "why_tests_cant": "simplices of every dimension; the number of faces grows exponentially", "anchors": ["topo_spaces/src/simplicial/mod_impl.rs:SimplicialCplx::attach", "topo_spaces/src/simplicial/mod_impl.rs:boundary_map", "topo_spaces/src/lib.rs:IntegralHomology::new"]}
{"id": "C119", "title": "Fixed-size vectors and matrices of f64", "statement": "For ConstVector<f64> and ConstMatrix<f64>, +, -, multiplication and division by a number and the negative act entry by entry: a finite entry of the result comes from finite entries and carries one rounding error (the negative is exact). dot is within the classical bound of the exact scalar product, and is finite when the products of the entries are not too large.", "quantifier": "all sizes and all f64 entries, including infinities and NaN", "why_tests_cant": "the sizes are arbitrary and each entry has 2^64 values", "anchors": ["alg/src/lin_alg/const_matrix_impl.rs"]}
{"id": "C120", "title": "Homology of a disjoint union", "statement": "If the simplices of a complex are those of two complexes without common labels (for at most 64 labels: if the simplices of two histories without common labels are attached one after the other), then in every dimension up to the bound the reported homology is the direct sum of the two; the free ranks add up.", "quantifier": "all pairs of sequences of attach calls without common labels, all bounds on the dimension", "why_tests_cant": "the complexes are unbounded in number, size and dimension", "anchors": ["topo_spaces/src/simplicial/mod_impl.rs:SimplicialCplx::attach", "topo_spaces/src/simplicial/mod_impl.rs:boundary_map", "topo_spaces/src/lib.rs:IntegralHomology::new"]}
{"id": "C121", "title": "Elementary collapses do not change the reported homology", "statement": "Removing a free face together with the only simplex that contains it, any number of times, does not change the reported homology: the modules are isomorphic, with the same free rank and torsion coefficients up to units. A complex that collapses to a point is reported to have the homology of a point.", "quantifier": "all sequences of attach calls, all sequences of collapses, all bounds on the dimension", "why_tests_cant": "the complexes and the sequences of collapses are unbounded", "anchors": ["topo_spaces/src/simplicial/mod_impl.rs:SimplicialCplx::attach", "topo_spaces/src/simplicial/mod_impl.rs:boundary_map", "topo_spaces/src/lib.rs:IntegralHomology::new"]}
{"id": "C122", "title": "Products of sparse matrices of f64", "statement": "For SparseMatrix<f64>, each entry of sparse*sparse, sparse*dense and dense*sparse that is finite comes from finite stored entries and is within the classical error bound of the exact product, where only positions stored on both sides count as terms; it is finite when the products are not too large. For finite entries the three products equal the dense product of the same matrices bit for bit, except possibly for the sign of zeros, even where they overflow.", "quantifier": "all sizes and all stored f64 entries (at least one)", "why_tests_cant": "the sizes are arbitrary and each entry has 2^64 values", "anchors": ["alg/src/lin_alg/sparse_matrix_impl.rs:Mul for SparseMatrix"]}
{"id": "C123", "title": "Matrices of machine integers are exact or panic", "statement": "For matrices, matrix views, sparse matrices and fixed-size vectors and matrices with machine integer entries (i8 to i128), sums, differences, multiples, negatives, scalar products and matrix products (dense, sparse, and mixed) never return a wrong number: the operation returns the exact result, or it panics. It panics exactly if an entry of the exact result is not representable (sums, differences, multiples, negatives), or if in some entry of a product one of the multiplied terms or one of the partial sums taken in the order of the index is not representable; sparse products only count the positions stored on both sides. No panic happens if l*A*B < 2^(w-1), where l is the inner size and A, B bound the entries. The order matters: a scalar product may panic although its value is representable.", "quantifier": "for all sizes, all views, all entries, all widths w", "why_tests_cant": "The number of pairs of matrices of 64-bit integers is astronomical, and overflow occurs only for rare combinations.", "anchors": ["alg/src/lin_alg/matrix_impl.rs: Add, Sub, Mul, dot", "alg/src/lin_alg/sparse_matrix_impl.rs: Mul", "alg/src/lin_alg/const_matrix_impl.rs: AddAssign, SubAssign, MulAssign, Neg, dot", "alg/src/commutative.rs: PID"]}
{"id": "C124", "title": "Matrices of Rational are exact or panic", "statement": "For matrices, views, sparse matrices and fixed-size vectors and matrices of Rational with canonical entries, sums, differences, multiples, quotients by a non-zero number, scalar products and matrix products (dense, sparse and mixed) never return a wrong number: if the operation returns, every entry is the canonical representation of the exact value; without overflow of the u64 parts it always returns; dividing by zero panics. Scalar products of integral entries return whenever all terms and partial sums are smaller than 2^64 in absolute value. Unary minus of a fixed-size vector has the right value, but is canonical only where the entry is not zero.", "quantifier": "for all sizes, all views, all canonical entries, and any overflow predicate (in particular u64)", "why_tests_cant": "There are astronomically many matrices of 64-bit fractions, and overflow depends on the intermediate fractions of every sum.", "anchors": ["alg/src/lin_alg/matrix_impl.rs: Add, Sub, Mul, Div, dot", "alg/src/lin_alg/sparse_matrix_impl.rs: Mul", "alg/src/lin_alg/const_matrix_impl.rs: AddAssign, SubAssign, MulAssign, DivAssign, Neg, dot", "alg/src/commutative/rational_impl.rs: Add, Sub, Mul, Div, Sum"]}
{"id": "C125", "title": "Formal sums of machine integers are exact or panic", "statement": "For formal sums whose coefficients are w-bit signed integers: sums of any number of them never return a wrong coefficient: if the operation returns, the result is the one computed with unbounded integers; the sum of two formal sums returns exactly when every coefficient of the exact result is representable and panics otherwise; the same for multiples and negatives; a difference additionally panics if the subtrahend has the least machine integer as a coefficient; sums of any number of formal sums return whenever for every generator the absolute values of its coefficients add up to less than 2^(w-1). For three or more summands whether the operation panics depends on the order of the summands, although the exact result is representable.", "quantifier": "for all formal sums in any ordered type of generators, any number of summands, and every word size", "why_tests_cant": "There are unboundedly many formal sums, and overflow depends on the partial sums taken in the order of the merge.", "anchors": ["alg/src/lin_alg.rs: FormalSum Add, Sub, Neg, Mul, Sum"]}
{"id": "C126", "title": "Formal sums form the free module on the generators", "statement": "Vectors built by any history of the public constructors and operators (zero, a generator, a list of different generators, +, -, unary -, multiples, quotients, remove) are in normal form: generators strictly increasing, no zero coefficient. Normal forms correspond one to one to the elements of the free module: every element has exactly one, == is equality of elements, len is the number of non-zero coefficients. Sums, differences, negatives, multiples and quotients (including the operators with a generator on either side, such as 3 * a + b) are those of the free module; quotients by zero panic; remove(i) takes out the i-th term and panics if there is none. from(list) stands for the sum of the listed generators and is in normal form exactly if none is repeated.", "quantifier": "for all vectors over any ordered type of generators, coefficients in any integral domain (field for quotients), all histories", "why_tests_cant": "There are unboundedly many vectors and histories, and equality of representations must coincide with equality of elements for all of them.", "anchors": ["alg/src/lin_alg.rs: Vector len, remove, From, Add, Sub, Neg, Mul, Div, PartialEq", "alg/src/lin_alg.rs: formal_sum_impl"]}
{"id": "C127", "title": "Formal sums with f64 coefficients", "statement": "For formal sums with f64 coefficients the sum of two lists, for every generator, exactly the floating-point sum of the listed coefficients and nothing if that is zero (also for infinities and NaN), with increasing generators; it does not depend on the order of the two. If the coefficients are finite and nothing overflows, every coefficient has a relative error of at most 2^-53 and a generator is missing exactly if its exact coefficient is zero; negatives are exact and v - v is zero. A sum of n vectors has for every generator an error of at most (1+2^-53)^(n-1)-1 times the sum of the absolute values. Multiples and quotients act on every coefficient; a multiple by zero is the zero vector, a quotient by zero panics. A multiple that underflows keeps a zero coefficient, and addition is not associative.", "quantifier": "for all f64 coefficients, all vectors over any ordered type of generators, any number of summands", "why_tests_cant": "There are 2^64 coefficients for every generator; rounding, signed zeros, NaN and cancellation all interact with the comparison with zero.", "anchors": ["alg/src/lin_alg.rs: Vector Add, Sub, Neg, Mul, Div, Sum"]}
{"id": "C128", "title": "Homology of a one-point union", "statement": "If the simplices of a complex are those of two complexes that have exactly one label in common, the homology reported in every positive dimension (up to the bound) is the direct sum of the homologies reported for the two, so free ranks add up; in dimension zero the free rank is the sum less one. With at most 64 labels this holds for one history of attach calls followed by another that shares a single label with it.", "quantifier": "for all histories of attach calls with exactly one common label, all dimension bounds, all dimensions", "why_tests_cant": "It relates three runs of the program on complexes of unbounded size.", "anchors": ["topo_spaces/src/simplicial/mod_impl.rs:SimplicialCplx::attach", "topo_spaces/src/simplicial/mod_impl.rs:boundary_map", "topo_spaces/src/lib.rs:IntegralHomology::new"]}
{"id": "C129", "title": "Homology of a suspension", "statement": "If the simplices of a complex are those of another complex extended by one of two new labels p, q or by none (a suspension; with at most 64 labels: every simplex is attached once with p and once with q), the homology reported in dimension i + 1 is isomorphic to the one reported for the original complex in dimension i, for i > 0, with the same free rank and torsion coefficients; in dimension 1 it is free with the rank of dimension 0 of the original complex less one; in dimension 0 it is free of rank one.", "quantifier": "for all histories of attach calls, all new labels, all dimension bounds and dimensions", "why_tests_cant": "It relates two runs of the program on complexes of unbounded size and all dimensions.", "anchors": ["topo_spaces/src/simplicial/mod_impl.rs:SimplicialCplx::attach", "topo_spaces/src/simplicial/mod_impl.rs:boundary_map", "topo_spaces/src/lib.rs:IntegralHomology::new"]}
{"id": "C130", "title": "Homology in the highest dimension, and of graphs", "statement": "If no simplex has more than i + 1 labels, the homology reported in dimension i is free (all torsion coefficients are units). If only vertices and edges are attached (at most 64 labels), the rank of the homology in dimension 1 plus the number of labels is the number of different edges plus the rank in dimension 0, and dimensions above 1 are trivial.", "quantifier": "for all histories of attach calls, all dimensions; graphs of any shape", "why_tests_cant": "The rank and the torsion are the outcome of an elimination on matrices of unbounded size.", "anchors": ["topo_spaces/src/simplicial/mod_impl.rs:SimplicialCplx::attach", "topo_spaces/src/simplicial/mod_impl.rs:boundary_map", "topo_spaces/src/lib.rs:IntegralHomology::new"]}
{"id": "C131", "title": "Attaching one simplex changes one free rank", "statement": "Attaching one simplex of dimension d whose proper faces are all present and which is not itself present changes exactly one of the reported free ranks, and by one: the rank in dimension d grows by one if d = 0 or a non-zero multiple of the boundary of the simplex already is the boundary of a chain of the complex, and otherwise the rank in dimension d - 1 drops by one. All other reported free ranks (up to the bound) stay the same.", "quantifier": "for all histories of attach calls, all new simplices whose proper faces are present, all dimension bounds and dimensions", "why_tests_cant": "It relates two runs of the program on complexes of unbounded size and all dimensions.", "anchors": ["topo_spaces/src/simplicial/mod_impl.rs:SimplicialCplx::attach", "topo_spaces/src/simplicial/mod_impl.rs:boundary_map", "topo_spaces/src/lib.rs:IntegralHomology::new"]}
{"id": "C132", "title": "Comparisons of cycles, cube factors and cubes", "statement": "The comparison operators obey their contracts. Cycles compare by their first elements (the empty cycle first): reflexive, antisymmetric, transitive, and equal only for equal cycles as far as disjoint cycles are compared. Two cube factors are comparable exactly if they are equal or have no common vertex, the answer being that of their first vertices, reversed when the arguments are exchanged, and transitive on pairwise disjoint factors; `cmp` of factors and of cubes is a total order. What the contracts also require, and what fails: `cmp` of cycles says equal for (0 1) and (0 2); `<` of factors and of cubes is not transitive; `cmp` and `partial_cmp` of factors disagree on a vertex and an edge (they agree on two vertices and on two edges).", "quantifier": "for all cycles, cube factors and cubes", "why_tests_cant": "A contract between all pairs and triples of values.", "anchors": ["alg/src/non_commutative/permutation.rs:Ord for Cycle", "topo_spaces/src/graph.rs:PartialOrd for CubeFactor", "topo_spaces/src/graph.rs:CubeFactor", "topo_spaces/src/cubical.rs:Cube"]}
{"id": "C133", "title": "Comparing matrices and views", "statement": "`==` between two views and between two matrices is true exactly if the sizes and all entries are equal. `==` between a view and a matrix should be the same, but it calls itself with the same arguments and never returns.", "quantifier": "for all matrices, views, sizes and entries, all stack sizes", "why_tests_cant": "All sizes, and non-termination for every input.", "anchors": ["alg/src/lin_alg/matrix_impl.rs:PartialEq for SubMatrix", "alg/src/lin_alg/matrix_impl.rs:PartialEq<Matrix<T>> for SubMatrix", "alg/src/lin_alg/matrix_impl.rs:PartialEq<Matrix<T>> for Matrix"]}
{"id": "C134", "title": "Integral homology determines the Betti numbers over every field", "statement": "For every chain complex with explicit bases whose first boundary map is zero, in particular for every history of attach calls, and for every field K: the dimension of the cycles modulo the boundaries with coefficients in K in dimension i is the free rank IntegralHomology reports in dimension i plus the number of torsion coefficients reported in dimensions i and i - 1 that vanish in K (with multiplicities). In characteristic zero it is the free rank. The numbers HomologyWithFieldCoefficients::homology gives for the same matrices are at least these, and equal to them when the ranks of the matrices are computed correctly (C37).", "quantifier": "for all chain complexes and attach histories, all fields, all dimensions, all dimension bounds", "why_tests_cant": "It relates two algorithms of the code on matrices of unbounded size and quantifies over all fields.", "anchors": ["topo_spaces/src/lib.rs:IntegralHomology::new", "topo_spaces/src/lib.rs:HomologyWithFieldCoefficients::homology", "topo_spaces/src/simplicial/mod_impl.rs:boundary_map"]}
{"id": "C135", "title": "Numbers of cells of configuration complexes", "statement": "For every connected multigraph and every positive number k of points for which the subdivision succeeds: the number of cells of dimension d (at most k) that CubicalCplx::udc reports is the number of matchings of size d of the subdivided graph times (n - 2d choose k - d), with n its number of vertices; in particular n choose k cells of dimension 0, and the number of edges times (n - 2 choose k - 1) cells of dimension 1. The reported dimension is the largest size d of a matching with d at most k and k + d at most n.", "quantifier": "for all connected multigraphs, all numbers of points, all dimensions", "why_tests_cant": "The graphs and numbers of points are unbounded; the count is of an exponential number of cells.", "anchors": ["topo_spaces/src/cubical.rs:CubicalCplx::udc", "topo_spaces/src/cubical.rs:CubicalCplx::expand", "topo_spaces/src/cubical.rs:CubicalCplx::get_index_of", "topo_spaces/src/cubical.rs:CubicalCplx::contains", "topo_spaces/src/cubical.rs:CubicalCplx::get_cell_from_idx"]}
{"id": "C136", "title": "The Smith diagonal is determined by the minors of the input, and classifies it", "statement": "For every non-empty integer matrix, the product of the first k diagonal entries of the result of smith_normal_form is, up to sign, the greatest common divisor of all k-by-k minors of the input (k = 1: of its entries; square matrix and k = n: its determinant). So matrices that differ by invertible integer matrices on both sides (row and column permutations, sign changes, additions of multiples), and a matrix and its transpose, have the same diagonal up to signs; and two matrices of one size with the same diagonal up to signs differ by invertible integer matrices.", "quantifier": "for all non-empty integer matrices of all sizes, all k up to the smaller side", "why_tests_cant": "The result is compared with all minors of the input and with the results for infinitely many equivalent inputs; the algorithm takes different pivots and different numbers of steps on each.", "anchors": ["alg/src/lin_alg/matrix_impl.rs:smith_normal_form"]}
{"id": "C137", "title": "Combinatorial Laplacians know the Betti numbers", "statement": "The example combinatorial_laplacian builds from boundary_map() of a simplicial complex one square matrix per dimension, with a row for every cell, without a size mismatch. Each is symmetric; its null space consists of the chains sent to zero by the boundary map and by the transposed boundary map from above; its eigenvalues are not negative, and the number of eigenvalues zero is the free rank that IntegralHomology reports for the dimension (discrete Hodge theorem). In exact arithmetic; for every chain complex with explicit bases.", "quantifier": "for all histories of attach calls, all dimensions; for all chain complexes with explicit bases whose first map is zero", "why_tests_cant": "The matrices have unbounded size; the claim equates a numerical quantity with the result of the Smith normal form computation.", "anchors": ["topo_spaces/examples/combinatorial_laplacian.rs:28-55 (main)", "topo_spaces/src/simplicial/mod_impl.rs:387-424 (boundary_map)", "topo_spaces/src/lib.rs:87-191 (IntegralHomology)"]}
{"id": "C138", "title": "Weighted Laplacians know the Betti numbers, whatever the weights", "statement": "For all positive weights of the cells the example weighted_laplacian builds in every dimension, without a size mismatch, a square matrix with a row for every cell (the weight matrices get their sizes from n_cells_of_dim, the boundary matrices theirs from boundary_map) that is symmetric for the weighted inner product; its eigenvalues are real and not negative, and the number of eigenvalues zero is the free rank that IntegralHomology reports, whatever the weights. In exact arithmetic.", "quantifier": "for all histories of attach calls, all positive weights, all dimensions", "why_tests_cant": "Weights range over the real numbers; sizes are unbounded; the top and the bottom dimension are treated by different code.", "anchors": ["topo_spaces/examples/weighted_laplacian.rs:29-109 (main)", "topo_spaces/src/simplicial/mod_impl.rs:271-320 (n_cells_of_dim)", "topo_spaces/src/simplicial/mod_impl.rs:387-424 (boundary_map)"]}
{"id": "C139", "title": "The Laplacian of a weighted graph counts its components", "statement": "For a WeightedSimpleGraph built from edges with weights that are not negative, the eigenvalues of laplacian() are not negative, its null space consists of the functions on the vertices that agree on any two vertices joined by an edge of positive weight, and the number of eigenvalues zero is the number of components of the graph with the edges of positive weight (what the example graph_laplacian calls the offset). In exact arithmetic.", "quantifier": "for all lists of weighted edges that `from` accepts, with weights that are not negative", "why_tests_cant": "The graphs are unbounded and the weights are real numbers.", "anchors": ["topo_spaces/src/graph.rs:1667-1732 (WeightedSimpleGraph, from, laplacian)", "topo_spaces/examples/graph_laplacian.rs:84-86, 126-128 (main, draw)"]}
{"id": "C140", "title": "Subdividing simplices does not change the reported homology", "statement": "Replacing a simplex e of the complex by the cone of a new vertex over its boundary (stellar subdivision: every attached simplex that contains e is replaced by the simplices in which the new vertex takes the place of one vertex of e) does not change the reported homology: the modules are isomorphic, with the same free rank and torsion coefficients up to units; the same after any number of subdivisions. More generally it is the same for two complexes to which one complex on their labels collapses.", "quantifier": "all sequences of attach calls (with at most 64 labels for the version on attach calls), all simplices, all sequences of subdivisions, all bounds on the dimension", "why_tests_cant": "the complexes and the sequences of subdivisions are unbounded", "anchors": ["topo_spaces/src/simplicial/mod_impl.rs:SimplicialCplx::attach", "topo_spaces/src/simplicial/mod_impl.rs:boundary_map", "topo_spaces/src/lib.rs:IntegralHomology::new"]}
{"id": "C141", "title": "Removing a dominated vertex does not change the reported homology", "statement": "If every simplex that contains the vertex x is still a simplex when the vertex y is added (for example if every attached simplex with x has y too), leaving x out of all simplices does not change the reported homology: the modules are isomorphic, with the same free rank and torsion coefficients up to units.", "quantifier": "all sequences of attach calls (with at most 64 labels for the version on attach calls), all pairs of vertices, all bounds on the dimension", "why_tests_cant": "the complexes are unbounded", "anchors": ["topo_spaces/src/simplicial/mod_impl.rs:SimplicialCplx::attach", "topo_spaces/src/simplicial/mod_impl.rs:boundary_map", "topo_spaces/src/lib.rs:IntegralHomology::new"]}
{"id": "C142", "title": "Contracting an edge does not change the reported homology", "statement": "If every set of vertices (also the empty one) that forms a simplex with x and one with y forms a simplex with both, writing x for y in every attached simplex does not change the reported homology: the modules are isomorphic, with the same free rank and torsion coefficients up to units.", "quantifier": "all sequences of attach calls (with at most 64 labels for the version on attach calls), all edges with the condition, all bounds on the dimension", "why_tests_cant": "the complexes are unbounded; the condition on the edge is about all simplices", "anchors": ["topo_spaces/src/simplicial/mod_impl.rs:SimplicialCplx::attach", "topo_spaces/src/simplicial/mod_impl.rs:boundary_map", "topo_spaces/src/lib.rs:IntegralHomology::new"]}
{"id": "C143", "title": "The barycentric subdivision has the same reported homology", "statement": "If the vertices of a second complex stand for the simplices of the first, one for each, and its simplices are the sets of vertices that stand for simplices any two of which lie one in the other (the barycentric subdivision), the same homology is reported for both: the modules are isomorphic, with the same free rank and torsion coefficients up to units. The labels of the two complexes may have different types.", "quantifier": "all pairs of sequences of attach calls (with at most 64 labels for the version on attach calls) that generate a complex and its barycentric subdivision, all types of labels, all bounds on the dimension", "why_tests_cant": "the complexes are unbounded; the bases of the two chain complexes have different sizes", "anchors": ["topo_spaces/src/simplicial/mod_impl.rs:SimplicialCplx::attach", "topo_spaces/src/simplicial/mod_impl.rs:boundary_map", "topo_spaces/src/lib.rs:IntegralHomology::new"]}
{"id": "C144", "title": "Gluing two complexes along a part without homology", "statement": "If the simplices of a complex are those of two complexes, and the homology of a point is reported for their common part, then in every positive dimension up to the bound the homology reported for the whole is the direct sum of those reported for the two complexes, and in dimension zero the free rank is one less than the sum. If the homology of a point is also reported for the second complex, everything reported for the whole is as for the first one; in particular attaching one simplex whose old faces form a part like a point changes nothing.", "quantifier": "all pairs of sequences of attach calls and all sequences that generate the common part (with at most 64 labels for the version on attach calls), all types of labels, all bounds on the dimension", "why_tests_cant": "the complexes are unbounded; the bases of the chain complexes have different sizes and no simplex of one has a counterpart in the other", "anchors": ["topo_spaces/src/simplicial/mod_impl.rs:SimplicialCplx::attach", "topo_spaces/src/simplicial/mod_impl.rs:boundary_map", "topo_spaces/src/lib.rs:IntegralHomology::new"]}
{"id": "C145", "title": "Free ranks of a union (Mayer-Vietoris)", "statement": "If the simplices of a complex are those of two complexes, with any common part, the free ranks reported for the whole, the two complexes and the common part satisfy the inequalities of the exact Mayer-Vietoris sequence: each rank is at most the sum of its neighbours; more exactly b + b12 = b1 + b2 + d(i) + d(i-1) with d(i) at most b12(i), where d(i) = 0 if and only if every chain that is a boundary in both parts has a multiple that is a boundary in the common part. The alternating sums of the free ranks of the whole and the common part add up to those of the two complexes.", "quantifier": "all pairs of sequences of attach calls and all sequences that generate the common part (with at most 64 labels for the version on attach calls), all types of labels, all bounds on the dimension, all orders of the labels", "why_tests_cant": "the complexes are unbounded; the ranks come from Smith forms of four unrelated families of matrices", "anchors": ["topo_spaces/src/simplicial/mod_impl.rs:SimplicialCplx::attach", "topo_spaces/src/simplicial/mod_impl.rs:boundary_map", "topo_spaces/src/lib.rs:IntegralHomology::new"]}
{"id": "C146", "title": "Euler characteristic with field coefficients", "statement": "For every complex whose first boundary matrix is zero, homology() with coefficients in any field answers without panic, and the alternating sum of its answers is the alternating sum of the widths of the boundary matrices, also where single answers are wrong because a rank came out too small. For a simplicial complex it is the alternating sum of the free ranks of the integral homology; for the configuration complex of a connected multigraph it is the alternating sum over d of the number of matchings of size d of the subdivided graph times the binomial coefficient n - 2d over points - d.", "quantifier": "all chain complexes over all fields; all sequences of attach calls; all connected multigraphs and all positive numbers of points", "why_tests_cant": "the complexes and the fields are unbounded; the answers depend on eliminations whose ranks may be wrong", "anchors": ["topo_spaces/src/lib.rs:HomologyWithFieldCoefficients::homology", "topo_spaces/src/cubical.rs:CubicalCplx::boundary_map", "topo_spaces/src/simplicial/mod_impl.rs:boundary_map", "alg/src/lin_alg/matrix_impl.rs:rank_as_linear_map"]}
{"id": "C147", "title": "Combinatorial Laplacians on machine integers", "statement": "For every sequence of attach calls, the entries of all boundary matrices are -1, 0 or 1; wherever two consecutive ones x and y are stored, the example's x.transpose() * x + y * y.transpose() on i64 overflows nowhere and returns exactly the combinatorial Laplacian, and so does the product for the top dimension; the entries of the result are at most the number of rows of x plus the number of columns of y in absolute value, and their conversion to f64 is exact.", "quantifier": "all sequences of attach calls; all placements of the matrices in memory; all matrices with entries -1, 0, 1 and at most 65535 rows and columns", "why_tests_cant": "an overflow depends on the sizes of the complex, which are unbounded in tests only by memory; every order of accumulation matters", "anchors": ["topo_spaces/examples/combinatorial_laplacian.rs:main", "topo_spaces/src/simplicial/mod_impl.rs:boundary_map", "alg/src/lin_alg/matrix_impl.rs:transpose", "alg/src/lin_alg/matrix_impl.rs:Mul"]}
{"id": "C148", "title": "Homology of closed pseudomanifolds: the report decides orientability", "statement": "For every sequence of attach calls whose listed simplices form a closed pseudomanifold of dimension n >= 1 (pure, every (n-1)-simplex in exactly two n-simplices, n-simplices joined through (n-1)-simplices): if the n-simplices can be oriented coherently, the reported homology has one free generator in dimension n and no torsion in dimension n-1; if not, it has nothing in dimension n and exactly one torsion summand, of order 2, in dimension n-1. In particular closed surfaces with Euler characteristic x are reported as Z, Z^(2-x), Z or as Z, Z^(1-x) + Z/2, 0; the hollow tetrahedron as Z, 0, Z and the six-vertex projective plane as Z, Z/2, 0.", "quantifier": "all sequences of attach calls whose complex is a closed pseudomanifold, of every dimension and size; all bounds on the dimension that include n; all orders of the labels", "why_tests_cant": "there are infinitely many triangulated manifolds in each dimension; tests can only try a few of them", "anchors": ["topo_spaces/src/simplicial/mod_impl.rs:attach", "topo_spaces/src/simplicial/mod_impl.rs:boundary_map", "topo_spaces/src/lib.rs:IntegralHomology"]}
{"id": "C149", "title": "Homology of pseudomanifolds with boundary", "statement": "For every sequence of attach calls whose listed simplices form a pseudomanifold of dimension n >= 1 with nonempty boundary (pure, every (n-1)-simplex in at most two n-simplices and some in only one, n-simplices joined through (n-1)-simplices), orientable or not, the report has nothing in dimension n, no torsion in dimension n-1, and one free generator in dimension 0. In particular surfaces with boundary and Euler characteristic x are reported as Z, Z^(1-x), 0; the five-triangle Moebius strip as Z, Z, 0.", "quantifier": "all sequences of attach calls whose complex is a pseudomanifold with boundary, of every dimension and size; all bounds on the dimension that include n", "why_tests_cant": "there are infinitely many such complexes in each dimension; tests can only try a few of them", "anchors": ["topo_spaces/src/simplicial/mod_impl.rs:attach", "topo_spaces/src/simplicial/mod_impl.rs:boundary_map", "topo_spaces/src/lib.rs:IntegralHomology"]}
{"id": "C150", "title": "Betti numbers of pseudomanifolds over a field", "statement": "For every sequence of attach calls whose listed simplices form a closed pseudomanifold of dimension n >= 1 and every field K, the boundary matrices of the program, with entries read in K, have in dimension n Betti number 1 if the n-simplices can be oriented coherently or if 2 = 0 in K, and 0 otherwise; for a pseudomanifold with boundary it is 0 over every field. The six-vertex projective plane has 1 over the field with two elements and 0 over the rationals.", "quantifier": "all sequences of attach calls whose complex is a pseudomanifold, of every dimension and size; all fields", "why_tests_cant": "there are infinitely many such complexes and fields; which entries vanish depends on the characteristic", "anchors": ["topo_spaces/src/simplicial/mod_impl.rs:attach", "topo_spaces/src/simplicial/mod_impl.rs:boundary_map", "topo_spaces/src/lib.rs:homology"]}
{"id": "C151", "title": "Cell counts of pseudomanifolds", "statement": "For every sequence of attach calls whose listed simplices form a pseudomanifold of dimension n >= 1, the values a = n_cells_of_dim(n) and b = n_cells_of_dim(n-1) satisfy a > 0 and (n+1) a = 2 b if it is closed, and (n+1) a < 2 b if it has boundary.", "quantifier": "all sequences of attach calls whose complex is a pseudomanifold, of every dimension and size", "why_tests_cant": "the relation couples two inclusion-exclusion counts over unboundedly many simplices", "anchors": ["topo_spaces/src/simplicial/mod_impl.rs:attach", "topo_spaces/src/simplicial/mod_impl.rs:n_cells_of_dim"]}
{"id": "C152", "title": "Homology depends on a skeleton only; skeleta of a simplex", "statement": "For any two sequences of attach calls whose listed simplices with at most i+2 labels agree, the homology reported in dimension i has the same free rank and the same torsion coefficients (other than 1); if they agree only on the simplices with i+1 labels and the second has at least the simplices with i+2 labels of the first, its group is a quotient of the first one. If the attached simplices have exactly the non-empty sets of at most k+1 out of N+1 <= 64 labels as faces (1 <= k), the reported homology is Z in dimension 0, Z^binom(N,k+1) in dimension k, and 0 in every other dimension.", "quantifier": "all pairs of sequences of attach calls, all dimensions, all dimension bounds that do not cut off dimension i; all N < 64 and k", "why_tests_cant": "the statement compares unboundedly many pairs of inputs that differ in all higher simplices", "anchors": ["topo_spaces/src/simplicial/mod_impl.rs:SimplicialCplx::attach", "topo_spaces/src/simplicial/mod_impl.rs:boundary_map", "topo_spaces/src/lib.rs:IntegralHomology::new"]}
{"id": "C153", "title": "The Mayer-Vietoris sequence, with torsion; links", "statement": "If the simplices listed for a sequence of attach calls h are those of h1 and those of h2, and those of h12 are the common ones, the groups reported for the four (torsion included) fit into an exact sequence ... -> H_{i+1}(h) -> H_i(h12) -> H_i(h1) x H_i(h2) -> H_i(h) -> H_{i-1}(h12) -> ... -> H_0(h) -> 0. In particular, if h1 and h2 are reported with the homology of a point, H_{i+2}(h) is isomorphic to H_{i+1}(h12) for every i with the same free rank and torsion coefficients, and H_1(h) is free. With at most 64 labels: removing a vertex whose link is reported with the homology of a point does not change the reported homology.", "quantifier": "all quadruples of sequences of attach calls, all dimensions, all ways to write a complex as a union; all vertices", "why_tests_cant": "exactness quantifies over all elements of infinite groups reported for four unbounded inputs", "anchors": ["topo_spaces/src/simplicial/mod_impl.rs:SimplicialCplx::attach", "topo_spaces/src/simplicial/mod_impl.rs:boundary_map", "topo_spaces/src/lib.rs:IntegralHomology::new"]}
{"id": "C154", "title": "Discrete Morse inequalities for the reported homology", "statement": "If the simplices listed for a sequence of attach calls can be taken apart completely by elementary collapses and by removals of single simplices that are not faces of others, c_i of the latter being of dimension i, then in every dimension i within the bound: the reported free rank is at most c_i; nothing is reported if c_i = 0; no torsion is reported if c_{i+1} = 0; and b_i - b_{i-1} + b_{i-2} - ... <= c_i - c_{i-1} + c_{i-2} - .... If no two consecutive c_i are non-zero, the report is exactly Z^{c_i} in dimension i. With at most 64 labels, a list of such steps can be checked mechanically.", "quantifier": "all sequences of attach calls, all ways to take the complex apart (of every length), all dimensions within the bound", "why_tests_cant": "ranges over all decompositions of unboundedly large complexes", "anchors": ["topo_spaces/src/simplicial/mod_impl.rs:SimplicialCplx::attach", "topo_spaces/src/simplicial/mod_impl.rs:boundary_map", "topo_spaces/src/lib.rs:IntegralHomology::new"]}
{"id": "C155", "title": "One point on a graph", "statement": "For a connected multigraph with V vertices and E edges, subdivided for any number of points: the subdivided graph has E - V more edges than vertices, hence the configuration complex has C(n, points) cells of dimension 0 and (E + n - V) C(n-2, points-1) cells of dimension 1. For one point, the boundary maps of the configuration complex have the homology of the graph itself: Z in degree 0, Z^(E-V+1) in degree 1, nothing above; with coefficients in any field homology() answers with two numbers whose difference is V - E.", "quantifier": "all connected multigraphs with loops and multiple edges, all numbers of points (cells) and one point (homology), all fields", "why_tests_cant": "ranges over all connected multigraphs of every size", "anchors": ["topo_spaces/src/cubical.rs:CubicalCplx::udc", "topo_spaces/src/cubical.rs:CubicalCplx::expand", "topo_spaces/src/cubical.rs:CubicalCplx::get_index_of", "topo_spaces/src/cubical.rs:CubicalCplx::contains", "topo_spaces/src/cubical.rs:CubicalCplx::get_cell_from_idx"]}
{"id": "C156", "title": "Two points on a graph", "statement": "For a connected multigraph with V vertices and E edges, subdivided for two points into a graph with n vertices, the configuration complex has C(n,2) cells of dimension 0, (E+n-V)(n-2) of dimension 1 and C(E+n-V,2) - (n-V) - sum of C(d,2) of dimension 2, the sum over the degrees d of the vertices (loops counted twice). The Euler characteristic does not depend on the subdivision: twice it is 2V + b(b+3) - sum of d(d-1), b = E-V. With coefficients in any field the alternating sum of the (at most three) numbers homology() returns has the same value.", "quantifier": "all connected multigraphs with loops and multiple edges, all fields", "why_tests_cant": "ranges over all connected multigraphs of every size and shape", "anchors": ["topo_spaces/src/cubical.rs:CubicalCplx::udc", "topo_spaces/src/cubical.rs:CubicalCplx::expand", "topo_spaces/src/cubical.rs:CubicalCplx::get_index_of", "topo_spaces/src/cubical.rs:CubicalCplx::contains", "topo_spaces/src/cubical.rs:CubicalCplx::get_cell_from_idx"]}
{"id": "C157", "title": "Components and loops over a field", "statement": "For the configuration complex of a connected multigraph (any number of points), the first Betti number over every field is 1; homology() over that field answers first with a number that is at least 1, and is 1 exactly if the rank of the boundary matrix of dimension 1 is computed correctly. For one point and a multigraph with V vertices and E edges, homology() answers [1 + t, E - V + 1 + t] for some t, and t = 0 exactly if that rank is computed correctly.", "quantifier": "all connected multigraphs with loops and multiple edges, all numbers of points, all fields", "why_tests_cant": "ranges over all connected multigraphs of every size and all fields", "anchors": ["topo_spaces/src/lib.rs:HomologyWithFieldCoefficients::homology", "topo_spaces/src/cubical.rs:CubicalCplx::udc", "alg/src/lin_alg/matrix_impl.rs:rank_as_linear_map"]}
{"id": "C158", "title": "One point on a tree, over every field", "statement": "For a tree with at least one edge (a connected multigraph with one more vertex than edges) and one point, homology() of the configuration complex answers [1, 0] over every field, and the rank of its boundary matrix is computed correctly.", "quantifier": "all trees with at least one edge, all vertex names and edge orders, all fields", "why_tests_cant": "ranges over all trees of every size and all fields", "anchors": ["topo_spaces/src/lib.rs:HomologyWithFieldCoefficients::homology", "topo_spaces/src/cubical.rs:CubicalCplx::udc", "alg/src/lin_alg/matrix_impl.rs:rank_as_linear_map"]}
