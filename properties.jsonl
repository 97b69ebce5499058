{"id": "C01", "title": "Gaussian elimination preserves the row space and reaches echelon form", "statement": "For every 0/1 matrix m and every positive blocksize, m.gauss() rewrites m in place by row additions only (so the GF(2) row space is unchanged) and leaves it in row echelon form; with full_reduce=True it is in reduced row echelon form.", "quantifier": "all rectangular 0/1 matrices, all block sizes >= 1, both values of full_reduce", "why_tests_cant": "Tests sample a few random matrices of small size; the chunk/section bookkeeping has corner cases at every (rows, cols, blocksize) combination.", "anchors": ["pyzx/linalg.py:Mat2.gauss", "pyzx/linalg.py:Mat2.row_add"]}
{"id": "C02", "title": "gauss and rank return the true rank", "statement": "The integer returned by m.gauss(...) and m.rank() is the rank over GF(2) of the matrix m had before the call.", "quantifier": "all rectangular 0/1 matrices, all block sizes >= 1, full_reduce on or off", "why_tests_cant": "The rank of an unbounded family of matrices has no finite oracle.", "anchors": ["pyzx/linalg.py:Mat2.gauss", "pyzx/linalg.py:Mat2.rank"]}
{"id": "C03", "title": "gauss replays its row operations faithfully on x and y", "statement": "If x (resp. y) is passed to m.gauss, then with E the product of the elementary row operations applied, the new m is E*m0, the new x is E*x0 and the new y is y0*E^-1; in particular y0=id gives y_new * m_new = m0.", "quantifier": "all matrices, all x with as many rows, all y with as many columns as m has rows, all block sizes", "why_tests_cant": "Holds for every trace of row operations, not just the ones random tests produce.", "anchors": ["pyzx/linalg.py:Mat2.gauss", "pyzx/circuit/__init__.py:Circuit.row_add", "pyzx/circuit/__init__.py:Circuit.col_add"]}
{"id": "C04", "title": "gauss is independent of call history although its pivot list default argument is shared", "statement": "The result of m.gauss(...) (matrix, rank, and row operations) does not depend on what earlier calls left in the shared mutable default pivot_cols list.", "quantifier": "all matrices, all block sizes, all contents of the stale list left by any history of calls", "why_tests_cant": "Depends on the whole call history of the process.", "anchors": ["pyzx/linalg.py:Mat2.gauss (pivot_cols=[] default)"]}
{"id": "C05", "title": "factor returns a rank factorisation", "statement": "m.factor() returns (m0, m1) with m0*m1 == m, where the inner dimension is rank(m).", "quantifier": "all rectangular 0/1 matrices", "why_tests_cant": "infinitely many inputs", "anchors": ["pyzx/linalg.py:Mat2.factor"]}
{"id": "C06", "title": "inverse is sound and complete", "statement": "m.inverse() returns None exactly when the matrix is not square or singular; otherwise it returns a matrix n with n*m = m*n = id.", "quantifier": "all rectangular 0/1 matrices with at least one row", "why_tests_cant": "completeness (None only if singular) is a universally quantified statement over candidate inverses", "anchors": ["pyzx/linalg.py:Mat2.inverse"]}
{"id": "C07", "title": "solve is sound and complete", "statement": "m.solve(b) returns a vector x with m*x = b if one exists and returns None otherwise.", "quantifier": "all matrices m and all column vectors b with as many rows", "why_tests_cant": "completeness quantifies over all candidate solutions", "anchors": ["pyzx/linalg.py:Mat2.solve"]}
{"id": "C08", "title": "nullspace returns a basis of the kernel", "statement": "m.nullspace() returns linearly independent vectors, each annihilated by m, whose span is the whole kernel (cols - rank many).", "quantifier": "all rectangular 0/1 matrices", "why_tests_cant": "spanning quantifies over all kernel vectors", "anchors": ["pyzx/linalg.py:Mat2.nullspace"]}
{"id": "C09", "title": "to_cnots synthesises a CNOT circuit that row-reduces the matrix", "statement": "For every invertible m, the circuit of the CNOTs returned by m.to_cnots(optimize, use_log_blocksize) maps every computational basis state |v> to |v*m> (v a row vector), whatever the options.", "quantifier": "all invertible matrices, both options", "why_tests_cant": "infinitely many matrices; the optimizing search tries many block sizes", "anchors": ["pyzx/linalg.py:Mat2.to_cnots", "pyzx/linalg.py:CNOTMaker"]}
{"id": "C10", "title": "graph bookkeeping invariants hold after every sequence of operations", "statement": "After any sequence of add_vertex(es)/add_vertex_indexed/add_edge/remove_edge/remove_vertex/set_type/set_phase calls with existing vertices, adjacency is symmetric with equal edge types in both directions, every endpoint of an edge is a vertex, num_edges() is the number of connected pairs, and a newly added vertex gets a name distinct from all present ones.", "quantifier": "all finite histories of graph operations", "why_tests_cant": "ranges over all histories", "anchors": ["pyzx/graph/graph_s.py:GraphS"]}
{"id": "C11", "title": "smart add_edge implements the spider and Hopf laws exactly", "statement": "Adding an edge between two Z/X vertices that are already connected yields a graph denoting exactly (including the scalar) the diagram with the two parallel edges.", "quantifier": "all graphs, all vertex pairs, all combinations of vertex and edge types", "why_tests_cant": "ranges over all surrounding graphs and all phases", "anchors": ["pyzx/graph/graph_s.py:GraphS.add_edge", "pyzx/graph/scalar.py:Scalar.add_power"]}
{"id": "C12", "title": "the scalar object is a faithful multiplicative record", "statement": "to_number() of a scalar after add_power/add_phase/add_node/add_float/mult_with_scalar is the product of the former value with the factor that was added, and copy(conjugate=True) denotes the complex conjugate.", "quantifier": "all scalars, all rational phases, all complex floats", "why_tests_cant": "ranges over all rational phases and histories", "anchors": ["pyzx/graph/scalar.py:Scalar"]}
{"id": "C13", "title": "add_spider_pair multiplies by the value of a connected pair of spiders", "statement": "add_spider_pair(p1,p2) multiplies the scalar by the value of two Z-spiders with phases p1, p2 connected by a Hadamard edge.", "quantifier": "all rational phases p1, p2", "why_tests_cant": "case analysis over all rationals with special branches at multiples of 1/2", "anchors": ["pyzx/graph/scalar.py:Scalar.add_spider_pair"]}
{"id": "C14", "title": "spider fusion preserves the linear map", "statement": "Applying the spider-fusion rule (rules.spider, basicrules.fuse) to any match leaves the denoted tensor, including the scalar, unchanged, and removes the fused vertex.", "quantifier": "all graphs, all matches, all phases and neighbourhoods", "why_tests_cant": "ranges over all diagrams", "anchors": ["pyzx/rules.py:spider", "pyzx/rules.py:match_spider_parallel", "pyzx/basicrules.py:fuse"]}
{"id": "C15", "title": "identity removal preserves the linear map", "statement": "Removing a phase-0 arity-2 Z/X spider and reconnecting its neighbours with the composed edge type leaves the denoted tensor unchanged.", "quantifier": "all graphs and matches", "why_tests_cant": "ranges over all diagrams", "anchors": ["pyzx/rules.py:match_ids_parallel", "pyzx/rules.py:remove_ids", "pyzx/basicrules.py:remove_id"]}
{"id": "C16", "title": "local complementation preserves the linear map including the scalar", "statement": "lcomp on any matched vertex set (interior Z-spiders of phase +-pi/2 with only Hadamard edges) preserves the denoted tensor exactly.", "quantifier": "all graphs, all sets of simultaneous matches the matcher can return in any iteration order", "why_tests_cant": "ranges over all diagrams and set iteration orders", "anchors": ["pyzx/rules.py:match_lcomp_parallel", "pyzx/rules.py:lcomp"]}
{"id": "C17", "title": "pivoting preserves the linear map including the scalar", "statement": "pivot on any matched pairs of connected Pauli spiders (also the boundary and gadget variants) preserves the denoted tensor exactly.", "quantifier": "all graphs, all sets of simultaneous matches in any iteration order", "why_tests_cant": "ranges over all diagrams and set iteration orders", "anchors": ["pyzx/rules.py:match_pivot_parallel", "pyzx/rules.py:match_pivot_gadget", "pyzx/rules.py:match_pivot_boundary", "pyzx/rules.py:pivot"]}
{"id": "C18", "title": "parallel matchers return independent matches", "statement": "For every order in which candidates are visited, the matches returned by the parallel matchers satisfy the rule's side condition in the graph they were computed on and do not interfere with each other.", "quantifier": "all graphs, all candidate visiting orders, all num limits", "why_tests_cant": "set.pop order is unspecified; tests see one order", "anchors": ["pyzx/rules.py:match_spider_parallel", "pyzx/rules.py:match_pivot_parallel", "pyzx/rules.py:match_lcomp_parallel", "pyzx/rules.py:match_ids_parallel"]}
{"id": "C19", "title": "phase gadget fusion preserves the linear map", "statement": "merge_phase_gadgets replaces phase gadgets with equal target sets by one gadget with the summed phase and preserves the denoted tensor exactly.", "quantifier": "all graphs, all matches", "why_tests_cant": "ranges over all diagrams", "anchors": ["pyzx/rules.py:match_phase_gadgets", "pyzx/rules.py:merge_phase_gadgets"]}
{"id": "C20", "title": "state copy preserves the linear map", "statement": "apply_copy on an arity-1 Pauli spider connected to another spider copies it through with the exact scalar.", "quantifier": "all graphs, all matches", "why_tests_cant": "ranges over all diagrams", "anchors": ["pyzx/rules.py:match_copy", "pyzx/rules.py:apply_copy"]}
{"id": "C21", "title": "supplementarity preserves the linear map", "statement": "apply_supplementarity on any match preserves the denoted tensor exactly.", "quantifier": "all graphs, all matches", "why_tests_cant": "ranges over all diagrams", "anchors": ["pyzx/rules.py:match_supplementarity", "pyzx/rules.py:apply_supplementarity"]}
{"id": "C22", "title": "strong complementarity / bialgebra preserves the linear map", "statement": "basicrules.strong_comp and rules.bialg on any match preserve the denoted tensor with the recorded scalar.", "quantifier": "all graphs, all matches", "why_tests_cant": "ranges over all diagrams and arities", "anchors": ["pyzx/basicrules.py:strong_comp", "pyzx/rules.py:bialg"]}
{"id": "C23", "title": "colour change preserves the linear map", "statement": "basicrules.color_change, simplify.to_gh and simplify.to_rg preserve the denoted tensor for every choice of vertices to flip.", "quantifier": "all graphs, all selections of vertices", "why_tests_cant": "ranges over all diagrams", "anchors": ["pyzx/basicrules.py:color_change", "pyzx/simplify.py:to_gh", "pyzx/simplify.py:to_rg"]}
{"id": "C24", "title": "isolated vertices and pairs are absorbed into the scalar exactly", "statement": "remove_isolated_vertices deletes degree-0 spiders and isolated connected pairs and multiplies the scalar by their value.", "quantifier": "all graphs", "why_tests_cant": "ranges over all diagrams and phases", "anchors": ["pyzx/graph/base.py:BaseGraph.remove_isolated_vertices", "pyzx/graph/scalar.py:Scalar.add_spider_pair"]}
{"id": "C25", "title": "graph composition, tensor product and adjoint have their linear-algebraic meaning", "statement": "g1.compose(g2) denotes the matrix product, g1.tensor(g2) the Kronecker product and g.adjoint() the conjugate transpose.", "quantifier": "all pairs of graphs with matching boundaries", "why_tests_cant": "ranges over all diagrams", "anchors": ["pyzx/graph/base.py:BaseGraph.compose", "pyzx/graph/base.py:BaseGraph.tensor", "pyzx/graph/base.py:BaseGraph.adjoint"]}
{"id": "C26", "title": "apply_state and apply_effect plug the named states", "statement": "apply_state(s)/apply_effect(s) compose the diagram with the product of |0>,|1>,|+>,|-> named by the string, with the exact scalar; the inputs (outputs) marked / stay inputs (outputs) in their order; any other character or a string that is too long raises.", "quantifier": "all graphs whose inputs and outputs are boundary vertices with one neighbour, all state strings", "why_tests_cant": "ranges over all diagrams", "anchors": ["pyzx/graph/base.py:BaseGraph.apply_state", "pyzx/graph/base.py:BaseGraph.apply_effect"]}
{"id": "C27", "title": "every simplifier loop terminates and preserves the linear map", "statement": "The simp loops (spider_simp, id_simp, lcomp_simp, pivot_simp, ...) and interior_clifford_simp/clifford_simp terminate on every finite diagram and preserve its tensor exactly.", "quantifier": "all graphs, all candidate orders at every round", "why_tests_cant": "termination and preservation over unboundedly long rewrite sequences", "anchors": ["pyzx/simplify.py:simp", "pyzx/simplify.py:interior_clifford_simp", "pyzx/simplify.py:clifford_simp", "pyzx/simplify.py:full_reduce"]}
{"id": "C28", "title": "translating a circuit to a graph preserves its unitary", "statement": "circuit.to_graph() denotes the product of the gate matrices of the circuit (up to the stated scalar) for every circuit of basic gates.", "quantifier": "all circuits, any number of qubits and gates", "why_tests_cant": "ranges over all circuits", "anchors": ["pyzx/circuit/graphparser.py:circuit_to_graph", "pyzx/circuit/gates.py"]}
{"id": "C29", "title": "gate decompositions preserve the unitary", "statement": "to_basic_gates of every gate denotes the same unitary as the gate up to global phase.", "quantifier": "all gates, all rational phases, all qubit positions", "why_tests_cant": "ranges over all phases", "anchors": ["pyzx/circuit/gates.py:Gate.to_basic_gates"]}
{"id": "C30", "title": "circuit adjoint inverts the circuit", "statement": "For circuits of gates with a correct adjoint, c.adjoint() followed by c is the identity.", "quantifier": "all circuits", "why_tests_cant": "ranges over all circuits and phases", "anchors": ["pyzx/circuit/__init__.py:Circuit.adjoint", "pyzx/circuit/gates.py:Gate.to_adjoint"]}
{"id": "C31", "title": "phase splitting preserves the rotation", "statement": "ZPhase.split_phases and XPhase.split_phases return gates whose product is the original rotation.", "quantifier": "all rational phases", "why_tests_cant": "ranges over all phases", "anchors": ["pyzx/circuit/gates.py:ZPhase.split_phases", "pyzx/circuit/gates.py:XPhase.split_phases"]}
{"id": "C32", "title": "permutation_as_swaps realises the permutation", "statement": "The swap list returned for a permutation dictionary composes to that permutation and has fewer than n swaps.", "quantifier": "all permutations of all sizes", "why_tests_cant": "n! permutations for every n", "anchors": ["pyzx/extract.py:permutation_as_swaps"]}
{"id": "C33", "title": "circuit extraction is sound", "statement": "Whenever extract_circuit returns, the circuit it returns denotes the same linear map as the input graph up to a nonzero scalar.", "quantifier": "all graphs of the required shape, all options", "why_tests_cant": "ranges over all diagrams and loop iterations", "anchors": ["pyzx/extract.py:extract_circuit", "pyzx/extract.py:clean_frontier", "pyzx/extract.py:apply_cnots", "pyzx/extract.py:neighbors_of_frontier", "pyzx/extract.py:remove_gadget", "pyzx/extract.py:graph_to_swaps"]}
{"id": "C34", "title": "gflow returns a valid generalised flow", "statement": "If gflow(g) returns (l, gf, k) then gf satisfies the gflow conditions with respect to the layering l; if it returns None no gflow exists.", "quantifier": "all open graphs", "why_tests_cant": "completeness quantifies over all candidate flows", "anchors": ["pyzx/gflow.py:gflow"]}
{"id": "C35", "title": "magic state replacement is an exact decomposition", "statement": "The graphs returned by replace_magic_states sum to the original diagram.", "quantifier": "all graphs with at least one T-like spider, all choices of spiders", "why_tests_cant": "ranges over all diagrams", "anchors": ["pyzx/simulate.py:replace_magic_states"]}
{"id": "C36", "title": "applying a graph diff reproduces the target graph", "statement": "GraphDiff(g1,g2).apply_diff(g1) has the same vertices, types, phases, positions, edges and edge types as g2.", "quantifier": "all pairs of graphs", "why_tests_cant": "ranges over all pairs of graphs", "anchors": ["pyzx/graph/diff.py:GraphDiff"]}
{"id": "C37", "title": "symbolic phase arithmetic respects evaluation", "statement": "For every valuation of the variables (Boolean ones in {0,1}), the value of p+q, p-q, p*q is the sum, difference, product of the values, modulo 2 where coefficients are reduced modulo 2.", "quantifier": "all polynomials and valuations", "why_tests_cant": "ranges over all polynomials and valuations", "anchors": ["pyzx/symbolic.py:Poly", "pyzx/symbolic.py:Term"]}
{"id": "C38", "title": "tensor contraction is independent of vertex order", "statement": "tensorfy computes the sum over all edge labellings of the product of the vertex tensors; the result does not depend on the order in which vertices are contracted.", "quantifier": "all graphs, all contraction orders", "why_tests_cant": "ranges over all orders", "anchors": ["pyzx/tensor.py:tensorfy"]}
{"id": "C39", "title": "clone and copy are independent of the original and denote the same map", "statement": "g.clone() and g.copy() denote the same tensor as g (same type, phase, edge and boundary data).", "quantifier": "all graphs", "why_tests_cant": "ranges over all graphs", "anchors": ["pyzx/graph/graph_s.py:GraphS.clone", "pyzx/graph/base.py:BaseGraph.copy"]}
{"id": "C40", "title": "depth and T-count are compositional measures", "statement": "c.tcount() is additive under concatenation and c.depth() is at most the number of gates, at least that of each prefix, and subadditive under concatenation.", "quantifier": "all circuits", "why_tests_cant": "ranges over all circuits", "anchors": ["pyzx/circuit/__init__.py:Circuit.depth", "pyzx/circuit/__init__.py:Circuit.tcount"]}
{"id": "C41", "title": "adding a circuit on chosen qubits and tensoring act on the right qubits", "statement": "c.add_circuit(d, mask) acts as c followed by d on the qubits listed in mask, and c.tensor(d) acts on a product state as c on the first and d on the remaining qubits.", "quantifier": "all circuits, all masks without repetition, all states", "why_tests_cant": "ranges over all circuits and states", "anchors": ["pyzx/circuit/__init__.py:Circuit.add_circuit", "pyzx/circuit/__init__.py:Circuit.tensor", "pyzx/circuit/gates.py:Gate.reposition"]}
{"id": "C42", "title": "commuting a pi phase through a spider preserves the tensor", "statement": "basicrules.pi_commute_Z on a Z-spider of any phase preserves the denoted tensor, scalar included.", "quantifier": "all graphs, all vertices", "why_tests_cant": "ranges over all diagrams and phases", "anchors": ["pyzx/basicrules.py:pi_commute_Z"]}
{"id": "C43", "title": "substitution and the Pauli and Clifford tests of symbolic phases are sound", "statement": "Poly.substitute gives a polynomial whose value is the value of the original one at the extended valuation (modulo 2). If p.is_pauli then p is an integer for all values of its variables, if p.is_clifford a multiple of 1/2.", "quantifier": "all polynomials, substitutions and valuations", "why_tests_cant": "ranges over all polynomials and valuations", "anchors": ["pyzx/symbolic.py:Poly.substitute", "pyzx/symbolic.py:Poly.is_pauli", "pyzx/symbolic.py:Poly.is_clifford"]}
{"id": "C44", "title": "reducing a symbolic phase modulo 2 keeps the phase", "statement": "The phase a graph stores for a symbolic polynomial p, p % 2, has the same value modulo 2 as p for every valuation, and powers and multiples of symbolic phases evaluate to powers and multiples.", "quantifier": "all polynomials and valuations", "why_tests_cant": "ranges over all polynomials and valuations", "anchors": ["pyzx/symbolic.py:Poly.__mod__", "pyzx/symbolic.py:Poly.__pow__", "pyzx/graph/graph_s.py:GraphS.set_phase"]}
{"id": "C45", "title": "full_reduce and gadget_simp keep the linear map and reach their normal form", "statement": "gadget_simp terminates on every graph-like diagram as clifford_simp leaves it, and keeps its tensor exactly. full_reduce terminates, keeps the boundary and the tensor (up to a non-zero number, exactly for multiples of pi/4), raises only for H-boxes, and leaves a diagram in which no further rule applies; on such a diagram it does nothing.", "quantifier": "all diagrams of Z- and X-spiders, all candidate orders at every round, no filter", "why_tests_cant": "termination, preservation and normal form over unboundedly long rewrite sequences", "anchors": ["pyzx/simplify.py:full_reduce", "pyzx/simplify.py:gadget_simp", "pyzx/simplify.py:clifford_simp", "pyzx/rules.py:match_phase_gadgets", "pyzx/rules.py:merge_phase_gadgets"]}
{"id": "C46", "title": "verify_equality is sound", "statement": "If Circuit.verify_equality answers True, the two circuits denote the same map up to a global phase; with up_to_swaps, up to a global phase and a permutation of the outputs. It raises exactly for circuits with classical bits or different numbers of qubits.", "quantifier": "all pairs of circuits of valid gates, all iteration orders", "why_tests_cant": "the answer depends on an unbounded rewrite sequence; a wrong True is invisible to tests that use equal circuits", "anchors": ["pyzx/circuit/__init__.py:Circuit.verify_equality", "pyzx/simplify.py:full_reduce"]}
{"id": "C47", "title": "Optimising a circuit keeps its meaning", "statement": "A circuit that is turned into a diagram, reduced by full_reduce and extracted by extract_circuit gives a circuit with the same number of qubits that denotes the same map up to a global phase.", "quantifier": "all circuits of valid gates, all iteration orders, all CNOT strategies", "why_tests_cant": "composition of three unbounded procedures; the tests compare tensors of small circuits", "anchors": ["pyzx/circuit/__init__.py:Circuit.to_graph", "pyzx/simplify.py:full_reduce", "pyzx/extract.py:extract_circuit"]}
{"id": "C48", "title": "is_id recognises identity diagrams", "statement": "g.is_id() answers True exactly for diagrams that consist of identity wires between the inputs and the outputs in order; the map of such a diagram is its scalar times the identity.", "quantifier": "all diagrams with distinct inputs and outputs", "why_tests_cant": "all numbers of wires, all wirings and edge types", "anchors": ["pyzx/graph/base.py:BaseGraph.is_id"]}
{"id": "C49", "title": "basic_optimization keeps the map of the circuit", "statement": "basic_optimization(c) returns, for every circuit of HAD, phase, NOT, CZ and CNOT gates on its qubits, a circuit on the same qubits made of the same kinds of gates that denotes the same map up to a global phase; it raises on every other circuit. The result has at most as many non-Clifford phases. With do_swaps=False its two-qubit gates connect only qubits that were connected by a two-qubit gate of c, and there are at most as many of them.", "quantifier": "all circuits, all numbers of qubits and gates, all phases, both values of do_swaps", "why_tests_cant": "the optimiser delays gates, merges phases, applies about a dozen commutation rules whose order depends on the whole circuit, and re-sorts gates topologically; every one of the rules has to be right in every context", "anchors": ["pyzx/optimize.py:basic_optimization", "pyzx/optimize.py:Optimizer"]}
{"id": "C50", "title": "parity_network visits every parity", "statement": "parity_network(n, S) returns CNOTs on distinct qubits below n such that for every non-zero parity p in S there is a moment during the CNOTs at which some qubit holds p of the input.", "quantifier": "all numbers of qubits, all lists of parities", "why_tests_cant": "recursive partitioning with an explicit stack whose entries are changed together; a parity may be lost only for particular lists", "anchors": ["pyzx/parity_network.py:parity_network"]}
{"id": "C51", "title": "todd_simp keeps the map and does not add T gates", "statement": "For every list of phase gates with multiples of pi/4, CZ and CNOT gates on n qubits, the gates todd_simp returns are of the same kinds and denote exactly the same map, and they contain at most as many T gates. It returns on 2 to 499 qubits, and raises on one qubit.", "quantifier": "all gate lists, all numbers of qubits, all results of the random shuffle", "why_tests_cant": "third-order signature tensors, nullspaces and Clifford corrections: an error in one coefficient shows only for particular parities", "anchors": ["pyzx/todd.py:todd_simp", "pyzx/todd.py:todd_iter", "pyzx/todd.py:MultiLinearPoly", "pyzx/todd.py:phase_gates_to_poly"]}
{"id": "C52", "title": "phase_block_optimize and full_optimize keep the map and do not add T gates", "statement": "phase_block_optimize(c, pre_optimize=False) returns, for every circuit of HAD, CZ, CNOT and phase gates with multiples of pi/4 on 2 to 499 qubits, a circuit on the same qubits that denotes exactly the same map, made of the same kinds of gates, with at most as many T gates; it raises for other gates and for one-qubit circuits. With pre_optimize=True the input may contain NOT gates, and the map is kept up to a global phase. full_optimize(c) returns, for every circuit whose basic gates are of these kinds, a circuit that denotes the same map up to a global phase with at most as many T gates as the basic gates.", "quantifier": "all circuits, all numbers of gates, all results of the random shuffle", "why_tests_cant": "blocks of phase gates are collected across Hadamard gates with three rules that change the kind of a gate, taken from the reversed circuit as well, and rewritten by TODD; whether a gate may be moved depends on all gates around it", "anchors": ["pyzx/optimize.py:phase_block_optimize", "pyzx/optimize.py:greedy_consume_gates", "pyzx/optimize.py:full_optimize"]}
{"id": "C53", "title": "Routed CNOT circuits respect the architecture and record exactly what was done", "statement": "rec_steiner_gauss and steiner_gauss, run on a matrix with two CNOT_tracker objects as x and y, only use CNOTs between qubits that are coupled in the architecture. The matrix of each tracker is the parity matrix of its CNOTs, x times the initial matrix is the final matrix, the initial matrix is y times the final matrix; if the final matrix is the identity, the circuit y realises the initial matrix.", "quantifier": "all architectures with any placement and order of removal, all matrices, all iteration orders of sets, both values of full_reduce", "why_tests_cant": "which CNOTs are used depends on shortest paths and Steiner trees of an arbitrary graph, and on the whole matrix", "anchors": ["pyzx/routing/steiner.py:rec_steiner_gauss", "pyzx/routing/steiner.py:steiner_gauss", "pyzx/routing/parity_maps.py:CNOT_tracker", "pyzx/routing/architecture.py:Architecture"]}
{"id": "C54", "title": "floyd_warshall computes shortest paths", "statement": "Architecture.floyd_warshall(vertices, upper, rec_vertices) does not raise; two of the vertices have an entry exactly if the second can be reached from the first by the allowed steps, and the entry is a shortest such path and its length.", "quantifier": "all architectures, all lists of vertices, both values of upper, all lists rec_vertices", "why_tests_cant": "the three loops are in another order than in the textbook and are run twice; whether this suffices is a question about all graphs", "anchors": ["pyzx/routing/architecture.py:Architecture.floyd_warshall"]}
{"id": "C55", "title": "The architecture-aware eliminations reduce every invertible matrix", "statement": "On every connected architecture, rec_steiner_gauss and steiner_gauss bring every invertible matrix into upper triangular form, and with full_reduce=True to the identity.", "quantifier": "all connected architectures with default placement, all invertible matrices, all iteration orders of sets", "why_tests_cant": "ranges over all graphs and matrices; a wrong result is silent and shows for particular graphs only", "anchors": ["pyzx/routing/steiner.py:rec_steiner_gauss", "pyzx/routing/steiner.py:steiner_gauss", "pyzx/routing/steiner.py:steiner_reduce_column"]}
{"id": "C56", "title": "The default placement is a bijection with connected final segments", "statement": "Architecture(...) of a non-empty connected coupling graph does not raise, assigns the qubits one to one to the vertices, such that the qubits from any one on are connected among themselves, and its reduce_order lists every qubit once. Hence rec_steiner_gauss(full_reduce=False) brings every invertible matrix into upper triangular form on it.", "quantifier": "all connected coupling graphs, all invertible matrices, all iteration orders of sets", "why_tests_cant": "depth first numbering and search for cut vertices on an arbitrary graph", "anchors": ["pyzx/routing/architecture.py:Architecture.__init__", "pyzx/routing/architecture.py:Architecture._place_qubits", "pyzx/routing/architecture.py:Architecture._get_reduce_order", "pyzx/routing/architecture.py:Architecture._is_cutting", "pyzx/routing/steiner.py:rec_steiner_gauss"]}
{"id": "C57", "title": "Routing works on lines, circles, squares and fully connected architectures", "statement": "On the architectures of create_line_architecture, create_circle_architecture, create_square_architecture and create_fully_connected_architecture, and on every architecture in which each vertex is adjacent to the next one, rec_steiner_gauss(full_reduce=True) returns for every invertible matrix a CNOT circuit that realises it and only acts along edges of the coupling graph.", "quantifier": "all sizes, all invertible matrices, all iteration orders of sets", "why_tests_cant": "all sizes of architectures and all matrices", "anchors": ["pyzx/routing/architecture.py:create_line_architecture", "pyzx/routing/architecture.py:create_circle_architecture", "pyzx/routing/architecture.py:create_square_architecture", "pyzx/routing/architecture.py:create_fully_connected_architecture", "pyzx/routing/steiner.py:rec_steiner_gauss"]}
{"id": "C58", "title": "Clifford circuits are always simplified and extracted again", "statement": "A circuit of Clifford gates (gates whose phases are multiples of pi/2) on 1 to 499 qubits is turned into a diagram, reduced by full_reduce and extracted by extract_circuit with optimize_cnots=0, 1 or 2 without an exception, every loop ends, and the result denotes the same map up to a global phase. The same holds for any number of qubits with any choice of CNOTs that always produces a row of weight one. column_optimal_swap returns a permutation for every square matrix with fewer than 1000 rows, filter_duplicate_cnots returns CNOTs with the same effect.", "quantifier": "all Clifford circuits, all iteration orders, with and without optimize_czs", "why_tests_cant": "that the extraction never gets stuck and always ends is a claim about all diagrams full_reduce can return; the choice of CNOTs includes a search with backtracking", "anchors": ["pyzx/extract.py:extract_circuit", "pyzx/extract.py:greedy_reduction", "pyzx/extract.py:find_minimal_sums", "pyzx/extract.py:column_optimal_swap", "pyzx/extract.py:filter_duplicate_cnots", "pyzx/simplify.py:full_reduce", "pyzx/circuit/__init__.py:Circuit.to_graph"]}
{"id": "C59", "title": "Simplification and extraction do not increase the T-count", "statement": "tcount(g) is the number of vertices of g whose phase is not a multiple of pi/2. interior_clifford_simp, clifford_simp and full_reduce do not increase it. Circuit.to_graph gives a diagram with at most as many such spiders as the circuit has such gates after to_basic_gates, extract_circuit gives a circuit with at most as many such gates as the diagram has such spiders. Hence a circuit that is turned into a diagram, reduced by full_reduce and extracted again does not get a larger T-count; a Clifford circuit stays one.", "quantifier": "all diagrams of Z- and X-spiders, all circuits of valid gates except FSim, all candidate orders, all choices of CNOTs", "why_tests_cant": "the rewrite sequences are unboundedly long, and pivoting on spiders that are not Clifford adds spiders and moves phases into gadgets", "anchors": ["pyzx/simplify.py:tcount", "pyzx/simplify.py:full_reduce", "pyzx/simplify.py:clifford_simp", "pyzx/simplify.py:interior_clifford_simp", "pyzx/extract.py:extract_circuit", "pyzx/circuit/__init__.py:Circuit.to_graph", "pyzx/circuit/__init__.py:Circuit.tcount"]}
{"id": "C60", "title": "find_stabilizer_decomp writes a diagram as a sum of Clifford diagrams", "statement": "For a diagram of Z-spiders whose phases are multiples of pi/4, find_stabilizer_decomp(g) ends and returns diagrams with T-count 0 that have as many inputs and outputs as g and add up to g, at most max_terms_needed(g) of them. If g has no inputs and outputs, the diagrams have no edges, and only spiders with phase 0 or pi, so that the amplitude can be read off. reduce_scalar(g), which is used for it, ends, keeps the tensor, does not increase the T-count or the number of vertices, and leaves a diagram to which none of its rules applies.", "quantifier": "all diagrams of Z-spiders and boundaries in which every boundary has one neighbour, all iteration orders, all random choices of the spiders that are replaced", "why_tests_cant": "a recursion over an exponential number of diagrams with an unbounded rewrite sequence at every node", "anchors": ["pyzx/simulate.py:find_stabilizer_decomp", "pyzx/simulate.py:max_terms_needed", "pyzx/simulate.py:SumGraph.reduce_scalar", "pyzx/simplify.py:reduce_scalar", "pyzx/simplify.py:supplementarity_simp"]}
{"id": "C61", "title": "The random generators return what they draw", "statement": "For all outcomes of the random number generator: generate.cliffordT (with p_meas=0, as by default) returns a diagram that denotes exactly the circuit of the CNOT, HSH, S and T gates it drew; gates with probability 0 are not drawn. CNOT_HAD_PHASE_circuit returns a circuit with the given number of qubits and gates, all of them on the qubits of the circuit and CNOTs on two different qubits. cnots returns a diagram that denotes the CNOT circuit it drew.", "quantifier": "all numbers of qubits and gates, all probabilities, all random outcomes", "why_tests_cant": "the functions are used by the tests as source of examples, their own results are never compared with anything; the outcomes are random", "anchors": ["pyzx/generate.py:cliffordT", "pyzx/generate.py:CNOT_HAD_PHASE_circuit", "pyzx/generate.py:cnots"]}
{"id": "C62", "title": "The local complementation move of the local search keeps the map", "statement": "apply_rand_lc(g) keeps the map of the diagram exactly, scalar included, for every vertex it may draw; afterwards the drawn vertex has phase pi/2 or -pi/2. It raises if no vertex can be drawn.", "quantifier": "all diagrams, all random choices", "why_tests_cant": "all diagrams and all choices of the vertex", "anchors": ["pyzx/local_search/congruences.py:apply_rand_lc", "pyzx/local_search/congruences.py:lc_cong2", "pyzx/local_search/congruences.py:is_lc_vertex"]}
{"id": "C63", "title": "Fixed diagrams and circuit identities of the generators", "statement": "generate.identity(n) denotes the identity on n qubits. generate.spider(typ, n, m, phase) for the types Z, X and H denotes the spider (H-box) with n inputs and m outputs and this phase. circuit_identity_phasepoly(), circuit_identity_commuting_controls(alpha, beta), circuit_identity_two_qubit1() and circuit_identity_two_qubit2() denote exactly the identity.", "quantifier": "all n, m, phases and angles, all states", "why_tests_cant": "the size of the diagrams and the angles are unbounded", "anchors": ["pyzx/generate.py:identity", "pyzx/generate.py:spider", "pyzx/generate.py:circuit_identity_phasepoly", "pyzx/generate.py:circuit_identity_commuting_controls", "pyzx/generate.py:circuit_identity_two_qubit1", "pyzx/generate.py:circuit_identity_two_qubit2"]}
{"id": "C64", "title": "H-boxes that are Hadamard gates become Hadamard edges", "statement": "match_hadamards returns H-boxes with phase 1 and two neighbours, no two of which are adjacent or share a neighbour. Replacing them by Hadamard edges or wires with hadamard_to_h_edge and applying the rewrite keeps the tensor of the diagram exactly, scalar included, and removes exactly the matched H-boxes; it does not raise as long as the neighbours of a matched H-box that are connected to each other are spiders.", "quantifier": "all diagrams of boundaries, spiders, Z-boxes and H-boxes, all vertex filters, all iteration orders", "why_tests_cant": "all diagrams and all sets of matches; the factor of the square root of 2 and the parallel edges are easily wrong for particular types of neighbours only", "anchors": ["pyzx/hrules.py:match_hadamards", "pyzx/hrules.py:hadamard_to_h_edge"]}
{"id": "C65", "title": "Fusing H-boxes along Hadamard edges keeps the tensor", "statement": "match_connected_hboxes returns Hadamard edges between two H-boxes of which one has phase 1, no two of them with a common vertex, and returns none only if there is none among the candidates. fuse_hboxes, applied to them, removes one H-box of each pair and keeps the tensor of the diagram exactly, scalar included.", "quantifier": "all diagrams of boundaries, spiders, Z-boxes and H-boxes, all edge filters, all iteration orders", "why_tests_cant": "several matches are rewritten at once with one table of new edges; whether they interfere depends on how the pairs are connected", "anchors": ["pyzx/hrules.py:match_connected_hboxes", "pyzx/hrules.py:fuse_hboxes"]}
{"id": "C66", "title": "Removing H-boxes without phase keeps the tensor", "statement": "match_zero_hbox returns exactly the H-boxes with phase 0. zero_hbox removes them and, as its docstring says, keeps the tensor of the diagram exactly if all their neighbours are white spiders; afterwards no H-box with phase 0 is left.", "quantifier": "all diagrams of boundaries, spiders, Z-boxes and H-boxes", "why_tests_cant": "all diagrams; H-boxes may share neighbours and have any number of legs", "anchors": ["pyzx/hrules.py:match_zero_hbox", "pyzx/hrules.py:zero_hbox"]}
{"id": "C67", "title": "Multiplying parallel H-boxes keeps the tensor", "statement": "match_par_hbox returns groups of at least two H-boxes with the same white neighbours, some of them through NOT gates; different groups have no H-box in common. par_hbox, applied to them, does not raise and keeps the tensor of the diagram exactly, scalar included. Of each group only one H-box is left, with the sum of the phases, or none if the sum is a multiple of 2 pi. Two such H-boxes among the candidates are always found. par_hbox_simp, the loop, ends, and without a filter leaves no parallel H-boxes.", "quantifier": "all diagrams of boundaries, spiders, Z-boxes and H-boxes, all vertex filters, all iteration orders", "why_tests_cant": "groups of any number of H-boxes with any number of legs, several groups rewritten at once that share spiders; NOT gates in two colours", "anchors": ["pyzx/hrules.py:match_par_hbox", "pyzx/hrules.py:par_hbox", "pyzx/hsimplify.py:par_hbox_simp"]}
{"id": "C68", "title": "H-boxes with one leg become phases of spiders", "statement": "from_hypergraph_form first fuses the H-boxes whose only neighbour is a Z-spider into the spider. This keeps the tensor of the diagram exactly, scalar included, and removes exactly these H-boxes.", "quantifier": "all diagrams of boundaries, spiders, Z-boxes and H-boxes, all iteration orders", "why_tests_cant": "all diagrams; several H-boxes can hang on the same spider, and the edges can be of both types", "anchors": ["pyzx/hsimplify.py:from_hypergraph_form"]}
{"id": "C69", "title": "Removing H-boxes that are connected to a spider directly and by a NOT gate", "statement": "match_hbox_parallel_not returns H-boxes with phase 1 that are connected to a Z-spider directly and by a NOT gate. hbox_parallel_not_remove, applied to them, removes the H-box and the NOT gate and keeps the tensor of the diagram exactly.", "quantifier": "all diagrams of boundaries, spiders, Z-boxes and H-boxes, all vertex filters, all iteration orders", "why_tests_cant": "all diagrams; the direct edge can be of both types and the neighbour of any type", "anchors": ["pyzx/hrules.py:match_hbox_parallel_not", "pyzx/hrules.py:hbox_parallel_not_remove", "pyzx/hrules.py:is_NOT_gate"]}
