# Design of the formal model of pyzx

All line numbers refer to the pinned commit in `/repo`. The Lean project is in `/verif/lean`.

## Trusted base

* Lean 4.33.0's kernel, and Mathlib (definitions used in statements: `Complex`, `Rat`, `Finset`, `Matrix`, `ZMod 2`, ...).
* Axioms: only `propext`, `Classical.choice`, `Quot.sound`. No `sorry`, no `native_decide`, no `bv_decide`, no added axioms.
* The transcription of the Python code into Lean definitions. Every definition cites the file and lines it models.
* Idealisations that hold for the whole development:
  * Python `Fraction` is `ℚ`; Python `float`/`complex` numbers are exact real/complex numbers (`ℝ`, `ℂ`): rounding is not modelled.
  * Python exceptions are values (`Option`/`Except`) or excluded by an explicit hypothesis.
  * Dictionaries are finite maps. Where the code iterates over a `set` or pops from it, the order is a parameter of the model
    and theorems quantify over it.
  * Symbolic (`Poly`) phases, drawing coordinates, `vdata`, ground (discard) vertices, W-nodes and H-boxes are only modelled
    where a section below says so.

## Semantics of diagrams

The specification semantics is the tensor-network contraction of `tensor.py`: each vertex has the spider tensor built by
`Z_to_tensor`/`X_to_tensor`, each edge is the identity or the Hadamard matrix, all half-edges are summed over, boundary vertices
hold the external indices, and the result is multiplied by `Scalar.to_number`.
Proofs use a path-sum form (one Boolean variable per vertex); a theorem states that it equals the tensor contraction.

## Layout

* `Verif/Model/*`: transcription of the code, function by function; every definition cites its lines.
* `Verif/Spec/*`: specifications that do not use the model's helpers (tensor network, matrices, echelon form, gate matrices, ...).
* `Verif/Lib/*`, `Verif/Sem/*`, `Verif/Proofs/*`: helper lemmas.
* `Verif/Props/*` (and `Verif/Model/Scalar.lean` for C12/C13): the property theorems, each with a concrete example meeting its hypotheses.
* `seeded/LOG.jsonl`: wrong programs tried against the theorems.

## Coverage: what is modelled

| code | modelled | not modelled |
|------|----------|--------------|
| `linalg.py` | `Mat2`: `gauss`, `rank`, `factor`, `inverse`, `solve`, `nullspace`, `to_cnots`, row/column operations | C extension paths, pretty printing |
| `graph/scalar.py` | all numeric methods, `to_number`, `copy`, `add_node`, `add_spider_pair` | `is_unknown` text output, json, `sum_of_phases` simplification heuristics |
| `graph/graph_s.py`, `graph/base.py` | vertices, edges, types, phases, labels, inputs, outputs, `add_edge` (smart), `add_edge_table`, `remove_*`, `copy`, `clone`, `adjoint`, `compose`, `tensor`, `apply_state`, `apply_effect`, `remove_isolated_vertices` | coordinates (only row order in `tensorfy`), `vdata`, grounds, tracks (`fuse_phases` hooks), multigraph backend |
| `graph/diff.py` | `calculate_diff`, `apply_diff` | json, `vdata` |
| `rules.py` | spider, unspider helper, identities, local complementation, pivot, pivot gadget, pivot boundary, phase gadgets, supplementarity, state copy, bialgebra, each with its matcher | H-box and W rules, `match_*` variants for single vertices where they are filters of the parallel ones |
| `basicrules.py` | `color_change`, `strong_comp`, `copy_X`, `pi_commute_Z`, `fuse`, `remove_id` | checks on ground vertices |
| `simplify.py` | `to_gh`, `to_rg`, `tcount`, simplification loops (see C27) | statistics, quiet flags |
| `tensor.py` | `tensorfy` with its axis bookkeeping, Z/X/Z-box tensors | H-box and W tensors, float rounding, `preserve_scalar=False` rescaling |
| `circuit/gates.py`, `circuit/__init__.py` | all gate classes with matrices, `to_basic_gates`, `to_adjoint`, `split_phases`, counts, `depth`, `add_circuit`, `tensor` | parsers, measurement, reset, conditional gates |
| `circuit/graphparser.py`, the `to_graph` methods of `circuit/gates.py` | `circuit_to_graph` with inputs, ancillas (`InitAncilla`, `PostSelect`), all gate diagrams and outputs; the path sums for it include H-boxes (`Sem/PathSumH`) | rows and qubit coordinates, `graph_to_circuit`, measurements |
| `simulate.py` | `replace_magic_states` and all functions it calls, `SumGraph.reduce_scalar`, `find_stabilizer_decomp`, `max_terms_needed` | the rest of `SumGraph`, `calculate_path_sum`, sampling |
| `generate.py` | `identity`, `spider` (Z, X, H), `circuit_identity_*`, `cliffordT` (with `p_meas=0`), `CNOT_HAD_PHASE_circuit`, `cnots`; the random outcomes are arguments | `cliffordT` with measurements, `cliffords`, `spider` for Z-boxes and W-nodes, `phase_poly*`, `build_random_parity_map`, coordinates |
| `hrules.py` | `match_hadamards`, `hadamard_to_h_edge`, `match_connected_hboxes`, `fuse_hboxes`, `match_zero_hbox`, `zero_hbox`, `match_par_hbox`, `par_hbox`, `is_NOT_gate`, `match_hbox_parallel_not`, `hbox_parallel_not_remove` (only for H-boxes without neighbours that need a new vertex); `par_hbox_simp` and the first loop of `from_hypergraph_form` of `hsimplify.py` | the other rules (AND gates, copy, hyper pivot, Fourier), the rest of `hsimplify.py` |
| `local_search/congruences.py` | `is_lc_vertex`, `lc_cong2`, `apply_rand_lc` | `lc_cong`, `pivot_cong`, `apply_rand_pivot`, weight functions; annealing and genetic search |
| `symbolic.py` | `Var`, `Term`, `Poly`: sum, difference, product, power, `% 2`, equality, `substitute`, `is_pauli`, `is_clifford` | division, order, parser, hash collisions, float rounding |
| `gflow.py` | `gflow` | |
| `extract.py` | `extract_circuit` with `clean_frontier`, `max_overlap`, `neighbors_of_frontier`, `remove_gadget`, `bi_adj`, `connectivity_from_biadj`, `apply_cnots`, `graph_to_swaps`, `permutation_as_swaps`; the choice of CNOTs with `find_minimal_sums`, `greedy_reduction`, `column_optimal_swap`, `_find_targets`, `to_cnots`, `filter_duplicate_cnots` (C58; an arbitrary function in C33) | `optimize_cnots=3` as a strategy of its own: it also reorders the neighbours, which the model leaves arbitrary anyway; `extract_simple`, `extract_clifford_normal_form` |
| `optimize.py` | all functions: `basic_optimization`, `Optimizer`, `greedy_consume_gates`, `phase_block_optimize`, `full_optimize` | progress output, gate objects shared between input and output |
| `parity_network.py`, `todd.py` | `parity_network`, `ParityPolynomial`, `MultiLinearPoly`, `phase_gates_to_poly`, `xi`, `find_todd_match`, `remove_trivial_cols`, `do_todd_single`, `todd_iter`, `todd_simp` | `todd_on_graph`, `par_matrix_to_gates`, the external TOpt program; the random shuffle is an arbitrary permutation |
| `routing/architecture.py`, `routing/steiner.py`, `routing/parity_maps.py` | `Architecture` (placement, order of removal, `_is_cutting`, `floyd_warshall`, `shortest_path`, `steiner_tree`, `rec_steiner_tree`), `steiner_gauss`, `rec_steiner_gauss`, `steiner_reduce_column`, `CNOT_tracker` (row and column additions, `update_matrix`), the constructors of lines, circles, squares and fully connected architectures. Iteration orders of sets are an argument | `permutation` arguments, cached distances, phase polynomial routing, the genetic and swarm optimisers of `cnot_mapper.py`, the named devices |

## Axioms

`#print axioms` of every theorem listed in `MANIFEST.json` gives a subset of {`propext`, `Classical.choice`, `Quot.sound`}.

## Where the code disagrees with the claim

Each line is a proved counterexample (theorem in `Verif/Props` unless noted), and the positive theorem excludes exactly this case.

| theorem | finding |
|---------|---------|
| `Scalar.addSpiderPair_wrong` | `add_spider_pair` calls `math.cos(p1)` without the factor pi: wrong scalar for some phase pairs |
| `toGraph_tcount_fsim_wrong` | `tcount` of an FSim gate is 0, but its diagram has spiders that are not Clifford |
| `addEdges_overcounts` | `GraphS.add_edges` counts an already existing edge twice |
| `selfloop_remove_raises` | removing a vertex with a self-loop raises |
| `factor_zero_raises` | the product of the factors of a zero matrix raises |
| `bialg_not_exact` | `rules.bialg` does not record the scalar |
| `piCommuteZ_not_exact` | `pi_commute_Z` drops a global phase |
| `removeIsolated_zbox_wrong`, `removeIsolated_boundary_raises` | an isolated Z-box is evaluated with its phase, not its label; an isolated boundary raises |
| `copy_not_exact` | `match_copy` returns connected spiders, the scalar is then off |
| `supp_isolated_raises` | `match_supplementarity` matches isolated non-Clifford spiders twice, the rule raises |
| `reduceScalar_raises` | for the same reason `reduce_scalar` raises on three isolated spiders with phases π/4, 3π/4, 3π/4 |
| `maxTerms_not_mono` | `max_terms_needed` is 8 for five T-spiders and 7 for six; as simplification may lower the T-count, the number it gives for 12 or more is not known to be a bound (only the largest value up to the T-count is) |
| `gadget_not_exact` | phase gadgets of two fused groups with adjacent axels: scalar off by sqrt 2 |
| `adjoint_zbox_wrong` | `adjoint` does not conjugate Z-box labels |
| `compose_cup_wrong` | `compose` is wrong if two outputs (inputs) are wired together |
| `applyState_isolated_wrong`, `applyState_short_drops` | an isolated input loses a factor; a short string drops the remaining inputs |
| `diff_label_lost` | a graph difference loses the label of a new Z-box |
| `csx_adjoint_wrong`, `u3_adjoint_wrong` | `to_adjoint` leaves these gates unchanged |
| `fsim_reposition_raises`, `rzz_reposition_stale` | `reposition` of FSim raises, of RZZ leaves stale attributes |
| `tcount_chad_wrong`, `depth_ignores_Y` | T-count of CHAD is 0; depth ignores some gates |
| `Symb.mod2_continuous_wrong` | the stored phase of a symbolic spider is `p % 2`, which maps `2 theta` to `0`: fusing two spiders with a continuous symbolic phase loses it |
| `Symb.add_then_mul_wrong`, `Symb.pow_wrong`, `Symb.bool_square_not_reduced` | `(x+x)/2` is 0; powers of Boolean polynomials are wrong; `x*x` and `x` compare different |
| `verify_wrong` | `verify_equality` answers True for the different circuits U3(0,0,pi/2) = S and S-dagger, because `to_adjoint` leaves U3 (and csx, u2, cu, cu3, fsim) unchanged |
| `isId_wrong` | `is_id` accepts a Hadamard wire |
| `optimize_swaps_grow` | `basic_optimization` with its default `do_swaps=True` turns two CNOTs into four |
| `optimize_xphase_raises` | `full_optimize` raises on every circuit with an X rotation: `to_basic_gates` keeps it, the optimiser refuses it |
| `toddSimp_raises` | `todd_simp` raises on one qubit: `to_cnots(optimize=True)` returns `None` for one row |
| `fullOptimize_one_raises` | `full_optimize` and `phase_block_optimize` raise on one-qubit circuits, for instance on a single T gate, for the same reason |
| `recGauss_identity_counterexample` | `rec_steiner_gauss(full_reduce=True)` can return with a matrix that is not the identity, without an error: on a connected graph with five vertices and default placement one entry above the diagonal remains. |
| `steinerGauss_full_counterexample` | `steiner_gauss(full_reduce=True)` leaves the upper triangular matrix with rows 11, 01 on two coupled qubits as it is: the loop that collects the tree edges drops the first one |
| `steinerGauss_upper_counterexample` | `steiner_gauss` does not always reach upper triangular form: on five qubits with identity placement an entry below the diagonal remains |
| `columnOrder_optimal_counterexample` | `column_optimal_swap` does not find the permutation with the most ones on the diagonal: `_find_targets` keeps a failed option in `tgt`, so that all further options fail too and the backtracking never has an effect |
| `spiderH_default` | `generate.spider("H", 1, 1)` uses phase 0, not the default phase π of H-boxes, so it is not the Hadamard gate |
| `hadamard_raises` | `hadamard_to_h_edge` raises for a Hadamard gate between two connected H-boxes: `add_edge` refuses the parallel edge |
| `fuse_not_sound` | `match_connected_hboxes` returns two edges whose H-boxes are connected, and `fuse_hboxes` then drops the connection: a line of four H-boxes with tensor 0 becomes a diagram with tensor -2 |
| `absorb_not_sound` | `from_hypergraph_form` fuses an H-box with one leg into a Z-spider also if they are connected by a Hadamard edge: tensor √2 becomes 0. |
| `not_not_sound` | `match_hbox_parallel_not` does not check the direct edge between the H-box and the spider; with a Hadamard edge `hbox_parallel_not_remove` changes the tensor 0 into 2 |
| `fuse_raises` | `fuse_hboxes` raises if the two H-boxes have a common neighbour |
| `cnots_reversed` | `generate.cnots` lists its outputs in reverse order: even `cnots(n, 0)` is not the identity |
| `hadGate_hangs` | `CNOT_HAD_PHASE_circuit` with one qubit never ends once a CNOT is drawn |
| `cliffordT_raises` | `cliffordT` with one qubit raises once a CNOT is drawn |
| `cliffordT_draws_T` | `cliffordT(n, depth, p_t=0)` draws a T gate if `random.random()` is 0 |
| `toddSimp_swap_wrong`, `toddSimp_phase_wrong` | `todd_simp` treats a SWAP (a subclass of CZ) as a CZ and truncates phases that are no multiple of pi/4, without an exception |
| `tensorfy_isolatedX_raises`, `tensorfy_late_input_raises` | `tensorfy` raises on an isolated X-spider and if an input is in a later row than its neighbour |

Seen while reading, not formalised: `match_lcomp_parallel` never increments its counter; `match_pivot_boundary` tests
`g.is_ground(n) in consumed_vertices`; `Poly.__mod__` drops complex terms; `GraphS.clone` shares `vdata`; `copy_X` reports success without a change
when the neighbour has a non-Pauli phase; `apply_rand_lc` only unfuses a phase, the call of `lcomp` is commented out in `lc_cong2`, and its test for phase -1/2 never holds, because stored phases are between 0 and 2; `z_to_z_box` rounds to 8 decimals; `Circuit.tensor` and `split_phase_gates` drop classical bits.

## Properties

| id | model and proof plan |
|----|----------------------|
| C01-C04 | `Mat2.gauss` transcribed loop by loop as a state machine on lists of Boolean rows plus a log of row operations. Loop invariants by induction. Rank against Mathlib's `Matrix.rank` over `ZMod 2`. |
| C05-C08 | `factor`, `inverse`, `solve`, `nullspace` transcribed; theorems against Mathlib matrices. |
| C09 | `to_cnots` from the row-operation log; semantics of a CNOT list on bit vectors. |
| C10 | `GraphS` as a record with finite vertex set and adjacency map; invariant preserved by every operation, induction over histories. |
| C11 | pointwise law of path-sum weights for `add_edge`. |
| C12, C13 | `Scalar` transcribed, `to_number` as a map into `ℂ`. C13 is false for one branch (`math.cos(p1)` lacks the factor pi): negation proved with a witness, partial theorem for the rest. |
| C14-C17, C19-C24 | rules transcribed as in `rules.py` (edge table, removed vertices, scalar updates), semantics preserved for every match list satisfying the matcher's conditions. |
| C18 | matcher loops with the pop order as parameter; independence invariant by induction. |
| C25, C26 | graph-level operations, equations between semantics. |
| C27 | `simp` as a recursion with fuel; every pass takes an arbitrary set of iteration orders. A pass removes a vertex, so the number of vertices bounds the passes; the boundary, the tensor and the class of diagrams are invariants of a pass. The passes of `pivot_gadget_simp` and `pivot_boundary_simp` add vertices; there the number of spiders with phase 0 or π around which a pivot is possible decreases. For `clifford_simp` (and `full_reduce`) after the first pass of `to_gh` and fusion all spiders are Z-spiders, and every vertex gets a weight: 16 for a non-Clifford spider, 2 for a Clifford spider next to a boundary, and for an interior Clifford spider 0, 1 or 4 if it has a Clifford leaf, a non-Clifford leaf only, or no leaf; other vertices count 1. No pass increases the sum. A pass that keeps it changes nothing unless there are spiders of weight 0, and those do not survive the interior simplification, so each iteration of the outer loops that does something decreases the sum (`Proofs/Term*`). |
| C28 | `circuit_to_graph` as a fold over a pair of graph and label map; one gate acts on the open legs of the diagram as its matrix. |
| C29-C31 | gates as matrices / path sums. |
| C32 | list algorithm with induction. |
| C33 | step-by-step invariant of the extraction loop: the gates found so far, applied to the map of the remaining diagram, give the map of the first diagram, and the frontier vertices are wired to the outputs. The remaining diagram stays onto, which excludes the cases the code does not handle. Hypothesis `Extractable`: graph-like, invertible matrix, phase gadgets in normal form. Partial correctness: nothing is said about runs that raise or do not end. |
| C34 | `gflow` on top of the verified `solve` (C07). One iteration finds exactly the vertices with a correction set among the processed ones; the loop invariant says that the assigned sets satisfy the gflow conditions and that no flow can process a vertex earlier. Termination because the processed set grows. |
| C35 | each replacement function is pulled back to a factor on the path sum of the original diagram; the factors add up to 1 (a finite identity in Q(sqrt 2, i) for each number of ones). |
| C36 | record-level model. |
| C37, C43, C44 | polynomials as lists of terms with an evaluation map; equality modulo 2 by induction over the insertion loop. C44 is false for continuous variables: counterexample and partial theorem. |
| C45 | `gadget_simp` and `full_reduce` on top of C27. The number of spiders carrying phase gadgets plus the number of those with phase π decreases in every pass of `gadget_simp`; adjacent spiders with gadgets are excluded after `clifford_simp` because two adjacent interior Pauli spiders are. When the loop of `full_reduce` ends, its last iteration has changed nothing, so all four normal forms hold at once. That it ends is shown with the weights of C27. Each matcher finds nothing on a normal form, hence idempotence. |
| C46 | `verify_equality` as `adjoint`, `add_circuit`, `to_graph`, `full_reduce` and the final test; from C28, C30 and C45. A diagram without spiders and Hadamard edges that denotes an injective map is a permutation of wires. All gates keep the norm, so the factor is a phase. |
| C47 | C28, C45 and C33 composed: the diagram of a circuit is a diagram of spiders with reduced phases, phaseless boundaries and distinct inputs and outputs. |
| C48 | `is_id` transcribed; an edge count shows that there are no other edges than the wires. |
| C49 | `Optimizer` transcribed; gates carry their index as identity. Invariant: the stored gates, in some linear order compatible with the stacks of all qubits, followed by the pending Hadamards, Z and NOT gates and the permutation, denote the gates parsed so far; gates on a stack commute. Each rule is an equation of maps on two qubits; the sort puts out a compatible order. |
| C50 | `parity_network` transcribed with its stack (the rows of all stack entries change together). Every parity on the stack, expressed in the current rows of the linear map, is a parity of the input. Induction over a measure of the stack. |
| C51 | phase polynomial as list of parities with coefficients modulo 8: the gates map `x` to `L x` with phase `sum c_p p(x)`. A TODD step keeps the cubic signature of the columns (nullspace from C08), so the difference of the polynomials has even coefficients and is realised by the Clifford gates. The T gates are placed at the first time a parity occurs (C50). |
| C52 | the lists of the qubits are the filters of one list of gates sorted by index; every gate `greedy_consume_gates` moves to the block commutes with the gates it passes, where a Hadamard gate on a qubit exchanges the two kinds of the gate on it. Reversed circuits by transposition (complex conjugate of the adjoint). Composition with C49, C51 and C32 (swaps). |
| C53 | every step of both procedures is a row addition along an edge of the architecture, by case analysis of the tree traversals; the trackers are products of the same elementary matrices. |
| C54 | after the pass over intermediate vertices all walks through them are covered: invariant over the IKJ loops, twice, with walks cut at repeated vertices. |
| C55 | `rec_steiner_tree` is a tree whose edges are listed bottom up; adding along them clears a column below the pivot, and does not touch earlier columns. Upper triangular form by induction over pivots. For consecutive coupled qubits the qubit to be removed is the largest one left, so there are no recursive calls, and the second phase clears its column along a tree inside of the remaining qubits. Counterexamples by evaluation. |
| C56 | the traversal is a postorder: all but the last vertex have a later neighbour. The last vertex the search of `_is_cutting` finds is never marked. |
| C57 | by downward traversal the placement is the identity; the largest vertex is the root of the search and has one child, so it is removed first; then C55. |
| C58 | a reduced Clifford diagram has no interior spiders apart from the ones the extraction can handle; with an invertible map the biadjacency matrix of the frontier is square and invertible in every round, so that a choice that produces a row of weight 1 makes progress (weight: vertices that are left). `full_reduce` ends by C45. The choices of the code: a minimal sum of rows with weight 1 is found among the first 100000 combinations up to 16 rows, otherwise Gaussian elimination of the matrix with permuted columns is used. `_find_targets`: a failed option leaves a certificate (rows that share too few columns) which is still valid for later options. |
| C59 | the weight of the termination proof (C45) with a parameter: spiders that are not Clifford weigh N, all other vertices at most 4, and no pass increases the weight for any N ≥ 16; with N larger than four times the number of vertices the T-count cannot grow. Spider fusion directly. `to_graph` and `extract_circuit`: T-like spiders plus T-like gates is an invariant of every step. |
| C60 | `reduce_scalar`: the passes of C45 and the supplementarity rule; the loop ends by a lexicographic measure (T-count, weight of C45 and what is left of the gadgets, number of vertices), supplementarity lowers the T-count. `replace_magic_states`: every new diagram is the old one with at most as many new Z-spiders as T-spiders are removed, with the same edges at the boundary, so vertices plus T-count does not grow and one bound of the fuel serves for the whole recursion. `find_stabilizer_decomp` by induction on the T-count. For a closed diagram the normal form of a Clifford term has no edges. |
| C61 | the random outcomes are arguments. `cliffordT`: the invariant of `circuit_to_graph` (C28) for every iteration, with the node that is added first and retyped. `cnots`: the graph is built from a plan (rows of nodes, then edges), related step by step to the diagram of the circuit. `CNOT_HAD_PHASE_circuit`: induction over the draws; the inner loop has a bound as argument. |
| C62 | two new Z-spiders joined by Hadamard edges unfuse a phase: the path sum changes by H·H = 1. |
| C63 | `identity`, `spider`: the path sum of the diagram built so far is an invariant of the loops. Commuting controls: one circuit is block diagonal with the identity in the block where the other one acts, and the adjoints cancel (C30). Two-qubit identities: products of 2 × 2 blocks. Phase polynomial: the phases as powers of an eighth root of unity for each of the 16 values of the bits. |
| C64 | the removed H-boxes are not adjacent, so that the path sum over their legs factorises; each factor is √2 times the kernel of the new edge. Specification in `Spec/HForm.lean`: the tensor of a diagram with H-boxes. |
| C65 | as C64: the sum over the removed H-box of phase 1, contracted with the Hadamard edge, is √2 times the product of its other legs attached to the H-box that stays. False for connected matches: counterexample and partial theorem. |
| C66 | the sum over an H-box with white neighbours is its phase on the states in which all neighbours are 1, so a factor 1 without phase. Counterexample next to an X-spider. |
| C67 | as C66: the sum over the H-box and its NOT gates is its phase on the states in which the white neighbours are 1 and the spiders behind the NOT gates 0; the product over a group adds the phases. The matcher by induction on the neighbours and on the candidates. The loop ends because each pass removes an H-box. |
| C68 | as C67 for an H-box with one leg: its sum is a phase of the spider. Induction on the list of H-boxes; the neighbours of the other H-boxes do not change. False for Hadamard edges: counterexample and partial theorem. |
| C69 | the matcher by induction on the neighbours and on the candidates. False: counterexample with three vertices by evaluating the path sum. The rewrite is modelled only for H-boxes without further neighbours. |
| C38 | tensorfy loop as sequential contraction. |
| C39 | record-level model; memory aliasing not modelled. |
| C40 | list folds. |
