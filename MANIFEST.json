{
 "claims": [
  {
   "property": "C01",
   "status": "proved",
   "theorems": [
    "PyZX.Props.gauss_echelon"
   ],
   "note": "All rectangular matrices, all block sizes >= 1, all observers x, y."
  },
  {
   "property": "C02",
   "status": "proved",
   "theorems": [
    "PyZX.Props.gauss_rank",
    "PyZX.Props.rank_eq"
   ],
   "note": "Against Mathlib's Matrix.rank over ZMod 2."
  },
  {
   "property": "C03",
   "status": "proved",
   "theorems": [
    "PyZX.Props.gauss_trace",
    "PyZX.Props.gauss_factors",
    "PyZX.Props.gauss_observers"
   ],
   "note": ""
  },
  {
   "property": "C04",
   "status": "proved",
   "theorems": [
    "PyZX.Props.gauss_history"
   ],
   "note": "The stale content of the shared default list never matters; the list itself grows."
  },
  {
   "property": "C05",
   "status": "proved",
   "theorems": [
    "PyZX.Props.factor_spec",
    "PyZX.Props.factor_mul",
    "PyZX.Props.factor_zero_raises"
   ],
   "note": "For a zero matrix the factorisation is right but the library's product m0*m1 raises (factor_zero_raises)."
  },
  {
   "property": "C06",
   "status": "proved",
   "theorems": [
    "PyZX.Props.inverse_sound",
    "PyZX.Props.inverse_none_iff"
   ],
   "note": ""
  },
  {
   "property": "C07",
   "status": "proved",
   "theorems": [
    "PyZX.Props.solve_sound",
    "PyZX.Props.solve_none_iff"
   ],
   "note": ""
  },
  {
   "property": "C08",
   "status": "proved",
   "theorems": [
    "PyZX.Props.nullspace_spec",
    "PyZX.Props.nullspace_length"
   ],
   "note": "Python path only; the optional C extension is not modelled."
  },
  {
   "property": "C09",
   "status": "proved",
   "theorems": [
    "PyZX.Props.toCnots_optimize_min",
    "PyZX.Props.toCnots_sound",
    "PyZX.Props.toCnots_defined",
    "PyZX.Props.toCnots_optimize_defined"
   ],
   "note": "Includes the exact set of inputs on which to_cnots raises without optimize; with optimize it raises for fewer than 2 rows and is shown to return for 2 to 499 rows (beyond, the initial best=1000000 may be too small)."
  },
  {
   "property": "C10",
   "status": "proved",
   "theorems": [
    "PyZX.Props.reach_inv",
    "PyZX.Props.reach_fresh",
    "PyZX.Props.addEdges_overcounts",
    "PyZX.Props.selfloop_remove_raises"
   ],
   "note": "Induction over call histories of the simple-graph backend. Caller obligations (no self-loop; add_edges only on unconnected pairs) are explicit and shown to be needed by two counterexamples."
  },
  {
   "property": "C11",
   "status": "proved",
   "theorems": [
    "PyZX.Props.addEdge_exact",
    "PyZX.Props.addEdge_defined"
   ],
   "note": "Z, X, Z-box and boundary vertices; H-boxes and W-nodes are outside the model."
  },
  {
   "property": "C12",
   "status": "proved",
   "theorems": [
    "PyZX.Scalar.new_toNumber",
    "PyZX.Scalar.addPower_toNumber",
    "PyZX.Scalar.addPhase_toNumber",
    "PyZX.Scalar.addNode_toNumber",
    "PyZX.Scalar.addFloat_toNumber",
    "PyZX.Scalar.multWithScalar_toNumber",
    "PyZX.Scalar.copy_toNumber",
    "PyZX.Scalar.copy_conj_toNumber"
   ],
   "note": "Numeric value of the scalar record, over exact complex numbers (floats modelled as exact)."
  },
  {
   "property": "C13",
   "status": "partial",
   "theorems": [
    "PyZX.Scalar.addSpiderPair_toNumber_partial",
    "PyZX.Scalar.addSpiderPair_wrong"
   ],
   "note": "Correct except on the branch that calls cos without the factor pi; addSpiderPair_wrong proves the code returns a wrong value there."
  },
  {
   "property": "C14",
   "status": "proved",
   "theorems": [
    "PyZX.Props.spider_preserves",
    "PyZX.Props.spider_round",
    "PyZX.Props.fuse_preserves",
    "PyZX.Props.fuse_any"
   ],
   "note": "rules.spider with its matcher and basicrules.fuse. The Z-box label computed from a phase is exact in the model (the code rounds it to 8 decimals); W-nodes are not modelled."
  },
  {
   "property": "C15",
   "status": "proved",
   "theorems": [
    "PyZX.Props.removeIds_preserves",
    "PyZX.Props.ids_round",
    "PyZX.Props.removeId_preserves",
    "PyZX.Props.removeId_any"
   ],
   "note": "All independent match lists and everything the matcher returns; basicrules.remove_id."
  },
  {
   "property": "C16",
   "status": "proved",
   "theorems": [
    "PyZX.Props.lcomp_preserves",
    "PyZX.Props.lcomp_round"
   ],
   "note": "Scalar included; all match lists the matcher can return."
  },
  {
   "property": "C17",
   "status": "proved",
   "theorems": [
    "PyZX.Props.pivot_preserves",
    "PyZX.Props.pivot_round",
    "PyZX.Props.pivotGadget_round",
    "PyZX.Props.pivotBoundary_round"
   ],
   "note": "Scalar included. The gadget and boundary matchers do not look at edge types; they are sound on diagrams whose Z-Z edges are Hadamard edges (hypothesis ZHad), which is how the simplifier calls them."
  },
  {
   "property": "C18",
   "status": "proved",
   "theorems": [
    "PyZX.Props.matchIds_independent",
    "PyZX.Props.matchLcomp_independent",
    "PyZX.Props.matchSpider_independent",
    "PyZX.Props.matchPivot_independent"
   ],
   "note": "Every pop order, every limit num."
  },
  {
   "property": "C19",
   "status": "partial",
   "theorems": [
    "PyZX.Props.gadgetGroups_spec",
    "PyZX.Props.gadget_partial",
    "PyZX.Props.gadget_groups_partial",
    "PyZX.Props.gadget_complete",
    "PyZX.Props.gadget_not_exact"
   ],
   "note": "Exact, scalar included, when no two axels are adjacent (or, more generally, when no axels of different fused groups are); the matcher does not check this, and gadget_not_exact exhibits a diagram whose scalar is then wrong. Symbolic phases and phase tracking are not modelled."
  },
  {
   "property": "C20",
   "status": "partial",
   "theorems": [
    "PyZX.Props.copyTry_spec",
    "PyZX.Props.applyCopy_preserves",
    "PyZX.Props.matchCopy_disjoint",
    "PyZX.Props.copy_partial",
    "PyZX.Props.copy_first",
    "PyZX.Props.matchCopy_complete",
    "PyZX.Props.copy_not_exact"
   ],
   "note": "Exact, scalar included, when no two matched spiders are connected; the matcher may return connected ones, and copy_not_exact exhibits a diagram whose scalar is then wrong."
  },
  {
   "property": "C21",
   "status": "partial",
   "theorems": [
    "PyZX.Props.applySupp_preserves",
    "PyZX.Props.matchSupp_spec",
    "PyZX.Props.supp_partial",
    "PyZX.Props.matchSupp_complete",
    "PyZX.Props.exSupp_found",
    "PyZX.Props.supp_isolated_raises",
    "PyZX.Props.supp_returns"
   ],
   "note": "Exact, scalar included, for everything the matcher returns on diagrams of green spiders with Hadamard edges without isolated non-Clifford spiders; with isolated ones the code can raise (supp_isolated_raises), but whenever it returns the result is right (supp_returns)."
  },
  {
   "property": "C22",
   "status": "partial",
   "theorems": [
    "PyZX.Props.strongComp_preserves",
    "PyZX.Props.strongComp_any",
    "PyZX.Props.copyX_preserves",
    "PyZX.Props.copyX_copies",
    "PyZX.Props.bialg_partial",
    "PyZX.Props.matchBialg_independent",
    "PyZX.Props.bialg_not_exact"
   ],
   "note": "strong_comp and copy_X are exact. rules.bialg records no scalar: the exact factor is proved (bialg_partial) and a matched diagram on which the tensor changes is exhibited (bialg_not_exact)."
  },
  {
   "property": "C23",
   "status": "proved",
   "theorems": [
    "PyZX.Props.colorChange_preserves",
    "PyZX.Props.toGH_preserves",
    "PyZX.Props.toRG_preserves",
    "PyZX.Props.toRG_types",
    "PyZX.Props.colorChangeDiagram_hadamards"
   ],
   "note": "Every order of vertices and neighbours, every predicate (also state dependent)."
  },
  {
   "property": "C24",
   "status": "partial",
   "theorems": [
    "PyZX.Props.removeIsolated_partial",
    "PyZX.Props.removeIsolated_upTo",
    "PyZX.Props.isoBranch_of_quarter",
    "PyZX.Props.removeIsolated_removes",
    "PyZX.Props.removeIsolated_zbox_wrong",
    "PyZX.Props.removeIsolated_boundary_raises"
   ],
   "note": "Exact when every pair scalar is computed on a correct branch of add_spider_pair (in particular for phases that are multiples of pi/4); up to a non-zero factor for all phases. An isolated Z-box gets the wrong scalar and an isolated boundary makes the code raise: both are proved."
  },
  {
   "property": "C25",
   "status": "partial",
   "theorems": [
    "PyZX.Props.tensor_spec",
    "PyZX.Props.adjoint_spec_partial",
    "PyZX.Props.adjoint_zbox_wrong",
    "PyZX.Props.compose_spec_partial",
    "PyZX.Props.compose_length_raises",
    "PyZX.Props.compose_cup_wrong"
   ],
   "note": "tensor: every diagram. adjoint: every diagram whose Z-boxes have real parameters; adjoint_zbox_wrong shows that other Z-boxes are not conjugated. compose: succeeds and is the matrix product when outputs of the first and inputs of the second are not wired among themselves; compose_cup_wrong exhibits a diagram with such a wire on which the code silently returns a wrong diagram. Positions and grounds are not modelled."
  },
  {
   "property": "C26",
   "status": "proved",
   "theorems": [
    "PyZX.Props.applyState_spec",
    "PyZX.Props.applyEffect_spec",
    "PyZX.Props.applyState_mat",
    "PyZX.Props.applyEffect_mat",
    "PyZX.Props.applyState_raises",
    "PyZX.Props.applyEffect_raises",
    "PyZX.Props.applyState_isolated_wrong",
    "PyZX.Props.applyState_short_drops"
   ],
   "note": "Diagrams whose plugged inputs (outputs) have exactly one neighbour and phase 0. Without a neighbour the scalar is off by a factor sqrt 2 (applyState_isolated_wrong); a string shorter than the list of inputs removes the remaining inputs from the interface (applyState_short_drops)."
  },
  {
   "property": "C27",
   "status": "partial",
   "theorems": [
    "PyZX.Props.phaseSet_reduced",
    "PyZX.Props.phaseSet_quarter",
    "PyZX.Props.idSimp_terminates",
    "PyZX.Props.spiderSimp_terminates",
    "PyZX.Props.lcompSimp_terminates",
    "PyZX.Props.pivotSimp_terminates",
    "PyZX.Props.interiorCliffordSimp_terminates",
    "PyZX.Props.interiorCliffordSimp_exact",
    "PyZX.Props.pivotGadgetSimp_terminates",
    "PyZX.Props.pivotBoundarySimp_terminates",
    "PyZX.Props.cliffordSimp_terminates",
    "PyZX.Props.cliffordSimp_exact",
    "PyZX.Props.cliffordSimp_idem"
   ],
   "note": "id_simp, spider_simp, lcomp_simp, pivot_simp and interior_clifford_simp: every diagram of Z- and X-spiders, every iteration order, every filter; also the normal form reached. The tensor is kept exactly for phases that are multiples of pi/4, and up to a non-zero number otherwise (add_spider_pair, C13). pivot_gadget_simp and pivot_boundary_simp: the same for diagrams whose Z-spiders are connected by Hadamard edges only. clifford_simp without filter: every diagram of Z- and X-spiders. Missing: exactness for the phases for which add_spider_pair is wrong (C13), clifford_simp with a filter."
  },
  {
   "property": "C28",
   "status": "proved",
   "theorems": [
    "PyZX.Props.circuitToGraph_sound",
    "PyZX.Props.circuitToGraph_exact",
    "PyZX.Props.toGraph_sound",
    "PyZX.Props.toGraph_exact",
    "PyZX.Props.circuitToGraph_raises"
   ],
   "note": "All gate classes except measurements and conditional operations, all circuits of valid gates, with ancillas; both values of zh. Exact (scalar included) for gates with their own to_graph, up to a global phase of modulus one otherwise. Coordinates are not modelled, so compress_rows has no effect. Classical bits are plain wires."
  },
  {
   "property": "C29",
   "status": "proved",
   "theorems": [
    "PyZX.Props.toBasic_sound",
    "PyZX.Props.toBasicGates_sound",
    "PyZX.Props.toBasic_basic"
   ],
   "note": "Every gate class except measurement, reset, conditional gates and initialisation, against textbook matrices, up to a global phase."
  },
  {
   "property": "C30",
   "status": "partial",
   "theorems": [
    "PyZX.Props.adjoint_inverse_partial",
    "PyZX.Props.adjoint_adjoint",
    "PyZX.Props.csx_adjoint_wrong",
    "PyZX.Props.u3_adjoint_wrong"
   ],
   "note": "Holds for circuits without CSX, FSim, U2, U3, CU3, CU; the code returns these gates unchanged, which is proved wrong for CSX and U3."
  },
  {
   "property": "C31",
   "status": "proved",
   "theorems": [
    "PyZX.Props.splitPhases_sound",
    "PyZX.Props.splitPhaseGates_sound",
    "PyZX.Props.splitPhases_clifford"
   ],
   "note": "Exact, no global phase."
  },
  {
   "property": "C32",
   "status": "proved",
   "theorems": [
    "PyZX.Props.swaps_realise",
    "PyZX.Props.swaps_range",
    "PyZX.Props.swaps_count"
   ],
   "note": "All permutations of all sizes."
  },
  {
   "property": "C33",
   "status": "proved",
   "theorems": [
    "PyZX.Props.extract_sound",
    "PyZX.Props.extract_sound_perm",
    "PyZX.Props.extract_gates",
    "PyZX.Props.reduce_extract",
    "PyZX.Props.unit_of_circuit"
   ],
   "note": "Every returned circuit denotes the map of the diagram up to a nonzero number, with or without up_to_perm and with or without CZ optimisation, for any strategy that proposes CNOTs between different rows (so for all values of optimize_cnots). The required shape is Extractable: graph-like, invertible, every leaf hangs on an interior spider with phase 0 or \u03c0. reduce_extract: full_reduce followed by extract_circuit keeps the map of a circuit up to a global phase. Nothing is claimed about runs that raise or do not end; for Clifford diagrams they are excluded in C58."
  },
  {
   "property": "C34",
   "status": "proved",
   "theorems": [
    "PyZX.Props.gflow_terminates",
    "PyZX.Props.gflow_sound",
    "PyZX.Props.gflow_complete",
    "PyZX.Props.gflow_delayed",
    "PyZX.Props.gflow_iff"
   ],
   "note": "Returned flows satisfy the definition (measurements in the XY-plane) and are maximally delayed; None exactly if there is no flow. Assumes that no input boundary is an output. g.grounds() is a parameter."
  },
  {
   "property": "C35",
   "status": "proved",
   "theorems": [
    "PyZX.Props.replaceMagic_sound",
    "PyZX.Props.replaceMagic_raises",
    "PyZX.Props.pickRanked_law"
   ],
   "note": "All three decompositions (6, 2 and 1 spiders), every diagram whose T-like spiders are green (the documented precondition is weaker than graph-like), every choice of candidates; also the number of terms and the drop of the T-count. Floating-point constants are exact."
  },
  {
   "property": "C36",
   "status": "proved",
   "theorems": [
    "PyZX.Props.diff_spec",
    "PyZX.Props.diff_sem",
    "PyZX.Props.diff_label_lost"
   ],
   "note": "All pairs of graphs of the default backend, all iteration orders. Besides the listed data the theorem states what is not transferred: scalar, inputs, outputs, and the label of a new Z-box (diff_label_lost)."
  },
  {
   "property": "C37",
   "status": "proved",
   "theorems": [
    "PyZX.Symb.add_sound",
    "PyZX.Symb.sub_sound",
    "PyZX.Symb.neg_sound",
    "PyZX.Symb.mul_sound",
    "PyZX.Symb.add_exact",
    "PyZX.Symb.mul_exact",
    "PyZX.Symb.eq_sound",
    "PyZX.Symb.add_distinct",
    "PyZX.Symb.bool_square_not_reduced"
   ],
   "note": "All polynomials with rational or complex coefficients and natural exponents; equal modulo 2 in general, exactly equal if no term consists of Boolean variables only. Equality is sound for polynomials without repeated terms, which sums always are; it is not complete (x*x and x compare different)."
  },
  {
   "property": "C38",
   "status": "proved",
   "theorems": [
    "PyZX.Props.tensorfy_spec",
    "PyZX.Props.tensorfy_order",
    "PyZX.Props.tensorfy_isolatedX_raises",
    "PyZX.Props.tensorfy_late_input_raises"
   ],
   "note": "The numpy contraction loop with its axis bookkeeping (pop_and_shift, tensordot, transpose) equals the sum over half-edge labellings, for every vertex order. Diagrams with Z, X, Z-box and boundary vertices; H-boxes and W-nodes are not modelled; exact numbers instead of floats. Two cases in which the code raises although the diagram denotes a matrix are proved."
  },
  {
   "property": "C39",
   "status": "proved",
   "theorems": [
    "PyZX.Props.clone_spec",
    "PyZX.Props.copy_spec",
    "PyZX.Props.copy_consecutive"
   ],
   "note": "Same tensor, renamed vertices in enumeration order, consecutive names. Independence of the copy is implicit in the functional model (records share nothing); the shallow copy of vertex data in clone is not modelled."
  },
  {
   "property": "C40",
   "status": "proved",
   "theorems": [
    "PyZX.Props.tcount_toBasic",
    "PyZX.Props.tcount_toBasicGates",
    "PyZX.Props.tcount_rot",
    "PyZX.Props.depthQubits_spec",
    "PyZX.Props.depth_chain",
    "PyZX.Props.twoqubitcount_spec",
    "PyZX.Props.tcount_add",
    "PyZX.Props.tcount_adjoint",
    "PyZX.Props.tcount_chad_wrong",
    "PyZX.Props.depth_longest_chain",
    "PyZX.Props.depth_le_length",
    "PyZX.Props.depth_append",
    "PyZX.Props.depth_ignores_Y"
   ],
   "note": "Depth is shown equal to the longest chain of gates sharing qubits, among the gates the code counts; two theorems record what is not counted."
  },
  {
   "property": "C41",
   "status": "proved",
   "theorems": [
    "PyZX.Props.addCircuitMask_sound",
    "PyZX.Props.tensor_sound",
    "PyZX.Props.fsim_reposition_raises",
    "PyZX.Props.rzz_reposition_stale"
   ],
   "note": "Bits and the print attributes of RZZ are not part of the claim (rzz_reposition_stale)."
  },
  {
   "property": "C42",
   "status": "partial",
   "theorems": [
    "PyZX.Props.piCommuteZ_partial",
    "PyZX.Props.piCommuteZ_not_exact"
   ],
   "note": "The code records no scalar; the exact factor is proved and a counterexample to exactness is exhibited. The branch that mutates the dictionary under iteration is not modelled."
  },
  {
   "property": "C43",
   "status": "proved",
   "theorems": [
    "PyZX.Symb.substitute_sound",
    "PyZX.Symb.isPauli_sound",
    "PyZX.Symb.isClifford_sound"
   ],
   "note": "All polynomials and all partial substitutions."
  },
  {
   "property": "C44",
   "status": "partial",
   "theorems": [
    "PyZX.Symb.mod2_sound_partial",
    "PyZX.Symb.mod2_continuous_wrong",
    "PyZX.Symb.add_then_mul_wrong",
    "PyZX.Symb.pow_wrong"
   ],
   "note": "True for real coefficients and variables with values 0 and 1. False in general: the phase 2*theta is stored as 0, so fusing two spiders with phase theta loses the phase; also (x+x)/2 is 0 and powers of Boolean polynomials are wrong."
  },
  {
   "property": "C45",
   "status": "proved",
   "theorems": [
    "PyZX.Props.gadgetSimp_terminates",
    "PyZX.Props.fullReduce_hbox",
    "PyZX.Props.fullReduce_terminates",
    "PyZX.Props.fullReduce_exact",
    "PyZX.Props.fullReduce_idem"
   ],
   "note": "Full claim, without filter. No loop runs more than 32|V|+2 times."
  },
  {
   "property": "C46",
   "status": "partial",
   "theorems": [
    "PyZX.Props.verify_raises",
    "PyZX.Props.verify_no_raise",
    "PyZX.Props.verify_answers",
    "PyZX.Props.verify_sound_partial",
    "PyZX.Props.verify_swaps_partial",
    "PyZX.Props.verify_wrong"
   ],
   "note": "Sound for all circuits whose first operand consists of gates with a correct to_adjoint (C30), with and without up_to_swaps; it always ends, and raises exactly in the stated cases. False in general: U3(0,0,pi/2) is reported equal to S-dagger, because to_adjoint does not change it."
  },
  {
   "property": "C47",
   "status": "partial",
   "theorems": [
    "PyZX.Props.optimise_reduces",
    "PyZX.Props.optimise_sound_partial"
   ],
   "note": "All circuits of valid gates, whenever the leaves of the phase gadgets of the reduced diagram hang on interior spiders with phase 0 or pi, and extract_circuit returns. The factor has modulus 1. Missing: that the diagrams of circuits always have such leaves (this would need the theory of extended gflow) and that the extraction ends (full_reduce does: optimise_reduces). For Clifford circuits both are proved: C58."
  },
  {
   "property": "C48",
   "status": "partial",
   "theorems": [
    "PyZX.Props.isId_mat",
    "PyZX.Props.isId_sound_partial",
    "PyZX.Props.isId_complete",
    "PyZX.Props.isId_wrong"
   ],
   "note": "Exact description of the map for every True answer: one identity or Hadamard gate for each wire. So the claim holds for diagrams without Hadamard edges; it is false in general, a Hadamard wire is accepted."
  },
  {
   "property": "C49",
   "status": "proved",
   "theorems": [
    "PyZX.Props.optimize_sound",
    "PyZX.Props.optimize_returns_iff",
    "PyZX.Props.optimize_tcount",
    "PyZX.Props.optimize_connectivity",
    "PyZX.Props.optimize_twoqubitcount",
    "PyZX.Props.optimize_swaps_grow",
    "PyZX.Props.optimize_xphase_raises"
   ],
   "note": "Full claim for every circuit. optimize_swaps_grow: with do_swaps (the default) the number of two-qubit gates can grow, two CNOTs become four. optimize_xphase_raises: full_optimize raises on X rotations, to_basic_gates keeps them."
  },
  {
   "property": "C50",
   "status": "proved",
   "theorems": [
    "PyZX.Props.parityNetwork_sound"
   ],
   "note": "All lists of parities of the right length."
  },
  {
   "property": "C51",
   "status": "proved",
   "theorems": [
    "PyZX.Props.toddSimp_sound",
    "PyZX.Props.toddSimp_returns",
    "PyZX.Props.toddSimp_raises",
    "PyZX.Props.toddSimp_swap_wrong",
    "PyZX.Props.toddSimp_phase_wrong"
   ],
   "note": "Exact equality of maps, for an arbitrary permutation as shuffle. Other gates: SWAP is accepted and treated as CZ, other phases are truncated (two counterexamples)."
  },
  {
   "property": "C52",
   "status": "proved",
   "theorems": [
    "PyZX.Props.phaseBlock_exact",
    "PyZX.Props.phaseBlock_returns_iff",
    "PyZX.Props.phaseBlock_raises",
    "PyZX.Props.phaseBlock_sound",
    "PyZX.Props.phaseBlock_returns",
    "PyZX.Props.fullOptimize_sound",
    "PyZX.Props.fullOptimize_returns",
    "PyZX.Props.fullOptimize_one_raises"
   ],
   "note": "Full claim, for an arbitrary permutation as shuffle in every round. full_optimize and phase_block_optimize raise on one-qubit circuits, for instance a single T gate. The soundness statements do not assume multiples of pi/4."
  },
  {
   "property": "C53",
   "status": "proved",
   "theorems": [
    "PyZX.Props.recGauss_coupled",
    "PyZX.Props.steinerGauss_coupled",
    "PyZX.Props.recGauss_tracker",
    "PyZX.Props.steinerGauss_tracker"
   ],
   "note": "Full claim, for the observers of the code and for arbitrary ones, whenever the procedures return. The permutation argument is not modelled."
  },
  {
   "property": "C54",
   "status": "proved",
   "theorems": [
    "PyZX.Props.floyd_shortest"
   ],
   "note": "Full claim. Allowed steps: both ends in the list; without upper only from the larger to the smaller qubit, except inside of rec_vertices."
  },
  {
   "property": "C55",
   "status": "partial",
   "theorems": [
    "PyZX.Props.recGauss_upper",
    "PyZX.Props.recGauss_identity_partial",
    "PyZX.Props.recGauss_routes_partial",
    "PyZX.Props.recGauss_identity_counterexample",
    "PyZX.Props.steinerGauss_full_counterexample",
    "PyZX.Props.steinerGauss_upper_counterexample"
   ],
   "note": "False in general. rec_steiner_gauss: upper triangular form on every connected architecture with default placement (C56), the identity whenever consecutive qubits are coupled (C57); in other cases it can return something else without an error (counterexample with five qubits). steiner_gauss: counterexamples with two qubits for full_reduce and five qubits for the upper triangular form; no positive result."
  },
  {
   "property": "C56",
   "status": "proved",
   "theorems": [
    "PyZX.Props.build_default",
    "PyZX.Props.recGauss_default"
   ],
   "note": "Full claim."
  },
  {
   "property": "C57",
   "status": "proved",
   "theorems": [
    "PyZX.Props.hamiltonian_routes",
    "PyZX.Props.line_routes",
    "PyZX.Props.circle_routes",
    "PyZX.Props.square_routes",
    "PyZX.Props.full_routes"
   ],
   "note": "Full claim; the circle with one qubit, whose graph has a loop, is excluded."
  },
  {
   "property": "C58",
   "status": "proved",
   "theorems": [
    "PyZX.Props.clifford_pipeline",
    "PyZX.Props.clifford_pipeline_default",
    "PyZX.Props.clifford_extract",
    "PyZX.Props.codeChoice_good",
    "PyZX.Props.columnOrder_permutation",
    "PyZX.Props.greedy_progress",
    "PyZX.Props.filterDuplicateCnots_sound",
    "PyZX.Props.columnOrder_optimal_counterexample"
   ],
   "note": "Full claim. clifford_pipeline: any number of qubits and any choice of CNOTs that makes progress; clifford_pipeline_default: the choice of the code at levels 0 to 2, 1 to 499 qubits. columnOrder_optimal_counterexample refutes the docstring of column_optimal_swap (as many ones on the diagonal as possible). optimize_cnots=3 differs from 2 by the choice between two sets of CNOTs and the order of the neighbours; it is covered by clifford_pipeline only."
  },
  {
   "property": "C59",
   "status": "partial",
   "theorems": [
    "PyZX.Props.tcount_spec",
    "PyZX.Props.interiorCliffordSimp_tcount",
    "PyZX.Props.cliffordSimp_tcount",
    "PyZX.Props.fullReduce_tcount",
    "PyZX.Props.toGraph_tcount",
    "PyZX.Props.extract_tcount",
    "PyZX.Props.optimise_tcount_partial",
    "PyZX.Props.optimise_tcount_self_partial",
    "PyZX.Props.clifford_stays",
    "PyZX.Props.toGraph_tcount_fsim_wrong"
   ],
   "note": "The statements about the three simplification procedures and to_graph are complete. extract_tcount and the statements about the whole optimisation assume, as C33 and C47, that the extraction returns and that the phase gadgets of the reduced diagram have the expected shape; for Clifford circuits nothing is assumed (clifford_stays, C58). Circuit.tcount counts 0 for FSim (toGraph_tcount_fsim_wrong) and too little for other gates (tcount_chad_wrong in C40), which is why to_basic_gates occurs in the claim."
  },
  {
   "property": "C60",
   "status": "partial",
   "theorems": [
    "PyZX.Props.reduceScalar_partial",
    "PyZX.Props.reduceScalar_exact_partial",
    "PyZX.Props.reduceScalar_raises",
    "PyZX.Props.findDecomp_partial",
    "PyZX.Props.findDecomp_closed_partial",
    "PyZX.Props.findDecomp_clifford",
    "PyZX.Props.maxTerms_not_mono"
   ],
   "note": "All of the claim for runs that return, and all loops and the recursion end. Missing: reduce_scalar, and so find_stabilizer_decomp, can raise (reduceScalar_raises, three isolated T-spiders); the bound max_terms_needed(g) is proved for T-counts below 12, for larger ones the largest value up to the T-count, because max_terms_needed is not monotone (maxTerms_not_mono)."
  },
  {
   "property": "C61",
   "status": "partial",
   "theorems": [
    "PyZX.Props.cliffordT_denotes",
    "PyZX.Props.draw_gates_valid",
    "PyZX.Props.cliffordT_raises",
    "PyZX.Props.probs_sum",
    "PyZX.Props.kind_zero",
    "PyZX.Props.kind_noT_partial",
    "PyZX.Props.cliffordT_draws_T",
    "PyZX.Props.hadCircuit_valid",
    "PyZX.Props.hadGate_ends",
    "PyZX.Props.hadGate_hangs",
    "PyZX.Props.cnots_partial",
    "PyZX.Props.cnots_reversed"
   ],
   "note": "The claims about cliffordT and CNOT_HAD_PHASE_circuit hold with the exceptions cliffordT_draws_T (outcome exactly 0), cliffordT_raises (a CNOT on one qubit) and hadGate_hangs (the same). The claim about cnots is false (cnots_reversed); cnots_partial says what it returns."
  },
  {
   "property": "C62",
   "status": "proved",
   "theorems": [
    "PyZX.Props.lcCong2_sound",
    "PyZX.Props.applyRandLc_sound"
   ],
   "note": "Full claim, for stored phases that are not negative, as set_phase reduces them modulo 2."
  },
  {
   "property": "C63",
   "status": "proved",
   "theorems": [
    "PyZX.Props.identity_denotes",
    "PyZX.Props.spiderZ_denotes",
    "PyZX.Props.spiderX_denotes",
    "PyZX.Props.spiderH_denotes",
    "PyZX.Props.identityPhasepoly_id",
    "PyZX.Props.identityControls_id",
    "PyZX.Props.identityTwo1_id",
    "PyZX.Props.identityTwo2_id",
    "PyZX.Props.spiderH_default"
   ],
   "note": "Full claim. spiderH_default: without a phase, spider uses 0 also for an H-box, which is then not the Hadamard gate."
  },
  {
   "property": "C64",
   "status": "proved",
   "theorems": [
    "PyZX.Props.hadamardToHEdge_preserves",
    "PyZX.Props.matchHadamards_independent",
    "PyZX.Props.hadamard_round",
    "PyZX.Props.hadamard_raises"
   ],
   "note": "Full claim, for every order of the candidates and of the matches. hadamard_raises: between two connected H-boxes add_edge raises on the parallel edge."
  },
  {
   "property": "C65",
   "status": "partial",
   "theorems": [
    "PyZX.Props.fuseHboxes_preserves",
    "PyZX.Props.matchConnected_disjoint",
    "PyZX.Props.matchConnected_complete",
    "PyZX.Props.fuse_round_partial",
    "PyZX.Props.fuse_single",
    "PyZX.Props.fuse_not_sound",
    "PyZX.Props.fuse_raises"
   ],
   "note": "The claims about the matcher are complete. The rewrite is exact for matches that are not connected to each other (fuse_round_partial; fuseHboxes_preserves is slightly more general) and for every single match, as long as the two H-boxes have no common neighbour, for which it raises (fuse_raises). False in general: connected matches lose their connection (fuse_not_sound, tensor 0 becomes -2)."
  },
  {
   "property": "C66",
   "status": "proved",
   "theorems": [
    "PyZX.Props.zeroHbox_preserves",
    "PyZX.Props.zero_round",
    "PyZX.Props.zero_not_sound"
   ],
   "note": "Full claim. White neighbours: boundaries, Z-spiders and Z-boxes with an ordinary edge, X-spiders with a Hadamard edge. zero_not_sound: next to an X-spider with an ordinary edge the tensor changes, so the condition of the docstring is needed; the matcher does not check it."
  },
  {
   "property": "C67",
   "status": "proved",
   "theorems": [
    "PyZX.Props.parHbox_preserves",
    "PyZX.Props.matchPar_parallel",
    "PyZX.Props.matchPar_complete",
    "PyZX.Props.par_round",
    "PyZX.Props.parHboxSimp_sound",
    "PyZX.Props.parHboxSimp_complete"
   ],
   "note": "Full claim, for every order of the candidates and of the neighbours."
  },
  {
   "property": "C68",
   "status": "partial",
   "theorems": [
    "PyZX.Props.absorb_partial",
    "PyZX.Props.absorb_not_sound"
   ],
   "note": "Only the first loop of from_hypergraph_form is modelled. The claim holds if the H-boxes hang on ordinary edges. False in general: the code does not look at the type of the edge, and an H-box on a Hadamard edge is fused as well (absorb_not_sound, tensor sqrt(2) becomes 0)."
  },
  {
   "property": "C69",
   "status": "partial",
   "theorems": [
    "PyZX.Props.isNotGate_iff",
    "PyZX.Props.matchNot_partial",
    "PyZX.Props.not_not_sound"
   ],
   "note": "The matcher returns H-boxes with phase 1 and a NOT gate to a vertex to which they are connected (matchNot_partial). False in general: it does not check the direct edge; with a Hadamard edge the rewrite changes the tensor 0 into 2 (not_not_sound). Missing: that the rewrite keeps the tensor for ordinary edges to Z-spiders. The rewrite is modelled only for H-boxes without neighbours that need a new vertex, and before isolated vertices are removed."
  }
 ]
}