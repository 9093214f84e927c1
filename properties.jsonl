{"id": "C01", "title": "Appended registers get disjoint, contiguous, correctly sized global lines", "statement": "After any sequence of QuantumCircuit.append calls with pairwise distinct register labels, num_qudits is the sum of the register sizes, dimensions is the concatenation of the register dimensions, the pair (label, i) resolves through the circuit's site map to exactly one global line whose recorded dimension is the register's i-th dimension and equals circuit.dimensions at that line, every line below num_qudits is hit, and the inverse map undoes the forward map. Registers appended earlier never move.", "quantifier": "every finite sequence of registers (any sizes, any dimensions) with distinct labels, every register and local index", "why_tests_cant": "A test fixes a handful of register shapes; the claim is about every append history.", "anchors": ["src/mqt/qudits/quantum_circuit/circuit.py: QuantumCircuit.append, reset", "src/mqt/qudits/quantum_circuit/components/quantum_register.py: QuantumRegister"]}
{"id": "C02", "title": "Instruction list and gate counter agree after every editing history", "statement": "After any sequence of gate-builder calls, set_instructions, replace_gate with an index of an existing gate, and reset, number_gates equals len(instructions), and instructions is exactly the list obtained by performing those edits on an ordinary list (append at end, replace one element by a sequence, overwrite, clear).", "quantifier": "every finite history of circuit editing calls", "why_tests_cant": "Histories are unbounded and interleave arbitrarily; tests only try a few.", "anchors": ["src/mqt/qudits/quantum_circuit/circuit.py: add_gate_decorator, replace_gate, set_instructions, reset"]}
{"id": "C03", "title": "A control request is accepted exactly when it denotes a legal controlled gate", "statement": "Gate.control(indices, ctrl_states) on a single-qudit gate succeeds exactly when every index is a line of the circuit different from the target, indices are distinct, there is one control level per index and each level is below the dimension of the line it controls; otherwise it raises and the gate is unchanged.", "quantifier": "every circuit, every single-qudit gate, all index and level lists", "why_tests_cant": "The check compares levels with dimensions position by position; only a quantified statement over all index orders exposes which lines are really compared.", "anchors": ["src/mqt/qudits/quantum_circuit/gate.py: Gate.control"]}
{"id": "C04", "title": "Gate type and long-range flag describe the lines the gate touches", "statement": "After a gate is built or controlled, gate_type is SINGLE/TWO/MULTI according to whether it touches one, two or more lines, and is_long_range is true exactly when some line strictly between the lowest and highest touched line is not touched.", "quantifier": "every gate, every list of distinct lines, every order of construction and control calls", "why_tests_cant": "Requires every set of lines in every order; the flag is cached state so it also ranges over call histories.", "anchors": ["src/mqt/qudits/quantum_circuit/gate.py: Gate.__init__, control, check_long_range, reference_lines"]}
{"id": "C05", "title": "dag() yields the adjoint, and taking it twice restores the gate", "statement": "After one dag() call to_matrix returns the conjugate transpose of the matrix before the call; after an even number of dag() calls it returns the original matrix again.", "quantifier": "every gate, every number of dag() calls", "why_tests_cant": "Ranges over all matrices and all call counts; tests call dag() once.", "anchors": ["src/mqt/qudits/quantum_circuit/gate.py: Gate.dag", "src/mqt/qudits/quantum_circuit/components/extensions/matrix_factory.py: MatrixFactory.generate_matrix"]}
{"id": "C06", "title": "Every built-in gate with accepted parameters is unitary", "statement": "For every dimension, level choice and angle that a gate's parameter validation accepts, the matrix returned by X, Z, H, S, R, Rz, Rh, VirtRz, NoiseX, NoiseY, CSum, CEx, LS and MS satisfies U U* = U* U = 1.", "quantifier": "all dimensions, levels, angles accepted by validation", "why_tests_cant": "Infinite families of dimensions and real angles.", "anchors": ["src/mqt/qudits/quantum_circuit/gates/*.py: __array__, validate_parameter"]}
{"id": "C07", "title": "X and Z are the Weyl shift and clock, H is the Fourier transform between them", "statement": "In dimension d, X maps |i> to |i+1 mod d>, Z multiplies |i> by w^i with w = exp(2 pi i/d); X^d = Z^d = 1, Z X = w X Z, and H X H* = Z.", "quantifier": "every dimension d >= 1 (d >= 2 where needed) and every basis state", "why_tests_cant": "All dimensions at once; numeric tests check d = 2,3 up to rounding.", "anchors": ["src/mqt/qudits/quantum_circuit/gates/x.py: X.__array__", "src/mqt/qudits/quantum_circuit/gates/z.py: Z.__array__", "src/mqt/qudits/quantum_circuit/gates/h.py: H.__array__"]}
{"id": "C08", "title": "Two-level rotations only touch their two levels and compose by adding angles", "statement": "R on levels a,b is the identity on every other level; R(t1,phi) followed by R(t2,phi) is R(t1+t2,phi); R(-t,phi) is the inverse; the Rz gate equals diag(exp(-i phi/2), exp(i phi/2)) on its levels and Rh equals i times the Hadamard on its levels.", "quantifier": "all dimensions, all level pairs in either order, all real angles", "why_tests_cant": "Continuum of angles and unbounded dimensions.", "anchors": ["src/mqt/qudits/quantum_circuit/gates/r.py: R.__array__", "src/mqt/qudits/quantum_circuit/gates/rz.py: Rz.__array__", "src/mqt/qudits/quantum_circuit/gates/rh.py: Rh.__array__", "src/mqt/qudits/quantum_circuit/gates/virt_rz.py: VirtRz.__array__"]}
{"id": "C09", "title": "CSum adds the control level to the target, CEx rotates only on its control level, for either qudit order", "statement": "csum([a,b]) maps |..i..j..> to |..i..(j+i mod d_b)..> where i is the level of line a and j of line b, whichever of the two lines is lower; cx([a,b]) acts as the identity unless line a is in the control level and there exchanges exactly the two named levels of line b with phases -i exp(-+ i phi).", "quantifier": "all dimension pairs, both line orders, all basis states, all accepted parameters", "why_tests_cant": "All dimensions and both wire orders; tests use small fixed cases.", "anchors": ["src/mqt/qudits/quantum_circuit/gates/csum.py: CSum.__array__", "src/mqt/qudits/quantum_circuit/gates/cx.py: CEx.__array__"]}
{"id": "C10", "title": "The light-shift gate is diagonal with phase exp(-i theta) exactly on equal levels of the two lines", "statement": "ls([a,b],[theta]) multiplies a basis state by exp(-i theta) when the levels of lines a and b coincide and leaves all other basis states alone, regardless of the order in which the two lines are named.", "quantifier": "all dimension pairs, both line orders, all theta in [0, 2 pi]", "why_tests_cant": "Wrong behaviour appears only for unequal dimensions in descending order.", "anchors": ["src/mqt/qudits/quantum_circuit/gates/ls.py: LS.__array__", "src/mqt/qudits/quantum_circuit/components/extensions/matrix_factory.py"]}
{"id": "C11", "title": "An accepted permutation gate permutes basis states", "statement": "Whenever pm(q, p) is accepted, its matrix is a d x d permutation matrix sending |j> to |p[j]>.", "quantifier": "all dimensions and all integer lists", "why_tests_cant": "Validation must be compared with the set of all permutations.", "anchors": ["src/mqt/qudits/quantum_circuit/gates/perm.py: Perm.validate_parameter, __array__"]}
{"id": "C12", "title": "identities=1 and identities=2 embed a gate exactly on its lines", "statement": "For an uncontrolled gate, to_matrix(identities=1) acts on the contiguous block of lines from its lowest to its highest line, and to_matrix(identities=2) on the whole register, such that the entry between two basis states is the gate's entry between the levels on its own lines if all other levels agree and zero otherwise; embedding commutes with products, adjoints and identity, so circuits of embedded unitaries stay unitary.", "quantifier": "all registers (any number of lines, any dimensions), all sets of target lines, all matrices", "why_tests_cant": "Unbounded number of qudits and mixed radices.", "anchors": ["src/mqt/qudits/quantum_circuit/components/extensions/matrix_factory.py: generate_matrix, apply_identities_and_controls, wrap_in_identities"]}
{"id": "C13", "title": "A controlled gate acts on its target exactly when all controls are at their levels", "statement": "to_matrix of a gate with controls sends a basis state whose control lines are all at the requested levels to the gate applied on the target line, and leaves every other basis state alone; unitarity is preserved.", "quantifier": "all registers, all target and control lines in any order, all control levels, all single-qudit matrices", "why_tests_cant": "The reported failure depends on the absolute position of the target inside a mixed-radix register.", "anchors": ["src/mqt/qudits/quantum_circuit/components/extensions/matrix_factory.py: apply_identities_and_controls", "src/mqt/qudits/quantum_circuit/gate.py: Gate.control"]}
{"id": "C14", "title": "Basis-state indexing is a mixed-radix bijection", "statement": "The vector built for a list of levels has its single 1 at the mixed-radix index of those levels; two different level lists give different indices, every index below the product of dimensions is hit, and splitting a two-qudit index into (quotient, remainder) inverts the composition.", "quantifier": "all dimension lists and all level lists below them", "why_tests_cant": "Unbounded register sizes and radices.", "anchors": ["src/mqt/qudits/quantum_circuit/components/extensions/matrix_factory.py: from_dirac_to_basis, calculate_q0_q1, apply_identities_and_controls", "src/mqt/qudits/compiler/state_compilation/retrieve_state.py: find_entries_indices, generate_all_combinations"]}
{"id": "C15", "title": "The tensor-network simulator returns the ordered product of the embedded gates applied to |0...0>", "statement": "For every circuit whose gates carry correct type and long-range flags, the vector returned by tnsim is the matrix of the last gate (embedded on the full register) times ... times the matrix of the first gate times the all-zero basis vector, with amplitudes ordered so that line 0 is most significant.", "quantifier": "all circuits over all registers", "why_tests_cant": "All circuits; numeric tests compare a few.", "anchors": ["src/mqt/qudits/simulation/backends/tnsim.py: TNSim.execute, __contract_circuit, __apply_gate"]}
{"id": "C16", "title": "Decision-diagram arithmetic represents exactly the linear algebra it claims", "statement": "In exact arithmetic, making a node (with normalisation) does not change the represented vector or matrix, adding two diagrams represents the sum of their vectors, multiplying a matrix diagram with a vector diagram represents the matrix-vector product, conjugate transposition represents the adjoint, and reading the vector out returns the represented amplitudes, for any register sizes.", "quantifier": "all diagrams over all mixed-radix registers, all complex weights", "why_tests_cant": "Recursive structures of unbounded depth with sharing.", "anchors": ["include/dd/MDDPackage.hpp: normalize, makeDDNode, add2, multiply2, conjugateTranspose, getVector, makeZeroState"]}
{"id": "C17", "title": "Gate diagrams built by the DD package represent the (controlled) embedded gate", "statement": "makeGateDD for a d x d matrix, a target line and a set of controls represents the full-register operator that applies the matrix on the target when every control line is at its level and is the identity otherwise; csum and cex diagrams represent the same operators as the Python CSum and CEx gates.", "quantifier": "all registers, targets, control sets, matrices", "why_tests_cant": "Unbounded registers and arbitrary control placement below and above the target.", "anchors": ["include/dd/MDDPackage.hpp: makeGateDD, makeIdent, cex, csum", "src/python/bindings.cpp: getGate"]}
{"id": "C18", "title": "The DD simulator honours the controls attached to a gate", "statement": "misim and tnsim return the same state for every circuit made of gates supported by both, including gates with controls attached.", "quantifier": "all circuits over the commonly supported gate set", "why_tests_cant": "Needs agreement of two backends on all circuits.", "anchors": ["src/python/bindings.cpp: readCircuit, getGate, ddsimulator", "src/mqt/qudits/simulation/backends/misim.py: MISim.execute"]}
{"id": "C19", "title": "The reordering of the DD result puts amplitudes in circuit order", "statement": "If the DD engine returns amplitudes ordered with the last line most significant, the vector returned by misim at the mixed-radix index of levels (l0,...,ln-1) (line 0 most significant) is the engine's amplitude for those levels.", "quantifier": "all dimension lists, all level tuples", "why_tests_cant": "All mixed radix shapes.", "anchors": ["src/mqt/qudits/simulation/backends/misim.py: MISim.execute"]}
{"id": "C20", "title": "Memoisation and hash-consing never change a DD result", "statement": "A compute-table lookup after any history of inserts returns either a miss or the result inserted last for exactly those operands, whatever the hash function; the unique table never holds two nodes with the same successors, and looking up a node returns a node with the same successors.", "quantifier": "all hash functions, all histories of inserts and lookups", "why_tests_cant": "Collisions and histories cannot be enumerated.", "anchors": ["include/dd/ComputeTable.hpp: insert, lookup", "include/dd/UniqueTable.hpp: lookup, getNode, returnNode", "include/dd/UnaryComputeTable.hpp"]}
{"id": "C21", "title": "A subspace noise description never mixes dynamic and fixed level pairs and never repeats a pair", "statement": "After any sequence of accepted constructor/add_noise calls, the stored level pairs are ordered (low, high), pairwise distinct, either all non-negative or the single dynamic marker; a rejected call raises and stores nothing new.", "quantifier": "all sequences of level pairs and probabilities", "why_tests_cant": "Histories of mutations.", "anchors": ["src/mqt/qudits/simulation/noise_tools/noise.py: SubspaceNoise.add_noise, add_noises"]}
{"id": "C22", "title": "Noise registered for one gate or mode does not leak into others", "statement": "After any sequence of NoiseModel additions, the error stored for a gate and mode is the combination of exactly those additions that named that gate and mode.", "quantifier": "all sequences of add_* calls, all gate lists", "why_tests_cant": "Aliasing bugs appear only for particular interleavings of calls.", "anchors": ["src/mqt/qudits/simulation/noise_tools/noise.py: NoiseModel._add_quantum_error and the add_* wrappers"]}
{"id": "C23", "title": "Injecting noise keeps every original gate in order", "statement": "The circuit produced by the noisy-circuit factory contains the original instructions as a subsequence in the original order, every additional instruction directly follows (before the next original) a gate that has a noise entry, acts only on lines selected by that entry's mode, and the original circuit object is unchanged.", "quantifier": "all circuits, all noise models, all random outcomes", "why_tests_cant": "All random draws and all circuits.", "anchors": ["src/mqt/qudits/simulation/noise_tools/noisy_circuit_factory.py: NoisyCircuitFactory.generate_circuit and mode helpers"]}
{"id": "C24", "title": "Depolarising outcome probabilities form a distribution with the requested identity weight", "statement": "The probability vector used for a d-dimensional depolarising draw is non-negative, sums to one, gives every non-identity Weyl error the same weight p/d^2, and every outcome index corresponds to exactly one pair of X and Z powers.", "quantifier": "all dimensions and all p in [0,1]", "why_tests_cant": "All dimensions and real probabilities.", "anchors": ["src/mqt/qudits/simulation/noise_tools/noisy_circuit_factory.py: depolarizing helpers"]}
{"id": "C25", "title": "Backend lookup returns the unique matching backend or raises", "statement": "get_backend returns a backend only if exactly one available backend name matches the request, and otherwise raises; an exact backend name always resolves to itself.", "quantifier": "all request strings (name matching abstracted as a predicate)", "why_tests_cant": "All strings.", "anchors": ["src/mqt/qudits/simulation/qudit_provider.py: MQTQuditProvider.get_backend, backends"]}
{"id": "C26", "title": "Options of one run do not influence later runs", "statement": "The noise model, shots and storage settings used by run(circuit, **options) are those given in the call, falling back to the backend's defaults for those not given, independently of earlier run calls.", "quantifier": "all sequences of run calls with arbitrary option subsets", "why_tests_cant": "Needs all histories of calls.", "anchors": ["src/mqt/qudits/simulation/backends/tnsim.py: TNSim.run", "src/mqt/qudits/simulation/backends/misim.py: MISim.run", "src/mqt/qudits/simulation/backends/backendv2.py: Backend"]}
{"id": "C27", "title": "Waiting for a job ends as soon as the job is in a final state", "statement": "wait_for_final_state returns at the first poll at which the status is one of the documented final states, for every status history.", "quantifier": "all histories of polled statuses", "why_tests_cant": "Histories are unbounded; the bad state needs a cancelled job.", "anchors": ["src/mqt/qudits/simulation/jobs/job.py: Job.in_final_state, wait_for_final_state", "src/mqt/qudits/simulation/jobs/jobstatus.py: JOB_FINAL_STATES"]}
{"id": "C28", "title": "Angle normalisation changes an angle only by full periods", "statement": "pi_mod(a) differs from a by an integer multiple of 2 pi and lies in [-pi, pi]; regulate_theta(a) differs from a by an integer multiple of 4 pi, and hence the rotation matrices built from normalised angles equal those built from the raw ones.", "quantifier": "all real angles", "why_tests_cant": "A continuum, including the boundary points.", "anchors": ["src/mqt/qudits/compiler/compilation_minitools/local_compilation_minitools.py: new_mod, pi_mod, regulate_theta"]}
{"id": "C29", "title": "Propagating virtual Z rotations preserves the operator of a line", "statement": "For a sequence of rotations and virtual-Z gates on one line, propagate_z forwards or backwards returns rotations and virtual-Z gates on the same line whose ordered product equals the original ordered product, with all virtual-Z gates moved to the requested end and at most one per level.", "quantifier": "all dimensions, all sequences of R and VirtRz gates, both directions, all angles", "why_tests_cant": "Sequences of any length and all angles.", "anchors": ["src/mqt/qudits/compiler/onedit/local_phases_transpilation/propagate_virtrz.py: ZPropagationOptPass.propagate_z"]}
{"id": "C30", "title": "The Z-propagation pass preserves the order of gates on every line", "statement": "ZPropagationOptPass.transpile returns a circuit that implements the same operator as its input.", "quantifier": "all circuits made of R, VirtRz and entangling gates", "why_tests_cant": "The defect needs at least two runs of single-qudit gates separated by another gate.", "anchors": ["src/mqt/qudits/compiler/onedit/local_phases_transpilation/propagate_virtrz.py: ZPropagationOptPass.remove_z, find_intervals_with_same_target_qudits"]}
{"id": "C31", "title": "Dropping leading and trailing phase gates preserves measurement statistics from |0...0>", "statement": "ZRemovalOptPass returns a circuit for which every measurement probability in the computational basis, starting from |0...0>, is unchanged.", "quantifier": "all circuits, all removal directions", "why_tests_cant": "All circuits; depends on which lines have already been touched.", "anchors": ["src/mqt/qudits/compiler/onedit/local_phases_transpilation/remove_phase_rotations.py: ZRemovalOptPass.remove_rz_gates"]}
{"id": "C32", "title": "Lane reordering only exchanges gates on disjoint lines", "statement": "Splitting a circuit into per-line lanes and extracting it again returns a permutation of the gates in which any two gates sharing a line keep their relative order, so the operator is unchanged.", "quantifier": "all circuits whose gate objects are distinct", "why_tests_cant": "All interleavings of gates over any number of lines.", "anchors": ["src/mqt/qudits/core/lanes.py: Lanes.pre_process_ops, create_lanes, extract_instructions"]}
{"id": "C33", "title": "Local resynthesis replaces runs of single-qudit gates by their product without changing the operator", "statement": "NaiveLocResynthOptPass.transpile returns a circuit with the same operator in which no line has two consecutive single-qudit gates without a multi-qudit gate on that line between them.", "quantifier": "all circuits of single- and multi-qudit gates", "why_tests_cant": "All circuits.", "anchors": ["src/mqt/qudits/compiler/naive_local_resynth/local_resynth.py: NaiveLocResynthOptPass.transpile", "src/mqt/qudits/core/lanes.py: find_consecutive_singles, replace_gates_in_lane"]}
{"id": "C34", "title": "The logical QR decomposition diagonalises any unitary with adjacent-level rotations", "statement": "For every unitary U the rotations emitted by the logical local QR pass multiply U to a diagonal matrix of phases, the final phase gates cancel it, every emitted rotation acts on neighbouring levels, and at most d(d-1)/2 rotations and d phase gates are emitted; hence U is recovered as the inverse of the emitted sequence.", "quantifier": "all dimensions and all unitary matrices (exact arithmetic)", "why_tests_cant": "All unitaries of all dimensions.", "anchors": ["src/mqt/qudits/compiler/onedit/mapping_un_aware_transpilation/log_local_qr_decomp.py: QrDecomp.execute"]}
{"id": "C35", "title": "A compiled local gate equals the gate it replaces", "statement": "The gate sequence that the local compiler passes put into the circuit in place of a single-qudit gate multiplies, in circuit order, to the matrix of that gate (up to the recorded level relabelling).", "quantifier": "all unitaries, all passes", "why_tests_cant": "Orientation (order and adjoint) errors depend on non-commuting factors.", "anchors": ["src/mqt/qudits/compiler/onedit/mapping_un_aware_transpilation/log_local_qr_decomp.py: LogLocQRPass", "src/mqt/qudits/compiler/onedit/mapping_aware_transpilation/phy_local_qr_decomp.py: PhyLocQRPass.transpile"]}
{"id": "C36", "title": "Swapping levels in the energy graph keeps the logical-physical map a bijection", "statement": "Every sequence of swap_nodes / attribute swaps leaves the log-to-phys map a permutation of the levels, applies exactly the corresponding transposition, and swapping the same pair twice restores graph, edges and labels.", "quantifier": "all graphs, all sequences of swaps", "why_tests_cant": "All histories on all graphs.", "anchors": ["src/mqt/qudits/core/level_graph.py: LevelGraph.update_list, swap_nodes, swap_node_attributes, log_phy_map"]}
{"id": "C37", "title": "The search tree returns the cheapest finished decomposition", "statement": "For every tree of partial decompositions, retrieve_decomposition returns the path from the root to a finished node whose cost is minimal in the sense of the per-level comparison used, found is reported exactly when some node is finished, keys found by find_node are present exactly when inserted, and size equals the number of nodes.", "quantifier": "all finite trees", "why_tests_cant": "Unbounded trees.", "anchors": ["src/mqt/qudits/core/dfs_tree.py: NAryTree, Node"]}
{"id": "C38", "title": "The state decision tree stores the state: path products are amplitudes", "statement": "For every non-zero state vector, the product of the weights along the path of levels (l0,...,ln-1) times the root weight is the amplitude of |l0...ln-1>, and the weights out of every non-terminal node have unit 2-norm.", "quantifier": "all registers, all state vectors", "why_tests_cant": "All vectors over all mixed radices.", "anchors": ["src/mqt/qudits/core/micro_dd.py: normalize, build_decision_tree"]}
{"id": "C39", "title": "Approximation of a state discards at most the stated probability", "statement": "Cutting branches of the state decision tree with a tolerance removes nodes whose total contribution is below the tolerance, leaves every other amplitude unchanged before renormalisation, and never removes a node while keeping one of smaller contribution at the same threshold step.", "quantifier": "all states, all tolerances", "why_tests_cant": "All states and all tolerances.", "anchors": ["src/mqt/qudits/core/micro_dd.py: get_node_contributions, cut_branches"]}
{"id": "C40", "title": "Sharing equal subtrees does not change the prepared state", "statement": "Marking a node as reduced (all its branches equal) and synthesising only one branch prepares the same state as synthesising every branch.", "quantifier": "all state vectors", "why_tests_cant": "The failing states are those with a zero first branch.", "anchors": ["src/mqt/qudits/core/micro_dd.py: dd_reduction_hashing, dd_reduction_aggregation", "src/mqt/qudits/compiler/state_compilation/state_preparation.py: StatePrep.synthesis"]}
{"id": "C41", "title": "Preparation angles rotate one level into the next exactly as required", "statement": "The two-level rotations produced for a normalised weight vector, applied in order to the first basis vector, produce that weight vector.", "quantifier": "all dimensions, all unit weight vectors", "why_tests_cant": "All vectors.", "anchors": ["src/mqt/qudits/compiler/state_compilation/state_preparation.py: get_angles, StatePrep.retrieve_local_sequence"]}
{"id": "C42", "title": "GHZ, W and uniform state generators return the named states", "statement": "generate_ghz_entries yields exactly the n-tuples of equal levels, generate_w_entries yields exactly the tuples with a single excited line, the generated vector has equal amplitude 1/sqrt(k) at exactly the k requested entries and zero elsewhere, and has unit norm.", "quantifier": "all register shapes and all entry sets", "why_tests_cant": "All shapes.", "anchors": ["src/mqt/qudits/compiler/state_compilation/retrieve_state.py"]}
{"id": "C43", "title": "Variational parameters split into exactly one chunk per local gate", "statement": "params_splitter cuts a parameter vector into consecutive chunks, alternating d0^2-1 and d1^2-1 entries, whose concatenation is the input, accepts exactly the lengths that fill the layers, and bounds of the same length are produced for every layer count.", "quantifier": "all dimension pairs, all layer counts, all vectors", "why_tests_cant": "All sizes.", "anchors": ["src/mqt/qudits/compiler/twodit/variational_twodit_compilation/parametrize.py: params_splitter", "src/mqt/qudits/compiler/twodit/variational_twodit_compilation/opt/optimizer.py: Optimizer.bounds_assigner, return_bounds"]}
{"id": "C44", "title": "Layer search finds the least sufficient layer count", "statement": "If success is monotone in the number of layers, binary_search_compile returns the parameters of the least number of layers within the limit that succeeds; the number of trials is logarithmic and the search always terminates; if none succeeds it reports none.", "quantifier": "all monotone success predicates, all layer limits", "why_tests_cant": "All predicates.", "anchors": ["src/mqt/qudits/compiler/twodit/variational_twodit_compilation/ansatz/ansatz_solve_n_search.py: binary_search_compile"]}
{"id": "C45", "title": "The optimised ansatz matrix equals the emitted circuit", "statement": "The matrix minimised by the variational optimiser for a parameter vector equals the operator of the circuit later emitted for the same parameter vector.", "quantifier": "all parameter vectors, layer counts and dimensions", "why_tests_cant": "Order errors need non-commuting layers.", "anchors": ["src/mqt/qudits/compiler/twodit/variational_twodit_compilation/ansatz/ansatz_gen.py: prepare_ansatz", "src/mqt/qudits/compiler/twodit/variational_twodit_compilation/ansatz/instantiate.py: ansatz_decompose"]}
{"id": "C46", "title": "Exported register declarations are read back identically", "statement": "Parsing the register lines written by to_qasm yields registers with the same labels, sizes, dimensions and line numbers.", "quantifier": "all register lists with identifier labels", "why_tests_cant": "All label strings and dimension lists.", "anchors": ["src/mqt/qudits/quantum_circuit/qasm.py: QASM.parse_qreg", "src/mqt/qudits/quantum_circuit/components/quantum_register.py: QuantumRegister.__qasm__, from_map", "src/mqt/qudits/quantum_circuit/circuit.py: to_qasm, from_qasm"]}
{"id": "C47", "title": "A circuit exported to QASM and read back implements the same operator", "statement": "from_qasm(to_qasm(c)) builds gates with the same names, targets, parameters, controls and adjoint marks as c.", "quantifier": "all circuits over exportable gates", "why_tests_cant": "All circuits; parameters are lost only for specific gate classes.", "anchors": ["src/mqt/qudits/quantum_circuit/gate.py: Gate.__qasm__", "src/mqt/qudits/quantum_circuit/qasm.py: QASM.parse_gate, safe_eval_math_expression", "src/mqt/qudits/quantum_circuit/circuit.py: from_qasm"]}
{"id": "C48", "title": "Partial trace keeps the reduced state of the selected lines", "statement": "partial_trace over a register keeps trace, hermiticity and positivity, depends linearly on the state, and its entries are the sums over equal levels of the discarded lines.", "quantifier": "all registers, all kept subsets, all states", "why_tests_cant": "All register shapes.", "anchors": ["src/mqt/qudits/visualisation/mini_quantum_information.py: partial_trace"]}
{"id": "C49", "title": "Reported counts are indexed by basis state and sum to the number of shots", "statement": "The histogram built from a list of shot outcomes has one bin per basis state, bin k equals the number of outcomes k, and bins sum to the number of shots; basis-state labels are distinct.", "quantifier": "all outcome lists, all registers", "why_tests_cant": "All lists.", "anchors": ["src/mqt/qudits/visualisation/plot_information.py: plot_counts, HistogramWithErrors, state_labels"]}
{"id": "C50", "title": "Undoing a compiled circuit's level relabelling returns logical amplitudes", "statement": "Reading a result of a compiled circuit through its recorded mappings returns, for every logical basis state, the amplitude of the physical state it was mapped to.", "quantifier": "all mappings (permutations per line), all vectors", "why_tests_cant": "Direction errors are invisible for involutive mappings.", "anchors": ["src/mqt/qudits/visualisation/plot_information.py: remap_result", "src/mqt/qudits/compiler/compilation_minitools/naive_unitary_verifier.py: phy_sdit_sim"]}
{"id": "C51", "title": "The S gate accepts exactly prime dimensions", "statement": "Adding an S gate to a line succeeds if and only if the dimension of the line is a prime number; otherwise the constructor raises.", "quantifier": "all dimensions", "why_tests_cant": "Trial division with a step of two up to a truncated square root is easy to get wrong at squares of primes; tests look at a few small dimensions.", "anchors": ["src/mqt/qudits/quantum_circuit/gates/s.py: S.__init__, S.is_prime"]}
{"id": "C52", "title": "Writing a block into an array changes exactly that block", "statement": "insert_at returns an array of the big array's shape whose addressed block is the small array and whose other entries are unchanged; it raises exactly when the block does not fit.", "quantifier": "all arrays and all corner positions", "why_tests_cant": "All sizes and offsets, including blocks touching the border.", "anchors": ["src/mqt/qudits/quantum_circuit/components/extensions/matrix_factory.py: insert_at"]}
{"id": "C53", "title": "Inner product and fidelity of decision diagrams", "statement": "In exact arithmetic, innerProduct(x, y) of two vector diagrams is the sum over all basis states of the amplitude of x times the conjugated amplitude of y, and fidelity(x, y) is the squared modulus of that sum.", "quantifier": "all pairs of vector diagrams over all mixed-radix registers", "why_tests_cant": "Tests use states with real amplitudes, where a missing conjugation is invisible.", "anchors": ["include/dd/MDDPackage.hpp: innerProduct, fidelity"]}
{"id": "C54", "title": "Reading single entries of a decision diagram", "statement": "getValueByPath returns the amplitude (or matrix entry) of the given levels, and getReprOfIndex returns the levels that belong to a mixed-radix index.", "quantifier": "all vector and matrix diagrams, all registers, all indices", "why_tests_cant": "Index arithmetic over registers of any size; a wrong row stride is hidden by entries of row zero.", "anchors": ["include/dd/MDDPackage.hpp: getValueByPath, getReprOfIndex"]}
{"id": "C55", "title": "Random outcomes select the documented error gates", "statement": "When the noisy circuit is generated, mathematical depolarising noise draws once per affected line and adds X^a then Z^b for outcome number a*d+b; physical depolarising noise draws once per affected line and pair of levels and adds nothing, a phase flip of the second level, an exchange of the pair or both; dephasing draws once per level outside the pair and adds a phase flip of that level for the first outcome. Pairs of levels that do not exist on the line are refused.", "quantifier": "all registers, affected lines, level pairs and sequences of random outcomes", "why_tests_cant": "Tests can only sample random outcomes; a wrong power or level shows up only statistically.", "anchors": ["src/mqt/qudits/simulation/noise_tools/noisy_circuit_factory.py: _apply_depolarizing_noise, _apply_dephasing_noise"]}
{"id": "C56", "title": "State preparation prepares the state", "statement": "For every non-zero state vector of a register, compile_state returns a circuit which takes the state with all lines at level 0 to the normalised vector, up to an error proportional to the threshold below which rotations are left out.", "quantifier": "all registers, all state vectors", "why_tests_cant": "All vectors over all mixed radices; the failing ones need equal branches beside a zero branch, or increasing dimensions.", "anchors": ["src/mqt/qudits/compiler/state_compilation/state_preparation.py: StatePrep.compile_state, StatePrep.synthesis", "src/mqt/qudits/core/micro_dd.py"]}
{"id": "C57", "title": "Preparing an approximated state keeps the promised overlap", "statement": "StatePrep with approx=True prepares, from all lines at level 0, a state whose overlap with the given unit state is at least sqrt(1 - tolerance) (tolerance 0.01 in the code), up to the rotations below the angle threshold; the prepared state has only amplitudes of the given state, rescaled by one common factor, or zeros.", "quantifier": "all unit states, registers and tolerances between 0 and 1", "why_tests_cant": "All states; which branches are cut depends on all amplitudes.", "anchors": ["src/mqt/qudits/compiler/state_compilation/state_preparation.py: compile_state", "src/mqt/qudits/core/micro_dd.py: get_node_contributions, cut_branches, normalize_all"]}
{"id": "C58", "title": "Variational compilation meets its tolerance or fails", "statement": "variational_compile either returns a circuit whose operator has a fidelity of at least 1 - tolerance with the target, or raises; what the annealer reports for a number of layers is the true error of the reported parameters, whatever points it visits and whenever its timer fires.", "quantifier": "all ansatz types, dimensions, targets, tolerances, layer limits and behaviours of the optimiser", "why_tests_cant": "The optimiser is random and its timer may fire at any evaluation; failure needs targets out of reach.", "anchors": ["src/mqt/qudits/compiler/twodit/variational_twodit_compilation/layered_compilation.py: variational_compile", "src/mqt/qudits/compiler/twodit/variational_twodit_compilation/opt/optimizer.py: solve_anneal, obj_fun_core", "src/mqt/qudits/compiler/twodit/variational_twodit_compilation/ansatz/ansatz_solve_n_search.py: binary_search_compile"]}
{"id": "C59", "title": "Fidelity measures are normalised and separate operators", "statement": "fidelity_on_unitares is between 0 and 1 for unitaries and 1 exactly for unitaries equal up to a global phase; fidelity_on_operator is between 0 and 1 and 1 exactly for proportional operators; naive_state_fidelity likewise for unit vectors; arguments of different or non-square shape are refused.", "quantifier": "all sizes and all matrices or vectors", "why_tests_cant": "Inequalities over continuous domains with an exact case of equality.", "anchors": ["src/mqt/qudits/compiler/twodit/variational_twodit_compilation/opt/distance_measures.py"]}
{"id": "C60", "title": "generic_sud parametrises special unitaries", "statement": "generic_sud returns for any d*d-1 parameters a special unitary d x d matrix, reads the parameters at the positions used by the bounds, raises for shorter lists, and every special unitary matrix is reached by some parameters up to a global phase.", "quantifier": "all dimensions and parameter lists", "why_tests_cant": "Continuous parameters; reachability is an existence statement over them.", "anchors": ["src/mqt/qudits/compiler/twodit/variational_twodit_compilation/parametrize.py: generic_sud"]}
{"id": "C61", "title": "The sparsifier scores the circuit it emits", "statement": "compute_f is between 0 and 1 and 0 exactly for arrays with a single non-zero entry; the matrix scored for some parameters is the operator of the circuit instantiated with the same parameters.", "quantifier": "all arrays; all gates, dimensions and parameters", "why_tests_cant": "Continuous inputs; order errors need non-commuting rotations.", "anchors": ["src/mqt/qudits/compiler/twodit/variational_twodit_compilation/sparsifier.py: compute_f, apply_rotations, instantiate_rotations"]}
{"id": "C62", "title": "gate_expand_to_circuit embeds on the target line", "statement": "gate_expand_to_circuit(gate, n, t, dims) acts as the gate on line t and as the identity on every other line; targets outside the circuit are refused.", "quantifier": "all register sizes, dimensions, targets and matrices", "why_tests_cant": "Unbounded number of lines and dimensions.", "anchors": ["src/mqt/qudits/compiler/compilation_minitools/numerical_ansatz_utils.py: gate_expand_to_circuit"]}
{"id": "C63", "title": "A density matrix made from shots is diagonal with the observed frequencies", "statement": "get_density_matrix_from_counts(results, circuit) returns a diagonal matrix of trace one whose entry at a basis state is the share of the shots with its index.", "quantifier": "all registers, all non-empty lists of shots", "why_tests_cant": "The result is built through printed labels of the basis states; whether they can be read back depends on the number of digits of the levels.", "anchors": ["src/mqt/qudits/visualisation/mini_quantum_information.py: get_density_matrix_from_counts", "src/mqt/qudits/visualisation/plot_information.py: state_labels"]}
{"id": "C64", "title": "Two-line building blocks are exact rotations", "statement": "For every pair of neighbouring levels of two qudits, the list from permute_crot_101_as_list (same block) or permute_pswap_101_as_list (across blocks) multiplies to exactly the rotation R(theta, phi) on these two levels and the identity elsewhere; z_from_crot_101_list and z_pswap_101_as_list give the phase rotation. Only gates on one line and CEx gates are used; CEx counts are 2, 16, 6 and 48.", "quantifier": "all dimensions >= 2 of both lines, all neighbouring levels, all angles", "why_tests_cant": "Unbounded dimensions and continuous angles; sign errors show only for particular positions.", "anchors": ["src/mqt/qudits/compiler/twodit/blocks/crot.py", "src/mqt/qudits/compiler/twodit/blocks/pswap.py", "src/mqt/qudits/compiler/twodit/blocks/czrot.py"]}
{"id": "C65", "title": "The entangled QR decomposition inverts every two-qudit gate", "statement": "EntangledQRCEX(gate).execute() succeeds for every unitary gate on two qudits, returns only gates on one line and CEx gates, their product with the gate's matrix is the identity up to one global phase and the error of the thresholds, and the counters determine and bound the number of CEx gates.", "quantifier": "all dimensions, all unitary matrices, all thresholds", "why_tests_cant": "Continuous family of matrices in unbounded dimension.", "anchors": ["src/mqt/qudits/compiler/twodit/entanglement_qr/log_ent_qr_cex_decomp.py: EntangledQRCEX"]}
{"id": "C66", "title": "LogEntQRCEXPass replaces a two-qudit gate by equivalent gates", "statement": "The gates from LogEntQRCEXPass.transpile_gate, and those put into the circuit by transpile, act as the original gate up to one global phase and the error of the thresholds.", "quantifier": "all dimensions and unitary gates", "why_tests_cant": "Errors in order and adjoint marks cancel for many gates and only show for some.", "anchors": ["src/mqt/qudits/compiler/twodit/entanglement_qr/log_ent_qr_cex_decomp.py: LogEntQRCEXPass", "src/mqt/qudits/quantum_circuit/gate.py: dag"]}
{"id": "C67", "title": "PhyEntQRCEXPass respects the placement of levels", "statement": "The gates from PhyEntQRCEXPass.transpile_gate act on the physical levels as the original gate on the logical levels.", "quantifier": "all dimensions, placements of both lines, CEx parameters and marks, unitary gates", "why_tests_cant": "All permutations of levels in unbounded dimension and a continuous phase.", "anchors": ["src/mqt/qudits/compiler/twodit/entanglement_qr/phy_ent_qr_cex_decomp.py"]}
{"id": "C68", "title": "Adaptive decompositions invert the gate they are given", "statement": "LogAdaptiveDecomposition.execute and PhyAdaptiveDecomposition.execute end; what they return is a list of rotations (between coupled levels of the device for the physical one) and phase gates whose product takes the gate to the identity up to the thresholds, relative to the placement and the phases stored in the graph returned, at a cost within the limit; an empty list with infinite cost means that no decomposition was found, and is never returned for a diagonal gate.", "quantifier": "all dimensions, unitary gates, cost limits, devices with stored multiples of pi, and devices with all levels coupled and any stored phases; both settings of z_prop", "why_tests_cant": "The search tree is unbounded and its shape depends on continuous entries; placements and phases change along every branch.", "anchors": ["src/mqt/qudits/compiler/onedit/mapping_un_aware_transpilation/log_local_adaptive_decomp.py: LogAdaptiveDecomposition", "src/mqt/qudits/compiler/onedit/mapping_aware_transpilation/phy_local_adaptive_decomp.py: PhyAdaptiveDecomposition", "src/mqt/qudits/core/dfs_tree.py"]}
{"id": "C69", "title": "Adaptive passes implement the gate they replace", "statement": "The gates LogLocAdaPass and PhyLocAdaPass put into the circuit act as the original gate relative to the placements and stored phases before and after it; no gate is lost, and the graph left in the backend can be used for the next gate.", "quantifier": "all dimensions, unitary gates and devices; both settings of vrz_prop", "why_tests_cant": "Wrong order or a missing adjoint only shows for non-commuting gates after stored phases; a lost gate only for entries within 1e-18.", "anchors": ["src/mqt/qudits/compiler/onedit/mapping_un_aware_transpilation/log_local_adaptive_decomp.py: LogLocAdaPass", "src/mqt/qudits/compiler/onedit/mapping_aware_transpilation/phy_local_adaptive_decomp.py: PhyLocAdaPass"]}
{"id": "C70", "title": "Each gate is given to the pass named for its kind", "statement": "compile(backend, circuit, passes) gives every gate of the circuit, in order, to the last pass named in `passes` that is for gates of its type, and leaves gates for which none is named unchanged; the returned circuit consists of what the passes return for the gates one after the other, and its mappings are read from the graphs the last pass leaves. Unknown names are refused, and a pass that is accepted has an effect.", "quantifier": "all circuits, backends, lists of names and behaviours of the passes", "why_tests_cant": "Lists of names and circuits are unbounded; passes change the backend for the gates after them.", "anchors": ["src/mqt/qudits/compiler/dit_compiler.py: compile, passes_enabled"]}
{"id": "C71", "title": "Phases are handed on only to a local gate on the same line", "statement": "Lanes.next_is_local(gate) is true exactly if the next gate on the line of a single-qudit gate is again a single-qudit gate; gates that are not in the circuit are refused.", "quantifier": "all circuits, all gates in them", "why_tests_cant": "Circuits are unbounded and the answer depends on all gates on the line.", "anchors": ["src/mqt/qudits/core/lanes.py: find_consecutive_singles, next_is_local", "src/mqt/qudits/compiler/dit_compiler.py: compile_O2"]}
{"id": "C72", "title": "Compiled circuits implement the circuit", "statement": "compileO0, compileO1 and compileO2 return, for every circuit of unitary gates and every backend whose graphs fit the lines, a circuit of gates the backend can be given, whose operator is up to a global phase and the tolerances of the decompositions that of the original circuit on the places given by the returned mappings.", "quantifier": "all registers, dimensions, circuits, unitary gates, level graphs and placements", "why_tests_cant": "Continuous gates, unbounded circuits, a search whose depth is limited by the interpreter; global phases and placements hide errors in single runs.", "anchors": ["src/mqt/qudits/compiler/dit_compiler.py: compile_O0, compile_O1, compile_O2", "src/mqt/qudits/compiler/twodit/entanglement_qr/phy_ent_qr_cex_decomp.py"]}
{"id": "C73", "title": "Lines smaller than the device", "statement": "For lines that use only the first levels of the devices' graphs (as circuits of qutrits on the six-level backends do), PhyLocQRPass.transpile_gate returns rotations between coupled levels of the line and virtual phases on levels of the line whose product is the gate on the places of the levels, within the tolerances of the decomposition, and does not raise; compileO0 and compileO1 return a circuit that implements the given one on the lines' levels, with the mappings cut to the lines.", "quantifier": "all line and device dimensions, graphs, placements that keep the line's levels among themselves, path finders and unitary gates", "why_tests_cant": "Continuous gates, all graphs; whether the routing leaves the line's levels depends on which of several shortest paths networkx returns.", "anchors": ["src/mqt/qudits/compiler/onedit/mapping_aware_transpilation/phy_local_qr_decomp.py: PhyQrDecomp.execute", "src/mqt/qudits/compiler/onedit/local_operation_swap/swap_routine.py", "src/mqt/qudits/quantum_circuit/gates/r.py: validate_parameter", "src/mqt/qudits/quantum_circuit/gates/virt_rz.py: validate_parameter", "src/mqt/qudits/compiler/dit_compiler.py: compile_O0, compile_O1 (filter lev < dimension)"]}
{"id": "C74", "title": "Declared level graphs are usable devices", "statement": "Constructing LevelGraph from levels 0..d-1, a placement that permutes them, edges between them that are distinct and connect all levels, and a start level gives a graph that has the placement, knows each node's kind, has a level to start from, joins every two levels by a path and stores no phases; in particular the graphs of all shipped backends are such graphs.", "quantifier": "all dimensions, edge lists, placements, start levels; the four shipped backends", "why_tests_cant": "All graphs and placements; connectedness is a statement about all pairs of levels.", "anchors": ["src/mqt/qudits/core/level_graph.py: LevelGraph.__init__", "src/mqt/qudits/simulation/backends/fake_traps2six.py", "src/mqt/qudits/simulation/backends/fake_traps3six.py", "src/mqt/qudits/simulation/backends/fake_traps2three.py", "src/mqt/qudits/simulation/backends/innsbruck_01.py"]}
{"id": "C75", "title": "Simulating a compiled circuit shows the result of the circuit", "statement": "For a circuit compiled with compileO0, compileO1 or compileO2, plot_state(compiled.simulate(), compiled) returns, within the tolerances of the decompositions, the moduli of the amplitudes that circuit.simulate() returns for the original circuit: the physical amplitudes are read back through the recorded mappings.", "quantifier": "all registers, circuits of gates that the compiler translates, backends, placements, and choices of paths", "why_tests_cant": "It composes four subsystems (compiler, gate objects, tensor-network simulator, remapping) for all circuits and all placements; the shipped backends only use placements that are their own inverse and keep level 0, so tests on them cannot see the direction of the mapping nor where the simulation starts.", "anchors": ["src/mqt/qudits/quantum_circuit/circuit.py: simulate, compileO0, compileO1", "src/mqt/qudits/compiler/dit_compiler.py", "src/mqt/qudits/simulation/backends/tnsim.py: execute", "src/mqt/qudits/visualisation/plot_information.py: remap_result, plot_state"]}
{"id": "C76", "title": "The table of real numbers merges numbers within the tolerance and nothing else", "statement": "Looking a non-negative number up in the complex table returns a pointer to a number at most the tolerance away and changes no number already stored; two different pointers are to numbers more than the tolerance apart; looking the number behind a pointer up returns that pointer. A garbage collection removes exactly the numbers that are not referenced and leaves the numbers and counts of the rest; the count of the table is the number of numbers in it.", "quantifier": "all sequences of lookups, reference changes, collections and clears, all numbers, all tolerances and bucket counts that fit", "why_tests_cant": "Buckets are linked lists with sorted insertion, a tail pointer and a free list, and numbers near the border of a bucket are searched in the neighbour; whether some sequence of insertions and collections breaks a list or leaves a near duplicate depends on the whole history.", "anchors": ["include/dd/ComplexTable.hpp: lookup, findOrInsert, insert, lookup of neighbouring buckets, garbageCollect, incRef, decRef, clear"]}
{"id": "C77", "title": "Complex arithmetic on pointers into the table and the cache", "statement": "Sums, differences, products and quotients of complex numbers are written to the target number exactly or, for products and quotients, up to the tolerance times the size of the operands, also when the target is an operand, and write nothing else; conjugation and negation change the value accordingly and make no negative zero; looking a complex number up returns components within the tolerance, and a complex number that was returned is found again; different numbers of the table differ by more than the tolerance. Numbers taken from the cache never share an entry with a number in use.", "quantifier": "all numbers, operands in the table or the cache, targets, sequences of taking, writing and giving back", "why_tests_cant": "Operands and targets may be the same memory, signs are in the pointers, and the cache hands out entries in an order that depends on the history of what was given back.", "anchors": ["include/dd/ComplexNumbers.hpp: add, sub, mul, div, conj, neg, addCached, mulCached, lookup", "include/dd/ComplexCache.hpp: getCachedComplex, getTemporaryComplex, returnToCache, clear", "include/dd/Complex.hpp: setVal, approximatelyEquals, approximatelyZero, approximatelyOne"]}
{"id": "C78", "title": "Compiling with passes that the user names", "statement": "compile with any list of registered pass names gives every gate to the last named pass of its kind and leaves the other gates alone; if every gate is one that its pass translates, the result is the circuit up to the placement of the levels, a global phase and the summed errors of the passes.", "quantifier": "all lists of pass names, circuits, dimensions, devices, gate matrices", "why_tests_cant": "The passes are chosen by the text of their class names, share the graphs of the backend and can be named in any order and number; the project tests single passes and the fixed levels O0 to O2.", "anchors": ["src/mqt/qudits/compiler/dit_compiler.py:37-64 compile", "src/mqt/qudits/compiler/onedit/mapping_un_aware_transpilation/log_local_qr_decomp.py: transpile_gate", "src/mqt/qudits/compiler/twodit/entanglement_qr/log_ent_qr_cex_decomp.py: transpile_gate", "src/mqt/qudits/compiler/onedit/mapping_aware_transpilation/phy_local_adaptive_decomp.py: transpile_gate"]}
{"id": "C79", "title": "The checks that compiled circuits are judged by", "statement": "mini_unitary_sim returns the matrix of the circuit, mini_sim its state (the same as the tnsim backend), phy_sdit_sim of a compiled circuit on one line the state of the circuit with every level on its place. UnitaryVerifier.verify returns True exactly if the sequence of gates undoes the target up to a phase, the maps of the levels and the tolerance, and the target and the sequence act on the same lines.", "quantifier": "all dimensions, gates, sequences, maps of levels", "why_tests_cant": "These functions are the oracle of the tests of the compiler; nothing tests them, and a check that is too weak hides every error of the passes.", "anchors": ["src/mqt/qudits/compiler/compilation_minitools/naive_unitary_verifier.py:20-47 mini_unitary_sim, mini_sim, phy_sdit_sim", "src/mqt/qudits/compiler/compilation_minitools/naive_unitary_verifier.py:50-109 UnitaryVerifier"]}
{"id": "C80", "title": "Noisy runs of the decision-diagram simulator", "statement": "A run of misim with a noise model returns the exact state of the circuit with errors inserted after the gates named in the model, on the lines its mode selects and with the given probabilities, every allowed set of errors being possible; and the errors are those that the other backends (NoisyCircuitFactory) insert for the same model.", "quantifier": "all registers of lines with two to seven levels, all circuits of uncontrolled gates, all noise models, all outcomes of the draws", "why_tests_cant": "The inserted errors are random, and the tests compare averages of a few runs; which circuits can be generated at all, and that no other can, is a statement about all outcomes.", "anchors": ["src/python/bindings.cpp:246-286 parse_noise_model", "src/python/bindings.cpp:288-470 generateCircuit", "src/mqt/qudits/simulation/backends/misim.py:55-72 execute", "src/mqt/qudits/simulation/noise_tools/noisy_circuit_factory.py:38-262"]}
{"id": "C81", "title": "Numbers as text", "statement": "A complex number of a decision diagram is printed as a text that denotes a number within a few tolerances of it. The fraction that is printed is the simplest one within the tolerance, in lowest terms and with a denominator of at most 1024, and the search for it always ends.", "quantifier": "all real and imaginary parts, all tolerances, all bounds for the denominator, both formats", "why_tests_cant": "The tests print a handful of numbers; that the search ends for every real number, that no simpler fraction is overlooked and that no number is printed as one far away from it are statements about all numbers.", "anchors": ["include/dd/ComplexValue.hpp:75-108 getLowestFraction", "include/dd/ComplexValue.hpp:110-189 printFormatted", "include/dd/ComplexValue.hpp:191-236 toString"]}
{"id": "C82", "title": "Gates given by an array or drawn at random", "statement": "cu_one, cu_two and cu_multi add the gate with the array that is passed, on the lines in the order in which they are named, and refuse what is not a unitary array of the right size; randu adds a gate with a random unitary. A circuit of such gates is simulated exactly, and dag() turns a gate into its inverse.", "quantifier": "all registers, all lists of different lines, all arrays, all draws, circuits of any length", "why_tests_cant": "The tests build a few custom gates from unitary arrays on neighbouring lines in ascending order; what happens with every other argument, with several draws and with arrays that are changed later is a statement about all inputs.", "anchors": ["src/mqt/qudits/quantum_circuit/gates/custom_one.py:17-52", "src/mqt/qudits/quantum_circuit/gates/custom_two.py:17-52", "src/mqt/qudits/quantum_circuit/gates/custom_multi.py:17-52", "src/mqt/qudits/quantum_circuit/gates/randu.py:20-46", "src/mqt/qudits/quantum_circuit/circuit.py:181-207", "src/mqt/qudits/simulation/backends/tnsim.py:58-120"]}
{"id": "C83", "title": "Noisy runs shot by shot", "statement": "A run with a noise model returns the state of the circuit without errors and one result per shot: the state of a circuit with errors that the noise model allows, or an outcome measured in such a state by Born's rule; the shots are independent of each other; what is returned is what is saved.", "quantifier": "all registers, circuits of unitary gates, noise models, numbers of shots and processors, options, outcomes of the random generators, times of measurement", "why_tests_cant": "The tests run a few circuits and look at the number of results; which circuit a shot ran, and that shots do not depend on each other, is a statement about all outcomes of the generators and all ways in which the shots are distributed over the processes.", "anchors": ["src/mqt/qudits/simulation/backends/stochastic_sim.py:21-77", "src/mqt/qudits/simulation/save_info.py:15-67", "src/mqt/qudits/simulation/backends/tnsim.py:40-56", "src/mqt/qudits/simulation/backends/misim.py:36-53", "src/mqt/qudits/simulation/noise_tools/noisy_circuit_factory.py:25-49"]}
{"id": "C84", "title": "Spreading an excitation over lines of a decision diagram", "statement": "spread2, spread3 and spread5 keep the states in which their lines are at level 0 and turn a state whose first line is at level 1 into the even superposition of the states with the excitation on any one of the lines, whatever the other lines of the register are; a list with too few lines is rejected.", "quantifier": "all registers, lists of distinct lines in any order, states supported on these levels, states of the compute tables", "why_tests_cant": "The tests prepare a few W states on fixed registers; that amplitudes, other lines and superpositions are right for every register and state is a statement about all of them.", "anchors": ["include/dd/MDDPackage.hpp:1415-1540", "include/dd/GateMatrixDefinitions.hpp:199-205", "include/dd/GateMatrixDefinitions.hpp:619-632"]}
{"id": "C85", "title": "Runs on the shipped device backends", "statement": "A fake ion-trap backend runs every circuit with the noise of its device: after a gate there are errors of the device's table only, on the lines of the gate (any line after CSum); every run with at least 50 shots succeeds with one result per shot; a noise model that the user gives takes the place of the device's one; the results of a run depend on the circuit.", "quantifier": "all registers, circuits of unitary gates, options at construction and at the run, outcomes of the random generators", "why_tests_cant": "The tests run a few circuits and look at the number of results; that no run raises and that no other errors occur is a statement about all circuits and all outcomes of the generators.", "anchors": ["src/mqt/qudits/simulation/backends/fake_backends/fake_traps2three.py:23-100", "src/mqt/qudits/simulation/backends/fake_backends/fake_traps2six.py:23-102", "src/mqt/qudits/simulation/backends/fake_backends/fake_traps3six.py:23-131", "src/mqt/qudits/simulation/backends/innsbruck_01.py:24-105"]}
{"id": "C86", "title": "The random errors of a noisy run average to the quantum channels of the noise model", "statement": "The probabilities that a noisy run draws with do not depend on earlier outcomes, the state of a shot depends on the drawn outcomes only, and the mean of its density operator over the outcomes is what quantum channels make of the start state: after every gate, for every entry of the noise model, the depolarizing channel with the given probability on each selected line (mathematical noise), or Pauli errors within the given pairs of levels and dephasing of the other levels (physical noise). Physical noise on two levels is the depolarizing channel of these levels.", "quantifier": "all registers, circuits, noise models that fit the circuit, probabilities in the range in which numpy accepts the lists", "why_tests_cant": "Tests compare a few sampled histograms; an equation between a mean over all outcomes and a channel cannot be seen in samples, and probability 1 - 1/d^2 shifted between the errors would pass.", "anchors": ["src/mqt/qudits/simulation/noise_tools/noisy_circuit_factory.py:38-262", "src/mqt/qudits/simulation/backends/tnsim.py:36-90", "src/mqt/qudits/simulation/backends/stochastic_sim.py:19-77"]}
{"id": "C87", "title": "The random errors of a noisy run of the decision-diagram simulator average to channels that act on all lines of an entry at once", "statement": "The probabilities that generateCircuit draws with do not depend on earlier outcomes, the returned state depends on the drawn outcomes only, and the mean of its density operator over the outcomes is what channels make of |0...0>: after every gate, for every entry of the noise model in the alphabetical order of the modes, with the first probability of the entry the error for depolarisation on all lines of the entry together, then with the second one the error for dephasing on all of them together (the shift X and the phases Z; after a rotation the exchange of its two levels with a sign and the phases -i, i on them). The state stays normalised. After a gate on one line that is no rotation, and with a probability other than 0, these channels are neither a depolarizing channel nor what the tensor-network simulator does for the same entry; after a gate on two lines both lines have the error or none.", "quantifier": "all registers with 2 to 7 levels per line, circuits of uncontrolled gates, noise models whose entries can be applied, probabilities in [0, 1], all outcomes of the draws", "why_tests_cant": "The noisy state is one sample from exponentially many; tests can neither see the mean nor the correlation between lines, and the two backends can only be compared by their distributions.", "anchors": ["src/python/bindings.cpp:288-470", "src/python/bindings.cpp:794-810", "src/mqt/qudits/simulation/backends/misim.py:55-72"]}
{"id": "C88", "title": "A circuit with set_initial_state simulates to that state", "statement": "After circuit.set_initial_state(state) on an empty circuit, circuit.simulate() returns the normalised amplitudes of the state in the order of the register, up to the rotations that the preparation leaves out (an error of at most the threshold times the dimension of the register), for every register and every non-zero vector of its dimension. With approx=True the returned vector has overlap at least sqrt(1 - 0.01) with the vector, up to the same error. On a circuit that has instructions already the preparation is applied after them. Every exception is accounted for by a gate of the preparation that the simulator refuses.", "quantifier": "all registers of any number of lines with at least two levels each, all states, all circuits before", "why_tests_cant": "Which gates get which controls depends on which parts of the state are proportional; the simulator raises for some shapes of controls only, so the outcome depends on the algebraic structure of the state, and a test sees a single state.", "anchors": ["src/mqt/qudits/quantum_circuit/circuit.py:448-454", "src/mqt/qudits/quantum_circuit/circuit.py:419-426", "src/mqt/qudits/compiler/state_compilation/state_preparation.py:168-193", "src/mqt/qudits/simulation/backends/tnsim.py:90-116", "src/mqt/qudits/quantum_circuit/gate.py:55-137"]}
{"id": "C89", "title": "A circuit saved to a file and loaded again is the circuit", "statement": "circuit.save_to_file(name, directory) succeeds and returns a path, and load_from_file(path) then gives a circuit with the same registers and the same gates in the same order, including custom gates with the matrices they had, for every directory and whatever other files are written meanwhile, as long as those of this circuit are kept.", "quantifier": "all circuits, all directories and names, all contents of the disk, all random file names", "why_tests_cant": "The matrix files get names of four random letters and are found again by a path read from the text with a regular expression; whether they are found depends on the draws, the directory and the other gates of the circuit, and a test sees one draw in one directory.", "anchors": ["src/mqt/qudits/quantum_circuit/circuit.py:380-413", "src/mqt/qudits/quantum_circuit/circuit.py:317-360", "src/mqt/qudits/quantum_circuit/gate.py:218-225", "src/mqt/qudits/quantum_circuit/qasm.py:89-153"]}
{"id": "C90", "title": "Classical bits are numbered without gaps, registers can be indexed, reset starts anew", "statement": "After any sequence of append_classic calls with distinct labels on a circuit without classical registers, num_cl is the number of bits, classic_site_map and cl_inverse_sitemap are inverse to each other and assign the numbers 0, ..., num_cl - 1 in the order of the registers, and nothing else of the circuit changes. Indexing a quantum or classical register of a circuit by i or by a slice a:b within its size returns the global numbers of these lines or bits; an index or a non-empty slice that leaves the register raises KeyError. After reset() registers and gates appended give what they give on a new circuit, except for mappings.", "quantifier": "every finite sequence of registers of any sizes with distinct labels, every index and slice, every circuit before a reset", "why_tests_cant": "The claim is about every history of appends and every index; existing tests append one classical register at most.", "anchors": ["src/mqt/qudits/quantum_circuit/circuit.py:137-173", "src/mqt/qudits/quantum_circuit/components/quantum_register.py:50-55", "src/mqt/qudits/quantum_circuit/components/classic_register.py:38-43"]}
{"id": "C91", "title": "Fidelity of density operators; random states are normalised", "statement": "fidelity_on_density_operator of two non-zero Hermitian arrays of the same size is a real number between 0 and 1, does not depend on the order of the arguments, is 1 exactly when one is a real multiple of the other (for density operators: exactly when they are equal), and is |<x|y>|^2 for pure states; other shapes raise ShapeMismatchError. generate_random_quantum_state(dims) has one entry per basis state and norm 1 and passes verify_normalized_state, which accepts exactly the vectors whose squared norm is within its tolerance of 1.", "quantifier": "every size, every pair of Hermitian arrays, every list of dimensions, every sequence of random draws not all zero, every vector", "why_tests_cant": "Continuously many arrays, vectors and random draws; neither fidelity_on_density_operator nor the norm of a random state is tested.", "anchors": ["src/mqt/qudits/compiler/twodit/variational_twodit_compilation/opt/distance_measures.py:43-53", "src/mqt/qudits/compiler/state_compilation/retrieve_state.py:13-31"]}
{"id": "C92", "title": "Compiling by name for the shipped backends", "statement": "circuit.compileO0(name) and circuit.compileO1(name), where the name selects one of the four shipped traps and the circuit has no more lines than the trap, return for every circuit of unitary gates a circuit for which plot_state shows the same as for the original, with an error of at most 0.004 per gate on one line; a name that selects a simulator raises NotImplementedError, a gate on a line without ion IndexError. Innsbruck01.edge_to_carrier gives the declared carrier of every transition in both directions and raises for all other pairs.", "quantifier": "all names and regular-expression engines, all circuits of unitary gates on one line and controlled exchanges that keep the order of their levels, all choices of shortest paths; all pairs of levels", "why_tests_cant": "All circuits and continuous gates; the path finder's choice among paths of equal length is unspecified.", "anchors": ["src/mqt/qudits/quantum_circuit/circuit.py:428-446", "src/mqt/qudits/simulation/qudit_provider.py:27-43", "src/mqt/qudits/simulation/backends/innsbruck_01.py:73-76", "src/mqt/qudits/simulation/backends/backendv2.py:47-49"]}
{"id": "C93", "title": "Approximation node by node and counting the nodes of a decision tree", "statement": "dd_approximation(root, cardinalities, tolerance) on the tree of a vector sets to 0 exactly the amplitudes on whose way some part of the vector has less than the share tolerance of the part directly above it, leaves every other amplitude as it is, leaves the tree normalised and loses at most tolerance times the sum of the dimensions of the probability. create_decision_tree reports 1 + d1 + d1*d2 + ... nodes; count_nodes_after on the reduced tree succeeds, never counts more than that, counts at least one node per line and the leaf if no amplitude is zero, and exactly these for a vector of equal amplitudes.", "quantifier": "all vectors, dimensions, tolerances and hash functions", "why_tests_cant": "Continuous amplitudes and tolerances; the trees have arbitrary depth and width.", "anchors": ["src/mqt/qudits/core/micro_dd.py:178-198", "src/mqt/qudits/core/micro_dd.py:114-175", "src/mqt/qudits/core/micro_dd.py:297-305"]}
{"id": "C94", "title": "Distances and sensitivities on the energy-level graph", "statement": "LevelGraph.distance_nodes(a, b) is the least number of couplings on a way from a to b, hence a metric on the connected levels; distance_nodes_pi_pulses_fixed_ancilla(a, b) is a distance as well, in which ancilla (negative) levels count twice; get_node_sensitivity_cost(n) is the sum of the sensitivities of the couplings at n and is refused for an unknown level or a coupling without sensitivity; get_edge_sensitivity(a, b) is the sensitivity of the coupling, the same in both directions; swap_nodes exchanges these measures for the two levels and keeps them for all others; fst_inode, fst_rnode, is_inode and is_irnode agree with the level attribute.", "quantifier": "all well-formed level graphs, levels and shortest-path functions", "why_tests_cant": "Graphs of any size and shape; minimality ranges over all ways.", "anchors": ["src/mqt/qudits/core/level_graph.py:49-62", "src/mqt/qudits/core/level_graph.py:159-178", "src/mqt/qudits/core/level_graph.py:202-232"]}
{"id": "C95", "title": "Reading a whole matrix diagram, entries by strings, and the number of nodes", "statement": "getVectorizedMatrix returns every entry of the matrix a diagram represents, entry (x, y) at the position whose digit for line i is d_i*x_i + y_i in base d_i^2; getValueByPath with a string returns the amplitude (entry) whose level (d_i*row + column) on line i is character i, ignores further characters and throws for strings shorter than the register; nodeCount started on an empty set returns the number of different nodes reachable from the edge, which for a state with k non-zero amplitudes on n lines is between n+1 and k*n+1.", "quantifier": "all vector and matrix diagrams, all registers, rows, columns and strings", "why_tests_cant": "Diagrams of any depth and sharing; a wrong block offset, a wrong order of the characters or a node counted twice shows only on some registers and shapes.", "anchors": ["include/dd/MDDPackage.hpp: getVectorizedMatrix, getVector, getValueByPath, nodeCount"]}
{"id": "C96", "title": "Replacing a stretch of a lane", "statement": "Lanes.replace_gates_in_lane(line, start, stop, gate) takes the gates at positions start to stop of the line out of the circuit and puts the new gate in their place: afterwards the line is as before with the stretch replaced, the other lines are unchanged, and if the new gate does what the replaced gates do together, the circuit returned by extract_instructions is the same operator. A line without gates is left alone; a start beyond the end is an IndexError.", "quantifier": "all circuits of distinct well-formed gates, lines, stretches and new gates", "why_tests_cant": "Circuits of any length with any entangling gates around; the order of the extracted gates depends on counters of all lines.", "anchors": ["src/mqt/qudits/core/lanes.py:58-73", "src/mqt/qudits/core/lanes.py:110-125"]}
{"id": "C97", "title": "Kronecker products of matrix diagrams", "statement": "MDDPackage::kronecker(x, y) returns the diagram of the Kronecker product of the matrices of x (upper registers) and y (lower registers), whatever products were formed before; extend(e, h, l) returns e with identities on h registers above and l registers below.", "quantifier": "all matrix diagrams, registers, hash functions and histories of the compute table", "why_tests_cant": "Diagrams of any depth with any weights; remembered results of earlier products; identity nodes take a branch of their own at any depth of the first operand.", "anchors": ["include/dd/MDDPackage.hpp:1139-1250"]}
{"id": "C98", "title": "transpile of the decomposition passes", "statement": "pass.transpile(circuit), for each of the passes PhyLocQRPass, PhyLocAdaPass, LogLocQRPass, LogLocAdaPass, LogEntQRCEXPass and PhyEntQRCEXPass, gives a circuit that does what the given one does, and (for those the compiler knows) the same circuit that QuditCompiler.compile gives with only this pass.", "quantifier": "all circuits, devices, placements, path finders", "why_tests_cant": "Circuits of any length with any gates; the gates of other types must be kept in place, and the level graphs left by one gate are those the next one is translated with.", "anchors": ["src/mqt/qudits/compiler/onedit/mapping_aware_transpilation/phy_local_qr_decomp.py:33-47", "src/mqt/qudits/compiler/onedit/mapping_aware_transpilation/phy_local_adaptive_decomp.py:56-69", "src/mqt/qudits/compiler/onedit/mapping_un_aware_transpilation/log_local_qr_decomp.py:35-47", "src/mqt/qudits/compiler/onedit/mapping_un_aware_transpilation/log_local_adaptive_decomp.py:52-64", "src/mqt/qudits/compiler/twodit/entanglement_qr/log_ent_qr_cex_decomp.py:38-51", "src/mqt/qudits/compiler/twodit/entanglement_qr/phy_ent_qr_cex_decomp.py:67-80"]}
{"id": "C99", "title": "The drawing of a circuit shows its local gates", "statement": "draw_qudit_local(circuit) prints one line of text for each line of the circuit, from which the gates on this line can be read off in order: which gates act on it alone, their kind, levels and rounded angles; lines on which a gate does not act show nothing of it.", "quantifier": "all circuits, lines, levels and angles", "why_tests_cant": "Unique readability is a statement about all pairs of circuits of any length; the symbols have no fixed width and stand next to each other without separators.", "anchors": ["src/mqt/qudits/visualisation/drawing_routines.py:7-22"]}
{"id": "C100", "title": "Printing a vector diagram lists its amplitudes", "statement": "printVector(edge, nonZero) prints one line for each basis state, in the order of their numbers: the levels of the lines, from which the basis state can be told, and its amplitude in the vector of the diagram, aligned to the right; with nonZero exactly the basis states are left out whose amplitude has a real and an imaginary part within the tolerance.", "quantifier": "all proper vector diagrams over all registers, both flags, all tolerances", "why_tests_cant": "The order, completeness and the correctness of every amplitude range over all diagrams and mixed radices; the shared structure of a diagram is unfolded along every path.", "anchors": ["include/dd/MDDPackage.hpp:1754-1786", "include/dd/ComplexValue.hpp:34-37"]}
{"id": "C101", "title": "The gate library of the diagram package holds the gates it names", "statement": "RXmat, RYmat and RZmat are the rotations about the three axes, U3mat is the product of a z-, a y- and a z-rotation up to a phase, U2mat and Phasemat are its special cases, embX2 is the half turn about an axis in the plane, the S, T, SX and V matrices are the roots of Pauli matrices they are named after and the dag matrices their adjoints; all are unitary. U301, X01 and Z01 act on the levels 0 and 1 of three and leave level 2 alone, Pi(i) is the projector onto level i and is rejected for other levels.", "quantifier": "all angles, all levels and dimensions", "why_tests_cant": "The matrices are functions of real angles; tests look at a few of them, and some of the functions are used by no test.", "anchors": ["include/dd/GateMatrixDefinitions.hpp:48-121", "include/dd/GateMatrixDefinitions.hpp:157-233"]}
{"id": "C102", "title": "The runs of a variational search do not disturb each other", "statement": "Each run of binary_search_compile is stopped by its own timer only: the reported number of layers is that of the run which found the reported parameters, the reported error is their true error and within the tolerance, and a compilation does not depend on timers of earlier ones.", "quantifier": "all objective functions, points visited by the annealer, durations, layer limits and states left by earlier compilations", "why_tests_cant": "The timers run for an hour and more; the interference needs a timer that fires during a later run.", "anchors": ["src/mqt/qudits/compiler/twodit/variational_twodit_compilation/ansatz/ansatz_solve_n_search.py:13-64", "src/mqt/qudits/compiler/twodit/variational_twodit_compilation/opt/optimizer.py:20-44"]}
{"id": "C103", "title": "Prices of rotations follow the size of the rotation", "statement": "theta_cost and phi_cost depend on the size of the angle only, grow strictly with it and vanish for the angle zero alone; theta_cost is 1e-4 times four times the number of half turns plus its distance to the nearest multiple of one half. regulate_theta changes a regulated angle no more, and equal rotations are stored with the same angle and price.", "quantifier": "all real angles", "why_tests_cant": "Monotonicity and idempotence are statements about pairs of real angles across the jumps of the remainder; tests price a few fixed angles.", "anchors": ["src/mqt/qudits/compiler/compilation_minitools/local_compilation_minitools.py:36-54"]}
{"id": "C104", "title": "Prices of rotations on a device grow with the distance of the levels", "statement": "rotation_cost_calc multiplies the price of a rotation that touches a level marked r by one more than the distance of the nearer level from a level that can be initialised, and leaves other prices alone. Routing two levels at distance D takes D-1 pulses of angle plus or minus pi; cost_calculator adds their prices, each 4e-4 or at most d times that if levels marked r are met, to the price of the rotation and multiplies by the number of nonzero entries. Without levels marked r, rotations by the same angle between levels farther apart cost strictly more.", "quantifier": "all connected devices, placements, stored phases, pairs of levels, angles and dimensions", "why_tests_cant": "The price depends on the graph after every swap of the routing; tests look at single gates on a few fixed graphs.", "anchors": ["src/mqt/qudits/compiler/compilation_minitools/local_compilation_minitools.py:57-74", "src/mqt/qudits/compiler/onedit/local_operation_swap/swap_routine.py:126-176"]}
{"id": "C105", "title": "The total cost that a QR decomposition reports is the price of its gates", "statement": "The total cost returned by QrDecomp.execute and PhyQrDecomp.execute is the sum of the costs of the rotations they put out (phase gates are not counted); in particular it never understates them.", "quantifier": "all dimensions, matrices, connected devices, placements, stored phases and settings of z_prop and not_stand_alone", "why_tests_cant": "The reported cost is accumulated beside the list of gates, over routes which depend on the device; tests do not look at it.", "anchors": ["src/mqt/qudits/compiler/onedit/mapping_un_aware_transpilation/log_local_qr_decomp.py:61-170", "src/mqt/qudits/compiler/onedit/mapping_aware_transpilation/phy_local_qr_decomp.py:61-167"]}
{"id": "C106", "title": "Adaptive passes spend no more than the QR decomposition", "statement": "The rotations that LogLocAdaPass and PhyLocAdaPass put out for a gate cost, added up, no more than the total cost that the QR decomposition of the gate reports (up to 1e-12); so on devices where that report is exact they cost no more than the rotations of the QR passes. The total cost that the search reports is the cost of its rotations (logical) or at least that (physical), and it is within the limit given.", "quantifier": "all dimensions, unitaries, limits, thresholds, recursion limits and connected devices (for the physical search: levels in order with stored phases that are multiples of pi, or all levels coupled)", "why_tests_cant": "The cost is accumulated along branches of a search tree whose shape depends on the matrix and the device; tests compare single examples and never the prices.", "anchors": ["src/mqt/qudits/compiler/onedit/mapping_un_aware_transpilation/log_local_adaptive_decomp.py:33-50", "src/mqt/qudits/compiler/onedit/mapping_un_aware_transpilation/log_local_adaptive_decomp.py:153-221", "src/mqt/qudits/compiler/onedit/mapping_aware_transpilation/phy_local_adaptive_decomp.py:42-56", "src/mqt/qudits/compiler/onedit/mapping_aware_transpilation/phy_local_adaptive_decomp.py:200-301"]}
{"id": "C107", "title": "The status of a job as text can be read back", "statement": "JobStatus.from_string accepts exactly the values of the statuses, in letters of any case, and raises ValueError on every other text; the string representation of a status, str(status), is read back as that status; different statuses have different texts.", "quantifier": "all texts and statuses, any str.lower that is right on ASCII texts", "why_tests_cant": "Tests read a few texts; which texts are rejected, and that no status survives the round trip, are statements about all of them.", "anchors": ["src/mqt/qudits/simulation/jobs/jobstatus.py:17-51"]}
{"id": "C108", "title": "unique_weights returns the weights of all nodes, each once", "statement": "unique_weights(root) ends and returns exactly the weights of the root and of the nodes below it, without repetition.", "quantifier": "all decision trees", "why_tests_cant": "The walk uses a stack whose contents depend on the shape of the tree; tests see small trees only.", "anchors": ["src/mqt/qudits/core/micro_dd.py:84-97"]}
{"id": "C109", "title": "apply_gate_to_tlines applies the gate to each target line", "statement": "apply_gate_to_tlines(gate, n, targets, dims) returns the matrix of the operator that applies the gate to each of the target lines and leaves the others alone, for registers of any dimensions.", "quantifier": "all gates, register sizes, targets and dimensions", "why_tests_cant": "The matrix is assembled from Kronecker products for any number of lines; tests compare a few small matrices.", "anchors": ["src/mqt/qudits/compiler/compilation_minitools/numerical_ansatz_utils.py:46-62"]}
{"id": "C110", "title": "Comparisons of decision nodes order them by label", "statement": "For nodes of decision trees, a < b holds exactly when both labels are integers and that of a is smaller, it is a strict order, a > b means b < a, a >= b means b <= a, and a <= b answers yes when a is less than b or has the same label and no otherwise.", "quantifier": "all nodes", "why_tests_cant": "That the comparisons form an order is a statement about all pairs and triples of nodes; no test compares nodes at all.", "anchors": ["src/mqt/qudits/core/micro_dd.py:22-38"]}
