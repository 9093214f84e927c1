# Formal model of mqt-qudits in Lean 4

## 1. Layout

* `properties.jsonl` - the claims, in terms of the public API.
* `lean/Verif/Model/*.lean` - executable (or, where complex numbers appear, plain mathematical)
  definitions mirroring functions of `/repo`, one definition per function, each with a comment giving
  file and lines. Exceptions are values (`Except`/`Option`).
* `lean/Verif/Spec/*.lean` - small specifications which do not mention the model.
* `lean/Verif/Lemmas/*.lean` - auxiliary lemmas.
* `lean/Verif/Props/*.lean` - the property theorems, each followed by an `example` meeting its hypotheses.
* `MANIFEST.json` - property -> theorem names; `seeded/LOG.jsonl` - mutation experiments.

## 2. Trusted base

* The Lean 4.33.0 kernel and Mathlib. Every property theorem depends only on the standard axioms
  `propext`, `Classical.choice`, `Quot.sound` (checked with `#print axioms`). No own axioms, `sorry`,
  `native_decide` or `bv_decide`.
* The reading of the Python and C++ sources as transcribed in `Model/`. Nothing is executed or extracted.
* Floating point is modelled by exact real/complex arithmetic everywhere. Rounding, tolerances of the
  DD package (`1e-13`-style approximate comparisons), NaN and overflow are outside the model.
* Third-party code is assumed to meet its documentation: numpy indexing / kron / reshape / transpose,
  scipy `expm`, tensornetwork contraction, networkx graph storage, Python dict/list semantics,
  `multiprocessing.Pool.map`.
* Randomness is modelled as an arbitrary input (every theorem about noisy circuits holds for every draw).

## 3. Plan per property

| id | what is modelled | how it is proved |
|----|------------------|------------------|
| C01 | `QuantumCircuit.append` over an association-list dict | invariant by induction over the append history |
| C02 | instruction list editing with Python slice semantics | invariant over arbitrary histories; refinement to list edits; out-of-range index shown to break it |
| C03 | `Gate.control` branch by branch | decision table; witness that positional dimension check accepts/rejects wrongly; partial: exact characterisation of acceptance |
| C04 | `__init__`, `control`, `check_long_range` | characterisation of "gap"; witness for the stale flag; partial for construction with controls |
| C05 | `dag`, `generate_matrix` | one call = adjoint proved; twice = witness against; partial |
| C06 | `__array__` of every gate over `Matrix (Fin d) (Fin d) C` | algebra in Mathlib |
| C07 | X, Z, H matrices | roots of unity |
| C08 | R, Rz, Rh, VirtRz | trigonometric identities on two levels |
| C09 | CSum, CEx incl. kron order | entry computation |
| C10 | LS | `exp` of diagonal; witness for reversed unequal dims; partial for the rest |
| C11 | Perm + validation | witness `[0,0]`; partial for duplicate-free full lists |
| C12, C13 | `apply_identities_and_controls`, `wrap_in_identities`, `generate_matrix` on index lists as in the code (`itertools.product` order) | refinement to the spec "entry if other digits agree" over level assignments, algebra of the spec |
| C14 | mixed-radix indexing | induction on the dimension list |
| C15 | tensor contraction per gate | refinement to the spec operators, induction over the circuit |
| C16, C17 | DDs as weighted trees, exact complex arithmetic | structural induction |
| C18 | `getGate` dropping controls | witness; partial for circuits without controls |
| C19 | reshape/transpose index arithmetic | mixed-radix reversal |
| C20 | unique table on a pointer memory (bucket chains and free chain through `next`), compute tables; arbitrary hash | invariants over histories; addresses correspond to contents |
| C21, C22 | noise dictionaries; aliasing modelled with a heap | invariants, witnesses for violations |
| C23, C24 | noisy circuit generation with the random draws as input | induction over instructions |
| C25-C27 | provider / options / job polling as state machines | case analysis, induction over histories |
| C28 | `pi_mod`, `regulate_theta` over the reals | `Int.floor` arithmetic |
| C29-C31 | phase passes on R/VirtRz lists | commutation lemma and induction |
| C32, C33 | lanes, resynthesis | trace-monoid style induction, operators on disjoint lines commute |
| C34, C35 | `QrDecomp`/`PhyQrDecomp` loops, routing by π pulses along a path of the level graph, phase bookkeeping, `LogLocQRPass`, `PhyLocQRPass`; any thresholds | induction over columns/rows with zero pattern invariant, induction over the path; the error allowed by the thresholds is bounded |
| C36 | level graph as node/edge lists | permutation lemmas |
| C37 | n-ary tree | structural induction |
| C38-C42 | decision tree of a state, angles, entry generators | structural induction |
| C56 | `StatePrep.compile_state`: tree, hashing, sharing, synthesis, emission with the threshold as a parameter; Python's `hash` is a parameter without collisions on the hashed tuples | induction over the tree with the state of the lines above fixed; the rotations left out are bounded in the 2-norm |
| C39, C57 | contributions by levels, greedy cutting from the deepest level, renormalisation, preparation of the result | a part of the register is named by the levels of its first lines; the contribution of a node is the probability of its part; invariants of the fold over the levels; Cauchy-Schwarz for the overlap |
| C43-C45, C58, C60-C62 | variational compiler: splitting, bounds, binary search, ansatz as matrix and as circuit, annealer as an arbitrary list of visited points with an arbitrary time of interrupt, sparsifier; threads and queue are sequential | list induction, well-founded recursion, simultaneous induction over both loops; exponentials of generators in closed form |
| C59 | distance measures | Cauchy-Schwarz with its case of equality |
| C46, C47 | writer, regular expressions (a backtracking matcher with Python's greedy order and capture groups), reader, gate constructors and positional builder calls, on lists of ASCII characters; the text of floats and `safe_eval_math_expression` are a parameter (`PyFloat`) with the laws `Laws` | induction on texts and on the pattern, first-match lemmas; unreadable programs from one unreadable line |
| C48-C50, C63 | partial trace (`einsum` as numpy defines it), counts, remap, density matrix from shots | finite sums, list counting, permutation matrices |
| C64-C67 | two-qudit QR into rotations and CEx: crot, pswap, czrot, execute with phase equations, logical and physical pass; the rounding of matrix entries to 15 digits and the unused permutation gates of the physical pass are left out | action on basis vectors, conjugation by moves, induction over the elimination loops, kernel of the phase equations |
| C68, C69 | adaptive decompositions: the depth-first search over a tree of rotations (recursion limit as a parameter), cost test, routing along the branch, extraction of phases, both passes; costs are exact reals | invariant of the tree, chains from the root to the leaf retrieved, simulation of the QR decomposition that fixes the limit by the search |
| C70-C72 | the compiler: choice of the pass, the three optimisation levels, the lookup of the next gate on a line; a gate is its identity, type, target and array, what else is read of it is a table by identity; the passes are those of C33, C64-C69 | invariant `Backend` of the graphs through all gates, errors in operator norm add up over the circuit, induction over the list of gates |
| C73 | `PhyLocQRPass` on a line with fewer levels than the graph has | simulation: the run on the line is the run on the whole device with the gate extended by the identity, cut off where a rotation leaves the line |
| C74 | the graphs declared by the four backends, and `LevelGraph(...)` for any declaration | folds over the declared lists, walks to paths |
| C75 | compile, simulate with `tnsim`, `plot_state` with the mappings of the compiled circuit, against the simulation of the circuit | composition of C72/C73, C12, C15 and C50: the product of the emitted gates is unitary, so no array of an emitted object is missing |
| C76 | `ComplexTable.hpp`: buckets as linked lists in memory, insertion, search in the neighbouring bucket, reference counts, collection; values in an ordered field, `round` a parameter | representation invariant (every chain is a sorted list, gaps larger than the tolerance, free list disjoint) kept by every operation |
| C77 | `ComplexNumbers.hpp` (arithmetic, conjugation, lookup), `Complex.hpp`, `ComplexCache.hpp`; signs in pointers, operands read after the target has been written as in the code | case analysis with explicit error bounds; invariant of the free list of the cache |
| C78 | `compile` with named passes (`dit_compiler.py:37-64`): choice of the pass by its name, all translating passes, the logical ones included | induction over the gates with the errors of the passes added up; the logical passes are shown to give the circuit with inverted single-line gates |
| C79 | `naive_unitary_verifier.py` complete: the three small simulators and `UnitaryVerifier` | products of arrays against products of operators; the comparison with the identity bounds the distance in operator norm and follows from it |
| C80 | noise in the C++ simulator: `parse_noise_model`, `generateCircuit` (`bindings.cpp:246-470`), draws as arbitrary sequences of outcomes of positive probability | induction over circuit and modes: every run gives a circuit with allowed errors, every such circuit is given by a run; the inserted gates are among those of C18, so the state is exact |
| C81 | `getLowestFraction`, `printFormatted`, `toString` (`ComplexValue.hpp:75-236`) over the reals; the decimal text of a number is a parameter | search in the Stern-Brocot tree: the two fractions stay neighbours (determinant 1), so that nothing simpler lies between them; the sum of the parts gives the number of rounds |
| C82 | the gate classes `CustomOne`, `CustomTwo`, `CustomMulti`, `RandU`; arrays are objects in a memory, draws are a sequence; the simulator of C15 | composition with C12 and C15; the case of an array of the wrong size by running the network |
| C83 | all of `stochastic_sim.py`, `save_info.py`, `run` of both simulators; `Generator.choice` and the chunks of `Pool.map` written out after numpy and CPython; generators, hash and clock are arbitrary functions | induction over chunks and shots, composition with C23 (factory), C15 (simulator), C80 (C++ noise); unitarity of every error gate |
| C84 | `spread2`, `spread3`, `spread5` as one function of the number of lines | action of the gates on basis states (levels as numbers), induction over the further lines, linearity; diagrams by C16 and C17 |
| C85 | constructors and noise models of the fake backends, `Innsbruck01.run` | the noise model is computed by the calls of its methods; success from C83 (a run succeeds exactly if the noise model fits the circuit) |
| C86 | the draws of `NoisyCircuitFactory` with their lists of probabilities, which numpy's `choice` checks (`Model/NoisyDraws.lean`; real numbers, so numpy's tolerance of 1e-8 for the sum is not modelled) | a run is a fixed list of draws and a function of their outcomes; sums over the Weyl operators X^a Z^b; channels are linear, induction over draws and gates |
| C87 | the model of C80; its draws as independent ones with the probabilities that `std::discrete_distribution` gets | as for C86: a run is a fixed list of draws and a function of their outcomes, induction over entries and gates; entries of conjugated operators for the comparison with depolarizing |
| C88 | `set_initial_state` as the composition of the models of C56/C57 with the gate objects of C04, then the simulator of C14 | every gate of a preparation has one target behind its controls, in ascending order; such a gate is accepted or refused by a condition on its lines (Spec/InitialStateSpec.lean), the result is then C14 and C56; which gates have which controls by induction over the tree, and from proportional parts of the state to equal hashes (Lemmas/SharedNodes.lean) |
| C89 | `save_to_file`, `load_from_file` with the writer and reader of C46/C47 extended by matrix files (Model/QasmFile.lean); `pathlib.Path` as the list of parts of a path; the disk is two dictionaries from paths to arrays and to texts | a path read back from the text is the path written (Lemmas/QasmPath.lean); each line of a gate is read back as in C46 (Lemmas/QasmFileRead.lean); induction over the instructions, with the files written so far kept (Lemmas/QasmFileWrite.lean). Assumed: file operations succeed, the working directory stays the same, the parent circuit of the gates is the one that is saved; what an exception leaves on the disk is not modelled |
| C90 | `append_classic`, `reset`, `__getitem__` of both kinds of registers (Model/Registers.lean) | invariant of the history of appends; `reset` commutes with what comes after |
| C91 | `fidelity_on_density_operator`, `verify_normalized_state`, `generate_random_quantum_state` (Model/DensityFidelity.lean) | Cauchy–Schwarz with its case of equality; norm of the random vector |
| C92 | `QuantumCircuit.compileO0/compileO1`, graphs of the shipped backends, `edge_to_carrier` (Model/CompileByName.lean) | composition of the provider, C74 and C75; error bound in numbers; refused names and lines |
| C93 | `dd_approximation`, the node counters of `create_decision_tree` and `count_nodes_after` (Model/LocalApprox.lean) | `dd_approximation` = pruning followed by `normalize_all`; amplitudes of the pruned tree by induction over the lines; bound on what is lost; counts by induction |
| C94 | `distance_nodes`, `distance_nodes_pi_pulses_fixed_ancilla`, `get_node_sensitivity_cost`, `swap_nodes`, `fst_inode`, `fst_rnode`, `is_inode`, `is_irnode` (Model/LevelGraph.lean) | any function returning a shortest path for `nx.shortest_path`; walks shortened to paths; sums over neighbours by induction over the edges; measures transported along `swapNodes_ok` |
| C95 | `getVectorizedMatrix`, `getVector` on matrices, `getValueByPath` with a string, `nodeCount` (MDDPackage.hpp 1544-1595, 1672-1722; Model/DDReadAll.lean); the printing of `getVector` is left out, a string is the list of its character codes | blocks of the output by induction over the registers; the set of visited nodes is closed below the current level; sharing only lowers the count of paths |
| C96 | `Lanes.replace_gates_in_lane` (lanes.py 110-125; Model/LaneReplace.lean), followed by `extract_instructions`; negative indices are not modelled | removing a stretch entry by entry; the lanes stay well-formed; groups of gates replaced by one gate (as for C33) |
| C97 | `kronecker`, `kronecker2`, `extend` (MDDPackage.hpp 1139-1250; Model/DDKron.lean) with the compute table; `incIdx` true; the registers to which the nodes of `x` move have the sizes of those they come from | induction over the first operand with the invariant that remembered products of proper operands are right up to the weights in front of identities; these weights matter iff some path comes to a multiple of the identity |
| C98 | `transpile` of the five decomposition passes the compiler knows and of `LogLocAdaPass` (files cited in Model/PassTranspile.lean); simplifications those of Model/Compiler.lean | the step of `transpile` compared with that of `QuditCompiler.compile`, gate by gate; then C78 and C35 |
| C99 | `draw_qudit_local` (drawing_routines.py; Model/Drawing.lean); texts are lists of characters, the text of an angle is a parameter without commas and closing brackets | the symbols form a prefix code, so that equal lines have equal sequences of symbols |
| C100 | `printVector`, `approximatelyZero` (MDDPackage.hpp, ComplexValue.hpp; Model/DDPrint.lean); the text of a number is a parameter | induction on the number of printed entries, with C54 for each entry |
| C101 | the two-level library, U301, X01, Z01, PI02 and the projectors (GateMatrixDefinitions.hpp; Model/GateLib.lean); constants exact | entry by entry, against rotations about the Pauli axes |
| C102 | `run`, `binary_search_compile`, `solve_anneal` with the class variables `timer_var`, `X_SOLUTION` and the timers (Model/VarTimer.lean); time counts evaluations, the objective is a parameter | invariant of the stored solution; refinement to the search of C44 while no timer fires |
| C103 | `theta_cost`, `phi_cost`, `regulate_theta` over the reals (Model/Angles.lean) | the saw tooth is a distance, hence Lipschitz |
| C104 | `rotation_cost_calc`, `route_states2rotate_basic`, `cost_calculator` (Model/LocalQR.lean), any device | induction over the pulses, with the placement of every step |
| C105 | `execute` of both QR decompositions (Model/LocalQR.lean), any device | invariant of the two loops, related step by step to the reported cost |
| C106 | the adaptive searches and passes (Model/Adaptive.lean) | invariant along the branches of the search tree; limit from C105 |
| C107 | `JobStatus.description`, `__str__`, `from_string` (Model/JobText.lean); `str.lower` is a parameter | decision logic |
| C108 | `unique_weights` (Model/UniqueWeights.lean) | invariant of the loop over the stack |
| C109 | `apply_gate_to_tlines` (Model/TargetLines.lean) on top of `gate_expand_to_circuit` | refinement to the operator on the lines |
| C110 | the comparison methods of `MicroDDNode` and Python's rules for `NotImplemented` and reflected methods (Model/NodeOrder.lean) | decision logic |

Properties that the code violates are kept in full: the negation is proved for a concrete witness
(`..._violated`), and the strongest true part is proved as `..._partial`. They are collected in section 5.

## 4. What is not modelled

Drawing (matplotlib) and the HDF5 encoding of saved tables, operating-system processes (only how `Pool.map` cuts and copies its arguments, C83), logging, the concrete calibration numbers of the fake backends (their noise tables are in C85),
scipy optimisers, numerical tolerances (except those of the table of numbers and of the arithmetic on it, C76 and C77). Reference counting and garbage collection of the unique table
(`incRef`, `decRef`, `garbageCollect`, `clear`; the templates do not compile when instantiated). The files one by one are in `COVERAGE.md`.
`nx.shortest_path` and Python's `hash` of tuples are parameters of the model. In QASM texts: the encoding of `.npy` files (C89 keeps the arrays themselves), characters outside
ASCII, and the evaluation of arithmetic (a parameter with the laws of `Spec/QasmText.lean`).

## 5. Disagreements between code and claims

* C03 `Gate.control` compares a control level with the dimension found at the *position* of the control in
  the list instead of at its line (`C03_accepts_illegal_level_violated`, `C03_rejects_legal_violated`).
* C04 `control` does not recompute `is_long_range` (`C04_stale_flag_violated`).
* C05 `dag` sets the adjoint mark instead of toggling it (`C05_double_dag_violated`).
* C13 `apply_identities_and_controls` indexes the sliced register with an absolute line number for
  single-target gates; gates with controls away from line 0 raise (`C13_high_target_violated`).
* C10 the light-shift array is built in the order in which lines were named but embedded in ascending line
  order; for reversed lines of unequal dimension the phases land on wrong states (`C10_ls_reversed_violated`).
* C11 the permutation gate accepts duplicates and short lists (`C11_perm_duplicate_violated`,
  `C11_perm_short_violated`).
* C06 parameters passed as something other than a Python list are silently ignored by R; its matrix then raises
  (`C06_r_not_a_list`). CEx accepts levels above the dimension, its matrix then raises
  (`C09_cex_level_too_high`).
* C21 `SubspaceNoise.add_noise` accepts a pair with one negative level, after which fixed pairs are also accepted
  (`C21_mixed_pair_violated`). `add_noises` is not atomic: pairs accepted before the failing one stay stored.
* C22 `NoiseModel._add_quantum_error` stores the caller's object and later extends it in place, so gates that were
  given the same object receive each other's noise (`C22_aliasing_violated`).
* C26 the simulators store run options in the backend object, so options given in one call persist into later calls,
  also when the call fails its assertion (`C26_options_persist_violated`, `C26_failed_run_persists_violated`);
  `set_options` always raises (`C26_set_options_useless`).
* C27 `JobStatus.CANCELLED` is documented as final but never ends the wait (`C27_cancelled_violated`); the jobs the
  simulators return do not implement `status()` (`C27_simulator_jobs_raise`).
* C29 `propagate_z` ignores the adjoint mark of a rotation (`C29_dagger_violated`) and drops gates of any other class
  (`C29_other_dropped`).
* C30 `remove_z` appends every rewritten run at the end of the circuit and cuts later runs at positions of the old list,
  so runs are reordered, duplicated or lost (`C30_two_runs_violated`); two neighbouring entangling gates on the same lines
  raise (`C30_entangling_raises`). What is returned for any number of runs is stated in `C30_exact` (`Spec.moved`); `C30_applied_twice` is a
  family of circuits in which a run is applied twice; a run on several lines always raises (`C30_refused`).
* C31 the removal looks only at the target of a phase gate; one with controls is removed although it matters
  (`C31_controlled_violated`).
* C32 a single-qudit gate with controls keeps an integer target but is no longer of the single-qudit type, which makes
  the lane code raise (`C32_controlled_gate_violated`);
  one gate object used twice is emitted wrongly (`C32_repeated_object`).
* C15 holds for gates with right flags (`C15_execute`); with the stale flag of C04 the simulator raises
  (`C15_stale_flag_violated`).
* C16 `transpose` writes into an empty vector, so making a matrix node with symmetric diagonal blocks and a
  non-symmetric block beside them throws; products of gates on different lines run into it (`C16_matrix_violated`).
  `makeDDNode` with weights that are not cached forgets the weight of the largest child
  (`C16_node_uncached_violated`); inside the package this form is only used where at most one child is not zero.
* C53 `innerProduct` conjugates the weights of the children of its second argument but not its top weight
  (`C53_inner_product_violated`); the fidelity is not affected.
* C54 `getValueByPath` for matrices multiplies the row by the number of edges instead of the number of columns; every
  row but the first throws (`C54_matrix_entry_violated`).
* C18 the decision-diagram simulator reads the controls of a gate and never uses them: a circuit gives the same result as the
  circuit without controls (`C18_controls_ignored_violated`, `C18_controls_violated`). It has tables only for dimensions 2 to 7
  and fails on a null edge above (`C18_dimension_violated`), and it throws for two-level gates with descending levels, which
  Python sorts (`C18_levels_violated`).
* C36 `swap_nodes` builds the new graph without its circuit and line, so `get_vrz_gates` then returns no gates although phases are
  stored (`C36_phase_gates_violated`). `swap_node_attr_simple` replaces names by positions and uses these as names
  (`C36_phase_swap_violated`).
* C37 `NAryTree.total_size` stores the number of nodes minus one, so a tree with one node then counts as empty
  (`C37_size_violated`). `retrieve_decomposition` takes the minimum of an empty list and raises `ValueError` when a finished node has
  children and nothing finished lies below it (`C37_inner_finished_violated`).
* C35 `LogLocQRPass` puts the inverse of the gate into the circuit (`C35_logical_inverse`, `C35_logical_violated`).
  `PhyLocQRPass.transpile_gate` is right (`C35_physical`), but `transpile` reverses its list and calls `dag`, which does not toggle:
  the gates come out in the wrong order (`C35_transpile_order`, `C35_transpile_violated`).
* C40 a node whose non-zero branches are all equal is marked as reduced and only the branch of level 0 is synthesised, even if that branch is
  zero: 3/5 |11> + 4/5 |21> on [3, 2] leaves the second line at level 0 (`C40_violated`).
* C56 because of C40 some states are not prepared; and because `control` compares levels by position (C03), preparing a state may raise
  `IndexError` when dimensions increase along the register (`C56_violated`, dimensions [2, 3, 2]).
  What is prepared instead is stated for every non-zero state (`C56_exact`, with `prepared` in Spec/PreparedSpec.lean); the claim holds exactly for the
  states that `prepared` leaves alone (`C56_exactly_when`); if the first line factors out without its level 0 and the others are never all at level 0,
  the overlap is zero (`C56_lost`). `C88_exact` says the same of what `simulate` returns.
* C42 the embedded W state has one entry per line, also for lines of a single level: that entry is not found among the basis states and
  the vector is not normalised (`C42_embedded_w_violated`, dimensions [1, 2]).
* C57 inherits C40: the approximation may cut the branch of level 0 and leave equal branches beside it, which are then shared wrongly; so
  the theorem is stated for kept vectors in which sharing is harmless. `normalize_all` does not rescale the child of a one-level line, the
  theorems ask for at least two levels per line. `C57_violated`: with the tolerance of the
  code the unit vector 3/5 |11> + 4/5 |21> on lines of three and two levels loses nothing to the approximation, and what is prepared is orthogonal to it.
* C45 `prepare_ansatz` multiplies new factors on the right, `ansatz_decompose` appends the same gates to a circuit, where later gates
  multiply on the left: the emitted circuit is the optimised product in reverse order (`C45_reversed_partial`), which is a different
  operator (`C45_order_violated`). The gates are always put on lines 0 and 1, whatever lines the target is on
  (`C45_lines_violated`). `sparsify` has the same error (`C61_order_violated`).
* C58 when no run of the search meets the tolerance, the compiler returns the empty circuit (`C58_empty_violated`).
* C60 one of the `d² - 1` parameters of `generic_sud` is redundant (the phase of the first pair stands directly behind the diagonal
  phases), so not every special unitary is reached; for a qubit a rotation about the x axis is not (`C60_reach_violated`).
* C48 negative line numbers pass the first lookup of `partial_trace` but never match a line afterwards (`C48_negative`).
* C49 labels of basis states are not separated, so they coincide when a line has more than ten levels (`C49_labels_violated`).
  `plot_counts` calls `count` on its shots, which a numpy array does not have although the annotation allows one
  (`C49_array_violated`).
* C50 `remap_result` multiplies with the inverse permutation from the right, which applies the mapping a second time instead of undoing it:
  the logical state is returned exactly when the mapping is its own inverse (`C50_logical_partial`, `C50_direction_violated`).
* C63 `get_density_matrix_from_counts` reads the levels back from the labels one character at a time: IndexError with more than ten levels
  (`C63_wide_violated`). On one line the kets are plain lists without `conj`: AttributeError (`C63_single_violated`).
* C46 classical registers are not exported: what comes back is one register `meas` with one bit per qudit (`C46_classical_violated`).
  A register without qudits is exported as a line the reader refuses (`C46_empty_violated`).
* C47 the reader passes parameters as a tuple, while the constructors accept lists only: R, Rz and Rh come back on levels 0 and 0 and
  have no matrix (`C47_rotation_violated`), virtual rotations come back as identities (`C47_virtrz_violated`), permutations without
  their data (`C47_perm_violated`), controlled exchanges with default parameters (`C47_cex_violated`). Noise gates vanish because
  their tags are missing from the reader's table (`C47_noise_violated`). The adjoint mark is not written (`C47_dagger_violated`).
  The writer prints the target in place of the control lines, so no circuit with a controlled gate can be read
  (`C47_control_violated`). A matrix is written as `custom_data`, which cannot be read (`C47_custom_violated`).
* C65 `execute` multiplies the array of a CEx as if the first line given came first in the circuit; for reversed lines the matrix of a
  controlled rotation does not even depend on the angle (`C65_reversed_lines_violated`).
* C66 `dag` sets a mark instead of toggling it, so gates of the decomposition that are adjoints already stay as they are: the translation
  of a gate on a qubit and a qutrit has wrong signs (`C66_marks_violated`). `transpile` reverses the list a second time: even for
  qubits the circuit gets the adjoints in the wrong order (`C66_circuit_violated`).
* C67 a CEx whose levels change their order on the device keeps its phase instead of negating it (`C67_phase_violated`); a marked CEx
  loses its mark (`C67_mark_violated`); for all other gates the placement is ignored, the translated permutations are thrown away
  (`C67_placement_violated`).
* C69 `LogLocAdaPass` returns the decomposition as it is, so the circuit gets the inverse of the gate (`C69_logical_inverse`,
  `C69_logical_violated` for diag(1, i)); unless the gate is diagonal it leaves `None` as the graph of the line, and the next gate on the
  line raises `AttributeError` (same theorem).
* C69 a gate can vanish without an error: if the entry above the one to be cleared is not zero but at most 1e-18, the search has no way
  on, returns an empty list, and both passes put nothing into the circuit (`C69_vanishes`, a unitary that exchanges two levels up to
  1e-19).
* C69 `PhyLocAdaPass` gives F0·U·F1† (`C69_coupled`, `C69_physical`; F0 and F1 are the placements with the stored phases before and
  after the gate). If U is diagonal and its phases are propagated, no pulse is emitted and F1 = F0·U (`C69_diagonal`), so the next gate V
  would have to be emitted as V after the stored phases; it is emitted before them. With propagation (as `compile_O2` uses it) diag(1, i)
  followed by a Hadamard gate is compiled to the two in the wrong order (`C69_propagation_violated`).
* C68 on devices that are not fully coupled, stored phases other than multiples of π are lost track of. `graph_rule_ongate` adapts a π pulse
  of the routing to the stored phases, which then stay with the physical levels; `swap_nodes` moves them with the logical levels as well.
  With π/3 stored for level 2 of `Innsbruck01`, what `PhyAdaptiveDecomposition` returns for the exchange of levels 0 and 2 is far from the
  inverse of it relative to the graph it returns (`C68_violated`).
* C70 the two Z passes can be named, but no gate is given to them: naming them changes nothing (`C70_z_passes_violated`). The merging pass
  can be named, but raises NotImplementedError for every circuit with a gate on one line (`C70_resynth_violated`).
* C72 `compile_O1` and `compile_O2` give gates on three or more lines to the pass for two lines, which looks at the first two lines and the
  first entries of the array only: a doubly controlled gate on three qubits is compiled to nothing (`C72_lost_violated`). `compile_O0`
  keeps such gates as they are although the levels of the lines are placed elsewhere (`C72_kept_violated`). Gates that were given controls with
  `control` raise TypeError (`C72_controlled_violated`). `compile_O2` inherits the wrong order of C69 (`C72_propagation_violated`).
  What C67 says about CEx and two-line gates on placed levels remains.
* C73 lines with fewer levels than the device: rotations through levels outside of the line are refused (AssertionError) and phases on levels
  outside of it are silently left out. On `FakeIonTraps2Six` and `FakeIonTraps3Six` levels 0 and 1 are not coupled, so for a qubit line every
  gate that is not nearly diagonal raises (`C73_qubit_violated`); for a qutrit line it depends on which of several shortest paths is
  found (`C73_choice_violated`, `C73_six_qutrit`). On `FakeIonTraps2Trits` level 1 is kept in physical level 2, and diag(1, i) on a qubit line is compiled to the identity
  (`C73_dropped_violated`).
* C75 what is shown for a compiled circuit is the result of the circuit only if the placement of every line is its own inverse and keeps level 0.
  The simulation of the compiled circuit starts in the physical levels 0, so a placement that moves level 0 shows a wrong state even for the
  circuit without gates (`C75_start_violated`), and `remap_result` applies the placement instead of its inverse (`C75_inverse_violated`, C50).
  Every placement of the shipped backends is its own inverse and keeps level 0.
* C76 the same number can be given different pointers at different times: a number looked up twice with another one looked up in
  between (`C76_stable_violated`); at the border of a bucket the farther of two numbers within the tolerance is returned
  (`C76_nearest_violated`). `clear` drops the 1/2 that the constructor puts in the table ("always contains 0.5").
* C77 a part that is exactly minus the tolerance becomes a pointer to a negative zero, which is not equal to zero as a pointer and is not
  found again (`C77_negative_zero_violated`: `<` where the table has `<=`). The quotient of a number and a divisor that are within the
  tolerance of each other is 1, so 0 divided by a number of the size of the tolerance is 1 (`C77_div_violated`).
* C78 `compile` with "LogLocQRPass" does not keep the circuit: the pass returns the gates that undo the gate, so what comes out is the circuit
  with every gate on one line replaced by its inverse (`C78_logical_inverse`), for the shift of a qutrit far from the circuit under any phase
  (`C78_logical_violated`). The other passes that can be named keep the circuit under the conditions of `Spec.TranslatedBy`, which are those of
  C70 to C72 for the single passes (`C78_compile_partial`); naming the pass that merges neighbouring gates raises, since its
  `transpile_gate` is not implemented (C70).
* C79 `UnitaryVerifier` accepts sequences that undo the target, not sequences that are the target: the shift of a qutrit given for itself is
  rejected (`C79_same_violated`). It reads the matrices of the gates without their lines, so gates on another line of the same dimension are
  accepted (`C79_lines_violated`). `verify` accepts up to a distance of about 1e-4 times the number of levels in operator norm and may reject
  from half of 1e-4 on (`C79_verify`, `C79_verify_maps`).
* C80 The errors that `misim` inserts are not those that the noisy circuit factory inserts for the same noise model: one draw decides for all lines of
  a mode together; the depolarisation is X with the full probability instead of one of d² - 1 products with the probability p/d² each
  (`C80_depolarizing_violated`); dephasing of mathematical noise is applied, by Z, where the factory ignores it (`C80_dephasing_violated`); `local`
  leaves out the control lines, since the test for control levels is the wrong way round (`C80_controls_violated`); `target` on a gate on one line
  fails when an error is drawn (`C80_target_violated`); noise on chosen levels is refused with an AttributeError (`C80_subspace_violated`); after a
  rotation the mode `all` uses the levels of the rotation on lines that do not have them (`C80_other_line_violated`).
* C81 Two ranges of numbers near the tolerance are printed as numbers far away: with |re| ≤ tol < |im| and |re - im| ≤ tol the text of the real part is
  empty and `(1+i)` is all that is printed (`C81_tiny_violated`); a part between tol and π·tol is not zero, but is printed as `0π`, since the search
  for a multiple of π finds 0/1 within the tolerance (`C81_zero_pi_violated`; the text still denotes a number within π·tol).
* C82 The check of the array has no effect: None, lists, arrays of any shape and arrays that are not unitary are accepted (`C82_accepts`,
  `C82_none_violated`, `C82_wrong_size`, `C82_not_unitary_violated`). The order of the lines is ignored (`C82_order_violated`). The array is not copied, and
  `to_matrix()` hands it out, so that a later change of it changes the gate (`C82_shared_violated`). `RandU` draws a new array at every call, so that
  its `dag()` is not its inverse (`C82_random_violated`).
* C83 The shots of tnsim are not independent: the noisy circuit factory, with its random generator, is made once and copied into every chunk of the process
  pool, so that the noisy circuits repeat with the chunk size; with at most four shots per processor (the default of 50 shots on 13 or more processors) all
  shots run the same noisy circuit (`C83_repeats_violated`). The seed of a measurement is a function of process and millisecond, so that shots measured by
  one process within a millisecond have the same outcome (`C83_same_moment_violated`).
* C84 When the first line has a dimension other than 2, 3 and 5, two of the gates of `spread2/3/5` stay `mEdge::zero` and the result is the zero vector for
  every state, without an error (`C84_other_dimension_violated`).
* C85 The constructors of the fake backends and of `Innsbruck01` overwrite the option `noise_model`, so that a noise model given at construction (also `None`, for
  no errors) is silently ignored (`C85_own_noise_violated`). `Innsbruck01.run` returns an empty state and no counts for every circuit (`C85_innsbruck_violated`).
* C86 Physical noise within a pair of levels is the depolarizing channel of the pair only for states without other levels: a superposition of levels 0 and 2
  gets a coherence between levels 1 and 2 from noise within 0 and 1 (`C86_coherence_violated`), since the Pauli matrices of the pair keep the phase of the
  other levels. Probabilities out of range are not refused by `Noise` or `NoiseModel`, but by numpy in the middle of a run (`ProbabilitiesFit` in C83).
* C23 The mode `target` is documented to leave out the control lines but leaves out only the first one (`C23_target_violated`).
* C13 If the line looked up in the place of the target has fewer levels than the target, `to_matrix` raises KeyError (`C13_large_target_violated`); with the
  IndexError above these are all failures, and an array that is returned is right (`C13_exact`).
* C87 The noise of `misim` is no depolarizing noise: whatever probability one takes, the mean over its errors differs from the depolarizing channel
  (`C87_depolarizing_violated`), hence from the noise of `tnsim` for the same noise model (`C87_backends_violated`), and it is fully correlated: after a
  gate on two lines both lines have the error or none (`C87_independent_violated`).
* C88 `set_initial_state` followed by `simulate` raises for simple unit vectors: (3/5 |0> + 4/5 |1>) ⊗ (3/5 |00> + 4/5 |11>) on three qubits gives an
  IndexError (`C88_violated`), since the gates on the last line are controlled by the second line alone and `apply_identities_and_controls` counts lines
  from the lowest control (C13); 3/5 |0> a |0> + 4/5 |1> a |1> gives a ValueError (`C88_skip_violated`), since `control` does not store the flag for
  gates that skip a line (C04). In general, if the first line factors out then nothing but a product vector is ever returned (`C88_shared_first`); if no
  line but the last factors out of the state or its parts then all is well (`C88_unshared`), as it is on one and two lines (`C88_two_lines`).
* C88 `set_initial_state` on a circuit with instructions does not set the initial state: the preparation comes last, so the result misses the
  state that was asked for by as much as the old instructions move |0...0> (`C88_old_remains`, `C88_nonempty_violated`).
* C89 The names of the matrix files are the name of the gate and four random letters, and an existing file is overwritten: two custom gates of the same
  name with the same draw are both loaded with the second matrix (`C89_collision_violated`).
* C89 With an empty directory name (the current directory would be `.`) no matrix is saved, since the path is taken for absent; loading fails
  (`C89_empty_directory_violated`). A custom gate for several lines put on a single one is saved but raises TypeError when loaded
  (`C89_single_line_violated`).
* C89 A `)` in the directory name ends the parameter too early: the file is refused (`C89_parenthesis_violated`), or, with registers `q` and `qq`, loaded
  without the gate and without an error (`C89_parenthesis_lost_violated`).
* C90 A register is no sequence: `q[-1]` raises KeyError, `q[:2]` and `q[1:]` raise TypeError, and the step of `q[0:4:2]` is ignored
  (`C90_sequence_violated`). A label used for two classical registers gives two bits the same number (`C90_duplicate_violated`).
* C91 `verify_normalized_state` names a tolerance of 1e-6, but `np.isclose` adds its default relative tolerance 1e-5: vectors with a
  squared norm up to 1.000011 are accepted (`C91_accepted`, `C91_tolerance_violated`). For arrays that are not Hermitian
  `fidelity_on_density_operator` may return nan (`C91_hermitian_needed`).
- **C93**: with a line of one level `dd_approximation` and `normalize_all` move the norm of the only child into the node without taking it out of the child (`len(node.children) != 1`), so amplitudes are changed: `C93_one_level_violated`. The tolerance of `dd_approximation` bounds single shares, not the probability lost in total: `C93_tolerance_exceeded`.
- **C94**: `distance_nodes_pi_pulses_fixed_ancilla` gives -1 from a non-negative level to itself and is one less than the weighted number of steps in general: `C94_ancilla_violated`, `C94_ancilla`.
- **C96**: an entangling gate inside the replaced stretch is taken from this line only and is still returned by `extract_instructions`: `C96_entangling_violated`.
- **C97**: the identity branch of `kronecker2` sets the weight of the result to the weight of `y` and drops that of `x`: `(Z ⊗ 1) ⊗ 1` comes out as the identity (`C97_weight_violated`; `C97_kronecker_iff` says exactly when this happens).  The same branch gives every node the number of edges of the top node of `x`, which is wrong for registers of different sizes (`C97_sizes_violated`).
- **C98**: `PhyLocQRPass.transpile` and `LogEntQRCEXPass.transpile` reverse once more the list that `transpile_gate` has already reversed, and `dag` only sets a mark that is already set, so that the gates of each decomposition come in the wrong order (`C98_reversed`); the Hadamard gate of a qubit comes out with the wrong sign in one entry (`C98_violated`).  `LogLocQRPass.transpile` gives the inverse of every gate on one line (`C98_logical_inverse`).  `LogLocAdaPass.transpile` loses the graph of a line at the first gate that is not diagonal and raises an error at the next gate on this line (`C98_logical_adaptive_violated`).
- **C99**: every gate puts `--MG--` into all lines but its own, also into those it does not act on (`C99_idle_violated`), and the two levels of a rotation are printed without a separator (`C99_levels_violated`).
- **C100**: the levels of a basis state are printed without separators, so that with more than ten levels two basis states can have the same label (`C100_labels_violated`).
- **C102**: timers are never cancelled and `timer_var` is never set back. A run that is cut off returns the solution of an earlier run with another number of layers (`C102_layers_violated`); after a timer has fired, every later compilation in the process raises a `TypeError` unless the first visited point is good enough (`C102_later_violated`).
- **C103**: angles a period apart but of different signs are stored and priced differently although the rotations are equal (`C103_same_violated`: -3π costs three times π), and every angle in [0, 0.2π), zero included, is lengthened by 4π (`C103_cheaper_violated`).
- **C105**: `QrDecomp` (logical) adds the price of routing pulses, back and forth, to the total cost although it puts out none (`C105_violated`). The physical decomposition can report more than its gates cost, because a small angle that is negated after routing becomes shorter; it never reports less (`C105_covers`).
- **C107**: `JobStatus.from_string` reads "the string representation of the status", but `str(status)` is a sentence such as "Job has successfully run", which it rejects for every status (`C107_str_violated`).
- **C109**: `apply_gate_to_tlines` adds the operators on the single targets instead of multiplying them (`C109_sum`; the identity on n ≥ 2 qubits becomes n times the identity, `C109_several_violated`), and starts from a matrix of the size of qubits, so every register of another size fails (`C109_dims_violated`).
- **C110**: `a <= b` is never false. `MicroDDNode` has no `__eq__`, so `__le__` hands on the `NotImplemented` of `object.__eq__`, and of two different nodes `a <= b` raises TypeError unless `a < b` (`C110_atMost_violated`).
