# Which files of /repo are modelled

Generated from the citations in `lean/Verif`. The second column lists the modules under `lean/Verif/Model` that cite the file; the third the functions none of whose lines
(or less than half of them) are cited. Most of these are getters, constructors that only store their arguments, texts for people, and exceptions; they are not modelled, or only
as the fields of a structure. Files with the same name in different directories are told apart only by the functions cited.

| file | modules | functions not cited |
|---|---|---|
| compiler/compilation_minitools/local_compilation_minitools.py | Angles, LocalQR |  |
| compiler/compilation_minitools/naive_unitary_verifier.py | Verifier |  |
| compiler/compilation_minitools/numerical_ansatz_utils.py | EntQR, TargetLines, Variational |  |
| compiler/compiler_pass.py | — | `__init__` 13, `transpile_gate` 17, `transpile_gate` 21, `transpile` 25 |
| compiler/dit_compiler.py | CompileByName, Compiler, PassTranspile, RunCompiled | `__init__` 34 |
| compiler/naive_local_resynth/local_resynth.py | Lanes | `__init__` 19, `transpile_gate` 25 |
| compiler/onedit/local_operation_swap/swap_routine.py | LocalQR |  |
| compiler/onedit/local_phases_transpilation/propagate_virtrz.py | PhasePasses | `__init__` 18, `transpile_gate` 23 |
| compiler/onedit/local_phases_transpilation/remove_phase_rotations.py | PhasePasses | `__init__` 16, `transpile_gate` 20 |
| compiler/onedit/mapping_aware_transpilation/phy_local_adaptive_decomp.py | Adaptive, Compiler, PassTranspile | `__init__` 37, `__init__` 73 |
| compiler/onedit/mapping_aware_transpilation/phy_local_qr_decomp.py | LocalQR, PassTranspile | `__init__` 24, `__init__` 51 |
| compiler/onedit/mapping_un_aware_transpilation/log_local_adaptive_decomp.py | Adaptive, PassTranspile | `__init__` 29, `__init__` 67 |
| compiler/onedit/mapping_un_aware_transpilation/log_local_qr_decomp.py | LocalQR, PassTranspile | `__init__` 26, `__init__` 51 |
| compiler/state_compilation/retrieve_state.py | DensityFidelity, RetrieveState |  |
| compiler/state_compilation/state_preparation.py | Approx, InitialState, StatePrep | `controls` 55, `controls` 59, `qudit` 73, `levels` 77, `levels` 81, `get_angles` 84, `theta` 88, `phi` 92, `__str__` 95, `__init__` 103 |
| compiler/twodit/blocks/crot.py | EntQR | `__init__` 18 |
| compiler/twodit/blocks/czrot.py | EntQR | `__init__` 16 |
| compiler/twodit/blocks/pswap.py | EntQR | `__init__` 18 |
| compiler/twodit/entanglement_qr/log_ent_qr_cex_decomp.py | Compiler, EntQR, PassTranspile | `__init__` 29, `__init__` 55 |
| compiler/twodit/entanglement_qr/phy_ent_qr_cex_decomp.py | CompileByName, Compiler, EntQR, PassTranspile | `__init__` 19 |
| compiler/twodit/variational_twodit_compilation/ansatz/ansatz_gen.py | Variational |  |
| compiler/twodit/variational_twodit_compilation/ansatz/ansatz_gen_utils.py | Variational | `set_class_variables` 15 |
| compiler/twodit/variational_twodit_compilation/ansatz/ansatz_solve_n_search.py | VarTimer, Variational |  |
| compiler/twodit/variational_twodit_compilation/ansatz/instantiate.py | Variational |  |
| compiler/twodit/variational_twodit_compilation/layered_compilation.py | Variational |  |
| compiler/twodit/variational_twodit_compilation/opt/distance_measures.py | DensityFidelity, Variational |  |
| compiler/twodit/variational_twodit_compilation/opt/optimizer.py | VarTimer, Variational |  |
| compiler/twodit/variational_twodit_compilation/parametrize.py | Variational |  |
| compiler/twodit/variational_twodit_compilation/sparsifier.py | Variational | `sparsify` 122 |
| core/dfs_tree.py | DfsTree | `__str__` 75, `__bool__` 78, `print_tree` 200, `__str__` 215 |
| core/lanes.py | Compiler, LaneReplace, Lanes | `extract_lane` 75 |
| core/level_graph.py | LevelGraph | `logic_physical_map` 64, `deep_copy_func` 115, `__str__` 240, `set_circuit` 243, `set_qudits_index` 246 |
| core/micro_dd.py | Approx, LocalApprox, MicroDD, NodeOrder, UniqueWeights | `dd_reduction` 291, `print_decision_weights` 308, `print_decision_obj_id` 314, `print_decision_hash` 320 |
| exceptions/backenderror.py | — | `__init__` 5 |
| exceptions/circuiterror.py | — | `__init__` 5, `__init__` 12, `__init__` 19 |
| exceptions/compilerexception.py | — | `__init__` 5, `__str__` 8, `__init__` 13, `__str__` 16, `__init__` 21, `__str__` 24, `__init__` 29 |
| exceptions/joberror.py | — | `__init__` 5, `__init__` 10 |
| quantum_circuit/circuit.py | Circuit, CompileByName, CustomGates, InitialState, Noise, Qasm, QasmFile, RunCompiled, Shots | `get_qasm_set` 122, `dimensions` 126, `num_qudits` 130, `num_qudits` 134, `copy` 151, `gate_set` 416 |
| quantum_circuit/components/classic_register.py | Circuit, Qasm, Registers | `__init__` 30, `__qasm__` 35 |
| quantum_circuit/components/extensions/controls.py | Gate |  |
| quantum_circuit/components/extensions/gate_types.py | Gate |  |
| quantum_circuit/components/extensions/matrix_factory.py | CustomGates, EntQR, MatrixFactory | `__init__` 17 |
| quantum_circuit/components/quantum_register.py | Circuit, Qasm, Registers |  |
| quantum_circuit/gate.py | CustomGates, EntQR, Gate, GateArrays, InitialState, LocalQR, Qasm, QasmFile | `__init__` 26, `__array__` 83, `validate_parameter` 138, `dimensions` 142, `target_qudits` 146, `target_qudits` 155, `set_gate_type_single` 194, `set_gate_type_two` 197, `set_gate_type_multi` 200, `control_info` 210 |
| quantum_circuit/gates/csum.py | GateArrays, Misim, Qasm |  |
| quantum_circuit/gates/custom_multi.py | CustomGates | `__init__` 20, `__array__` 43, `validate_parameter` 47 |
| quantum_circuit/gates/custom_one.py | CustomGates, Qasm, Variational |  |
| quantum_circuit/gates/custom_two.py | CustomGates | `__init__` 20, `__array__` 43, `validate_parameter` 47 |
| quantum_circuit/gates/cx.py | GateArrays, Misim, Qasm, RunCompiled | `dimensions` 110 |
| quantum_circuit/gates/gellmann.py | GateArrays, Qasm | `__init__` 21 |
| quantum_circuit/gates/h.py | GateArrays, Misim | `__init__` 19, `dimensions` 51 |
| quantum_circuit/gates/ls.py | GateArrays, Qasm | `dimensions` 77 |
| quantum_circuit/gates/ms.py | GateArrays, Qasm | `dimensions` 87 |
| quantum_circuit/gates/noise_x.py | GateArrays | `__init__` 19, `levels_setter` 56, `dimensions` 86 |
| quantum_circuit/gates/noise_y.py | GateArrays | `__init__` 19, `levels_setter` 56, `dimensions` 86 |
| quantum_circuit/gates/perm.py | GateArrays, Qasm | `__init__` 19, `dimensions` 66 |
| quantum_circuit/gates/r.py | Drawing, GateArrays, LocalQR, Misim, RunCompiled | `dimensions` 107 |
| quantum_circuit/gates/randu.py | CustomGates | `dimensions` 45 |
| quantum_circuit/gates/rh.py | GateArrays, Misim, RunCompiled | `levels_setter` 63, `dimensions` 93 |
| quantum_circuit/gates/rz.py | GateArrays, Misim, RunCompiled | `levels_setter` 65, `cost` 96, `dimensions` 100 |
| quantum_circuit/gates/s.py | GateArrays, Misim | `dimensions` 75 |
| quantum_circuit/gates/virt_rz.py | Drawing, GateArrays, Misim, Qasm, RunCompiled | `cost` 70, `dimensions` 74 |
| quantum_circuit/gates/x.py | GateArrays, Misim | `__init__` 18, `dimensions` 48 |
| quantum_circuit/gates/z.py | GateArrays, Misim, Qasm | `__init__` 18, `dimensions` 50 |
| quantum_circuit/qasm.py | Qasm, QasmFile, Regex | `__init__` 19, `parse_ditqasm2_file` 239 |
| simulation/backends/backendv2.py | Backend, CompileByName, FakeBackends | `options` 63, `provider` 67, `run` 71, `execute` 74 |
| simulation/backends/fake_backends/fake_traps2six.py | Devices, FakeBackends | `version` 20 |
| simulation/backends/fake_backends/fake_traps2three.py | Devices, FakeBackends | `version` 20 |
| simulation/backends/fake_backends/fake_traps3six.py | Devices, FakeBackends | `version` 20 |
| simulation/backends/innsbruck_01.py | CompileByName, Devices, FakeBackends | `version` 21 |
| simulation/backends/misim.py | Backend, Misim, MisimNoise, Shots | `__init__` 24, `__noise_model` 33 |
| simulation/backends/stochastic_sim.py | Backend, Shots |  |
| simulation/backends/tnsim.py | Backend, CustomGates, Shots, Tnsim | `__init__` 28, `__noise_model` 37 |
| simulation/jobs/job.py | Backend | `__init__` 30, `job_id` 46, `backend` 50, `done` 57, `running` 61, `cancelled` 65, `submit` 100, `result` 104, `set_result` 108, `cancel` 111 |
| simulation/jobs/job_result.py | Shots | `__init__` 13, `get_counts` 17, `get_state_vector` 20 |
| simulation/jobs/jobstatus.py | Backend, JobText | `__init__` 70 |
| simulation/noise_tools/noise.py | FakeBackends, MisimNoise, Noise | `__str__` 11, `__str__` 49, `basis_gates` 133, `__str__` 137 |
| simulation/noise_tools/noisy_circuit_factory.py | Noise, NoisyDraws | `__init__` 27, `_initialize_rng` 33, `_get_affected_qudits` 113 |
| simulation/qudit_provider.py | Backend | `version` 15, `__eq__` 53, `__hash__` 58 |
| simulation/save_info.py | Shots |  |
| visualisation/drawing_routines.py | Drawing |  |
| visualisation/mini_quantum_information.py | Visual |  |
| visualisation/plot_information.py | RunCompiled, Visual | `__init__` 31, `generate_histogram` 48, `save_to_png` 65 |
| include/dd/Complex.hpp | ComplexNumbers |  |
| include/dd/ComplexCache.hpp | ComplexNumbers |  |
| include/dd/ComplexNumbers.hpp | ComplexNumbers |  |
| include/dd/ComplexTable.hpp | ComplexNumbers, ComplexTable, DDPrint | `print`, `printStatistics` |
| include/dd/ComplexValue.hpp | DDPrint, NumberText | `readBinary`, `writeBinary`, `fromString` |
| include/dd/ComputeTable.hpp | DD, DDKron | `printStatistics` |
| include/dd/Control.hpp | DD |  |
| include/dd/Definitions.hpp | GateLib | constants and types only |
| include/dd/Edge.hpp | UniqueTable | `std::hash` |
| include/dd/GateMatrixDefinitions.hpp | GateLib, Misim, Spread |  |
| include/dd/MDDPackage.hpp | DD, DDKron, DDPrint, DDReadAll, Misim, Spread, UniqueTable | `incRef`, `decRef`, `clearUniqueTables` (empty), `getUniqueTable` and the other accessors of tables |
| include/dd/UnaryComputeTable.hpp | DD | `printStatistics` |
| include/dd/UniqueTable.hpp | UniqueTable | `incRef`, `decRef`, `garbageCollect`, `clear`, `print`, `printStatistics` (section 4 of DESIGN.md) |
| src/python/bindings.cpp | Misim, MisimNoise, Shots |  |
