import Verif.Model.Approx
import Verif.Model.Tnsim
/-
`QuantumCircuit.set_initial_state`, /repo/src/mqt/qudits/quantum_circuit/circuit.py 448-454, and the simulation of the result,
circuit.py 419-426.

The instructions of a circuit are pairs of a gate object and its raw array, as for the simulator (Model/Tnsim.lean). `compile_state` works on a deep
copy of the circuit, so its gates are appended to the instructions that are there already (state_preparation.py 182-193).
-/
namespace Qudits.StatePrep
open PhasePass (arrayOf)

/-- The object appended for an instruction, state_preparation.py 188-191: a gate on one line, on which `control` is called afterwards. The flag for
long-range gates is set by the constructor (gate.py 61), when there are no controls; `control` computes it again but does not store it (gate.py 136). -/
def gateObj (dims : List Nat) (g : PInstr) : Except PyErr Gate :=
  match g.controls with
  | none => .ok ⟨dims, "R", .single, g.target, none, g.dagger, false⟩
  | some c => Gate.control ⟨dims, "R", .single, g.target, none, g.dagger, false⟩ c.indices c.ctrlStates

/-- the gate objects with their arrays -/
noncomputable def objects (dims : List Nat) (l : List PInstr) : Except PyErr (List (Gate × Arr2 ℂ)) :=
  l.mapM fun g => do
    let o ← gateObj dims g
    let A ← match arrayOf g with
      | some a => a
      | none => .error .attributeError
    pure (o, A)

/-- `circuit.set_initial_state(state, approx)`, circuit.py 448-454: the instructions of the circuit afterwards. The code has `del = 1e-5`
(state_preparation.py 184) and `tol = 0.01` (176). -/
noncomputable def setInitialState (H : List (Int × ℂ) → Int) (del tol : ℝ) (dims : List Nat) (old : List (Gate × Arr2 ℂ)) (state : List ℂ)
    (approx : Bool) : Except PyErr (List (Gate × Arr2 ℂ)) := do
  let out ← if approx then compileApprox H del tol dims state else compileState H del dims state
  let new ← objects dims out
  pure (old ++ new)

end Qudits.StatePrep
