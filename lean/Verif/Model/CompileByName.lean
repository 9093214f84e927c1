import Verif.Model.Backend
import Verif.Model.Devices
import Verif.Model.Compiler
/-
Compiling a circuit for a backend given by name, /repo/src/mqt/qudits/quantum_circuit/circuit.py 428-446, and reading the carrier of a
transition, /repo/src/mqt/qudits/simulation/backends/innsbruck_01.py 73-76.
-/
namespace Qudits.Compiler
open LGraph

/-- `energy_level_graphs` of a new backend of the class; the property of `Backend` (backendv2.py 47-49), which `TNSim` and `MISim`
inherit, raises NotImplementedError: `none`. -/
def graphsOf : BackendClass → Option Graphs
  | .tnSim | .miSim => none
  | .innsbruck01 => some innsbruck01
  | .fakeIonTraps2Trits => some tritTraps
  | .fakeIonTraps2Six => some (sixTraps 2)
  | .fakeIonTraps3Six => some (sixTraps 3)

/-- The passes of `compile_O0` and `compile_O1` on a backend without graphs: reading the graphs raises; the pass for two lines reads the
first target before that (phy_ent_qr_cex_decomp.py 26-29). -/
def withoutGraphs (c : PassClass) (_ : Graphs) (g : Op (Arr2 ℂ)) : Except PyErr (List CInstr × Graphs) :=
  match c, g.target with
  | .phyEntQR, .one _ => .error .typeError
  | .phyEntQR, .many [] => .error .indexError
  | _, _ => .error .notImplemented

/-- `QuantumCircuit.compileO0`, circuit.py 428-436. The backend is made anew by every call. Without graphs the loop over the mappings
(dit_compiler.py 60) raises if no gate has done so. -/
noncomputable def compileO0Named (engine : RegexEngine) (name : Option (List Char)) (fuel : Nat) (sp : PathFinder) (rnd : ℝ → ℝ)
    (other : Nat → Other) (c : Circuit) : Except PyErr Compiled := do
  let k ← getBackend engine name
  match graphsOf k with
  | some b => compileO0 fuel sp rnd other b c
  | none => do
    let s ← slots ["PhyLocQRPass", "PhyEntQRCEXPass"]
    let _ ← collect (compileGate withoutGraphs other s) [] c.gates
    .error .notImplemented

/-- `QuantumCircuit.compileO1`, circuit.py 438-446. -/
noncomputable def compileO1Named (engine : RegexEngine) (name : Option (List Char)) (sp : PathFinder) (rnd : ℝ → ℝ) (other : Nat → Other)
    (next : Nat) (c : Circuit) : Except PyErr Compiled := do
  let k ← getBackend engine name
  match graphsOf k with
  | some b => compileO1 sp rnd other next b c
  | none => do
    let l ← Resynth.transpile c.dims next c.gates
    let _ ← collect (fun b g => withoutGraphs (if g.single then .phyLocQR else .phyEntQR) b g) [] l
    .error .notImplemented

/-- `list[i]` with an index that may be negative -/
def pyItem {γ : Type} (l : List γ) (i : Int) : Except PyErr γ :=
  let k := if i < 0 then i + l.length else i
  if k < 0 then .error .indexError
  else match l[k.toNat]? with
    | some x => .ok x
    | none => .error .indexError

/-- `Innsbruck01.edge_to_carrier`, innsbruck_01.py 73-76. Without an edge `get_edge_data` returns None, which cannot be indexed. -/
def edgeToCarrier (leva levb graphIndex : Int) : Except PyErr Int := do
  let gr ← pyItem innsbruck01 graphIndex
  let gr ← theGraph gr
  match gr.edgeData leva levb with
  | none => .error .typeError
  | some data =>
    match PyDict.get? data "carrier" with
    | some c => .ok c
    | none => .error .keyError

end Qudits.Compiler
