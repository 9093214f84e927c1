import Verif.Model.Compiler
import Verif.Model.Tnsim
import Verif.Model.Visual
/- Running a compiled circuit and showing the result. -/
namespace Qudits.Compiler
open EntQR

/-- the mark set by `dag()` after construction -/
def marked (b : Bool) (g : Gate) : Gate := if b then g.dag else g

/-- The gate object behind an instruction of a compiled circuit, with its `__array__`. The passes construct `R`, `VirtRz`, `Rz`, `Rh` and `CEx`
objects with the circuit that is compiled as their circuit and without controls: r.py 21-39, virt_rz.py 21-38, rz.py 21-37, rh.py 23-39 (type
SINGLE) and cx.py 22-40 (type TWO); the checks of the parameters are those the passes have already made. `obj` gives the objects of the circuit
that was compiled; gates that are kept are these objects. No pass makes an instruction of another class on one line. -/
noncomputable def objectOf (dims : List Nat) (obj : Nat → Gate × Arr2 ℂ) : CInstr → Except PyErr (Gate × Arr2 ℂ)
  | .kept g => .ok (obj g.oid)
  | .one x =>
    match PhasePass.arrayOf x with
    | none => .error .typeError
    | some A => do
      let g ← Gate.init dims "" .single x.target x.controls
      let A ← A
      pure (marked x.dagger g, A)
  | .pair (.one k q dim b) => do
    let g ← Gate.init dims "" .single (.one q) none
    let A ← k.array dim
    pure (marked b g, A)
  | .pair (.cex p q0 q1 d0 d1 b) => do
    let g ← Gate.init dims "CEx" .two (.many [q0, q1]) none
    let A ← cexArray q0 q1 d0 d1 p
    pure (marked b g, A)

/-- `compiled.simulate()`, circuit.py 419-426: the `tnsim` backend on the instructions of the circuit. The new circuit has the dimensions of the
old one (it is a copy with other instructions, dit_compiler.py 58-64). -/
noncomputable def simulate (dims : List Nat) (obj : Nat → Gate × Arr2 ℂ) (l : List CInstr) : Except PyErr (List ℂ) := do
  let ops ← l.mapM (objectOf dims obj)
  Tnsim.execute dims ops

/-- `original.simulate()` -/
noncomputable def simulateGates (dims : List Nat) (obj : Nat → Gate × Arr2 ℂ) (gs : List (Op (Arr2 ℂ))) : Except PyErr (List ℂ) :=
  Tnsim.execute dims (gs.map fun g => obj g.oid)

/-- `plot_state(state, compiled)`, plot_information.py 100-111, without the drawing. The levels in the mappings are not negative. -/
noncomputable def shown (dims : List Nat) (c : Compiled) (state : List ℂ) : Except PyErr (List ℝ) :=
  Visual.plotState state dims (some (c.mappings.map fun m => m.map Int.toNat))

end Qudits.Compiler
