import Verif.Model.PyErr
import Mathlib.Data.List.Sort
import Mathlib.Data.Int.Order.Basic

/-
Model of the base class `Gate` (src/mqt/qudits/quantum_circuit/gate.py).
A gate object is a record; a method that mutates the object returns the new record, a raising method
returns an error and leaves the record as it was.
-/
namespace Qudits

/-- `GateTypes` (components/extensions/gate_types.py:6-11). -/
inductive GateType | single | two | multi
  deriving DecidableEq, Repr

/-- `target_qudits: list[int] | int` (gate.py:38). -/
inductive Target | one (q : Int) | many (qs : List Int)
  deriving DecidableEq, Repr

/-- the target lines as a list, as in gate.py:169-172 -/
def Target.lines : Target → List Int
  | .one q => [q]
  | .many qs => qs

/-- `ControlData` (components/extensions/controls.py:6-9). -/
structure ControlData where
  indices : List Int
  ctrlStates : List Int
  deriving DecidableEq, Repr

/-- The fields of `Gate` (gate.py:49-67) that its methods read and write. `dims` is
`parent_circuit.dimensions`; `num_qudits` is its length (C01). -/
structure Gate where
  dims : List Nat
  name : String
  gateType : GateType
  target : Target
  controls : Option ControlData
  dagger : Bool
  longRange : Bool
  deriving DecidableEq, Repr

namespace Gate

/-- `get_control_lines` (gate.py:203-207). -/
def controlLines (g : Gate) : List Int :=
  match g.controls with
  | some c => c.indices
  | none => []

/-- `reference_lines` (gate.py:69-80): control lines followed by the target lines. -/
def referenceLines (g : Gate) : Except PyErr (List Int) :=
  let lines := g.controlLines ++ g.target.lines
  if lines.length = 0 then .error .circuitError else .ok lines

/-- `any((b - a) > 1 for a, b in zip(s[:-1], s[1:]))` for a sorted list `s` (gate.py:191). -/
def anyGap : List Int → Bool
  | a :: b :: rest => decide (b - a > 1) || anyGap (b :: rest)
  | _ => false

/-- `check_long_range` (gate.py:188-192). -/
def checkLongRange (g : Gate) : Except PyErr Bool := do
  let lines ← g.referenceLines
  if lines.length > 1 then return anyGap (lines.insertionSort (· ≤ ·)) else return false

/-- `any(ctrl >= dimensions[i] for i, ctrl in enumerate(ctrl_states))` (gate.py:126), starting at
position `i`; the list access raises IndexError past the end, evaluation stops at the first hit. -/
def anyLevelTooBig (dims : List Nat) : Nat → List Int → Except PyErr Bool
  | _, [] => .ok false
  | i, c :: cs =>
    match dims[i]? with
    | none => .error .indexError
    | some d => if (d : Int) ≤ c then .ok true else anyLevelTooBig dims (i + 1) cs

/-- `control` (gate.py:107-136). The value of `check_long_range()` at line 135 is discarded. -/
def control (g : Gate) (indices ctrlStates : List Int) : Except PyErr Gate :=
  if indices.length = 0 ∨ ctrlStates.length = 0 then .ok g                        -- 108-109
  else if g.gateType ≠ .single then .error .assertionError                         -- 111
  else if indices.length > g.dims.length ∨ indices.any (fun i => decide ((g.dims.length : Int) ≤ i)) then
    .error .indexError                                                             -- 112-116
  else if indices.any (fun i => decide (i ∈ g.target.lines)) then .error .indexError -- 117-123
  else do
    if (← anyLevelTooBig g.dims 0 ctrlStates) then .error .indexError              -- 126-128
    else
      let g := { g with controls := some ⟨indices, ctrlStates⟩ }                   -- 129
      let lines ← g.referenceLines
      let g := if lines.length = 2 then { g with gateType := .two }                -- 131-134
        else if lines.length > 2 then { g with gateType := .multi } else g
      let _ ← g.checkLongRange                                                     -- 135
      .ok g                                                                        -- 136

/-- `__init__` (gate.py:33-67). A `ControlData` object is truthy, so `control` is called whenever a
control set is given; `is_long_range` is computed afterwards. -/
def init (dims : List Nat) (name : String) (ty : GateType) (target : Target)
    (controlSet : Option ControlData) : Except PyErr Gate := do
  let g : Gate := ⟨dims, name, ty, target, none, false, false⟩
  let g ← match controlSet with
    | some c => g.control c.indices c.ctrlStates
    | none => pure g
  let lr ← g.checkLongRange
  pure { g with longRange := lr }

/-- `dag` (gate.py:86-89). -/
def dag (g : Gate) : Gate := { g with name := g.name ++ "_dag", dagger := true }

end Gate
end Qudits
