import Verif.Model.Misim
import Verif.Model.Noise
/-
Noise in the decision-diagram simulator: /repo/src/python/bindings.cpp (parse_noise_model, generateCircuit, stateVectorSimulation) and
/repo/src/mqt/qudits/simulation/backends/misim.py (execute with a noise model).

Simplifications.  Probabilities are elements of an arbitrary type `P`; a draw of `std::discrete_distribution<int>({1 - p, p})` is an arbitrary
function of its position in the sequence and of `p`.  The assertions (340-348) are those of a release build, where they are compiled out.  The keys
of the noise model are strings, as the methods of `NoiseModel` (noise.py 112-130) make them.  Reading `dimensions` outside of its bounds, which is
undefined in C++, is an error.
-/
namespace Qudits.Misim
open DD

variable {P : Type}

/-- `std::map::operator[]` with an assignment: the entries are kept in the order of their keys. -/
def insertKey {V : Type} (k : String) (v : V) : List (String × V) → List (String × V)
  | [] => [(k, v)]
  | e :: l => if k < e.1 then (k, v) :: e :: l else if k = e.1 then (k, v) :: l else e :: insertKey k v l

/-- One round of the inner loop of `parse_noise_model`, bindings.cpp 258-283: an object of class `SubspaceNoise` is not a dictionary (271), and has
no attribute `probability_depolarizing` (275-278). -/
def parseMode (acc : List (String × Noise P)) (e : String × NoiseObj P) : Except MErr (List (String × Noise P)) :=
  match e.2 with
  | .math n => .ok (insertKey e.1 n acc)
  | .sub _ => .error (.py .attributeError)

/-- The inner loop of `parse_noise_model`, bindings.cpp 258-283. -/
def parseModes (modes : PyDict String (NoiseObj P)) : Except MErr (List (String × Noise P)) := modes.foldlM parseMode []

/-- `parse_noise_model`, bindings.cpp 246-286. -/
def parseNoise (errs : PyDict String (PyDict String (NoiseObj P))) : Except MErr (List (String × List (String × Noise P))) :=
  errs.foldlM (fun acc e => do
    let m ← parseModes e.2
    pure (insertKey e.1 m acc)) []

/-- The draws: `rng k p` is whether the `k`-th draw of a distribution with the weights 1 - p and p gave 1. -/
abbrev Chance (P : Type) := Nat → P → Bool

/-- The circuit generated so far and the number of draws. -/
structure NSt where
  out : List DD.Instr
  drawn : Nat

/-- `referenceLines`, bindings.cpp 306-314: the controls are added if there are controls and no control levels. -/
def referenceLines (i : DD.Instr) : List Int :=
  if i.ctrls.1 ≠ [] ∧ i.ctrls.2 = [] then i.targets ++ i.ctrls.1 else i.targets

/-- The choice of the lines, bindings.cpp 330-350. -/
def affected (num : Nat) (i : DD.Instr) (mode : String) : Except Err (List Int) :=
  if mode = "local" then .ok (referenceLines i)
  else if mode = "all" then .ok ((List.range num).map fun k : Nat => (k : Int))
  else if mode = "nonlocal" then .ok (referenceLines i)
  else if mode = "control" then
    match i.targets[0]? with
    | some q => .ok [q]
    | none => .error .outOfRange
  else if mode = "target" then
    match i.targets[1]? with
    | some q => .ok [q]
    | none => .error .outOfRange
  else .ok []

/-- `dimensions[static_cast<unsigned long>(dit)]`. -/
def lineDim (dims : List Nat) (q : Int) : Except Err Nat :=
  if 0 ≤ q then
    match dims[q.toNat]? with
    | some d => .ok d
    | none => .error .outOfRange
  else .error .outOfRange

/-- A number of type `int` as `size_t`. -/
def toSize (k : Int) : Nat := (k % 2 ^ 64).toNat

/-- The levels of an error after a rotation, bindings.cpp 361-381 and 418-438. -/
def errorLevels (i : DD.Instr) (dim : Nat) : Except Err (Nat × Nat) := do
  let pl ← paramList i.params
  let v0 ← getSize pl 0
  if i.tag = "virtrz" then
    if v0 ≠ toSize (dim - 1) then pure (v0, v0 + 1)
    else pure (toSize (dim - 2), toSize (dim - 1))
  else do
    let v1 ← getSize pl 1
    pure (v0, v1)

/-- The test for rotations, bindings.cpp 353 and 411. -/
def isRotation (tag : String) : Bool := tag = "rxy" || tag = "rz" || tag = "virtrz"

/-- The instruction added to a line for `x_choice == 1`, bindings.cpp 353-406. -/
noncomputable def xError (dims : List Nat) (i : DD.Instr) (q : Int) : Except Err DD.Instr := do
  let dim ← lineDim dims q
  if isRotation i.tag then do
    let l ← errorLevels i dim
    pure ⟨"rxy", false, [dim], [q], .list [.int l.1, .int l.2, .flt Real.pi, .flt (Real.pi / 2)], ([], [])⟩
  else pure ⟨"x", false, [dim], [q], .none, ([], [])⟩

/-- The instruction added to a line for `z_choice == 1`, bindings.cpp 411-461. -/
noncomputable def zError (dims : List Nat) (i : DD.Instr) (q : Int) : Except Err DD.Instr := do
  let dim ← lineDim dims q
  if isRotation i.tag then do
    let l ← errorLevels i dim
    pure ⟨"rz", false, [dim], [q], .list [.int l.1, .int l.2, .flt Real.pi], ([], [])⟩
  else pure ⟨"z", false, [dim], [q], .none, ([], [])⟩

/-- One round of the loop over the modes, bindings.cpp 317-464. -/
noncomputable def applyMode (rng : Chance P) (dims : List Nat) (i : DD.Instr) (s : NSt) (e : String × Noise P) : Except Err NSt :=
  let x := rng s.drawn e.2.depolarizing
  let z := rng (s.drawn + 1) e.2.dephasing
  if x || z then do
    let qudits ← affected dims.length i e.1
    let xs ← if x then qudits.mapM (xError dims i) else pure []
    let zs ← if z then qudits.mapM (zError dims i) else pure []
    pure ⟨s.out ++ xs ++ zs, s.drawn + 2⟩
  else pure { s with drawn := s.drawn + 2 }

/-- One round of the loop over the instructions, bindings.cpp 301-466. -/
noncomputable def stepGate (rng : Chance P) (dims : List Nat) (noise : List (String × List (String × Noise P))) (s : NSt) (i : DD.Instr) :
    Except Err NSt :=
  match noise.lookup i.tag with
  | none => pure { s with out := s.out ++ [i] }
  | some modes => modes.foldlM (applyMode rng dims i) { s with out := s.out ++ [i] }

/-- `generateCircuit`, bindings.cpp 288-470. -/
noncomputable def generate (rng : Chance P) (dims : List Nat) (noise : List (String × List (String × Noise P))) (circuit : List DD.Instr) :
    Except Err NSt :=
  circuit.foldlM (stepGate rng dims noise) ⟨[], 0⟩

/-- `execute(circuit, noise_model)`, misim.py 55-72 and bindings.cpp 794-810; `errs` is `quantum_errors` with the objects looked up. -/
noncomputable def executeNoisy (H : Hashes) (rng : Chance P) (dims : List Nat) (errs : PyDict String (PyDict String (NoiseObj P)))
    (gates : List PyGate) : Except MErr (List ℂ) := do
  let noise ← parseNoise errs
  match generate rng dims noise (gates.map readInstr) with
  | .error e => .error (.cpp e)
  | .ok s =>
    match ddsimulator H dims s.out with
    | .error e => .error (.cpp e)
    | .ok v =>
      match reorder dims v with
      | .error e => .error (.py e)
      | .ok w => .ok w

end Qudits.Misim
