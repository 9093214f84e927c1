import Verif.Model.PyErr
import Verif.Model.PyDict
import Verif.Model.Gate
import Mathlib.Algebra.Field.Defs

/-
Model of src/mqt/qudits/simulation/noise_tools/noise.py and noisy_circuit_factory.py.

Probabilities are elements of an arbitrary type `P`. `SubspaceNoise` objects are mutable and shared between
dictionary slots, therefore `NoiseModel` works on a heap of objects indexed by object identity.
A method that mutates an object returns the outcome together with the state it leaves behind, also when it raises.
-/
namespace Qudits

/-- `Noise` (noise.py:4-9) -/
structure Noise (P : Type) where
  depolarizing : P
  dephasing : P
  deriving DecidableEq, Repr

/-- `SubspaceNoise.subspace_w_probs` (noise.py:24) -/
abbrev SubspaceNoise (P : Type) := PyDict (Int × Int) (Noise P)

namespace SubspaceNoise
variable {P : Type}

/-- `add_noise` (noise.py:55-76); the new dictionary or the exception. All checks precede the assignment, so a
raising call leaves the dictionary as it was. -/
def addNoise (s : SubspaceNoise P) (levA levB : Int) (noise : Noise P) : Except PyErr (SubspaceNoise P) :=
  let (levA, levB) := if levB < levA then (levB, levA) else (levA, levB)                      -- 56-57
  if levA = levB then .error .valueError                                                      -- 58-60
  else if (levA, levB) ∈ PyDict.keys s then .error .valueError                                -- 61-63
  else if (levA < 0 ∨ levB < 0) ∧ s.length > 0 then .error .valueError                        -- 64-69
  else if (PyDict.keys s).any (fun levs => decide (levs.1 < 0 ∧ levs.2 < 0)) then .error .valueError -- 70-75
  else .ok (PyDict.set s (levA, levB) noise)                                                  -- 76

/-- `add_noises` (noise.py:78-80): additions before a raising one stay. -/
def addNoises (s : SubspaceNoise P) : List ((Int × Int) × Noise P) → Except PyErr Unit × SubspaceNoise P
  | [] => (.ok (), s)
  | (t, n) :: rest =>
    match addNoise s t.1 t.2 n with
    | .error e => (.error e, s)
    | .ok s' => addNoises s' rest

/-- the `levels` argument of the constructor (noise.py:22) -/
inductive LevelsArg | tuple (a b : Int) | list (l : List (Int × Int))

/-- `__init__` (noise.py:18-47) -/
def init (pDepol pDephase : P) : LevelsArg → Except PyErr (SubspaceNoise P)
  | .tuple a b => addNoise [] a b ⟨pDepol, pDephase⟩
  | .list [] => addNoise [] (-2) (-1) ⟨pDepol, pDephase⟩
  | .list l => l.foldlM (fun s lev => addNoise s lev.1 lev.2 ⟨pDepol, pDephase⟩) []

end SubspaceNoise

/-- an object passed to the noise model -/
inductive NoiseObj (P : Type) | math (n : Noise P) | sub (s : SubspaceNoise P)
  deriving DecidableEq, Repr

/-- `NoiseModel.quantum_errors` (noise.py:86-87): gate -> mode -> object reference, plus the objects. -/
structure NoiseModel (P : Type) where
  heap : Nat → NoiseObj P
  errors : PyDict String (PyDict String Nat)

namespace NoiseModel
variable {P : Type}

/-- One iteration of the loop in `_add_quantum_error` (noise.py:97-110) for object reference `o`. -/
def addOne (m : NoiseModel P) (o : Nat) (gate mode : String) : Except PyErr Unit × NoiseModel P :=
  let errs := if gate ∈ PyDict.keys m.errors then m.errors else PyDict.set m.errors gate []  -- 98-99
  let inner := (PyDict.get? errs gate).getD []
  match PyDict.get? inner mode with
  | none => (.ok (), { m with errors := PyDict.set errs gate (PyDict.set inner mode o) })    -- 100-101
  | some ex =>
    match m.heap o with
    | .math _ => (.error .valueError, { m with errors := errs })                             -- 102-104
    | .sub add =>
      match m.heap ex with
      | .math _ => (.error .assertionError, { m with errors := errs })                       -- 106-107
      | .sub s =>                                                                            -- 108-110
        let (r, s') := SubspaceNoise.addNoises s add
        (r, { heap := fun i => if i = ex then .sub s' else m.heap i, errors := errs })

/-- `_add_quantum_error` (noise.py:89-110); the five public `add_*` methods (112-130) fix `mode`. -/
def addError (m : NoiseModel P) (o : Nat) (mode : String) : List String → Except PyErr Unit × NoiseModel P
  | [] => (.ok (), m)
  | g :: gs =>
    match addOne m o g mode with
    | (.error e, m') => (.error e, m')
    | (.ok _, m') => addError m' o mode gs

/-- the object stored for a gate and mode -/
def stored (m : NoiseModel P) (gate mode : String) : Option (NoiseObj P) :=
  match PyDict.get? m.errors gate with
  | none => none
  | some inner => (PyDict.get? inner mode).map m.heap

end NoiseModel

/-! ### noisy circuit factory -/

/-- The parts of an instruction the factory reads: the gate record, its QASM tag and, for R, Rz, Rh and CEx, its
two levels. -/
structure Instr where
  gate : Gate
  tag : String
  levels : Option (Int × Int)
  deriving DecidableEq, Repr

/-- An instruction of the noisy circuit: a copy of an original one or an inserted error gate on a line. -/
inductive NoisyInstr
  | orig (i : Instr)
  | x (dit : Int)
  | z (dit : Int)
  | noisex (dit : Int) (a b : Int)
  | noisey (dit : Int) (a b : Int)
  | noisez (dit : Int) (lev : Int)
  deriving DecidableEq, Repr

namespace NoisyFactory
variable {P : Type}

/-- The generator: the outcome index of every `rng.choice` call in order (reduced to the number of outcomes).
Every sequence of outcomes is covered, including those of probability zero. -/
abbrev Draws := Nat → Nat

/-- State of the generation: instructions so far, `number_gates`, number of draws consumed. -/
structure St where
  instrs : List NoisyInstr
  numGates : Nat
  drawn : Nat

/-- a builder call on the noisy circuit (circuit.py:59-66 `add_gate_decorator`) -/
def emit (s : St) (g : NoisyInstr) : St := { s with instrs := s.instrs ++ [g], numGates := s.numGates + 1 }

/-- `rng.choice` among `k` outcomes -/
def draw (rng : Draws) (k : Nat) (s : St) : Nat × St := (rng s.drawn % k, { s with drawn := s.drawn + 1 })

/-- `for _ in range(k): circuit.g(dit)` -/
def emitN (g : NoisyInstr) : Nat → St → St
  | 0, s => s
  | k + 1, s => emitN g k (emit s g)

/-- `dimensions[dit]` with Python index semantics -/
def dimAt (dims : List Nat) (dit : Int) : Except PyErr Nat :=
  if 0 ≤ dit then (match dims[dit.toNat]? with | some d => .ok d | none => .error .indexError)
  else if 0 ≤ (dims.length : Int) + dit then
    (match dims[((dims.length : Int) + dit).toNat]? with | some d => .ok d | none => .error .indexError)
  else .error .indexError

/-- `_needs_correction` (noisy_circuit_factory.py:86-96) -/
def needsCorrection (s : SubspaceNoise P) : Bool :=
  match s with
  | [(l, _)] => decide (l.1 < 0 ∨ l.2 < 0)
  | _ => false

/-- `_dynamic_subspace_noise_info_rectification` (51-84) -/
def rectify (s : SubspaceNoise P) (i : Instr) : Except PyErr (SubspaceNoise P) :=
  match s, i.levels with
  | (_, n) :: _, some (a, b) =>
    if needsCorrection s then SubspaceNoise.init n.depolarizing n.dephasing (.tuple a b) else .ok s
  | _, _ => .ok s

/-- `_get_qudits_for_mode` and helpers (119-170). `reference_lines` raises for a gate without lines. -/
def affected (i : Instr) (mode : String) : Except PyErr (List Int) :=
  if mode = "local" then i.gate.referenceLines
  else if mode = "all" then .ok ((List.range i.gate.dims.length).map fun k : Nat => (k : Int))
  else if mode = "nonlocal" then
    (if i.gate.gateType = .single then .error .valueError else i.gate.referenceLines)
  else if mode = "control" then
    (if i.gate.gateType ≠ .two then .error .valueError
     else match i.gate.target with
       | .one _ => .error .typeError
       | .many qs => .ok (qs.take 1))
  else if mode = "target" then
    (if i.gate.gateType ≠ .single then do
       let l ← i.gate.referenceLines
       pure (l.drop 1)
     else match i.gate.target with
       | .one q => .ok [q]
       | .many _ => .error .typeError)
  else .error .valueError

/-- the branch for mathematical noise of `_apply_depolarizing_noise` (175-186) on one line; outcome index `k`
stands for the pair `(k // dim, k % dim)` of `product(range(dim), repeat=2)` -/
def depolMath (rng : Draws) (dims : List Nat) (dit : Int) (s : St) : Except PyErr St := do
  let dim ← dimAt dims dit
  if dim = 0 then .error .zeroDivisionError
  else
    let (k, s) := draw rng (dim * dim) s
    let s := emitN (.x dit) (k / dim) s
    pure (emitN (.z dit) (k % dim) s)

/-- one pair of levels of the physical branch (193-218) -/
def depolSubOne (rng : Draws) (dim : Nat) (dit : Int) (s : St) (l : Int × Int) : Except PyErr St :=
  if ¬ (0 ≤ l.1 ∧ l.1 < dim) ∨ ¬ (0 ≤ l.2 ∧ l.2 < dim) then .error .indexError
  else
    let (k, s) := draw rng 4 s
    if k = 2 then .ok (emit s (.noisex dit l.1 l.2))
    else if k = 1 then .ok (emit s (.noisez dit l.2))
    else if k = 3 then .ok (emit s (.noisey dit l.1 l.2))
    else .ok s

/-- `_apply_depolarizing_noise` (172-218) -/
def applyDepol (rng : Draws) (dims : List Nat) (qudits : List Int) (info : NoiseObj P) (s : St) : Except PyErr St :=
  match info with
  | .math _ => qudits.foldlM (fun s dit => depolMath rng dims dit s) s
  | .sub m => qudits.foldlM (fun s dit => do
      let dim ← dimAt dims dit
      (PyDict.keys m).foldlM (fun s l => depolSubOne rng dim dit s l) s) s

/-- one level of the inner loop (260-262) -/
def dephaseLevel (rng : Draws) (dit : Int) (s : St) (lev : Int) : St :=
  let (k, s) := draw rng 2 s
  if k = 0 then emit s (.noisez dit lev) else s

/-- one pair of levels (239-262); the set difference is enumerated in ascending order, as CPython does for small
non-negative integers -/
def dephaseOne (rng : Draws) (dim : Nat) (dit : Int) (s : St) (l : Int × Int) : Except PyErr St :=
  if ¬ (0 ≤ l.1 ∧ l.1 < dim) ∨ ¬ (0 ≤ l.2 ∧ l.2 < dim) then .error .indexError
  else
    let levels := ((List.range dim).map fun k : Nat => (k : Int)).filter fun k => k ≠ l.1 ∧ k ≠ l.2
    .ok (levels.foldl (dephaseLevel rng dit) s)

/-- `_apply_dephasing_noise` (220-262); nothing happens for mathematical noise -/
def applyDephase (rng : Draws) (dims : List Nat) (qudits : List Int) (info : NoiseObj P) (s : St) :
    Except PyErr St :=
  match info with
  | .math _ => .ok s
  | .sub m => qudits.foldlM (fun s dit => do
      let dim ← dimAt dims dit
      (PyDict.keys m).foldlM (fun s l => dephaseOne rng dim dit s l) s) s

/-- lines 107-108: physical noise is rectified, mathematical noise is not -/
def resolveInfo (o : NoiseObj P) (i : Instr) : Except PyErr (NoiseObj P) :=
  match o with
  | .math n => .ok (.math n)
  | .sub m => do
    let m' ← rectify m i
    pure (.sub m')

/-- body of the loop in `_apply_noise` (102-111) -/
def applyMode (rng : Draws) (dims : List Nat) (i : Instr) (s : St) (e : String × NoiseObj P) : Except PyErr St := do
  let qudits ← affected i e.1
  let info ← resolveInfo e.2 i
  let s ← applyDepol rng dims qudits info s
  applyDephase rng dims qudits info s

/-- `_apply_noise` (98-111); `errs` is `quantum_errors` with the objects looked up -/
def applyNoise (rng : Draws) (dims : List Nat) (errs : PyDict String (PyDict String (NoiseObj P))) (i : Instr)
    (s : St) : Except PyErr St :=
  match PyDict.get? errs i.tag with
  | none => .ok s
  | some modes => modes.foldlM (applyMode rng dims i) s

/-- `generate_circuit` (38-49) -/
def generate (rng : Draws) (dims : List Nat) (errs : PyDict String (PyDict String (NoiseObj P)))
    (instrs : List Instr) : Except PyErr St :=
  instrs.foldlM (fun s i => applyNoise rng dims errs i (emit s (.orig i))) ⟨[], 0, 0⟩

/-- the probability list of the mathematical branch (178-180) -/
def depolProbs [Field P] (dim : Nat) (p : P) : List P :=
  let probEach := p / dim / dim
  [1 - probEach * ((dim : P) * dim - 1)] ++ List.replicate (dim * dim - 1) probEach

/-- `list(product(range(dim), repeat=2))` (179) -/
def noiseCombinations (dim : Nat) : List (Nat × Nat) :=
  (List.range dim).flatMap fun a => (List.range dim).map fun b => (a, b)

/-- the probability list of the physical branch (203-207) -/
def subspaceProbs [Field P] (p : P) : List P :=
  let probEach := p / 4
  [1 - 3 * probEach] ++ List.replicate 3 probEach

end NoisyFactory
end Qudits
