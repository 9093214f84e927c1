import Verif.Model.DD
import Verif.Model.GateArrays
import Verif.Model.Tnsim
/-
The decision-diagram simulator: /repo/src/python/bindings.cpp (readCircuit, getGate, ddsimulator), the gate tables of
/repo/include/dd/GateMatrixDefinitions.hpp, cex and csum of /repo/include/dd/MDDPackage.hpp, and
/repo/src/mqt/qudits/simulation/backends/misim.py (execute).

Simplifications.  Floating-point constants and functions are exact (SQRTd_d is sqrt(d)/d).  The six functions that the
C++ code writes for the dimensions 2 to 7 are one function of the dimension where their texts differ in the dimension only;
the constant tables of X and H are transcribed one by one.  The noise model is empty here, so that `generateCircuit`
(bindings.cpp 288-470) returns the circuit it is given; `MisimNoise.lean` has the other noise models.
-/
namespace Qudits
open Classical

/-- A Python gate object: the fields of the base class, `qasm_tag`, `_dimensions` (a number is a list of one) and `_params`. -/
structure PyGate where
  gate : Gate
  tag : String
  dimensions : List Nat
  params : Params

/-- `__array__` of the gate class that has this tag (x.py, z.py, h.py, s.py, r.py, rz.py, rh.py, virt_rz.py, cx.py, csum.py).
The constructors are run on the stored parameters. -/
noncomputable def PyGate.array (g : PyGate) : Except PyErr (Arr2 ℂ) :=
  match g.tag, g.dimensions with
  | "x", [d] => xArray d
  | "z", [d] => zArray d
  | "h", [d] => hArray d
  | "s", [d] => do sInit d; sArray d
  | "rxy", [d] => do rArray d (← rInit d g.params)
  | "rz", [d] => do rzArray d (← rzInit d g.params)
  | "rh", [d] => do rhArray d (← levelsInit d g.params)
  | "virtrz", [d] => virtRzArray d (virtRzInit d g.params)
  | "cx", [d0, d1] =>
    match g.gate.target with
    | .many [q0, q1] => do cexArray q0 q1 d0 d1 (← cexInit g.params)
    | _ => .error .valueError
  | "csum", [d0, d1] =>
    match g.gate.target with
    | .many [q0, q1] => csumArray q0 q1 d0 d1
    | _ => .error .valueError
  | _, _ => .error .valueError

namespace DD

/-! ### gate tables, GateMatrixDefinitions.hpp -/

/-- Xmat (51), X3 (203-205), X4 (424-428), X5 (627-632), X6 (855-863), X7 (1088-1098). -/
def xTable : Nat → Option (List Nat)
  | 2 => some [0, 1, 1, 0]
  | 3 => some [0, 0, 1, 1, 0, 0, 0, 1, 0]
  | 4 => some [0, 0, 0, 1, 1, 0, 0, 0, 0, 1, 0, 0, 0, 0, 1, 0]
  | 5 => some [0, 0, 0, 0, 1, 1, 0, 0, 0, 0, 0, 1, 0, 0, 0, 0, 0, 1, 0, 0, 0, 0, 0, 1, 0]
  | 6 => some [0, 0, 0, 0, 0, 1, 1, 0, 0, 0, 0, 0, 0, 1, 0, 0, 0, 0, 0, 0, 1, 0, 0, 0, 0, 0, 0, 1, 0, 0, 0, 0, 0, 0, 1, 0]
  | 7 => some [0, 0, 0, 0, 0, 0, 1, 1, 0, 0, 0, 0, 0, 0, 0, 1, 0, 0, 0, 0, 0, 0, 0, 1, 0, 0, 0, 0, 0, 0, 0, 1, 0, 0, 0, 0,
      0, 0, 0, 1, 0, 0, 0, 0, 0, 0, 0, 1, 0]
  | _ => none

/-- H (123-126), H3 (181-197), H4 (346-375), H5 (524-571), H6 (738-807), H7 (943-1036): the multiple of 2*PI/d at each entry (for d = 2 the entries are
written as plus or minus SQRT2_2). -/
def hTable : Nat → Option (List Nat)
  | 2 => some [0, 0, 0, 1]
  | 3 => some [0, 0, 0, 0, 1, 2, 0, 2, 1]
  | 4 => some [0, 0, 0, 0, 0, 1, 2, 3, 0, 2, 4, 6, 0, 3, 6, 9]
  | 5 => some [0, 0, 0, 0, 0, 0, 1, 2, 3, 4, 0, 2, 4, 6, 8, 0, 3, 6, 9, 12, 0, 4, 8, 12, 16]
  | 6 => some [0, 0, 0, 0, 0, 0, 0, 1, 2, 3, 4, 5, 0, 2, 4, 6, 8, 10, 0, 3, 6, 9, 12, 15, 0, 4, 8, 12, 16, 20,
      0, 5, 10, 15, 20, 25]
  | 7 => some [0, 0, 0, 0, 0, 0, 0, 0, 1, 2, 3, 4, 5, 6, 0, 2, 4, 6, 8, 10, 12, 0, 3, 6, 9, 12, 15, 18, 0, 4, 8, 12, 16, 20, 24,
      0, 5, 10, 15, 20, 25, 30, 0, 6, 12, 18, 24, 30, 36]
  | _ => none

/-- `ComplexValue{re, im}`. -/
noncomputable def cval (re im : ℝ) : ℂ := re + im * Complex.I

/-- The constant identity tables Imat, I3, ..., I7. -/
def identTable (d : Nat) : List ℂ := (List.range (d * d)).map fun k => if k / d = k % d then 1 else 0

/-- `array.at(k) = v`. -/
def setAt (k : Nat) (v : ℂ) (m : List ℂ) : Except Err (List ℂ) :=
  if k < m.length then .ok (m.set k v) else .error .outOfRange

/-- The matrix X of dimension `d`. -/
def xMat (d : Nat) : Option (List ℂ) := (xTable d).map fun l => l.map fun (k : Nat) => (k : ℂ)

/-- The matrix H of dimension `d`. -/
noncomputable def hMat (d : Nat) : Option (List ℂ) :=
  (hTable d).map fun l => l.map fun (k : Nat) =>
    ((Real.sqrt d / d : ℝ) : ℂ) * cval (Real.cos (k * (2 * Real.pi / d))) (Real.sin (k * (2 * Real.pi / d)))

/-- Zmat (53), Z3 (289-299), Z4 (458-471), Z5 (665), Z6 (882), Z7 (1117); `fmod` of non-negative numbers is `pyMod`. -/
noncomputable def zMat (d : Nat) : List ℂ :=
  if d = 2 then [1, 0, 0, -1]
  else (List.range d).foldl
    (fun m (l : Nat) => m.set (l + l * d) (cval (Real.cos (pyMod (2 * l / d) 2 * Real.pi)) (Real.sin (pyMod (2 * l / d) 2 * Real.pi))))
    (identTable d)

/-- Smat (55), S3 (300-310), S4 (472-485), S5 (680), S6 (892), S7 (1127). -/
noncomputable def sMat (d : Nat) : List ℂ :=
  if d = 2 then [1, 0, 0, Complex.I]
  else (List.range d).foldl
    (fun m (l : Nat) => m.set (l + l * d)
      (cval (Real.cos (pyMod (2 / d * l * (l + 1) / 2) 2 * Real.pi)) (Real.sin (pyMod (2 / d * l * (l + 1) / 2) 2 * Real.pi))))
    (identTable d)

/-- Four entries of an identity are replaced; the check of the levels is that of RXY3 (236-238) and its copies. -/
noncomputable def twoLevels (d a b : Nat) (aa ab ba bb : ℂ) : Except Err (List ℂ) :=
  if a > b ∨ a > d - 1 ∨ b > d - 1 then .error .invalidArgument
  else do
    let m ← setAt (d * a + a) aa (identTable d)
    let m ← setAt (d * a + b) ab m
    let m ← setAt (d * b + a) ba m
    setAt (d * b + b) bb m

/-- RXY (127-136: the levels are not used), RXY3 (235-251), RXY4 (377), RXY5 (573), RXY6 (809), RXY7 (1038). -/
noncomputable def rxyMat (d : Nat) (theta phi : ℝ) (a b : Nat) : Except Err (List ℂ) :=
  let aa := cval (Real.cos (theta / 2)) 0
  let ab := cval (-Real.sin (theta / 2) * Real.sin phi) (-Real.sin (theta / 2) * Real.cos phi)
  let ba := cval (Real.sin (theta / 2) * Real.sin phi) (-Real.sin (theta / 2) * Real.cos phi)
  if d = 2 then .ok [aa, ab, ba, aa] else twoLevels d a b aa ab ba aa

/-- RH (138-142), RH3 (253-265), RH4 (400), RH5 (598), RH6 (825), RH7 (1054). -/
noncomputable def rhMat (d a b : Nat) : Except Err (List ℂ) :=
  let s := cval 0 (Real.sqrt 2 / 2)
  let t := cval 0 (-(Real.sqrt 2 / 2))
  if d = 2 then .ok [s, s, s, t] else twoLevels d a b s s s t

/-- RZ (144-149), RZ3 (267-279), RZ4 (430), RZ5 (634), RZ6 (865), RZ7 (1100). -/
noncomputable def rzMat (d : Nat) (phi : ℝ) (a b : Nat) : Except Err (List ℂ) :=
  let aa := cval (Real.cos (phi / 2)) (-Real.sin (phi / 2))
  let bb := cval (Real.cos (phi / 2)) (Real.sin (phi / 2))
  if d = 2 then .ok [aa, 0, 0, bb]
  else if a > b ∨ a > d - 1 ∨ b > d - 1 then .error .invalidArgument
  else do
    let m ← setAt (d * a + a) aa (identTable d)
    setAt (d * b + b) bb m

/-- VirtRZ (151-155), VirtRZ3 (281-287), VirtRZ4 (449), VirtRZ5 (654), VirtRZ6 (876), VirtRZ7 (1111). -/
noncomputable def virtRzMat (d : Nat) (phi : ℝ) (a : Nat) : Except Err (List ℂ) :=
  setAt (a + a * d) (cval (Real.cos phi) (-Real.sin phi)) (identTable d)

/-- embX2 (157-164: the levels are not used), embX3 (312-326), embX4 (486), embX5 (695), embX6 (902), embX7 (1137). -/
noncomputable def embXMat (d : Nat) (phi : ℝ) (a b : Nat) : Except Err (List ℂ) :=
  let ab := cval (-Real.sin phi) (-Real.cos phi)
  let ba := cval (Real.sin phi) (-Real.cos phi)
  if d = 2 then .ok [0, ab, ba, 0] else twoLevels d a b 0 ab ba 0

/-! ### instructions -/

/-- `Instruction`, bindings.cpp 17-20. -/
structure Instr where
  tag : String
  dag : Bool
  dims : List Nat
  targets : List Int
  params : Params
  ctrls : List Int × List Int

/-- One round of `readCircuit`, bindings.cpp 187-241. -/
def readInstr (g : PyGate) : Instr :=
  ⟨g.tag, g.gate.dagger, g.dimensions, g.gate.target.lines, g.params,
    match g.gate.controls with
    | none => ([], [])
    | some c => (c.indices, c.ctrlStates)⟩

/-- `params.cast<py::list>()`; missing or empty parameters (216-220) are a null object. -/
def paramList : Params → Except Err (List PVal)
  | .none => .error .nullPointer
  | .list [] => .error .nullPointer
  | .list l => .ok l
  | .other => .error .runtimeError

/-- `pl[k].cast<size_t>()`. -/
def getSize (l : List PVal) (k : Nat) : Except Err Nat :=
  match l[k]? with
  | none => .error .outOfRange
  | some (.int n) => if 0 ≤ n then .ok n.toNat else .error .runtimeError
  | some _ => .error .runtimeError

/-- `pl[k].cast<double>()`. -/
noncomputable def getFlt (l : List PVal) (k : Nat) : Except Err ℝ :=
  match l[k]? with
  | none => .error .outOfRange
  | some (.flt x) => .ok x
  | some (.int n) => .ok n
  | some (.str _) => .error .runtimeError

/-- `checkDim(dims, 2)`, ..., `checkDim(dims, 7)`, bindings.cpp 126-147: the dimension for which a table exists. -/
def tableDim (dims : List Nat) : Option Nat :=
  match dims with
  | [d] => if 2 ≤ d ∧ d ≤ 7 then some d else none
  | _ => none

/-- `getGate`, bindings.cpp 519-742, gates with one target: the matrix, or `none` if the gate stays unset. -/
noncomputable def singleMat (tag : String) (dims : List Nat) (params : Params) : Except Err (Option (List ℂ)) :=
  if tag = "rxy" then do
    let pl ← paramList params
    let a ← getSize pl 0
    let b ← getSize pl 1
    let theta ← getFlt pl 2
    let phi ← getFlt pl 3
    match tableDim dims with
    | some d => do return some (← rxyMat d theta phi a b)
    | none => return none
  else if tag = "rz" then do
    let pl ← paramList params
    let a ← getSize pl 0
    let b ← getSize pl 1
    let phi ← getFlt pl 2
    match tableDim dims with
    | some d => do return some (← rzMat d phi a b)
    | none => return none
  else if tag = "rh" then do
    let pl ← paramList params
    let a ← getSize pl 0
    let b ← getSize pl 1
    match tableDim dims with
    | some d => do return some (← rhMat d a b)
    | none => return none
  else if tag = "virtrz" then do
    let pl ← paramList params
    let a ← getSize pl 0
    let phi ← getFlt pl 1
    match tableDim dims with
    | some d => do return some (← virtRzMat d phi a)
    | none => return none
  else if tag = "x" then .ok ((tableDim dims).bind xMat)
  else if tag = "s" then .ok ((tableDim dims).map sMat)
  else if tag = "z" then .ok ((tableDim dims).map zMat)
  else if tag = "h" then .ok ((tableDim dims).bind hMat)
  else .ok none

variable (H : Hashes)

/-- `cex`, MDDPackage.hpp 1251-1311. -/
noncomputable def cex (ds : List Nat) (level : Nat) (phi : ℝ) (a b c target : Nat) (dag : Bool) : M (Edge ds) :=
  match ds.reverse[target]? with
  | none => lift (.error .outOfRange)
  | some r =>
    if 2 ≤ r ∧ r ≤ 7 then do
      let m ← lift (embXMat r phi a b)
      let gate ← lift (makeGateDD ds m [(c, level)] target)
      if dag then conjugateTranspose H ds gate else pure gate
    else lift (.error .invalidArgument)

/-- The inner loop of `csum`: `res = multiply(res, gate)`, `k` times. -/
noncomputable def mulTimes (ds : List Nat) (gate : Edge ds) : Nat → Edge ds → M (Edge ds)
  | 0, res => pure res
  | k + 1, res => do
    let res ← multiply H .mat ds res gate
    mulTimes ds gate k res

/-- `csum`, MDDPackage.hpp 1313-1413. -/
noncomputable def csum (ds : List Nat) (c target : Nat) (dag : Bool) : M (Edge ds) := do
  let res ← lift (makeIdent ds)
  match ds.reverse[target]? with
  | none => lift (.error .outOfRange)
  | some r =>
    match xMat r with
    | none => lift (.error .invalidArgument)
    | some m =>
      match ds.reverse[c]? with
      | none => lift (.error .outOfRange)
      | some rc => do
        let res ← (List.range rc).foldlM (fun res i => do
          let gate ← lift (makeGateDD ds m [(c, i)] target)
          mulTimes H ds gate i res) res
        if dag then conjugateTranspose H ds res else pure res

/-- `getGate`, bindings.cpp 501-763.  The controls are read but never put into `controlSet` (512-517).  A gate that stays unset is
a null edge, on which `conjugateTranspose` or the product that follows fails. -/
noncomputable def getGate (ds : List Nat) (i : Instr) : M (Edge ds) :=
  match i.targets[0]? with
  | none => lift (.error .outOfRange)
  | some tq =>
    if i.tag = "cx" then do
      let pl ← lift (paramList i.params)
      let a ← lift (getSize pl 0)
      let b ← lift (getSize pl 1)
      let level ← lift (getSize pl 2)
      let phi ← lift (getFlt pl 3)
      match i.targets[1]? with
      | none => lift (.error .outOfRange)
      | some t => cex H ds level phi a b tq.toNat t.toNat i.dag
    else if i.tag = "csum" then
      match i.targets[1]? with
      | none => lift (.error .outOfRange)
      | some t => csum H ds tq.toNat t.toNat i.dag
    else do
      match ← lift (singleMat i.tag i.dims i.params) with
      | none => lift (.error .nullPointer)
      | some m => do
        let gate ← lift (makeGateDD ds m [] tq.toNat)
        if i.dag then conjugateTranspose H ds gate else pure gate

/-- `ddsimulator`, bindings.cpp 765-792. -/
noncomputable def ddsimulator (dims : List Nat) (circuit : List Instr) : Except Err (List ℂ) :=
  let ds := dims.reverse
  match (circuit.foldlM (fun psi i => do
      let gate ← getGate H ds i
      multiply H .vec ds gate psi) (makeZeroState ds) : M (Edge ds)) Tables.empty with
  | .error e => .error e
  | .ok (psi, _) => .ok (getVector ds psi)

end DD

namespace Misim

/-- Errors of the simulator: thrown by the C++ part or raised by Python. -/
inductive MErr where
  | cpp (e : DD.Err)
  | py (e : PyErr)

/-- `array.reshape(shape)` of a flat array, in row-major order. -/
def reshape (v : List ℂ) (shape : List Nat) : Except PyErr (Tensor ℂ) :=
  if shape.prod = v.length then .ok ⟨shape, fun ix => v.getD (Spec.index shape ix) 0⟩ else .error .valueError

/-- `np.transpose(t, axes)`: axis `k` of the result is axis `axes[k]` of `t`. -/
def transposeAxes (t : Tensor ℂ) (axes : List Nat) : Tensor ℂ :=
  ⟨axes.map fun a : Nat => t.shape.getD a 0, fun ix => t.val ((List.range t.shape.length).map fun m => ix.getD (axes.idxOf m) 0)⟩

/-- All entries in row-major order, as `reshape((1, size))` returns them. -/
def entries (t : Tensor ℂ) : List ℂ := (itProduct (siteLogics t.shape)).map t.val

/-- The reordering at the end of `execute`, misim.py 62-72. -/
def reorder (dims : List Nat) (v : List ℂ) : Except PyErr (List ℂ) := do
  let state ← reshape v dims.reverse
  let state := transposeAxes state (List.range dims.length).reverse
  if (entries state).length = dims.prod then pure (entries state) else .error .valueError

/-- `execute`, misim.py 55-72, without a noise model. -/
noncomputable def execute (H : DD.Hashes) (dims : List Nat) (gates : List PyGate) : Except MErr (List ℂ) :=
  match DD.ddsimulator H dims (gates.map DD.readInstr) with
  | .error e => .error (.cpp e)
  | .ok v =>
    match reorder dims v with
    | .error e => .error (.py e)
    | .ok w => .ok w

end Misim
end Qudits
