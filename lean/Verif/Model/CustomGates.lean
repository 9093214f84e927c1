import Verif.Model.Tnsim
import Mathlib.Data.Complex.Basic
/-
Gates given by an array of the user (gates/custom_one.py, custom_two.py, custom_multi.py) and gates with a random array (gates/randu.py), as the circuit
methods `cu_one`, `cu_two`, `cu_multi` and `randu` (circuit.py 181-207, 263-267) make them, and circuits of them in the simulator `tnsim`.
Arrays are objects in memory; a gate keeps the object it is given. Arrays have two axes here, lines are not negative.
-/
namespace Qudits.Custom

/-- What is passed as `parameters`: None, an array object with a dtype of numbers or another one, or something that is no array. -/
inductive Given
  | none
  | array (addr : Nat) (numeric : Bool)
  | other
  deriving DecidableEq

/-- `validate_parameter`, custom_one.py 46-52 (custom_two.py and custom_multi.py: the same lines). -/
def validate : Given → Bool
  | .none => true
  | .array _ numeric => numeric
  | .other => false

/-- Where `__array__` gets its value from: the stored object, if any (custom_one.py 39-44), or a draw of `unitary_group.rvs` at every call
(randu.py 39-41). -/
inductive Source
  | stored (addr : Option Nat)
  | drawn
  deriving DecidableEq

/-- a gate object -/
structure Obj where
  gate : Gate
  source : Source
  deriving DecidableEq

/-- `__array_storage`, custom_one.py 39-41: None if the parameter is not valid. -/
def storage (p : Given) : Option Nat :=
  if validate p then
    match p with
    | .array a _ => some a
    | _ => Option.none
  else Option.none

/-- `__init__`, custom_one.py 20-41. -/
def init (dims : List Nat) (name : String) (ty : GateType) (t : Target) (p : Given) (controls : Option ControlData) : Except PyErr Obj := do
  let g ← Gate.init dims name ty t controls
  pure ⟨g, .stored (storage p)⟩

/-- `self.dimensions[i]` -/
def dimensionAt (dims : List Nat) (i : Nat) : Except PyErr Nat :=
  match dims[i]? with
  | some d => .ok d
  | Option.none => .error .indexError

/-- `cu_one`, circuit.py 182-185. -/
def cuOne (dims : List Nat) (q : Nat) (p : Given) (controls : Option ControlData) : Except PyErr Obj := do
  let d ← dimensionAt dims q
  init dims ("CUo" ++ toString d) .single (.one q) p controls

/-- `cu_two`, circuit.py 188-196. -/
def cuTwo (dims : List Nat) (qs : List Nat) (p : Given) (controls : Option ControlData) : Except PyErr Obj := do
  let ds ← qs.mapM (dimensionAt dims)
  init dims ("CUt" ++ toString ds) .two (.many (qs.map Int.ofNat)) p controls

/-- `cu_multi`, circuit.py 199-207. -/
def cuMulti (dims : List Nat) (qs : List Nat) (p : Given) (controls : Option ControlData) : Except PyErr Obj := do
  let ds ← qs.mapM (dimensionAt dims)
  init dims ("CUm" ++ toString ds) .multi (.many (qs.map Int.ofNat)) p controls

/-- `randu`, circuit.py 264-267, randu.py 21-37. -/
def randU (dims : List Nat) (qs : List Nat) : Except PyErr Obj := do
  let ds ← qs.mapM (dimensionAt dims)
  let g ← Gate.init dims ("RandU" ++ toString ds) .multi (.many (qs.map Int.ofNat)) Option.none
  pure ⟨g, .drawn⟩

/-- `dag`, gate.py 86-89. -/
def Obj.dag (o : Obj) : Obj := { o with gate := o.gate.dag }

/-- What `to_matrix` returns: an object that exists already, or a new array, or None. -/
inductive Result
  | object (addr : Nat)
  | fresh (m : Arr2 ℂ)
  | none

/-- `to_matrix(identities)`, gate.py 91-105 and matrix_factory.py 21-50, `draw` being what `unitary_group.rvs` returns at this call. Without mark, controls
and identities the array is returned as it is. A gate without array fails on `None.conj()` if it is marked, returns None like any other array, and fails
when entries are read; which exception is raised then is not modelled exactly. -/
def Obj.toMatrix (mem : Nat → Arr2 ℂ) (draw : Arr2 ℂ) (o : Obj) (ids : Nat) : Except PyErr Result :=
  match o.source with
  | .drawn => do
    let m ← o.gate.toMatrix draw ids
    pure (.fresh m)
  | .stored (some a) =>
    if o.gate.dagger = false ∧ o.gate.controls = Option.none ∧ ids = 0 then do
      let _ ← o.gate.referenceLines
      pure (.object a)
    else do
      let m ← o.gate.toMatrix (mem a) ids
      pure (.fresh m)
  | .stored Option.none =>
    if o.gate.dagger then .error .attributeError
    else if o.gate.controls = Option.none ∧ ids = 0 then do
      let _ ← o.gate.referenceLines
      pure .none
    else .error .typeError

/-- The gates of a circuit with the arrays that the simulator gets from them; `draws` are the arrays drawn, in the order of the calls, `k` the number of
the next one. A gate without array makes it fail (`None.T`, tnsim.py 95). -/
def arrays (mem draws : Nat → Arr2 ℂ) : Nat → List Obj → Except PyErr (List (Gate × Arr2 ℂ))
  | _, [] => .ok []
  | k, o :: os =>
    match o.source with
    | .stored (some a) => do
      let rest ← arrays mem draws k os
      pure ((o.gate, mem a) :: rest)
    | .stored Option.none => .error .attributeError
    | .drawn => do
      let rest ← arrays mem draws (k + 1) os
      pure ((o.gate, draws k) :: rest)

/-- `TNSim.execute` on a circuit of such gates. -/
def simulate (mem draws : Nat → Arr2 ℂ) (dims : List Nat) (os : List Obj) : Except PyErr (List ℂ) := do
  let ops ← arrays mem draws 0 os
  Tnsim.execute dims ops

end Qudits.Custom
