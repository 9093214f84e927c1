import Verif.Model.PyDict
import Verif.Model.Gate
import Verif.Model.NArr
/-
Model of the per-line view of a circuit (src/mqt/qudits/core/lanes.py) and of the pass that merges runs of single-qudit
gates (src/mqt/qudits/compiler/naive_local_resynth/local_resynth.py).
-/
namespace Qudits

/-- A gate object as these passes see it: object identity, `gate_type == SINGLE`, `target_qudits`, and a body (whatever
else the gate carries; for the merging pass the array returned by `to_matrix()`). -/
structure Op (β : Type) where
  oid : Nat
  single : Bool
  target : Target
  body : β

/-- the gate object of `Model/Gate` seen as an `Op` -/
def Op.ofGate {β : Type} (oid : Nat) (g : Gate) (body : β) : Op β := ⟨oid, g.gateType = .single, g.target, body⟩

variable {β : Type}

/-- an entry of a lane: `(entanglement counter, gate)` -/
abbrev LaneItem (β : Type) := Nat × Op β

namespace Lanes

/-- `Lanes.pre_process_ops` (lanes.py 26-37), from a given value of the counter. -/
def preProcess : Nat → List (Op β) → List (LaneItem β)
  | _, [] => []
  | c, g :: gs => if g.single then (c, g) :: preProcess c gs else (c + 1, g) :: preProcess (c + 1) gs

/-- `if index not in d: d[index] = []` then `d[index].append(t)` (lanes.py 45-47, 51-53). -/
def append (d : PyDict Int (List (LaneItem β))) (k : Int) (t : LaneItem β) : PyDict Int (List (LaneItem β)) :=
  PyDict.set d k ((PyDict.get? d k).getD [] ++ [t])

/-- one round of the loop of `create_lanes` (lanes.py 41-53): a single-qudit gate with a list of targets is an unhashable
key, a multi-qudit gate with an integer target is not iterable. -/
def createStep (d : PyDict Int (List (LaneItem β))) (t : LaneItem β) : Except PyErr (PyDict Int (List (LaneItem β))) :=
  match t.2.single, t.2.target with
  | true, .one q => .ok (append d q t)
  | true, .many _ => .error .typeError
  | false, .many qs => .ok (qs.foldl (fun d q => append d q t) d)
  | false, .one _ => .error .typeError

/-- `Lanes.create_lanes` (lanes.py 39-56), without the call of `find_consecutive_singles` at its end, whose result is not
used by the functions modelled here and which raises in the same cases. -/
def create (items : List (LaneItem β)) : Except PyErr (PyDict Int (List (LaneItem β))) :=
  items.foldlM createStep []

/-- the inner loop of `extract_instructions` (lanes.py 62-68); the ids seen are those of the collected gates -/
def collect (acc : List (LaneItem β)) (t : LaneItem β) : List (LaneItem β) :=
  if acc.any (fun s => s.2.oid == t.2.oid) then acc else acc ++ [t]

/-- sorted keys of the lane dictionary -/
def sortedKeys (d : PyDict Int (List (LaneItem β))) : List Int := (PyDict.keys d).insertionSort (· ≤ ·)

/-- `Lanes.extract_instructions` (lanes.py 58-73), keeping the counters; `sorted` is stable. -/
def extractItems (d : PyDict Int (List (LaneItem β))) : List (LaneItem β) :=
  (((sortedKeys d).flatMap fun q => (PyDict.get? d q).getD []).foldl collect []).insertionSort fun a b => a.1 ≤ b.1

def extract (d : PyDict Int (List (LaneItem β))) : List (Op β) := (extractItems d).map Prod.snd

/-- splitting a circuit into lanes and extracting it again -/
def reorder (l : List (Op β)) : Except PyErr (List (Op β)) := do
  let d ← create (preProcess 0 l)
  return extract d

/-- `consecutive_groups[q][-1].append(t)` if there is a group, else `consecutive_groups[q] = [[t]]` (lanes.py 88-91). -/
def pushSingle (gs : List (List (LaneItem β))) (t : LaneItem β) : List (List (LaneItem β)) :=
  match gs.reverse with
  | [] => [[t]]
  | g :: rest => (rest.reverse ++ [g ++ [t]])

/-- one round of the first loop of `find_consecutive_singles` (lanes.py 84-96) -/
def groupStep (d : PyDict Int (List (List (LaneItem β)))) (t : LaneItem β) :
    Except PyErr (PyDict Int (List (List (LaneItem β)))) :=
  match t.2.single, t.2.target with
  | true, .one q => .ok (PyDict.set d q (pushSingle ((PyDict.get? d q).getD []) t))
  | true, .many _ => .error .typeError
  | false, .many qs => .ok (qs.foldl (fun d q => PyDict.set d q ((PyDict.get? d q).getD [] ++ [[t], []])) d)
  | false, .one _ => .error .typeError

/-- `find_consecutive_singles` (lanes.py 78-108), without the index `fast_lookup`; empty groups are dropped at the end. -/
def findConsecutive (items : List (LaneItem β)) : Except PyErr (PyDict Int (List (List (LaneItem β)))) := do
  let d ← items.foldlM groupStep []
  return d.map fun kv => (kv.1, kv.2.filter fun g => !g.isEmpty)

end Lanes

namespace Resynth
variable {α : Type} [AddCommMonoid α] [Mul α] [One α]

/-- product of a run, starting from the identity, later gates multiplied from the left (local_resynth.py 40-44) -/
def runMatrix (dim : Nat) (group : List (LaneItem (Arr2 α))) : Except PyErr (Arr2 α) :=
  group.foldlM (fun m t => Arr2.matmul t.2.body m) (Arr2.identity dim)

/-- `self.circuit.dimensions[line]` -/
def dimOf (dims : List Nat) (line : Int) : Except PyErr Nat :=
  if line < 0 then .error .indexError
  else match dims[line.toNat]? with
    | some d => .ok d
    | none => .error .indexError

/-- treatment of one group (local_resynth.py 38-50); `next` is the identity of the next new object -/
def mergeGroup (dims : List Nat) (line : Int) (next : Nat) (group : List (LaneItem (Arr2 α))) :
    Except PyErr (LaneItem (Arr2 α) × Nat) :=
  match group with
  | [] => .error .indexError
  | t :: _ =>
    if t.2.single then do
      let dim ← dimOf dims line
      let m ← runMatrix dim group
      return ((t.1, ⟨next, true, .one line, m⟩), next + 1)
    else .ok (t, next)

/-- the loop over the groups of a line -/
def mergeGroups (dims : List Nat) (line : Int) : Nat → List (List (LaneItem (Arr2 α))) →
    Except PyErr (List (LaneItem (Arr2 α)) × Nat)
  | next, [] => .ok ([], next)
  | next, g :: gs => do
    let (t, next) ← mergeGroup dims line next g
    let (ts, next) ← mergeGroups dims line next gs
    return (t :: ts, next)

/-- `self.lanes.find_consecutive_singles(extracted_line)[line]` -/
def groupsOf (line : Int) (items : List (LaneItem (Arr2 α))) : Except PyErr (List (List (LaneItem (Arr2 α)))) := do
  let d ← Lanes.findConsecutive items
  match PyDict.get? d line with
  | some gs => .ok gs
  | none => .error .keyError

/-- treatment of one line (local_resynth.py 35-52) -/
def doLine (dims : List Nat) (st : PyDict Int (List (LaneItem (Arr2 α))) × Nat) (line : Int) :
    Except PyErr (PyDict Int (List (LaneItem (Arr2 α))) × Nat) := do
  let gs ← groupsOf line ((PyDict.get? st.1 line).getD [])
  let (ts, next) ← mergeGroups dims line st.2 gs
  return (PyDict.set st.1 line ts, next)

/-- `NaiveLocResynthOptPass.transpile` (local_resynth.py 30-62), the new instruction list. `next` is an identity larger
than that of every existing object. Negative line numbers are not modelled (they raise here). The recorded level
mappings do not influence the instructions. -/
def transpile (dims : List Nat) (next : Nat) (l : List (Op (Arr2 α))) : Except PyErr (List (Op (Arr2 α))) := do
  let d ← Lanes.create (Lanes.preProcess 0 l)
  let (d, _) ← (Lanes.sortedKeys d).foldlM (doLine dims) (d, next)
  return Lanes.extract d

end Resynth
end Qudits
