import Verif.Model.Lanes
/-
Replacing a stretch of a lane by one gate, /repo/src/mqt/qudits/core/lanes.py 110-125.  Gate classes define no `__eq__`, so two
entries are equal if their counters are and they hold the same object.  Indices are natural numbers (negative indices are not
modelled).
-/
namespace Qudits.Lanes
variable {β : Type}

/-- `gates_of_line.remove(obj)`: drop the first equal entry, ValueError if there is none. -/
def removeEntry (L : List (LaneItem β)) (t : LaneItem β) : Except PyErr (List (LaneItem β)) :=
  if L.any (fun s => s.1 == t.1 && s.2.oid == t.2.oid) then .ok (L.eraseP fun s => s.1 == t.1 && s.2.oid == t.2.oid)
  else .error .valueError

/-- `Lanes.replace_gates_in_lane`, lanes.py 110-125: the lane dictionary afterwards.  An unknown line changes nothing. -/
def replaceGates (d : PyDict Int (List (LaneItem β))) (line : Int) (start stop : Nat) (g : Op β) :
    Except PyErr (PyDict Int (List (LaneItem β))) :=
  match PyDict.get? d line with
  | none => .ok d
  | some L =>
    match L[start]? with
    | none => .error .indexError
    | some t => do
      let L' ← ((L.take (min (stop + 1) L.length)).drop start).foldlM removeEntry L
      return PyDict.set d line (L'.take start ++ (t.1, g) :: L'.drop start)

end Qudits.Lanes
