import Verif.Model.PyErr
import Verif.Model.Registers
/-
Drawing a circuit as text, /repo/src/mqt/qudits/visualisation/drawing_routines.py.

Simplifications: texts are lists of characters, the printed lines are returned; the text `f"{x:.2f}"` of a number is a parameter.
-/
namespace Qudits
namespace Visual

/-- What is read of the object of a gate: its class, and the attributes that are printed.  An object of class `VirtRz` or `R` whose parameters were
not accepted has no such attributes (virt_rz.py 38-42, r.py 42-49). -/
inductive DrawKind (R : Type) where
  | virtRz (attrs : Option (Nat × R))
  | r (attrs : Option (Nat × Nat × R × R))
  | customOne
  | other
  deriving DecidableEq

/-- A gate of the circuit: whether its type is SINGLE, the line if `target_qudits` is a number, its class. -/
structure DrawGate (R : Type) where
  single : Bool
  target : Option Nat
  kind : DrawKind R

/-- decimal text of a level -/
def levText (n : Nat) : List Char := Nat.toDigits 10 n

/-- What is printed for one gate in one line, drawing_routines.py 11-21. -/
def drawGate {R : Type} (fmt : R → List Char) (line : Nat) (g : DrawGate R) : Except PyErr (List Char) :=
  if g.single ∧ g.target = some line then
    match g.kind with
    | .virtRz (some (a, phi)) => .ok ("--[VRz".toList ++ levText a ++ "(".toList ++ fmt phi ++ ")]--".toList)
    | .virtRz none => .error .attributeError
    | .r (some (a, b, theta, phi)) =>
      .ok ("--[R".toList ++ levText a ++ levText b ++ "(".toList ++ fmt theta ++ ",".toList ++ fmt phi ++ ")]--".toList)
    | .r none => .error .attributeError
    | .customOne => .ok "--[CuOne]--".toList
    | .other => .ok "--G--".toList
  else .ok "--MG--".toList

/-- One line, drawing_routines.py 9-22. -/
def drawLine {R : Type} (fmt : R → List Char) (gs : List (DrawGate R)) (line : Nat) : Except PyErr (List Char) := do
  let parts ← gs.mapM (drawGate fmt line)
  pure ("|0>---".toList ++ parts.flatten ++ "---=||".toList)

/-- `draw_qudit_local`, drawing_routines.py 7-22. -/
def draw {R : Type} (fmt : R → List Char) (n : Nat) (gs : List (DrawGate R)) : Except PyErr (List (List Char)) :=
  (List.range n).mapM (drawLine fmt gs)

end Visual
end Qudits
