import Verif.Model.PhasePasses
namespace Qudits.Spec

/-- With what the simulator refuses a gate of a preparation: the controls of these gates are on lines before the target, in ascending order. Without
controls it is accepted. Otherwise line 0 has to be a control, for the line of the target is looked up counted from the lowest line (C13). If it is the only one,
the target has to be line 1, for the flag of gates that skip lines is not set (C04). -/
def refusal (g : PInstr) : Option PyErr :=
  match g.controls with
  | none => none
  | some c => if c.indices.head? ≠ some 0 then some .indexError
      else if c.indices.length = 1 ∧ g.target ≠ .one 1 then some .valueError else none

end Qudits.Spec
