import Verif.Model.Backend
import Mathlib.Algebra.Group.End
/- The ion traps that are shipped. -/
namespace Qudits.Spec

/-- number of lines and number of levels of each line -/
def trapSize : BackendClass → Option (Nat × Nat)
  | .innsbruck01 => some (2, 3)
  | .fakeIonTraps2Trits => some (2, 3)
  | .fakeIonTraps2Six => some (2, 6)
  | .fakeIonTraps3Six => some (3, 6)
  | .tnSim | .miSim => none

/-- the physical level of each logical one -/
def trapPlacement : (k : BackendClass) → (m : Nat) → Equiv.Perm (Fin m)
  | .fakeIonTraps2Trits, 3 => Equiv.swap 1 2
  | _, _ => 1

end Qudits.Spec
