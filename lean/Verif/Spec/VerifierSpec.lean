import Verif.Spec.SimSpec
import Verif.Spec.UnitaryArr
/- The matrix of a gate on its own lines, as the verifier reads it. -/
namespace Qudits.Spec

/-- `to_matrix()` of the gate (with the array `op.2` as its `__array__`) is the unitary matrix `M` of size `m`. -/
def HasMatrix (m : Nat) (op : Gate × Arr2 ℂ) (M : Matrix (Fin m) (Fin m) ℂ) : Prop :=
  ∃ B, op.1.toMatrix op.2 0 = .ok B ∧ UnitaryArr B m ∧ B.toM m = M

/-- a permutation as a list of levels -/
def permList {m : Nat} (p : Equiv.Perm (Fin m)) : List Int := List.ofFn fun i => ((p i : Nat) : Int)

end Qudits.Spec
