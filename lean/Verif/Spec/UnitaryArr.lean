import Verif.Model.NArr
import Mathlib.LinearAlgebra.UnitaryGroup
import Mathlib.Analysis.Complex.Basic
namespace Qudits
open Matrix

/-- The array is square of size `N` and unitary. -/
def UnitaryArr (A : Arr2 ℂ) (N : Nat) : Prop :=
  A.rows = N ∧ A.cols = N ∧ A.toM N ∈ unitaryGroup (Fin N) ℂ

end Qudits
