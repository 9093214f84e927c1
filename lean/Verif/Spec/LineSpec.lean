import Verif.Spec.Radix
import Verif.Model.NArr
import Mathlib.Algebra.BigOperators.Group.Finset.Basic
import Mathlib.Data.Fintype.BigOperators
import Mathlib.Data.Complex.Basic
/-! # C109: a gate on some lines of a register -/
namespace Qudits.Spec

/-- the entry, for the levels `x` and `y` of the lines, of the operator that applies `gate` to each of the lines of `S` and leaves the
other lines alone -/
noncomputable def onEach {n : Nat} {d : Fin n → Nat} (S : Finset (Fin n)) (gate : Arr2 ℂ) (x y : (i : Fin n) → Fin (d i)) : ℂ :=
  ∏ i, if i ∈ S then gate.at' (x i) (y i) else if x i = y i then 1 else 0

end Qudits.Spec
