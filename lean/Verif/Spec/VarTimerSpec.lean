import Verif.Model.VarTimer
/- A run of the annealer without interrupts. -/
namespace Qudits.Spec
open Variational

variable {β : Type}

/-- what one run finds if it is left alone: the first point within the tolerance, or the result of the annealer -/
noncomputable def undisturbed (err : β → ℝ) (tol : ℝ) (v : Visits β) : ℝ × β := by
  classical exact
    match v.points.find? fun x => decide (err x < tol) with
    | some x => (err x, x)
    | none => (err v.result, v.result)

end Qudits.Spec
