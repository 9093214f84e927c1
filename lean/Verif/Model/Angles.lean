import Mathlib.Algebra.Order.Floor.Ring
import Mathlib.Analysis.SpecialFunctions.Trigonometric.Basic

/-
Angle normalisation, /repo/src/mqt/qudits/compiler/compilation_minitools/local_compilation_minitools.py.
Floats are exact real numbers here.
-/
namespace Qudits
open Real

/-- `np.mod(a, b)` on real numbers: remainder with the sign of the divisor. -/
noncomputable def pyMod (a b : ℝ) : ℝ := a - b * ⌊a / b⌋

/-- local_compilation_minitools.py:22-24 `new_mod` (default `b = 2π`). -/
noncomputable def newMod (a : ℝ) (b : ℝ := 2 * π) : ℝ :=
  let res := pyMod a b
  if res = 0 then res else if a < 0 then res - b else res

/-- local_compilation_minitools.py:27-33 `pi_mod`. -/
noncomputable def piMod (a0 : ℝ) : ℝ :=
  let a := newMod a0
  if a > 0 ∧ a > π then a - 2 * π
  else if a < 0 ∧ |a| > π then 2 * π + a
  else a

/-- local_compilation_minitools.py:36-43 `regulate_theta`. -/
noncomputable def regulateTheta (angle : ℝ) : ℝ :=
  let t := pyMod |angle / π| 4
  let t := if angle < 0 then t * -1 else t
  let t := if |t| < 0.2 then t + 4 else t
  t * π

/-- local_compilation_minitools.py:46-49 `phi_cost`. -/
noncomputable def phiCost (theta : ℝ) : ℝ := |theta / π| * 1e-4

/-- local_compilation_minitools.py:52-54 `theta_cost`. -/
noncomputable def thetaCost (theta : ℝ) : ℝ :=
  (4 * |theta / π| + |pyMod (|theta / π| + 0.25) 0.5 - 0.25|) * 1e-4

end Qudits
