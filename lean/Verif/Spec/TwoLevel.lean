import Mathlib.Analysis.SpecialFunctions.Trigonometric.Basic
import Mathlib.LinearAlgebra.Matrix.Notation
import Mathlib.Data.Matrix.Mul

/- Operators on one line that touch only two of its levels. -/
namespace Qudits.Spec
open Matrix Complex

variable {d : Nat}

/-- The 2 x 2 matrix `M` placed on levels `a` (first) and `b` (second), identity on all other levels. -/
def twoLevel (a b : Fin d) (M : Matrix (Fin 2) (Fin 2) ℂ) : Matrix (Fin d) (Fin d) ℂ := fun r c =>
  if r = a then (if c = a then M 0 0 else if c = b then M 0 1 else 0)
  else if r = b then (if c = a then M 1 0 else if c = b then M 1 1 else 0)
  else if r = c then 1 else 0

/-- The rotation by `theta` about the equatorial axis at azimuth `phi`. -/
noncomputable def rot (theta phi : ℝ) : Matrix (Fin 2) (Fin 2) ℂ :=
  !![(Real.cos (theta / 2) : ℂ), -I * Real.sin (theta / 2) * cexp (-(I * phi));
     -I * Real.sin (theta / 2) * cexp (I * phi), (Real.cos (theta / 2) : ℂ)]

end Qudits.Spec
