import Mathlib.Analysis.SpecialFunctions.Trigonometric.Basic
import Mathlib.Data.Matrix.Mul
import Mathlib.Algebra.BigOperators.Group.List.Basic

/- The parametrisation of special unitary matrices by phases and plane rotations. -/
namespace Qudits.Spec
open Complex

/-- phase `x` on level `a` and `-x` on level `b` -/
noncomputable def phasePair (d a b : Nat) (x : ℝ) : Matrix (Fin d) (Fin d) ℂ := fun r c =>
  if r = c then (if r.1 = a then cexp (I * x) else if r.1 = b then cexp (-(I * x)) else 1) else 0

/-- real rotation by `x` in the plane of the levels `a` and `b` -/
noncomputable def planeTurn (d a b : Nat) (x : ℝ) : Matrix (Fin d) (Fin d) ℂ := fun r c =>
  if r.1 = a ∧ c.1 = a ∨ r.1 = b ∧ c.1 = b then (Real.cos x : ℂ)
  else if r.1 = a ∧ c.1 = b then (Real.sin x : ℂ)
  else if r.1 = b ∧ c.1 = a then -(Real.sin x : ℂ)
  else if r = c then 1 else 0

/-- All pairs of levels `m < n < d` in lexicographic order. -/
def levelPairs (d : Nat) : List (Nat × Nat) :=
  (List.range (d - 1)).flatMap fun m => (List.range' (m + 1) (d - (m + 1))).map fun n => (m, n)

/-- The matrix with parameters `p r c`: first the phases on the diagonal parameters, then for every pair of levels `m < n` a phase by
`p n m` and a rotation by `p m n`. -/
noncomputable def sudMatrix (d : Nat) (p : Nat → Nat → ℝ) : Matrix (Fin d) (Fin d) ℂ :=
  ((List.range (d - 1)).map fun l => phasePair d l (d - 1) (p l l)).prod *
  ((levelPairs d).map fun q => phasePair d q.1 q.2 (p q.2 q.1) * planeTurn d q.1 q.2 (p q.1 q.2)).prod

end Qudits.Spec
