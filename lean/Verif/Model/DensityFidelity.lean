import Verif.Model.Variational
import Verif.Model.RetrieveState
import Mathlib.Analysis.SpecialFunctions.Pow.Complex
/-
Fidelity of density operators, /repo/src/mqt/qudits/compiler/twodit/variational_twodit_compilation/opt/distance_measures.py 43-53,
and the check and the generation of normalised states, /repo/src/mqt/qudits/compiler/state_compilation/retrieve_state.py 13-31.
Numbers are exact. A quotient with denominator 0, which numpy answers with `nan` and a warning, is `none`.
The numbers drawn by the random generator are an argument.
-/
namespace Qudits

namespace Variational

/-- `np.sqrt` of a complex number: the principal root -/
noncomputable def npSqrt (z : ℂ) : ℂ := z ^ (1 / 2 : ℂ)

/-- quotient of numpy numbers -/
noncomputable def npDiv (z w : ℂ) : Option ℂ := if w = 0 then none else some (z / w)

/-- `fidelity_on_density_operator`, distance_measures.py 43-53; ShapeMismatchError is a ValueError -/
noncomputable def fidelityOnDensity (a b : Arr2 ℂ) : Except PyErr (Option ℂ) :=
  if sizeCheck a b then do
    let ab ← a.matmul b
    let aa ← a.matmul a
    let bb ← b.matmul b
    pure (npDiv ((‖trace ab‖ : ℝ) : ℂ) (npSqrt (trace aa * trace bb)))
  else .error .valueError

end Variational

namespace RetrieveState

/-- `np.isclose(a, b, atol=atol)`; the relative tolerance keeps its default 1e-5 -/
noncomputable def isclose (a b atol : ℝ) : Prop := |a - b| ≤ atol + 1e-5 * |b|

/-- `verify_normalized_state`, retrieve_state.py 13-19: does it return True? -/
noncomputable def verifyNormalized (v : List ℂ) : Prop := isclose ((v.map fun z => ‖z‖ ^ 2).sum) 1 1e-6

/-- `generate_random_quantum_state`, 22-31. `re` and `im` are the sequences the two calls of `standard_normal` read their numbers
from. `reduce` of an empty list raises TypeError. If all numbers drawn are zero every entry is `nan`: `none`. -/
noncomputable def randomState (dims : List Nat) (re im : Nat → ℝ) : Except PyErr (Option (List ℂ)) :=
  match dims with
  | [] => .error .typeError
  | d :: ds =>
    let length := ds.foldl (· * ·) d
    let nums : List ℂ := (List.range length).map fun k => (re k : ℂ) + Complex.I * (im k : ℂ)
    let norm := Real.sqrt (nums.map fun z => ‖z‖ ^ 2).sum
    .ok (if norm = 0 ∧ length ≠ 0 then none else some (nums.map fun z => z / (norm : ℂ)))

end RetrieveState
end Qudits
