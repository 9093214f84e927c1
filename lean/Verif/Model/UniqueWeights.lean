import Verif.Model.MicroDD
/-
The different weights of a decision tree, /repo/src/mqt/qudits/core/micro_dd.py 84-97.

Simplification.  A Python set of numbers is a list without repetitions, in the order in which the elements were added.  Weights are never
`None`.
-/
namespace Qudits.MicroDD

theorem children_size (cs : List MicroDD) : (cs.map sizeOf).sum ≤ sizeOf cs := by
  induction cs with
  | nil => simp
  | cons c cs ih => simp; omega

open Classical in
/-- the loop of `unique_weights`, micro_dd.py 87-95; the top of the stack is the head of the list -/
noncomputable def weightLoop (stack : List MicroDD) (seen : List ℂ) : List ℂ :=
  match stack with
  | [] => seen
  | node i cs :: rest => weightLoop (cs.reverse ++ rest) (if i.weight ∈ seen then seen else seen ++ [i.weight])
termination_by (stack.map sizeOf).sum
decreasing_by
  have := children_size cs
  simp
  omega

/-- `unique_weights`, micro_dd.py 84-97. -/
noncomputable def uniqueWeights (root : MicroDD) : List ℂ := weightLoop [root] []

end Qudits.MicroDD
