import Verif.Model.StatePrep
import Mathlib.Data.List.Sort
/-
Approximation of a state decision tree, /repo/src/mqt/qudits/core/micro_dd.py 53-81 and 199-233, and its use in `compile_state`,
state_preparation.py 174-177.

A node of the tree is named by its path of levels from the root. The tree is the one made by `create_decision_tree`, in which no two
paths lead to the same object (apart from `zero` and `one`, which are left out of the contributions); so the dictionary `probs` has one entry
per path and `probs[c] += …` is an assignment. The queue visits the tree level by level from left to right, which is how it is written here;
`node.value` is the depth of a node minus one.
-/
namespace Qudits
namespace MicroDD

/-- Lines 63-70 for all nodes of one level: a child with non-zero weight gets the probability of its parent times the square of its weight.
Children of terminal nodes are never visited (70); those of a terminal root are `zero`, with weight 0, or `one`, left out at line 75. -/
noncomputable def nextLevel (lv : List (List Nat × MicroDD × ℝ)) : List (List Nat × MicroDD × ℝ) :=
  lv.flatMap fun e =>
    if e.2.1.info.terminal then []
    else (List.range e.2.1.children.length).flatMap fun i =>
      match e.2.1.children[i]? with
      | none => []
      | some c => if c.weight ≠ 0 then [(e.1 ++ [i], c, e.2.2 * ‖c.weight‖ ^ 2)] else []

/-- the levels below a level, the first argument is their number -/
noncomputable def levelsBelow : Nat → List (List Nat × MicroDD × ℝ) → List (List (List Nat × MicroDD × ℝ))
  | 0, _ => []
  | k + 1, lv => nextLevel lv :: levelsBelow k (nextLevel lv)

open Classical in
/-- `sorted(…, key=itemgetter(1))`, stable -/
noncomputable def sortLevel (lv : List (List Nat × ℝ)) : List (List Nat × ℝ) := lv.insertionSort fun a b => a.2 ≤ b.2

/-- `get_node_contributions`, micro_dd.py 53-81. -/
noncomputable def contributions (n : Nat) (root : MicroDD) : List (List (List Nat × ℝ)) :=
  (levelsBelow n [([], root, ‖root.weight‖ ^ 2)]).map fun lv => sortLevel (lv.map fun e => (e.1, e.2.2))

/-- `node.available`: no node above it has been cut (`remove_children`, 199-202) -/
def available (cuts : List (List Nat)) (p : List Nat) : Bool := !(cuts.any fun q => q.isPrefixOf p && q != p)

/-- Lines 208-214 for one level; the state is `current` with the list of the nodes cut so far, the latest first. -/
noncomputable def cutLevel (tol : ℝ) : List (List Nat × ℝ) → ℝ × List (List Nat) → ℝ × List (List Nat)
  | [], s => s
  | e :: rest, s =>
    if s.1 + e.2 < tol ∧ available s.2 e.1 = true then cutLevel tol rest (s.1 + e.2, e.1 :: s.2) else s

/-- `cut_branches`, micro_dd.py 205-214: the paths of the nodes whose weight is set to zero. -/
noncomputable def cutBranches (contribs : List (List (List Nat × ℝ))) (tol : ℝ) : List (List Nat) :=
  (contribs.reverse.foldl (fun s lv => cutLevel tol lv s) (0, [])).2

/-- `node.weight = 0` for the node at a path -/
noncomputable def zeroAt : List Nat → MicroDD → MicroDD
  | [], t => t.setWeight 0
  | i :: p, node inf cs => node inf (cs.modify i (zeroAt p))

/-- the tree after `cut_branches` -/
noncomputable def cutTree (tol : ℝ) (n : Nat) (t : MicroDD) : MicroDD := (cutBranches (contributions n t) tol).foldr zeroAt t

/-- lines 174-177 of state_preparation.py -/
noncomputable def approximate (tol : ℝ) (n : Nat) (t : MicroDD) : MicroDD := normalizeAll n (cutTree tol n t)

end MicroDD

open MicroDD in
/-- `StatePrep(circuit, state, approx=True).compile_state()`, state_preparation.py 168-193; the code has `tol = 0.01`. -/
noncomputable def StatePrep.compileApprox (H : List (Int × ℂ) → Int) (del tol : ℝ) (dims : List Nat) (state : List ℂ) :
    Except PyErr (List PInstr) := do
  let t ← create dims state
  StatePrep.fromTree H del dims (approximate tol dims.length t)

end Qudits
