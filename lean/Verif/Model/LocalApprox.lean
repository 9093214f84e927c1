import Verif.Model.MicroDD
/-
The approximation that works node by node (`dd_approximation`) and the two counters of nodes, /repo/src/mqt/qudits/core/micro_dd.py.
-/
namespace Qudits.MicroDD

/-- micro_dd.py 183-184: the weight of a child is set to 0 if its squared magnitude is below the tolerance and not 0 -/
noncomputable def cutSmall (tol : ℝ) (c : MicroDD) : MicroDD :=
  if ‖c.weight‖ ^ 2 < tol ∧ ‖c.weight‖ ^ 2 ≠ 0 then c.setWeight 0 else c

/-- `dd_approximation`, micro_dd.py 178-198; the first argument counts the lines that remain. A child is cut and then treated itself; the
children are visited up to `cardinalities[depth]`, which is their number. -/
noncomputable def ddApprox (tol : ℝ) : Nat → MicroDD → MicroDD
  | 0, t => t
  | k + 1, node i cs =>
    if i.terminal then node i cs
    else
      let cs' := cs.map fun c => ddApprox tol k (cutSmall tol c)
      let (w, new) := normalize i.weight (cs'.map weight)
      if w = 0 then node { i with weight := w, terminal := true } [zeroNode]
      else if cs'.length ≠ 1 then node { i with weight := w } (cs'.zipWith setWeight new)
      else node { i with weight := w } cs'

/-- the counter that `build_decision_tree` increases for every child it makes, micro_dd.py 150-157; `n` is its value on entry -/
def buildCount : List Nat → Nat → Nat
  | [], n => n
  | c :: cs, n => (List.range c).foldl (fun m _ => buildCount cs (m + 1)) n

/-- the second value of `create_decision_tree`, micro_dd.py 114-122 -/
def createCount (dims : List Nat) : Nat := buildCount dims 1

/-- `count_nodes_after`, micro_dd.py 297-305; `n` is the value of the counter on entry. A node below the last line that is not terminal does
not occur in the trees made by the code; the model refuses it. -/
def countAfter : List Nat → MicroDD → Nat → Except PyErr Nat
  | [], t, n => if t.info.terminal then .ok (n + 1) else .error .indexError
  | c :: ds, node i cs, n =>
    let visit (m j : Nat) : Except PyErr Nat :=
      match i.index[j]? with
      | none => .error .indexError
      | some l => match cs[l]? with
        | none => .error .indexError
        | some u => countAfter ds u m
    if i.terminal then .ok (n + 1)
    else if i.reduced = some true then visit (n + 1) 0
    else (List.range c).foldlM visit (n + 1)

end Qudits.MicroDD
