import Verif.Model.Variational
/-
`apply_gate_to_tlines`, /repo/src/mqt/qudits/compiler/compilation_minitools/numerical_ansatz_utils.py 46-62.

Simplification.  Targets are not negative.  A single target given as an integer is the list with this element, as in line 55.
-/
namespace Qudits.Variational

/-- `a += b` of numpy: an axis of length 1 of `b` is repeated, other lengths must agree -/
noncomputable def plusEq (a b : Arr2 ℂ) : Except PyErr (Arr2 ℂ) :=
  if (b.rows = a.rows ∨ b.rows = 1) ∧ (b.cols = a.cols ∨ b.cols = 1) then
    .ok ⟨a.rows, a.cols, fun r c => a.at' r c + b.at' (if b.rows = 1 then 0 else r) (if b.cols = 1 then 0 else c)⟩
  else .error .valueError

/-- the loop, 60-61 -/
noncomputable def addLines (gate : Arr2 ℂ) (size : Nat) (dims : List Nat) (acc : Arr2 ℂ) (targets : List Nat) : Except PyErr (Arr2 ℂ) :=
  targets.foldlM (fun acc t => do
    let e ← gateExpand gate size t dims
    plusEq acc e) acc

/-- `apply_gate_to_tlines(gate_matrix, circuits_size, targets, dims)`, 46-62; `none` stands for `None`. -/
noncomputable def applyToLines (gate : Arr2 ℂ) (size : Nat) (targets dims : Option (List Nat)) : Except PyErr (Arr2 ℂ) :=
  let dims := dims.getD (List.replicate size 2)
  let targets := targets.getD (List.range size)
  addLines gate size dims ⟨2 ^ size, 2 ^ size, fun _ _ => 0⟩ targets

end Qudits.Variational
