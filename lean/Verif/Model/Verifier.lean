import Verif.Model.StatePrep
import Verif.Model.MatrixFactory
import Verif.Model.Visual
/-
The checks of compiled circuits, /repo/src/mqt/qudits/compiler/compilation_minitools/naive_unitary_verifier.py.

A gate is given with its `__array__`, as in `Gate.toMatrix`.  Floats are exact complex numbers.
-/
namespace Qudits.Verifier
open StatePrep

/-- `reduce(operator.mul, dimensions)`: no start value, so TypeError for the empty list -/
def size (dims : List Nat) : Except PyErr Nat := if dims = [] then .error .typeError else .ok dims.prod

/-- `mini_unitary_sim`, naive_unitary_verifier.py 20-25. -/
noncomputable def miniUnitarySim (dims : List Nat) (ops : List (Gate × Arr2 ℂ)) : Except PyErr (Arr2 ℂ) := do
  let n ← size dims
  ops.foldlM (fun m op => do
    let a ← op.1.toMatrix op.2 2
    a.matmul m) (Arr2.identity n)

/-- the loops of `mini_sim` and `phy_sdit_sim`, 32-33 and 45-46 -/
noncomputable def applyAll (ops : List (Gate × Arr2 ℂ)) (state : List ℂ) : Except PyErr (List ℂ) :=
  ops.foldlM (fun v op => do
    let a ← op.1.toMatrix op.2 2
    matVec a v) state

/-- `state = np.array(size * [0]); state[0] = 1`, 30-31 and 41-42: IndexError without levels -/
noncomputable def groundState (n : Nat) : Except PyErr (List ℂ) := if n = 0 then .error .indexError else .ok ((List.replicate n 0).set 0 1)

/-- `mini_sim`, naive_unitary_verifier.py 28-34. -/
noncomputable def miniSim (dims : List Nat) (ops : List (Gate × Arr2 ℂ)) : Except PyErr (List ℂ) := do
  let n ← size dims
  let v ← groundState n
  applyAll ops v

/-- An index of Python for a sequence of length `n`: negative ones count from the end. -/
def position (n : Nat) (i : Int) : Except PyErr Nat :=
  if 0 ≤ i ∧ i < n then .ok i.toNat else if i < 0 ∧ 0 ≤ i + n then .ok (i + n).toNat else .error .indexError

/-- `np.eye(dim)[:, mapping]`, 40: column `j` is column `mapping[j]` of the identity. -/
noncomputable def eyeColumns (dim : Nat) (mapping : List Int) : Except PyErr (Arr2 ℂ) := do
  let cols ← mapping.mapM (position dim)
  pure ⟨dim, cols.length, fun r c => if some r = cols[c]? then 1 else 0⟩

/-- `phy_sdit_sim`, naive_unitary_verifier.py 37-47; `mappings` is the attribute of the circuit. -/
noncomputable def phySditSim (dims : List Nat) (mappings : Option (List (List Int))) (ops : List (Gate × Arr2 ℂ)) : Except PyErr (List ℂ) :=
  match mappings with
  | none => .error .assertionError
  | some maps =>
    match dims, maps with
    | dim :: _, m :: _ => do
      let p ← eyeColumns dim m
      let v ← groundState dim
      let v ← matVec p v
      applyAll ops v
    | _, _ => .error .indexError

/-- `l[i]` for a list and a loop variable -/
def item (l : List Int) (i : Nat) : Except PyErr Int :=
  match l[i]? with
  | some x => .ok x
  | none => .error .indexError

/-- `get_perm_matrix`, naive_unitary_verifier.py 82-95: for every `i` the matrix with a one in row `mapping[i]` and column `nodes[i]` is added. -/
noncomputable def permMatrix (dimension : Nat) (nodes mapping : List Int) : Except PyErr (Arr2 ℂ) :=
  Arr2.accumulate dimension (Arr2.zeros dimension dimension) fun i => do
    let a ← item nodes i
    let a ← position dimension a
    let b ← item mapping i
    let b ← position dimension b
    pure ⟨dimension, dimension, fun r c => if r = b ∧ c = a then 1 else 0⟩

/-- `UnitaryVerifier`, the attributes that `verify` reads -/
structure UnitaryVerifier where
  decomposition : List (Gate × Arr2 ℂ)
  target : Arr2 ℂ
  dimension : Nat
  final : Option (Arr2 ℂ)

/-- `UnitaryVerifier.__init__`, naive_unitary_verifier.py 61-80. -/
noncomputable def UnitaryVerifier.init (sequence : List (Gate × Arr2 ℂ)) (target : Gate × Arr2 ℂ) (dims : List Nat)
    (nodes initial final : Option (List Int)) : Except PyErr UnitaryVerifier := do
  let t ← target.1.toMatrix target.2 0
  let n ← size dims
  match nodes, initial, final with
  | some nodes, some initial, some final =>
    let p ← permMatrix n nodes initial
    let q ← permMatrix n nodes final
    let t ← p.matmul t
    pure ⟨sequence, t, n, some q⟩
  | _, _, _ => pure ⟨sequence, t, n, none⟩

open Classical in
/-- `verify`, naive_unitary_verifier.py 97-109. The rounded copy of line 102 is not kept. A division by zero gives infinities and NaNs in
numpy, for which the comparison is false. An array of another shape than the identity is a ValueError (a single entry, which numpy would spread
over the matrix, is left out). -/
noncomputable def UnitaryVerifier.verify (v : UnitaryVerifier) : Except PyErr Bool := do
  let t ← v.decomposition.foldlM (fun m op => do
    let a ← op.1.toMatrix op.2 0
    a.matmul m) v.target
  let t ← match v.final with
    | some q => do
      let q ← Visual.inv q
      q.matmul t
    | none => pure t
  let z ← t.get 0 0
  if t.rows = v.dimension ∧ t.cols = v.dimension then
    pure (decide (z ≠ 0 ∧ ∀ r < v.dimension, ∀ c < v.dimension, ‖t.at' r c / z - (if r = c then 1 else 0)‖ < 1 / 10000))
  else .error .valueError

end Qudits.Verifier
