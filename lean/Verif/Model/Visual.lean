import Verif.Model.MatrixFactory
import Mathlib.Data.List.Sort
import Mathlib.Data.List.Dedup
import Mathlib.Analysis.Complex.Basic
import Mathlib.LinearAlgebra.Matrix.NonsingularInverse
/-
`src/mqt/qudits/visualisation/mini_quantum_information.py` and the numeric part of
`src/mqt/qudits/visualisation/plot_information.py`; drawing (matplotlib) is not modelled.
-/
namespace Qudits.Visual

variable {α : Type}

/-! ### partial_trace -/

/-- Labels of an `einsum` operand whose number of occurrences satisfies `p`, each once, in ascending order. -/
def labelsWith (p : Nat → Bool) (labels : List Nat) : List Nat :=
  (labels.dedup.filter fun l => p (labels.count l)).insertionSort (· ≤ ·)

/-- Size of the axis that carries label `l` (the first one; the caller here only repeats a label on equal axes). -/
def labelDim (labels dims : List Nat) (l : Nat) : Nat := dims.getD (labels.idxOf l) 0

/-- Level given to label `l` by an assignment of the levels `vals` to the labels `keys`. -/
def assigned (keys vals : List Nat) (l : Nat) : Nat := vals.getD (keys.idxOf l) 0

/-- `np.einsum(t, labels)` with one operand and no output labels, as numpy defines it: the axes of the result are the
labels occurring once, in ascending order, and the labels occurring more often are summed over.
numpy's limits on the number of axes and labels are not modelled. -/
def einsum [Zero α] [Add α] (labels dims : List Nat) (t : List Nat → α) : List Nat × (List Nat → α) :=
  let out := labelsWith (· == 1) labels
  let summed := labelsWith (· != 1) labels
  (out.map (labelDim labels dims), fun os =>
    ((itProduct (siteLogics (summed.map (labelDim labels dims)))).map fun ss =>
      t (labels.map (assigned (out ++ summed) (os ++ ss)))).sum)

/-- Row-major position of the entry `ls` of an array of shape `dims` (what `reshape` keeps). -/
def ravel (dims ls : List Nat) : Nat := (dims.zip ls).foldl (fun k dl => k * dl.1 + dl.2) 0

/-- `a[i]` for an array of integers: negative indices count from the end, IndexError otherwise. -/
def npGet (a : List Nat) (i : Int) : Except PyErr Nat :=
  let j := if i < 0 then i + a.length else i
  if 0 ≤ j ∧ j < a.length then .ok (a.getD j.toNat 0) else .error .indexError

/-- `partial_trace` (mini_quantum_information.py:36-71). `rho.reshape` and the last `reshape` read the entries in row-major
order and raise ValueError when the number of entries differs; `optimize` only chooses an evaluation order. -/
def partialTrace [Zero α] [Add α] (rho : Arr2 α) (keep : List Int) (dims : List Nat) : Except PyErr (Arr2 α) := do
  let ndim := dims.length
  let kept ← keep.mapM (npGet dims)
  let nkeep := kept.prod
  let idx1 := List.range ndim
  let idx2 := (List.range ndim).map fun i => if ((i : Nat) : Int) ∈ keep then ndim + i else i
  if rho.rows * rho.cols ≠ (dims ++ dims).prod then throw .valueError
  let t := fun ls : List Nat => rho.at' (ravel (dims ++ dims) ls / rho.cols) (ravel (dims ++ dims) ls % rho.cols)
  let (outDims, r) := einsum (idx1 ++ idx2) (dims ++ dims) t
  if outDims.prod ≠ nkeep * nkeep then throw .valueError
  pure ⟨nkeep, nkeep, fun a b => r ((itProduct (siteLogics outDims)).getD (a * nkeep + b) [])⟩

/-! ### remap_result, plot_counts, plot_state -/

/-- `np.eye(d)[:, m]`: column `c` is the basis vector `m[c]`; IndexError for a level outside the line. -/
def eyeCols [Zero α] [One α] (d : Nat) (m : List Nat) : Except PyErr (Arr2 α) :=
  if ∀ l ∈ m, l < d then .ok ⟨d, m.length, fun r c => if m[c]? = some r then 1 else 0⟩ else .error .indexError

/-- `np.linalg.inv(a)` in exact arithmetic: LinAlgError (a ValueError) when `a` is not square or singular. -/
noncomputable def inv [Field α] (a : Arr2 α) : Except PyErr (Arr2 α) :=
  open Classical in
  if a.rows = a.cols ∧ (a.toM a.rows).det ≠ 0 then
    .ok ⟨a.rows, a.rows, fun r c => if h : r < a.rows ∧ c < a.rows then (a.toM a.rows)⁻¹ ⟨r, h.1⟩ ⟨c, h.2⟩ else 0⟩
  else .error .valueError

/-- `v @ a` for a vector `v`; ValueError when the sizes differ. -/
def vecMat [AddCommMonoid α] [Mul α] (v : List α) (a : Arr2 α) : Except PyErr (List α) :=
  if v.length = a.rows then
    .ok ((List.range a.cols).map fun c => ((List.range a.rows).map fun k => (v[k]?.getD 0) * a.at' k c).sum)
  else .error .valueError

/-- `dims[i]` -/
def dimAt (dims : List Nat) (i : Nat) : Except PyErr Nat :=
  match dims[i]? with
  | some d => .ok d
  | none => .error .indexError

/-- The permutation of `remap_result` (plot_information.py:23-25). -/
def permutation [Zero α] [One α] [Mul α] (dims : List Nat) (m0 : List Nat) (ms : List (List Nat)) :
    Except PyErr (Arr2 α) := do
  let d0 ← dimAt dims 0
  let p0 ← eyeCols d0 m0
  (ms.zipIdx 1).foldlM (fun p mi => do
    let d ← dimAt dims mi.2
    let q ← eyeCols d mi.1
    pure (p.kron q)) p0

/-- `remap_result` (plot_information.py:17-27). `mappings` is `circuit.mappings`: None and the empty list are both falsy. -/
noncomputable def remapResult [Field α] (result : List α) (dims : List Nat) (mappings : Option (List (List Nat))) :
    Except PyErr (List α) :=
  match mappings with
  | none => .ok result
  | some [] => .ok result
  | some (m0 :: ms) => do
    let p ← permutation dims m0 ms
    let q ← inv p
    vecMat result q

/-- `state_labels` (plot_information.py:84-97): the decimal numerals of the levels, concatenated. -/
def stateLabels (dims : List Nat) : List (List Char) :=
  (itProduct (siteLogics dims)).map fun item => item.foldl (fun s state => s ++ Nat.toDigits 10 state) []

/-- The shots handed to `plot_counts`: a Python list, or a numpy array (the annotation allows both). -/
inductive Shots where
  | list (l : List Nat)
  | ndarray (l : List Nat)

/-- `plot_counts` (plot_information.py:114-123) without the drawing. A numpy array has no method `count`: AttributeError (the
comprehension does not look the method up when there is no label). -/
noncomputable def plotCounts (shots : Shots) (dims : List Nat) (mappings : Option (List (List Nat))) :
    Except PyErr (List ℝ) := do
  let labels := stateLabels dims
  let counts ← (List.range labels.length).mapM fun i => match shots with
    | .list l => .ok (l.count i : ℝ)
    | .ndarray _ => .error .attributeError
  remapResult counts dims mappings

/-- `plot_state` (plot_information.py:100-111) without the drawing. -/
noncomputable def plotState (state : List ℂ) (dims : List Nat) (mappings : Option (List (List Nat))) :
    Except PyErr (List ℝ) :=
  remapResult (state.map fun c => ‖c‖) dims mappings

/-! ### get_density_matrix_from_counts -/

/-- `np.outer(a, b)` for integer vectors (the conjugate of an integer vector is the vector). -/
def outerInt (a b : List Int) : Arr2 ℝ := ⟨a.length, b.length, fun r c => ((a.getD r 0 : Int) : ℝ) * ((b.getD c 0 : Int) : ℝ)⟩

/-- `int(char)` for a decimal digit. -/
def digit (c : Char) : Nat := c.toNat - 48

/-- `get_density_matrix_from_counts` (mini_quantum_information.py:20-33). `from_dirac_to_basis` returns a plain list, not a
numpy array, when it is given a single level (its loop does not run), and a list has no method `conj`: AttributeError. -/
noncomputable def densityFromCounts (results : List Nat) (dims : List Nat) : Except PyErr (Arr2 ℝ) := do
  if dims = [] then throw .typeError
  let numKets := dims.prod
  if results.length = 0 ∧ numKets ≠ 0 then throw .zeroDivisionError
  let probabilities := (List.range numKets).map fun num => (results.count num : ℝ) / (results.length : ℝ)
  let kets ← (stateLabels dims).mapM fun state => do
    let levels := state.map digit
    let k ← fromDiracToBasis levels dims
    pure (k, levels.length)
  (kets.zip probabilities).foldlM (fun rho kp => do
    if kp.1.2 = 1 then throw .attributeError
    rho.add ((outerInt kp.1.1 kp.1.1).smul kp.2)) (Arr2.zeros numKets numKets)

end Qudits.Visual
