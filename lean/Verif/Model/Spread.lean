import Verif.Model.Misim
/-
Spreading an excitation over several lines: `spread2`, `spread3`, `spread5`, /repo/include/dd/MDDPackage.hpp 1414-1540, with the tables Xmat (51), X3dag
(199-201), X3 (203-205), X5dag (619-625), X5 (627-632), Hmat (123-126), H3 (181-197), H5 (524-571) of GateMatrixDefinitions.hpp.

The three functions are written as one function of the number `k` of lines, which is 2, 3 or 5; the gates are made in the same order, and multiplied in
the same order.  The simplifications are those of Model/DD.lean.
-/
namespace Qudits.DD

/-- `lines.at(i)` -/
def lineAt (lines : List Nat) (i : Nat) : Except Err Nat :=
  match lines[i]? with
  | some l => .ok l
  | none => .error .outOfRange

/-- Xmat, X3dag, X5dag; the other dimensions are not looked for, MDDPackage.hpp 1424-1437. -/
def xDagTable : Nat → Option (List Nat)
  | 2 => some [0, 1, 1, 0]
  | 3 => some [0, 1, 0, 0, 0, 1, 1, 0, 0]
  | 5 => some [0, 1, 0, 0, 0, 0, 0, 1, 0, 0, 0, 0, 0, 1, 0, 0, 0, 0, 0, 1, 1, 0, 0, 0, 0]
  | _ => none

/-- The gates `minus` and `xp10`, MDDPackage.hpp 1420-1437 (1451-1468, 1488-1505): they stay `mEdge::zero` for other dimensions of the first line than
2, 3 and 5. -/
noncomputable def minusPlus (ds : List Nat) (l0 l1 : Nat) : Except Err (Edge ds × Edge ds) :=
  match ds.reverse[l0]? with
  | none => .error .outOfRange
  | some r =>
    match xDagTable r, xMat r with
    | some m, some x => do
      let minus ← makeGateDD ds (m.map fun k : Nat => (k : ℂ)) [] l0
      let xp10 ← makeGateDD ds x [(l1, 0)] l0
      pure (minus, xp10)
    | _, _ => .ok (none, none)

variable (H : Hashes)

/-- `state = multiply(gate, state)`, `k` times. -/
noncomputable def applyTimes (ds : List Nat) (gate : Edge ds) : Nat → Edge ds → M (Edge ds)
  | 0, state => pure state
  | k + 1, state => do
    let state ← multiply H .vec ds gate state
    applyTimes ds gate k state

/-- The lines with their own steps: 2, …, k - 1. -/
def others (k : Nat) : List Nat := (List.range (k - 2)).map (· + 2)

/-- `spread2` (k = 2), `spread3` (k = 3), `spread5` (k = 5), MDDPackage.hpp 1415-1540. -/
noncomputable def spread (k : Nat) (ds : List Nat) (lines : List Nat) (state : Edge ds) : M (Edge ds) := do
  let l0 ← lift (lineAt lines 0)
  let l1 ← lift (lineAt lines 1)
  let cH ← lift (makeGateDD ds ((hMat k).getD []) [(l0, 1)] l1)
  let g ← lift (minusPlus ds l0 l1)
  let xps ← (others k).mapM fun j => do
    let l ← lift (lineAt lines j)
    lift (makeGateDD ds ((xMat k).getD []) [(l1, j)] l)
  let sums ← (others k).mapM fun j => do
    let l ← lift (lineAt lines j)
    csum H ds l l1 true
  let state ← multiply H .vec ds cH state
  let state ← multiply H .vec ds g.1 state
  let state ← multiply H .vec ds g.2 state
  ((others k).zip (xps.zip sums)).foldlM (fun s p => do
    let s ← multiply H .vec ds p.2.1 s
    applyTimes H ds p.2.2 p.1 s) state

end Qudits.DD
