import Verif.Model.PyErr
import Mathlib.Data.Complex.Basic
import Mathlib.Analysis.Real.Sqrt
import Mathlib.Data.List.Sort
/-
Generators of named states, /repo/src/mqt/qudits/compiler/state_compilation/retrieve_state.py.
Levels and dimensions are natural numbers. `verify_normalized_state` and `generate_random_quantum_state` are in DensityFidelity.lean.
-/
namespace Qudits
namespace RetrieveState

/-- `generate_all_combinations`, retrieve_state.py 34-45. -/
def allCombinations : List Nat → List (List Nat)
  | [] => [[]]
  | d :: ds => (List.range d).flatMap fun i => (allCombinations ds).map (i :: ·)

/-- `generate_ghz_entries`, 48-56; `min` of an empty list raises. -/
def ghzEntries (dims : List Nat) : Except PyErr (List (List Nat)) :=
  match dims.min? with
  | none => .error .valueError
  | some m => .ok ((List.range m).map fun i => List.replicate dims.length i)

/-- `entry = [0] * num_positions; entry[j] = i` -/
def oneEntry (n j i : Nat) : List Nat := (List.replicate n 0).set j i

/-- `generate_qudit_w_entries`, 59-69. -/
def quditWEntries (dims : List Nat) : List (List Nat) :=
  (List.range dims.length).flatMap fun j => (List.range' 1 (dims.getD j 0 - 1)).map fun i => oneEntry dims.length j i

/-- `generate_embedded_w_entries`, 72-81. -/
def embeddedWEntries (dims : List Nat) : List (List Nat) :=
  (List.range dims.length).map fun j => oneEntry dims.length j 1

/-- lines 90-93: does the candidate agree with the state on the length of the candidate? -/
def agrees : List Nat → List Nat → Except PyErr Bool
  | [], _ => .ok true
  | _ :: _, [] => .error .indexError
  | a :: as, b :: bs => if a ≠ b then .ok false else agrees as bs

/-- `find_entries_indices`, 84-99. -/
def findIndices (input sub : List (List Nat)) : Except PyErr (List Nat) := do
  let found ← sub.mapM fun state => do
    let marks ← input.mapM fun cand => agrees cand state
    pure ((List.range input.length).filter fun i => marks.getD i false)
  pure (found.flatten.insertionSort (· ≤ ·))

/-- `generate_uniform_state`, 102-121; an index out of range cannot be assigned. -/
noncomputable def uniformState (dims : List Nat) (state : String) : Except PyErr (List ℂ) := do
  let all := allCombinations dims
  let entries ←
    if state = "qudit-w-state" then pure (quditWEntries dims)
    else if state = "embedded-w-state" then pure (embeddedWEntries dims)
    else if state = "ghz" then ghzEntries dims
    else .error .valueError
  if entries.length = 0 then .error .zeroDivisionError
  else
    let c : ℂ := (Real.sqrt (1 / entries.length) : ℝ)
    let idx ← findIndices all entries
    pure (idx.foldl (fun v i => v.set i c) (List.replicate all.length 0))

end RetrieveState
end Qudits
