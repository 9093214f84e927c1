import Verif.Model.PyErr
import Mathlib.Data.Matrix.Mul
import Mathlib.Algebra.Star.Basic
import Mathlib.Algebra.BigOperators.Group.Finset.Basic

/-
The small part of numpy that the library uses for matrices: a two-dimensional array is a shape and an
entry function (entries outside the shape are never read by the model; `get` raises there).
-/
namespace Qudits

/-- A two-dimensional `numpy.ndarray`. -/
structure Arr2 (α : Type) where
  rows : Nat
  cols : Nat
  at' : Nat → Nat → α

namespace Arr2
variable {α : Type}

/-- `m[r, c]` for non-negative indices: IndexError outside the shape. -/
def get (m : Arr2 α) (r c : Nat) : Except PyErr α :=
  if r < m.rows ∧ c < m.cols then .ok (m.at' r c) else .error .indexError

/-- `np.identity(n)` -/
def identity [Zero α] [One α] (n : Nat) : Arr2 α := ⟨n, n, fun r c => if r = c then 1 else 0⟩

/-- `np.kron(a, b)` -/
def kron [Mul α] (a b : Arr2 α) : Arr2 α :=
  ⟨a.rows * b.rows, a.cols * b.cols,
    fun r c => a.at' (r / b.rows) (c / b.cols) * b.at' (r % b.rows) (c % b.cols)⟩

/-- `m.conj().T` -/
def conjT [Star α] (m : Arr2 α) : Arr2 α := ⟨m.cols, m.rows, fun r c => star (m.at' c r)⟩

/-- Array with the given lists as rows. -/
def ofLists [Zero α] (n k : Nat) (rows : List (List α)) : Arr2 α :=
  ⟨n, k, fun r c => ((rows[r]?.getD [])[c]?).getD 0⟩

/-- The rows of an array, used only to display and compare examples. -/
def toLists (m : Arr2 α) : List (List α) :=
  (List.range m.rows).map fun r => (List.range m.cols).map fun c => m.at' r c

/-- Fill an `n × n` array entry by entry, row by row; the first error aborts. -/
def fill [Zero α] (n : Nat) (f : Nat → Nat → Except PyErr α) : Except PyErr (Arr2 α) := do
  let rows ← (List.range n).mapM fun r => (List.range n).mapM fun c => f r c
  pure (ofLists n n rows)

/-- `np.zeros((n, k))` -/
def zeros [Zero α] (n k : Nat) : Arr2 α := ⟨n, k, fun _ _ => 0⟩

/-- `a + b` for arrays of the same shape (numpy broadcasting is not used by the modelled code; other
shapes raise ValueError). -/
def add [Add α] (a b : Arr2 α) : Except PyErr (Arr2 α) :=
  if a.rows = b.rows ∧ a.cols = b.cols then .ok ⟨a.rows, a.cols, fun r c => a.at' r c + b.at' r c⟩
  else .error .valueError

/-- `x * m` -/
def smul [Mul α] (x : α) (m : Arr2 α) : Arr2 α := ⟨m.rows, m.cols, fun r c => x * m.at' r c⟩

/-- `a @ b`; ValueError when the inner sizes differ. -/
def matmul [AddCommMonoid α] [Mul α] (a b : Arr2 α) : Except PyErr (Arr2 α) :=
  if a.cols = b.rows then
    .ok ⟨a.rows, b.cols, fun r c => ∑ k ∈ Finset.range a.cols, a.at' r k * b.at' k c⟩
  else .error .valueError

/-- `np.linalg.matrix_power(m, k)` by repeated multiplication. -/
def matrixPower [AddCommMonoid α] [Mul α] [One α] (m : Arr2 α) : Nat → Except PyErr (Arr2 α)
  | 0 => .ok (identity m.rows)
  | k + 1 => do
    let p ← matrixPower m k
    p.matmul m

/-- `m[i, j] = v` -/
def set (m : Arr2 α) (i j : Nat) (v : α) : Except PyErr (Arr2 α) :=
  if i < m.rows ∧ j < m.cols then
    .ok ⟨m.rows, m.cols, fun r c => if r = i ∧ c = j then v else m.at' r c⟩
  else .error .indexError

/-- `for i in range(n): m += f(i)` -/
def accumulate [Add α] (n : Nat) (m : Arr2 α) (f : Nat → Except PyErr (Arr2 α)) : Except PyErr (Arr2 α) :=
  (List.range n).foldlM (fun acc i => do
    let b ← f i
    acc.add b) m

/-- The array as a Mathlib matrix of size `k`. -/
def toM (A : Arr2 α) (k : Nat) : Matrix (Fin k) (Fin k) α := fun i j => A.at' i j

end Arr2
end Qudits
