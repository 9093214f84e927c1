import Verif.Model.QasmFile
import Verif.Spec.QasmText

/-
What the theorems on saved circuits assume, and what it means that a loaded gate is the saved one.
-/
namespace Qudits.Qasm
open Qudits

/-- A custom gate as one of the three builders made it from a matrix with entries, without controls. -/
structure MatrixGate (dims : List Nat) (g : FGate) : Prop where
  built : ∃ t, construct dims g.gate.cls t .array none = .ok g.gate
  cls : g.gate.cls ∈ [.cuOne, .cuTwo, .cuMulti]
  lines : ∀ q ∈ g.gate.base.target.lines, 0 ≤ q
  data : ∃ a, g.data = some a ∧ a.rows * a.cols ≠ 0

/-- A custom gate which, if it is one for several lines, names at least two. -/
structure CustomGate (dims : List Nat) (g : FGate) : Prop extends MatrixGate dims g where
  several : g.gate.cls = .cuOne ∨ 2 ≤ g.gate.base.target.lines.length

/-- The gates that come back from a file: those that come back from a text, and custom gates. -/
def Saveable (F : PyFloat) (dims : List Nat) (g : FGate) : Prop :=
  (Plain F dims g.gate ∧ g.data = none) ∨ CustomGate dims g

/-- The keys drawn are four letters each, and the first `n` of them are different. -/
structure GoodKeys (keys : Nat → Text) (n : Nat) : Prop where
  letters : ∀ i, (keys i).length = 4 ∧ ∀ x ∈ keys i, x.isAlpha = true
  distinct : ∀ i j, i < n → j < n → keys i = keys j → i = j

/-- A directory name the reader can find again in the text. -/
structure GoodDir (dir : Text) : Prop where
  nonempty : dir ≠ []
  paren : ')' ∉ dir
  newline : '\n' ∉ dir

/-- the same gate object with the same array -/
def FSame (g g' : FGate) : Prop := Same g.gate g'.gate ∧ g'.data = g.data

end Qudits.Qasm
