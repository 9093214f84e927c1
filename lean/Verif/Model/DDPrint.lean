import Verif.Model.DD
/-
Printing a vector diagram, /repo/include/dd/MDDPackage.hpp 1754-1786.

Simplifications as in Model/DD.lean.  The printed lines are returned, as lists of characters; the text of a complex number (`ComplexValue::toString`,
Model/NumberText.lean) is a parameter.
-/
namespace Qudits.DD
open Classical

/-- `ComplexValue::approximatelyZero`, ComplexValue.hpp 34-37, ComplexTable.hpp 88-90 -/
def ApproxZero (tol : ℝ) (z : ℂ) : Prop := |z.re| ≤ tol ∧ |z.im| ≤ tol

/-- `std::setw(width) << s` -/
def setw (width : Nat) (s : List Char) : List Char := List.replicate (width - s.length) ' ' ++ s

/-- One line of text, MDDPackage.hpp 1770-1782: the digits one after the other, then the amplitude. -/
def printLine (txt : ℂ → List Char) (repr : List Nat) (a : ℂ) : List Char :=
  repr.flatMap (Nat.toDigits 10) ++ [':', ' '] ++ setw (1 + 2 + 3 + 1 + 2 + 3 + 1) (txt a)

/-- `printVector(edge, nonZero)`, MDDPackage.hpp 1754-1786; registers from the top. -/
noncomputable def printVector (tol : ℝ) (txt : ℂ → List Char) (ds : List Nat) (e : Edge ds) (nonZero : Bool) : Except Err (List (List Char)) :=
  (List.range ds.prod).foldlM (fun out i => do
    let repr := reprOfIndex ds i ds.prod
    let a ← valueByPathV ds e 1 repr
    pure (if ¬ ApproxZero tol a ∨ nonZero = false then out ++ [printLine txt repr a] else out)) []

end Qudits.DD
