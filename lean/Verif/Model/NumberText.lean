import Mathlib.Analysis.SpecialFunctions.Trigonometric.Basic
import Mathlib.Analysis.Real.Sqrt
/-
Numbers as text: /repo/include/dd/ComplexValue.hpp 75-108 (getLowestFraction), 110-189 (printFormatted), 191-236 (toString).

Simplifications.  Floating-point numbers are real numbers with exact arithmetic, SQRT2_2 is √2/2 and PI is π; there is no negative zero.  Numbers of
type uint64 are natural numbers.  What a stream prints for a number of type `double` is a parameter `dec`, which stands for any precision.
-/
namespace Qudits.DD
open Classical

/-- The loop of `getLowestFraction`, ComplexValue.hpp 84-103, and the lines after it, 104-107; `none` if the loop has not ended after so many rounds. -/
noncomputable def searchFraction (x : ℝ) (maxDen : Nat) (tol : ℝ) : Nat → Nat × Nat → Nat × Nat → Option (Nat × Nat)
  | 0, _, _ => none
  | k + 1, lo, up =>
    if lo.2 ≤ maxDen ∧ up.2 ≤ maxDen then
      let num := lo.1 + up.1
      let den := lo.2 + up.2
      let median : ℝ := num / den
      if |x - median| ≤ tol then
        if den ≤ maxDen then some (num, den)
        else if up.2 > lo.2 then some up
        else some lo
      else if x > median then searchFraction x maxDen tol k (num, den) up
      else searchFraction x maxDen tol k lo (num, den)
    else if lo.2 > maxDen then some up
    else some lo

/-- `getLowestFraction`, ComplexValue.hpp 75-108, followed for so many rounds of its loop. -/
noncomputable def lowestFraction (rounds : Nat) (x : ℝ) (maxDen : Nat) (tol : ℝ) : Option (Nat × Nat) := searchFraction x maxDen tol rounds (0, 1) (1, 0)

/-- A number of rounds after which the loop has ended for the default denominator 1U << 10. -/
noncomputable def enough (x : ℝ) : Nat := ⌊x⌋₊ + 2 * 1024 + 4

/-- The parts of a text for a fraction `f`: ComplexValue.hpp 125-134 with `one` for "1" or "i", `unit` for "" or "i". -/
def fractionText (one unit : String) (f : Nat × Nat) : String :=
  if f.1 = 1 ∧ f.2 = 1 then one
  else if f.2 = 1 then toString f.1 ++ unit
  else if f.1 = 1 then one ++ "/" ++ toString f.2
  else toString f.1 ++ unit ++ "/" ++ toString f.2

/-- ComplexValue.hpp 148-158. -/
def rootText (one unit : String) (f : Nat × Nat) : String :=
  if f.1 = 1 ∧ f.2 = 1 then one ++ "/√2"
  else if f.2 = 1 then toString f.1 ++ unit ++ "/√2"
  else if f.1 = 1 then one ++ "/(" ++ toString f.2 ++ "√2)"
  else toString f.1 ++ unit ++ "/(" ++ toString f.2 ++ "√2)"

/-- ComplexValue.hpp 171-180. -/
def piText (unit : String) (f : Nat × Nat) : String :=
  if f.1 = 1 ∧ f.2 = 1 then "π" ++ unit
  else if f.2 = 1 then toString f.1 ++ "π" ++ unit
  else if f.1 = 1 then "π" ++ unit ++ "/" ++ toString f.2
  else toString f.1 ++ "π" ++ unit ++ "/" ++ toString f.2

/-- `printFormatted`, ComplexValue.hpp 110-189; `none` if a search does not end. -/
noncomputable def printFormatted (dec : ℝ → String) (tol num : ℝ) (imaginary : Bool) : Option String :=
  let unit := if imaginary then "i" else ""
  let one := if imaginary then "i" else "1"
  if |num| ≤ tol then some ((if num < 0 then "-" else "+") ++ "0" ++ unit)
  else do
    let sign := if num < 0 then "-" else if imaginary then "+" else ""
    let absnum := |num|
    let f ← lowestFraction (enough absnum) absnum 1024 tol
    if |absnum - (f.1 : ℝ) / f.2| ≤ tol then some (sign ++ fractionText one unit f)
    else do
      let abssqrt := absnum / (Real.sqrt 2 / 2)
      let f ← lowestFraction (enough abssqrt) abssqrt 1024 tol
      if |abssqrt - (f.1 : ℝ) / f.2| ≤ tol then some (sign ++ rootText one unit f)
      else do
        let abspi := absnum / Real.pi
        let f ← lowestFraction (enough abspi) abspi 1024 tol
        if |abspi - (f.1 : ℝ) / f.2| ≤ tol then some (sign ++ piText unit f)
        else if imaginary then some ((if num < 0 then "" else "+") ++ dec num ++ "i")
        else some (dec num)

/-- What `toString` writes for the real part, ComplexValue.hpp 204-210. -/
noncomputable def realText (dec : ℝ → String) (tol real : ℝ) (formatted : Bool) : Option String :=
  if |real| > tol then (if formatted then printFormatted dec tol real false else some (dec real)) else some ""

/-- What `toString` writes behind the text `s` of the real part, ComplexValue.hpp 211-235. -/
noncomputable def imagText (dec : ℝ → String) (tol real imag : ℝ) (formatted : Bool) (s : String) : Option String :=
  if |imag| > tol then
    if formatted then
      if |real - imag| ≤ tol then some (s ++ "(1+i)")
      else if |real + imag| ≤ tol then some (s ++ "(1-i)")
      else (printFormatted dec tol imag true).map (s ++ ·)
    else if |real| ≤ tol then some (s ++ dec imag ++ "i")
    else some (s ++ (if imag > 0 then "+" else "") ++ dec imag ++ "i")
  else some s

/-- `toString`, ComplexValue.hpp 191-236. -/
noncomputable def numberText (dec : ℝ → String) (tol real imag : ℝ) (formatted : Bool) : Option String :=
  if |real| ≤ tol ∧ |imag| ≤ tol then some "0"
  else (realText dec tol real formatted).bind (imagText dec tol real imag formatted)

end Qudits.DD
