import Mathlib.Analysis.SpecialFunctions.Trigonometric.Basic
import Mathlib.Analysis.Real.Sqrt
/- What a text for a complex number says, independently of how it is written. -/
namespace Qudits.Spec

/-- The imaginary unit behind a number. -/
def unitText (imaginary : Bool) : String := if imaginary then "i" else ""

/-- Texts of numerators. -/
inductive Numerator (imaginary : Bool) : String → ℝ → Prop
  | one (h : imaginary = false) : Numerator imaginary "1" 1
  | i (h : imaginary = true) : Numerator imaginary "i" 1
  | whole (a : Nat) : Numerator imaginary (toString a ++ unitText imaginary) a
  | pi : Numerator imaginary ("π" ++ unitText imaginary) Real.pi
  | pis (a : Nat) : Numerator imaginary (toString a ++ "π" ++ unitText imaginary) (a * Real.pi)

/-- Texts of numbers without sign. -/
inductive Magnitude (imaginary : Bool) : String → ℝ → Prop
  | numerator {t : String} {v : ℝ} (h : Numerator imaginary t v) : Magnitude imaginary t v
  | over {t : String} {v : ℝ} (h : Numerator imaginary t v) (b : Nat) : Magnitude imaginary (t ++ "/" ++ toString b) (v / b)
  | overRoot {t : String} {v : ℝ} (h : Numerator imaginary t v) : Magnitude imaginary (t ++ "/√2") (v / Real.sqrt 2)
  | overBoth {t : String} {v : ℝ} (h : Numerator imaginary t v) (b : Nat) :
      Magnitude imaginary (t ++ "/(" ++ toString b ++ "√2)") (v / (b * Real.sqrt 2))

/-- Texts of real numbers and of real multiples of the imaginary unit; `dec v` is the text of `v` in decimals. -/
inductive TermText (dec : ℝ → String) (imaginary : Bool) : String → ℝ → Prop
  | none {t : String} {v : ℝ} (h : Magnitude imaginary t v) : TermText dec imaginary t v
  | plus {t : String} {v : ℝ} (h : Magnitude imaginary t v) : TermText dec imaginary ("+" ++ t) v
  | minus {t : String} {v : ℝ} (h : Magnitude imaginary t v) : TermText dec imaginary ("-" ++ t) (-v)
  | decimal (v : ℝ) : TermText dec imaginary (dec v ++ unitText imaginary) v
  | decimalPlus (v : ℝ) : TermText dec imaginary ("+" ++ dec v ++ unitText imaginary) v

/-- Texts of complex numbers: one or both parts, or a real number times 1 + i or 1 - i. -/
inductive NumberText (dec : ℝ → String) : String → ℝ → ℝ → Prop
  | zero : NumberText dec "0" 0 0
  | real {t : String} {v : ℝ} (h : TermText dec false t v) : NumberText dec t v 0
  | imag {t : String} {v : ℝ} (h : TermText dec true t v) : NumberText dec t 0 v
  | both {s t : String} {v w : ℝ} (hs : TermText dec false s v) (ht : TermText dec true t w) : NumberText dec (s ++ t) v w
  | diagonal {t : String} {v : ℝ} (h : TermText dec false t v) : NumberText dec (t ++ "(1+i)") v v
  | antidiagonal {t : String} {v : ℝ} (h : TermText dec false t v) : NumberText dec (t ++ "(1-i)") v (-v)

end Qudits.Spec
