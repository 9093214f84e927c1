import Verif.Spec.DDSpec
/- What is printed of a vector. -/
namespace Qudits.Spec

variable {n : Nat} {d : Fin n → Nat}

/-- the levels of all lines in decimal digits, the last line first -/
def label (x : Reg d) : List Char := (List.ofFn fun i => (x i : Nat)).reverse.flatMap (Nat.toDigits 10)

/-- the number of a basis state, the last line being the most significant one -/
def number (x : Reg d) : Nat := index (List.ofFn d).reverse (List.ofFn fun i => (x i : Nat)).reverse

/-- a text of at least `w` characters that ends with `s` after blanks -/
def rightAligned (w : Nat) (s t : List Char) : Prop := t.length = max w s.length ∧ ∃ k, t = List.replicate k ' ' ++ s

end Qudits.Spec
