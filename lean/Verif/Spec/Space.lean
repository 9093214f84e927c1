import Mathlib.Data.Matrix.Mul
import Mathlib.Data.Fintype.Pi
import Mathlib.LinearAlgebra.Matrix.ConjTranspose

/-
Specification of operators on a register.

A register has a finite type `ι` of lines; line `i` has a finite set `X i` of levels (in concrete use
`Fin (d i)`).  A basis state is a choice of a level for each line.  An operator on the register is a
square matrix indexed by basis states.
-/
namespace Qudits.Spec

variable {ι : Type} [Fintype ι] [DecidableEq ι] {X : ι → Type}
  [∀ i, Fintype (X i)] [∀ i, DecidableEq (X i)] {α : Type}

/-- Basis states: a level for every line. -/
abbrev Lv (X : ι → Type) := (i : ι) → X i

/-- Levels of the lines in `S` only. -/
abbrev SubLv (X : ι → Type) (S : Finset ι) := (i : S) → X i

/-- Restriction of a basis state to some lines. -/
def restr (S : Finset ι) (x : Lv X) : SubLv X S := fun i => x i

/-- Operator that acts with the matrix `m` on the lines in `S` and does nothing elsewhere:
the entry between `x` and `y` is the entry of `m` between their restrictions to `S` when `x` and `y`
agree on all other lines, and `0` otherwise. -/
def embed [Zero α] (S : Finset ι) (m : Matrix (SubLv X S) (SubLv X S) α) : Matrix (Lv X) (Lv X) α :=
  fun x y => if ∀ i, i ∉ S → x i = y i then m (restr S x) (restr S y) else 0

/-- Operator that acts with `m` on one line. -/
def embed1 [Zero α] (q : ι) (m : Matrix (X q) (X q) α) : Matrix (Lv X) (Lv X) α :=
  fun x y => if ∀ i, i ≠ q → x i = y i then m (x q) (y q) else 0

/-- Operator controlled on the lines in `C` being at the levels `lev`: acts with `A` on the states
satisfying the control and as the identity on all others. -/
def controlled [Zero α] [One α] (C : Finset ι) (lev : Lv X) (A : Matrix (Lv X) (Lv X) α) :
    Matrix (Lv X) (Lv X) α :=
  fun x y => if ∀ i ∈ C, y i = lev i then A x y else if x = y then 1 else 0

end Qudits.Spec
