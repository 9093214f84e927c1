import Verif.Spec.Register
import Verif.Model.Lanes
import Mathlib.Analysis.Complex.Basic
/-
What a list of gates means: the product of the operators of the gates, later gates to the left.
-/
namespace Qudits.Spec

/-- Product of a list of gates, the first gate being applied first. -/
def circuitOp {γ M : Type} [Monoid M] (sem : γ → M) (l : List γ) : M := (l.map sem).reverse.prod

/-- The gate acts on line `q`. -/
def Touches {β : Type} (q : Int) (g : Op β) : Prop := q ∈ g.target.lines

instance {β : Type} (q : Int) (g : Op β) : Decidable (Touches q g) := inferInstanceAs (Decidable (q ∈ _))

/-- The gates of a circuit that act on line `q`, in order. -/
def lane {β : Type} (q : Int) (l : List (Op β)) : List (Op β) := l.filter fun g => Touches q g

/-- A gate as the library builds it: a single-qudit gate names its line, any other gate names a non-empty list of
different lines. -/
def WellFormed {β : Type} (g : Op β) : Prop :=
  (g.single = true ∧ ∃ q, g.target = .one q) ∨ (g.single = false ∧ ∃ qs, qs ≠ [] ∧ qs.Nodup ∧ g.target = .many qs)

/-- The lines of a register that are named in a list of line numbers. -/
def lineSet (n : Nat) (qs : List Int) : Finset (Fin n) := Finset.univ.filter fun i => ((i : Nat) : Int) ∈ qs

/-- `A` acts only on the named lines. -/
def ActsOn {n : Nat} (d : Fin n → Nat) (qs : List Int) (A : Matrix (Reg d) (Reg d) ℂ) : Prop :=
  ∃ m, A = embed (lineSet n qs) m

end Qudits.Spec
