import Verif.Spec.DDSpec
/- What spreading an excitation over lines means. -/
namespace Qudits.Spec

variable {n k : Nat} {d : Fin n → Nat}

/-- all the lines are at level 0 -/
def Ground (ls : Fin k → Fin n) (x : Reg d) : Prop := ∀ i, (x (ls i) : Nat) = 0

/-- line `j` of the list is at level 1, the other lines of the list at level 0 -/
def Excited (ls : Fin k → Fin n) (j : Fin k) (x : Reg d) : Prop := ∀ i, (x (ls i) : Nat) = if i = j then 1 else 0

/-- the lines outside the list are at the same levels -/
def SameElsewhere (ls : Fin k → Fin n) (x y : Reg d) : Prop := ∀ q, (∀ i, ls i ≠ q) → x q = y q

/-- `φ` is `ψ` with the excitation of line `i` spread evenly over all the lines of the list: the amplitudes of the ground states are kept, the amplitude of
a state with the excitation on any line is `1/√k` times the one `ψ` has when the excitation is on line `i`, and there is nothing else. -/
def SpreadOf (ls : Fin k → Fin n) (i : Fin k) (ψ φ : Reg d → ℂ) : Prop :=
  (∀ x, Ground ls x → φ x = ψ x) ∧
  (∀ j x y, Excited ls j x → Excited ls i y → SameElsewhere ls x y → φ x = ((1 / Real.sqrt k : ℝ) : ℂ) * ψ y) ∧
  ∀ x, ¬ Ground ls x → (∀ j, ¬ Excited ls j x) → φ x = 0

end Qudits.Spec
