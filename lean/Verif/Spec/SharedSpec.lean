import Verif.Model.MicroDD
namespace Qudits.Spec
open MicroDD

/-- The first line (of `c` levels) factors out: at least two of the parts into which it splits the state, each of length `m`, are non-zero, and the
non-zero ones are positive multiples of each other. -/
def Factors (c m : Nat) (data : List ℂ) : Prop :=
  (∃ i j, i < c ∧ j < c ∧ i ≠ j ∧ (∃ x ∈ slice data i m, x ≠ 0) ∧ (∃ x ∈ slice data j m, x ≠ 0)) ∧
  ∀ i j, i < c → j < c → (∃ x ∈ slice data i m, x ≠ 0) → (∃ x ∈ slice data j m, x ≠ 0) →
    ∃ r : ℝ, 0 < r ∧ slice data i m = (slice data j m).map fun x => (r : ℂ) * x

/-- No line but the last factors out, neither of the state nor of a part of it for given levels of the lines before. -/
def Unshared : List Nat → List ℂ → Prop
  | c :: c' :: cs, data => ¬ Factors c (c' :: cs).prod data ∧ ∀ i, i < c → Unshared (c' :: cs) (slice data i (c' :: cs).prod)
  | _, _ => True

end Qudits.Spec
