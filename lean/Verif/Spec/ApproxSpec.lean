import Verif.Spec.PrepSpec
/-! # Parts of a state -/
namespace Qudits.Spec
open MicroDD

/-- the part of the vector in which the first lines are at the given levels -/
def branch : List Nat → List ℂ → List Nat → List ℂ
  | _, data, [] => data
  | c :: cs, data, i :: q => branch cs ((data.drop (i * cs.prod)).take cs.prod) q
  | [], _, _ :: _ => []

/-- the probability of a part of a state: the sum of the squared magnitudes -/
noncomputable def prob (v : List ℂ) : ℝ := (v.map fun x => ‖x‖ ^ 2).sum

/-- `q` names the first lines of a register of the given dimensions, at least one and at most all of them -/
def IsPart (dims q : List Nat) : Prop := 0 < q.length ∧ q.length ≤ dims.length ∧ Levels (dims.take q.length) q

end Qudits.Spec
