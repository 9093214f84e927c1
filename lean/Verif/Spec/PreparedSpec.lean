import Verif.Spec.PrepSpec
import Verif.Spec.SharedSpec
/-! # The vector that state preparation really prepares -/
namespace Qudits.Spec
open MicroDD

open Classical in
/-- The vector that is prepared for a given one (neither is normalised): the lines are taken one after the other. If the line factors out although
the part for its level 0 is zero, then all further lines stay at level 0 and the amplitude for a level of the line is the norm of its part;
otherwise each part is prepared in the same way. The last line is exempt. -/
noncomputable def prepared : List Nat → List ℂ → List Nat → ℂ
  | [], data, _ => data.headD 0
  | _ :: _, _, [] => 0
  | c :: cs, data, l :: p =>
    if cs ≠ [] ∧ Factors c cs.prod data ∧ (∀ x ∈ slice data 0 cs.prod, x = 0) then
      (if ∀ y ∈ p, y = 0 then (vecNorm (slice data l cs.prod) : ℂ) else 0)
    else prepared cs (slice data l cs.prod) p

end Qudits.Spec
