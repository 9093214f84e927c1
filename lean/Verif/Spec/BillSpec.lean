import Verif.Spec.PriceSpec
import Verif.Model.LocalQR
/-! # C105: the bill for a list of gates -/
namespace Qudits.Spec

/-- the price of an instruction: `cost` of a rotation (r.py:103-104); phase gates are done in software and are not counted -/
noncomputable def price (x : PInstr) : ℝ :=
  match x.kind with
  | .r p => thetaCost p.theta
  | _ => 0

/-- the prices of the gates, added up -/
noncomputable def bill (l : List PInstr) : ℝ := (l.map price).sum

/-- neighbouring levels are coupled -/
def NeighboursCoupled (d : Nat) (g : LGraph) : Prop := ∀ a b : Fin d, (b : Nat) = a + 1 → Joined g (a : Nat) (b : Nat)

end Qudits.Spec
