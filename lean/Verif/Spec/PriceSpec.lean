import Verif.Spec.QrSpec
/-! # C104: words of the prices on a device -/
namespace Qudits.Spec
open LGraph

/-- the level is marked "r" -/
def Remote (g : LGraph) (n : Int) : Prop := value g n "level" = some (.str "r")

/-- no level of the graph is marked "r" -/
def Plain (d : Nat) (g : LGraph) : Prop := ∀ i : Fin d, ¬ Remote g (i : Nat)

end Qudits.Spec
