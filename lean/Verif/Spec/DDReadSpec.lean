import Verif.Spec.DDSpec
import Verif.Model.DDReadAll
import Mathlib.Data.Set.Card
import Mathlib.Logic.Relation
/-
What counting the nodes of a diagram means.
-/
namespace Qudits.Spec
open DD

/-- One step down in a diagram: an edge out of the first node points to the second one. -/
def StepDown : Ptr → Ptr → Prop
  | ⟨[], _⟩, _ => False
  | ⟨_ :: _, n⟩, b => ∃ e ∈ n.edges, nextNode e = b

/-- The nodes of a diagram: all that are reached from the node of the edge, the terminal included. -/
def nodesOf {ds : List Nat} (e : Edge ds) : Set Ptr := {b | Relation.ReflTransGen StepDown (nextNode e) b}

end Qudits.Spec
