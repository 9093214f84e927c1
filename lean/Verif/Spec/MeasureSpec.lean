import Verif.Spec.QrSpec
/-! # What distances and sensitivities on an energy-level graph are -/
namespace Qudits.Spec
open LGraph

/-- `p` leads from `a` to `b` along edges; nodes may be visited more than once -/
structure Walk (g : LGraph) (a b : Int) (p : List Int) : Prop where
  first : p.head? = some a
  last : p.getLast? = some b
  steps : p.IsChain (Joined g)

/-- `k` is the least number of edges on a walk from `a` to `b` -/
def Distance (g : LGraph) (a b : Int) (k : Nat) : Prop :=
  (∃ p, Walk g a b p ∧ p.length = k + 1) ∧ ∀ p, Walk g a b p → k + 1 ≤ p.length

/-- the sensitivity of the edge between two nodes, 0 if they are not joined -/
def sensitivity (g : LGraph) (u v : Int) : Int := ((edgeData g u v).bind fun d => PyDict.get? d "sensitivity").getD 0

end Qudits.Spec
