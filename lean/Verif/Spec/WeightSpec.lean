import Verif.Model.MicroDD
/-! # C108: nodes of a decision tree -/
namespace Qudits.Spec

/-- `x` is the tree itself or below it -/
inductive Inside : MicroDD → MicroDD → Prop
  | here (t : MicroDD) : Inside t t
  | child (x c t : MicroDD) (hc : c ∈ t.children) (h : Inside x c) : Inside x t

end Qudits.Spec
