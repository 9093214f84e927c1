import Verif.Model.UniqueTable
/-
What a unique table is for: one node per content.
-/
namespace Qudits.Spec
open DD

variable {W : Type} [DecidableEq W]

/-- The states of a table after any use by the package: nodes are made, zero nodes are given back, and edges to nodes made before
are looked up again. `made` collects the addresses handed out, with variable and edges. -/
inductive Used (hash : List (UEdge W) → Nat) : UTable W → List (Nat × Nat × List (UEdge W)) → Prop
  | new (mem : Nat → UNode W) : Used hash (UTable.new mem) []
  | make (s s' : UTable W) (made) (v : Nat) (es : List (UEdge W)) (w : W) (p : Nat) (w' : W) : Used hash s made →
      s.make hash v es w = some (⟨some p, w'⟩, s') → Used hash s' ((p, v, es) :: made)
  | zero (s : UTable W) (made) (v : Nat) (es : List (UEdge W)) (cached : Bool) : Used hash s made →
      Used hash (s.makeZero v es cached) made
  | again (s s' : UTable W) (made) (p v : Nat) (es : List (UEdge W)) (w : W) (keep : Bool) (e : UEdge W) : Used hash s made →
      (p, v, es) ∈ made → s.lookup hash ⟨some p, w⟩ keep = some (e, s') → Used hash s' made

/-- The diagram below an address down to `n` further levels, without addresses. -/
def Content (W : Type) : Nat → Type
  | 0 => Unit
  | n + 1 => List (W × Option (Content W n))

/-- Read the diagram at an address from memory. -/
def content (mem : Nat → UNode W) : (n : Nat) → Nat → Content W n
  | 0, _ => ()
  | n + 1, p => (mem p).edges.map fun e => (e.weight, e.node.map (content mem n))

/-- Every edge of a made node leads to the terminal or to a made node one variable below. -/
def Layered (made : List (Nat × Nat × List (UEdge W))) : Prop :=
  ∀ p v es, (p, v, es) ∈ made → ∀ e ∈ es, ∀ q, e.node = some q → ∃ v' es', v = v' + 1 ∧ (q, v', es') ∈ made

end Qudits.Spec
