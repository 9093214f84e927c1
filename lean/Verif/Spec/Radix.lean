import Mathlib.Algebra.BigOperators.Group.List.Basic
import Mathlib.Data.List.OfFn

/- Mixed-radix index of a list of levels; line 0 is the most significant digit. -/
namespace Qudits.Spec

/-- Index of the basis state with levels `ls` on lines of dimensions `ds`. -/
def index : List Nat → List Nat → Nat
  | _ :: ds, l :: ls => l * ds.prod + index ds ls
  | _, _ => 0

/-- The level list is as long as the dimension list and every level exists on its line. -/
def Levels (dims ls : List Nat) : Prop := List.Forall₂ (fun l d => l < d) ls dims

/-- Index of a basis state given as a function on the lines. -/
def idx {n : Nat} (d : Fin n → Nat) (x : (i : Fin n) → Fin (d i)) : Nat :=
  index (List.ofFn d) (List.ofFn fun i => (x i : Nat))

end Qudits.Spec
