import Verif.Model.PyErr
/-
Comparisons of the nodes of a decision tree, /repo/src/mqt/qudits/core/micro_dd.py 8-38.

Simplification.  Of a node only its identity (`id` of Python) and its label are kept, the comparisons read nothing else.  Labels that are
Booleans, which Python counts as integers, are not modelled.
-/
namespace Qudits.NodeOrder

/-- a label: an integer or a text, line 11 -/
inductive Label | int (v : Int) | text (s : String)
  deriving DecidableEq

/-- a node: the object it is and its label -/
structure DNode where
  object : Nat
  value : Label
  deriving DecidableEq

/-- what a comparison method returns: a truth value or `NotImplemented` -/
abbrev Answer := Option Bool

/-- `__lt__`, 22-26 -/
def lt (a b : DNode) : Answer :=
  match a.value, b.value with
  | .int x, .int y => some (decide (x < y))
  | _, _ => some false

/-- `__gt__`, 28-30 -/
def gt (a b : DNode) : Answer := lt b a

/-- `__eq__`; the class has none, so this is `object.__eq__`: `True` on the same object, `NotImplemented` otherwise -/
def eq (a b : DNode) : Answer := if a.object = b.object then some true else none

/-- `x or y` of Python, where `NotImplemented` as the first operand counts as true -/
def orElse (x y : Answer) : Answer := if x = some false then y else x

/-- `__le__`, 32-34 -/
def le (a b : DNode) : Answer := orElse (lt a b) (eq a b)

/-- `__ge__`, 36-38 -/
def ge (a b : DNode) : Answer := orElse (gt a b) (eq a b)

/-- an operator of Python on two objects of one class: the method of the left operand, then the reflected method of the right one, then
`TypeError` -/
def operator (method reflected : DNode → DNode → Answer) (a b : DNode) : Except PyErr Bool :=
  match method a b with
  | some r => .ok r
  | none =>
    match reflected b a with
    | some r => .ok r
    | none => .error .typeError

/-- `a < b` -/
def less (a b : DNode) : Except PyErr Bool := operator lt gt a b
/-- `a > b` -/
def greater (a b : DNode) : Except PyErr Bool := operator gt lt a b
/-- `a <= b` -/
def atMost (a b : DNode) : Except PyErr Bool := operator le ge a b
/-- `a >= b` -/
def atLeast (a b : DNode) : Except PyErr Bool := operator ge le a b

end Qudits.NodeOrder
