import Mathlib.Logic.Function.Basic
/-
The unique table, /repo/include/dd/UniqueTable.hpp, on a memory of nodes linked by their `next` pointers, and the way
`makeDDNode` (MDDPackage.hpp 317-358) and `normalize` (180-183, 431-434) use it.

Simplifications.  Weights are compared exactly (Edge.hpp 25-28 compares them up to a tolerance).  Addresses are numbers, a fresh
node has the next unused number (the chunks of getNode, 147-159).  Reference counts, statistics and garbage collection are left
out: `incRef`, `decRef`, `garbageCollect` and `clear` name members that the nodes do not have (`e.p`, `e.w`, `ref`), so that no
program that calls them compiles.
-/
namespace Qudits.DD

/-- A pointer: the terminal (`none`) or an address. -/
abbrev Ref := Option Nat

/-- An outgoing edge. -/
structure UEdge (W : Type) where
  node : Ref
  weight : W
  deriving DecidableEq

/-- A node in memory, MDDPackage.hpp 129-148, 361-378. -/
structure UNode (W : Type) where
  var : Nat
  edges : List (UEdge W)
  next : Option Nat

/-- The unique table: memory, `tables[v][key]`, `available`, number of nodes handed out by the chunks. -/
structure UTable (W : Type) where
  mem : Nat → UNode W
  bucket : Nat → Nat → Option Nat
  available : Option Nat
  fresh : Nat

variable {W : Type}

/-- A new table. The contents of unused memory do not matter. -/
def UTable.new (mem : Nat → UNode W) : UTable W := ⟨mem, fun _ _ => none, none, 0⟩

/-- `getNode`, 137-160. -/
def UTable.getNode (s : UTable W) : Nat × UTable W :=
  match s.available with
  | some p => (p, { s with available := (s.mem p).next })
  | none => (s.fresh, { s with fresh := s.fresh + 1 })

/-- `returnNode`, 162-165. -/
def UTable.returnNode (s : UTable W) (p : Nat) : UTable W :=
  { s with mem := Function.update s.mem p { s.mem p with next := s.available }, available := some p }

/-- The assignments to `varIndx` and `edges`, MDDPackage.hpp 332-333 and in `normalize`. -/
def UTable.write (s : UTable W) (p : Nat) (v : Nat) (es : List (UEdge W)) : UTable W :=
  { s with mem := Function.update s.mem p ⟨v, es, (s.mem p).next⟩ }

/-- The loop of `lookup`, 103-126, for at most the given number of rounds; `none` if it is still running then, `some none` if it
found nothing. -/
def search [DecidableEq W] (mem : Nat → UNode W) (es : List (UEdge W)) : Nat → Option Nat → Option (Option Nat)
  | _, none => some none
  | 0, some _ => none
  | k + 1, some p => if es = (mem p).edges then some (some p) else search mem es k (mem p).next

/-- `lookup`, 87-135. The number of rounds of the loop is bounded by the number of nodes; `none` stands for a loop that does not
end. -/
def UTable.lookup [DecidableEq W] (hash : List (UEdge W) → Nat) (s : UTable W) (e : UEdge W) (keepNode : Bool) :
    Option (UEdge W × UTable W) :=
  match e.node with
  | none => some (e, s)
  | some n =>
    let key := hash (s.mem n).edges
    let v := (s.mem n).var
    match search s.mem (s.mem n).edges s.fresh (s.bucket v key) with
    | none => none
    | some (some p) => some (⟨some p, e.weight⟩, if n ≠ p ∧ keepNode = false then s.returnNode n else s)
    | some none =>
      let mem := Function.update s.mem n { s.mem n with next := s.bucket v key }
      some (e, { s with
        mem := mem
        bucket := Function.update s.bucket v (Function.update (s.bucket v) key (some n)) })

/-- `makeDDNode` for a node that normalisation does not make zero: a node is taken, filled (`es` are the edges after
normalisation, `w` the weight it returns) and looked up. -/
def UTable.make [DecidableEq W] (hash : List (UEdge W) → Nat) (s : UTable W) (v : Nat) (es : List (UEdge W)) (w : W) :
    Option (UEdge W × UTable W) :=
  let (p, s) := s.getNode
  (s.write p v es).lookup hash ⟨some p, w⟩ false

/-- `makeDDNode` for zero edges only: `normalize` returns the node to the table unless the weights are cached
(MDDPackage.hpp 178-184, 430-437); in both cases the terminal comes back and `lookup` does nothing. -/
def UTable.makeZero (s : UTable W) (v : Nat) (es : List (UEdge W)) (cached : Bool) : UTable W :=
  let (p, s) := s.getNode
  let s := s.write p v es
  if cached then s else s.returnNode p

end Qudits.DD
