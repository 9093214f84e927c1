import Verif.Model.DfsTree
/- Nodes and branches of a tree of decompositions. -/
namespace Qudits.Spec
open Tree
variable {α γ : Type}

mutual
/-- all nodes, a node before those below it, from left to right -/
def nodes : Tree α γ → List (TNode α γ)
  | .node r cs => r :: nodesL cs
def nodesL : List (Tree α γ) → List (TNode α γ)
  | [] => []
  | c :: cs => nodes c ++ nodesL cs
end

mutual
/-- the ways from the top to a node without children, from left to right -/
def branches : Tree α γ → List (List (TNode α γ))
  | .node r [] => [[r]]
  | .node r (c :: cs) => (branchesL (c :: cs)).map (r :: ·)
def branchesL : List (Tree α γ) → List (List (TNode α γ))
  | [] => []
  | c :: cs => branches c ++ branchesL cs
end

/-- some node is marked as finished -/
def Finished (t : Tree α γ) : Prop := ∃ r ∈ nodes t, r.finished = true

mutual
/-- some node with children is marked as finished, and no node below it is -/
def Stuck : Tree α γ → Prop
  | .node r cs => (cs ≠ [] ∧ r.finished = true ∧ ∀ x ∈ nodesL cs, x.finished = false) ∨ StuckL cs
def StuckL : List (Tree α γ) → Prop
  | [] => False
  | c :: cs => Stuck c ∨ StuckL cs
end

mutual
/-- every node knows the number of its children, and its children know its key -/
def Linked : Tree α γ → Prop
  | .node r cs => r.size = cs.length ∧ (∀ c ∈ cs, c.top.parent = some r.key) ∧ LinkedL cs
def LinkedL : List (Tree α γ) → Prop
  | [] => True
  | c :: cs => Linked c ∧ LinkedL cs
end

/-- a node without the number of its children -/
def bare (r : TNode α γ) : TNode α γ := { r with size := 0 }

/-- a node that is marked as finished -/
def marked (r : TNode α γ) : TNode α γ := { r with finished := true }

/-- the last node of a branch is marked as finished and costs `x` -/
def EndsAt (p : List (TNode α γ)) (x : ℝ) : Prop := ∃ l, p.getLast? = some l ∧ l.finished = true ∧ l.cost = x

end Qudits.Spec
