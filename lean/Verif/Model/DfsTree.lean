import Verif.Model.PyErr
import Mathlib.Data.Real.Basic
/-
The tree of partial decompositions, /repo/src/mqt/qudits/core/dfs_tree.py.

A node holds its key, two costs, the finished mark, the number of its children, the key of its parent and its placement; the payload
(`rotation`, `u_of_level`, `max_cost`, `PI_PULSES`) is an arbitrary value.  Python changes nodes in place; here the changed tree is
returned.  A node object occurs once in a tree (`add` always makes a new object), so a reference to a node is a position.
-/
namespace Qudits

/-- `Node` without its children, dfs_tree.py 15-42. -/
structure TNode (α γ : Type) where
  key : Int
  data : α
  graph : γ
  cost : ℝ
  dcost : ℝ
  finished : Bool := false
  size : Nat := 0
  parent : Option Int := none

/-- `Node` with its children. -/
inductive Tree (α γ : Type) where
  | node (rec : TNode α γ) (children : List (Tree α γ))

namespace Tree
variable {α γ : Type}

/-- the node at the top -/
def top : Tree α γ → TNode α γ
  | node r _ => r

/-- `Node.__init__` without children, dfs_tree.py 29-42. -/
def new (key : Int) (data : α) (graph : γ) (cost dcost : ℝ) (parent : Option Int) : Tree α γ :=
  node ⟨key, data, graph, cost, dcost, false, 0, parent⟩ []

/-- `Node.add`, dfs_tree.py 44-73. -/
def nodeAdd (key : Int) (data : α) (graph : γ) (cost dcost : ℝ) : Tree α γ → Tree α γ
  | node r cs => node { r with size := r.size + 1 }
      ((if r.size = 0 then [] else cs) ++ [new key data graph cost dcost (some r.key)])

mutual
/-- `find_node`, dfs_tree.py 124-133: depth first, a node before its children. A node is always true (`__bool__`). -/
def findNode (key : Int) : Tree α γ → Option (Tree α γ)
  | node r cs => if r.key = key then some (node r cs) else findList key cs
/-- the loop over the children -/
def findList (key : Int) : List (Tree α γ) → Option (Tree α γ)
  | [] => none
  | c :: cs => match findNode key c with
    | some t => some t
    | none => findList key cs
end

mutual
/-- the node that `find_node` returns is changed in place -/
def modifyNode (key : Int) (f : Tree α γ → Tree α γ) : Tree α γ → Option (Tree α γ)
  | node r cs => if r.key = key then some (f (node r cs)) else (modifyList key f cs).map (node r)
def modifyList (key : Int) (f : Tree α γ → Tree α γ) : List (Tree α γ) → Option (List (Tree α γ))
  | [] => none
  | c :: cs => match modifyNode key f c with
    | some c' => some (c' :: cs)
    | none => (modifyList key f cs).map (c :: ·)
end

mutual
/-- `max_depth`, dfs_tree.py 143-147. -/
def maxDepth : Tree α γ → Nat
  | node _ cs => if cs.isEmpty then 0 else 1 + (depths cs).foldl max 0
def depths : List (Tree α γ) → List Nat
  | [] => []
  | c :: cs => maxDepth c :: depths cs
end

mutual
/-- `size_refresh`, dfs_tree.py 149-156. -/
def sizeRefresh : Tree α γ → Nat
  | node _ cs => if cs.length = 0 then 0 else cs.length + sizes cs
def sizes : List (Tree α γ) → Nat
  | [] => 0
  | c :: cs => sizeRefresh c + sizes cs
end

mutual
/-- `found_checker`, dfs_tree.py 158-166. It returns the mark of the node it leaves behind. -/
def foundChecker : Tree α γ → Tree α γ
  | node r cs =>
    let cs' := foundList cs
    if cs.isEmpty then node r cs
    else node { r with finished := r.finished || cs'.any fun c => c.top.finished } cs'
def foundList : List (Tree α γ) → List (Tree α γ)
  | [] => []
  | c :: cs => foundChecker c :: foundList cs
end

/-- What `min_cost_decomp` returns. -/
structure Found (α γ : Type) where
  nodes : List (TNode α γ)
  cost : ℝ × ℝ
  graph : γ

/-- `min(children_cost, key=lambda t: t[1][0])`, dfs_tree.py 174: the first of the smallest -/
noncomputable def pyMin : List (Found α γ) → Except PyErr (Found α γ)
  | [] => .error .valueError
  | x :: xs => .ok (xs.foldl (fun b y => if y.cost.1 < b.cost.1 then y else b) x)

mutual
/-- `min_cost_decomp`, dfs_tree.py 168-176. -/
noncomputable def minCost : Tree α γ → Except PyErr (Found α γ)
  | node r cs =>
    if cs.isEmpty then .ok ⟨[r], (r.cost, r.dcost), r.graph⟩
    else do
      let m ← pyMin (← minList cs)
      pure { m with nodes := r :: m.nodes }
noncomputable def minList : List (Tree α γ) → Except PyErr (List (Found α γ))
  | [] => .ok []
  | c :: cs =>
    if c.top.finished then do
      let x ← minCost c
      let xs ← minList cs
      pure (x :: xs)
    else minList cs
end

/-- What `retrieve_decomposition` returns: nodes, costs (`none` for infinite) and a placement. -/
structure Answer (α γ : Type) where
  nodes : List (TNode α γ)
  cost : Option (ℝ × ℝ)
  graph : γ

/-- `retrieve_decomposition`, dfs_tree.py 178-190, and the tree it leaves behind. -/
noncomputable def retrieve (t : Tree α γ) : Tree α γ × Except PyErr (Answer α γ) :=
  let t' := foundChecker t
  (t', if !t'.top.finished then .ok ⟨[], none, t'.top.graph⟩
    else do
      let m ← minCost t'
      pure ⟨m.nodes, some m.cost, m.graph⟩)

end Tree

/-- `NAryTree`, dfs_tree.py 82-87; the attribute `root` does not exist before the first `add`. -/
structure NAryTree (α γ : Type) where
  root : Option (Tree α γ) := none
  size : Nat := 0

namespace NAryTree
variable {α γ : Type}
open Tree

/-- The arguments of `add`. -/
structure AddArgs (α γ : Type) where
  key : Int
  data : α
  graph : γ
  cost : ℝ
  dcost : ℝ
  parent : Option Int := none

/-- `NAryTree.add`, dfs_tree.py 89-122. -/
def add (t : NAryTree α γ) (a : AddArgs α γ) : Except PyErr (NAryTree α γ) :=
  match a.parent with
  | none => .ok ⟨some (Tree.new a.key a.data a.graph a.cost a.dcost none), 1⟩
  | some p =>
    match t.root with
    | none => .error .attributeError
    | some root =>
      match modifyNode p (nodeAdd a.key a.data a.graph a.cost a.dcost) root with
      | none => .error .nodeNotFound
      | some root' => .ok ⟨some root', t.size + 1⟩

/-- `is_empty`, dfs_tree.py 192-193. -/
def isEmpty (t : NAryTree α γ) : Bool := t.size == 0

/-- `total_size`, dfs_tree.py 195-198, and the tree it leaves behind. -/
def totalSize (t : NAryTree α γ) : Except PyErr (NAryTree α γ × Nat) :=
  match t.root with
  | none => .error .attributeError
  | some root => .ok ({ t with size := sizeRefresh root }, sizeRefresh root + 1)

/-- `depth`, dfs_tree.py 135-141. -/
def depth (t : NAryTree α γ) (key : Int) : Except PyErr Nat :=
  match t.root with
  | none => .error .attributeError
  | some root =>
    match findNode key root with
    | none => .error .nodeNotFound
    | some n => .ok (maxDepth n)

end NAryTree
end Qudits
