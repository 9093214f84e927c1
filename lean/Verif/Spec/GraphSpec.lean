import Verif.Model.LevelGraph
import Mathlib.Logic.Equiv.Basic
import Mathlib.GroupTheory.Perm.Basic
/- What can be observed of an energy-level graph. -/
namespace Qudits.Spec
open LGraph

/-- the value of attribute `k` at node `n` -/
def value (g : LGraph) (n : Int) (k : String) : Option PVal := (PyDict.get? g.nodes n).bind fun a => PyDict.get? a k

/-- the nodes, in order -/
def names (g : LGraph) : List Int := PyDict.keys g.nodes

/-- two edges with the same ends -/
def SameEnds (e f : LEdge) : Prop := (e.1 = f.1 ∧ e.2.1 = f.2.1) ∨ (e.1 = f.2.1 ∧ e.2.1 = f.1)

/-- a graph as networkx keeps it: names are distinct, so are the attributes of a node, no two edges have the same ends, and the ends of
edges are nodes -/
structure Wf (g : LGraph) : Prop where
  nodup : (names g).Nodup
  attrs : ∀ p ∈ g.nodes, (PyDict.keys p.2).Nodup
  simple : g.edges.Pairwise fun e f => ¬ SameEnds e f
  ends : ∀ e ∈ g.edges, e.1 ∈ names g ∧ e.2.1 ∈ names g

/-- all nodes have the same attributes -/
def Uniform (g : LGraph) : Prop :=
  ∀ n ∈ names g, ∀ m ∈ names g, ∀ k, (value g n k).isSome → (value g m k).isSome

/-- `h` is `g` with its nodes renamed by `σ`: node `n` of `h` has the attributes of `σ n` in `g`, and `u`, `v` are joined in `h` as `σ u`
and `σ v` are in `g` -/
structure Renamed (σ : Equiv.Perm Int) (g h : LGraph) : Prop where
  names : names h = names g
  value : ∀ n k, value h n k = value g (σ n) k
  edges : ∀ u v, edgeData h u v = edgeData g (σ u) (σ v)

/-- physical levels `p` and `q` are joined, with the given data -/
def PhysEdge (g : LGraph) (p q : Int) (data : PyDict String Int) : Prop :=
  ∃ u v, value g u "lpmap" = some (.int p) ∧ value g v "lpmap" = some (.int q) ∧ edgeData g u v = some data

/-- any number of swaps in a row -/
def swaps (g : LGraph) (l : List (Int × Int)) : Except PyErr LGraph := l.foldlM (fun h p => h.swapNodes p.1 p.2) g

end Qudits.Spec
