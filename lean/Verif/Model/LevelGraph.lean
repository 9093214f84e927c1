import Verif.Model.PyDict
import Verif.Model.PyErr
import Verif.Model.GateArrays
import Verif.Model.PhasePasses
/-
The energy-level graph of a qudit, /repo/src/mqt/qudits/core/level_graph.py, and the part of networkx.Graph it inherits.

Simplifications.  A graph is the ordered dictionary of its nodes (`self._node`) and the list of its edges, each once, in the
order of insertion.  networkx lists edges grouped by node, possibly with the ends exchanged; this order shows only in the choice
among paths of the same length, and `nx.shortest_path` is a parameter of everything that calls it.
-/
namespace Qudits

/-- The attributes of a node. -/
abbrev Attrs := PyDict String PVal

/-- An edge with its data. -/
abbrev LEdge := Int × Int × PyDict String Int

/-- A `LevelGraph`. `owner` is `qudit_index` and the dimension of that line if `og_circuit` is set. -/
structure LGraph where
  nodes : PyDict Int Attrs := []
  edges : List LEdge := []
  owner : Option (Int × Nat) := none

namespace LGraph

/-- `dict.update` -/
def update {ν : Type} (d e : PyDict String ν) : PyDict String ν := e.foldl (fun d p => PyDict.set d p.1 p.2) d

/-- `self.nodes[n]` -/
def node (g : LGraph) (n : Int) : Except PyErr Attrs :=
  match PyDict.get? g.nodes n with
  | some a => .ok a
  | none => .error .keyError

/-- `d[k]` of an attribute dictionary -/
def attr (a : Attrs) (k : String) : Except PyErr PVal :=
  match PyDict.get? a k with
  | some v => .ok v
  | none => .error .keyError

/-- `nx.Graph.add_node(n, **attrs)` -/
def addNode (g : LGraph) (n : Int) (a : Attrs) : LGraph :=
  { g with nodes := PyDict.set g.nodes n (update ((PyDict.get? g.nodes n).getD []) a) }

/-- the two ends, in either order -/
def joins (u v : Int) (e : LEdge) : Bool := (e.1 == u && e.2.1 == v) || (e.1 == v && e.2.1 == u)

/-- `nx.Graph.add_edge(u, v, **data)`: missing ends become nodes, an edge that exists is updated. -/
def addEdge (g : LGraph) (e : LEdge) : LGraph :=
  let g := if (PyDict.get? g.nodes e.1).isSome then g else g.addNode e.1 []
  let g := if (PyDict.get? g.nodes e.2.1).isSome then g else g.addNode e.2.1 []
  if g.edges.any (joins e.1 e.2.1) then
    { g with edges := g.edges.map fun f => if joins e.1 e.2.1 f then (f.1, f.2.1, update f.2.2 e.2.2) else f }
  else { g with edges := g.edges ++ [e] }

/-- `nx.Graph.get_edge_data(u, v)` -/
def edgeData (g : LGraph) (u v : Int) : Option (PyDict String Int) := (g.edges.find? (joins u v)).map fun e => e.2.2

/-- `nx.set_node_attributes(self, values, name)`: nodes that do not exist are skipped. -/
def setNodeAttributes (g : LGraph) (values : List (Int × PVal)) (name : String) : LGraph :=
  { g with nodes := values.foldl (fun ns p =>
      match PyDict.get? ns p.1 with
      | some a => PyDict.set ns p.1 (PyDict.set a name p.2)
      | none => ns) g.nodes }

/-- `define__states`, level_graph.py 68-76. -/
def defineStates (g : LGraph) (initNodes inreach : List Int) : LGraph :=
  (g.setNodeAttributes (inreach.map fun n : Int => (n, .str "r")) "level").setNodeAttributes
    (initNodes.map fun n : Int => (n, .str "i")) "level"

/-- `LevelGraph(edges, nodes, nodes_physical_mapping, initialization_nodes, ...)`, level_graph.py 19-41, for a plain list of
nodes. -/
def create (edges : List LEdge) (nodes : List Int) (mapping : List Int) (initNodes : Option (List Int))
    (owner : Option (Int × Nat)) : LGraph :=
  let g : LGraph := nodes.foldl (fun g n => g.addNode n []) { owner := owner }
  let g := if mapping = [] then g else g.setNodeAttributes ((nodes.zip mapping).map fun p : Int × Int => (p.1, .int p.2)) "lpmap"
  let g := edges.foldl addEdge g
  match initNodes with
  | none => g
  | some l => g.defineStates l ((PyDict.keys g.nodes).filter fun x => x ∉ l)

/-- `phase_storing_setup`, level_graph.py 43-47. -/
def phaseStoringSetup (g : LGraph) : LGraph :=
  { g with nodes := g.nodes.map fun p : Int × Attrs =>
      (p.1, if (PyDict.get? p.2 "phase_storage").isSome then p.2 else PyDict.set p.2 "phase_storage" (.flt 0)) }

/-- One end of an edge in `update_list`, level_graph.py 84-106. -/
def relabel (a b x : Int) : Int := if x = a then b else if x = b then a else x

/-- `update_list`, level_graph.py 78-109. -/
def updateList (l : List (Int × Int)) (a b : Int) : List (Int × Int) := l.map fun t : Int × Int => (relabel a b t.1, relabel a b t.2)

/-- `index`, level_graph.py 123-129. -/
def index : PyDict Int Attrs → Int → Except PyErr Nat
  | [], _ => .error .valueError
  | p :: ps, n => if p.1 = n then .ok 0 else (index ps n).map (· + 1)

/-- `nodelist[i][1][attr] = v` -/
def setAttrAt (ns : PyDict Int Attrs) (i : Nat) (k : String) (v : PVal) : PyDict Int Attrs :=
  ns.modify i fun p => (p.1, PyDict.set p.2 k v)

/-- `nodelist[i][1]` -/
def attrsAt (ns : PyDict Int Attrs) (i : Nat) : Attrs := (ns[i]?.map Prod.snd).getD []

/-- Loop of `swap_node_attributes`, level_graph.py 137-143. -/
def swapAttrs (i j : Nat) (ns : PyDict Int Attrs) (k : String) : Except PyErr (PyDict Int Attrs) := do
  let va ← attr (attrsAt ns i) k
  let vb ← attr (attrsAt ns j) k
  pure (setAttrAt (setAttrAt ns i k vb) j k va)

/-- `swap_node_attributes`, level_graph.py 131-145. -/
def swapNodeAttributes (g : LGraph) (a b : Int) : Except PyErr (PyDict Int Attrs) := do
  let i ← index g.nodes a
  let j ← index g.nodes b
  (PyDict.keys (attrsAt g.nodes 0)).foldlM (swapAttrs i j) g.nodes

/-- `res_list.index(n)`, level_graph.py 148-150. -/
def position (g : LGraph) (n : Int) : Except PyErr Int :=
  if n ∈ PyDict.keys g.nodes then .ok ((PyDict.keys g.nodes).idxOf n : Nat) else .error .valueError

/-- `[x for x, y in self.nodes(data=True) if y["level"] == s]` -/
def levelNodes (g : LGraph) (s : String) : Except PyErr (List Int) :=
  g.nodes.foldlM (fun acc p => do
    let v ← attr p.2 "level"
    pure (match v with
      | .str t => if t = s then acc ++ [p.1] else acc
      | _ => acc)) []

/-- `fst_inode`, level_graph.py 221-224. -/
def fstInode (g : LGraph) : Except PyErr Int := do
  match ← g.levelNodes "i" with
  | [] => .error .indexError
  | n :: _ => pure n

/-- `is_irnode`, level_graph.py 226-228. -/
def isIrnode (g : LGraph) (n : Int) : Except PyErr Bool := do
  let l ← g.levelNodes "r"
  pure (decide (n ∈ l))

/-- `"phase_storage" in self.nodes[self.fst_inode]` -/
def hasPhases (g : LGraph) : Except PyErr Bool := do
  let n ← g.fstInode
  let a ← g.node n
  pure (PyDict.get? a "phase_storage").isSome

/-- `self.nodes[n]["phase_storage"]` -/
noncomputable def phase (g : LGraph) (n : Int) : Except PyErr ℝ := do
  let a ← g.node n
  match ← attr a "phase_storage" with
  | .flt x => pure x
  | .int k => pure k
  | .str _ => .error .typeError

/-- `self.nodes[n]["phase_storage"] = x` -/
def setPhase (g : LGraph) (n : Int) (x : ℝ) : Except PyErr LGraph := do
  let a ← g.node n
  pure { g with nodes := PyDict.set g.nodes n (PyDict.set a "phase_storage" (.flt x)) }

/-- `swap_node_attr_simple`, level_graph.py 147-157: names are replaced by positions (149-150), which are used as names. -/
noncomputable def swapNodeAttrSimple (g : LGraph) (a b : Int) : Except PyErr LGraph := do
  let i ← g.position a
  let j ← g.position b
  if ← g.hasPhases then
    let x ← g.phase i
    let y ← g.phase j
    let g ← g.setPhase i y
    g.setPhase j x
  else pure g

/-- `swap_nodes`, level_graph.py 159-178: the new graph has no circuit and no line (162). -/
def swapNodes (g : LGraph) (a b : Int) : Except PyErr LGraph := do
  let ns ← g.swapNodeAttributes a b
  let new : LGraph := ns.foldl (fun h p => h.addNode p.1 p.2) {}
  let ends := updateList (g.edges.map fun e : LEdge => (e.1, e.2.1)) a b
  let data := g.edges.map fun e : LEdge => (g.edgeData e.1 e.2.1).getD []
  pure ((ends.zip data).foldl (fun h (p : (Int × Int) × PyDict String Int) => h.addEdge (p.1.1, p.1.2, p.2)) new)

/-- `self.nodes[n]["lpmap"]` -/
def lpmap (g : LGraph) (n : Int) : Except PyErr Int := do
  let a ← g.node n
  match ← attr a "lpmap" with
  | .int k => pure k
  | _ => .error .typeError

/-- `log_phy_map`, level_graph.py 234-238: nodes are distinct, so that the inner loop finds the node itself. -/
def logPhyMap (g : LGraph) : Except PyErr (List PVal) := g.nodes.mapM fun p => attr p.2 "lpmap"

/-- `get_vrz_gates`, level_graph.py 180-200. -/
noncomputable def getVrzGates (g : LGraph) : Except PyErr (List PInstr) :=
  match g.owner with
  | none => .ok []
  | some (q, dim) =>
    g.nodes.foldlM (fun acc p =>
      match PyDict.get? p.2 "phase_storage" with
      | none => pure acc
      | some _ => do
        let x ← g.phase p.1
        if x > 1e-3 ∨ pyMod x (2 * Real.pi) > 1e-3 then do
          let l ← attr p.2 "lpmap"
          pure (acc ++ [⟨.virtRz (virtRzInit dim (.list [l, .flt x])), .one q, dim, none, false⟩])
        else pure acc) []

/-- `nx.shortest_path(graph, source, target)`: the nodes on the path. -/
abbrev PathFinder := LGraph → Int → Int → Except PyErr (List Int)

/-- `distance_nodes`, level_graph.py 49-51. -/
def distanceNodes (sp : PathFinder) (g : LGraph) (a b : Int) : Except PyErr Int := do
  let p ← sp g a b
  pure ((p.length : Int) - 1)

/-- `distance_nodes_pi_pulses_fixed_ancilla`, level_graph.py 53-62. -/
def distanceAncilla (sp : PathFinder) (g : LGraph) (a b : Int) : Except PyErr Int := do
  let p ← sp g a b
  pure ((2 * (p.countP fun n : Int => n < 0) : Int) - 1 + (p.countP fun n : Int => 0 ≤ n) - 1)

/-- `self[u][v]["sensitivity"]` of the data of an edge -/
def sensitivityOf (data : PyDict String Int) : Except PyErr Int :=
  match PyDict.get? data "sensitivity" with
  | some k => .ok k
  | none => .error .keyError

/-- `self.neighbors(n)`, used at level_graph.py 203: networkx.Graph raises for a node that does not exist (NetworkXError, written `nodeNotFound`
here). A node joined to itself is its own neighbour, once. -/
def neighbors (g : LGraph) (n : Int) : Except PyErr (List Int) :=
  if n ∈ PyDict.keys g.nodes then
    .ok ((g.edges.filter fun e => e.1 == n || e.2.1 == n).map fun e => if e.1 == n then e.2.1 else e.1)
  else .error .nodeNotFound

/-- `get_edge_sensitivity`, level_graph.py 211-214, and `self[a][b]["sensitivity"]`: a node or an edge that does not exist is a KeyError. -/
def edgeSensitivity (g : LGraph) (a b : Int) : Except PyErr Int :=
  match g.edgeData a b with
  | some data => sensitivityOf data
  | none => .error .keyError

/-- `get_node_sensitivity_cost`, level_graph.py 202-209. -/
def nodeSensitivity (g : LGraph) (n : Int) : Except PyErr Int := do
  let ns ← g.neighbors n
  ns.foldlM (fun acc m => do
    let k ← g.edgeSensitivity n m
    pure (acc + k)) 0

/-- `fst_rnode`, level_graph.py 216-219. -/
def fstRnode (g : LGraph) : Except PyErr Int := do
  match ← g.levelNodes "r" with
  | [] => .error .indexError
  | n :: _ => pure n

/-- `is_inode`, level_graph.py 230-232. -/
def isInode (g : LGraph) (n : Int) : Except PyErr Bool := do
  let l ← g.levelNodes "i"
  pure (decide (n ∈ l))

end LGraph
end Qudits
