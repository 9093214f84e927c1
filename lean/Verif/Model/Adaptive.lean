import Verif.Model.LocalQR
import Verif.Model.DfsTree
/-
The adaptive decompositions of a gate on one line:
* /repo/src/mqt/qudits/compiler/onedit/mapping_un_aware_transpilation/log_local_adaptive_decomp.py
* /repo/src/mqt/qudits/compiler/onedit/mapping_aware_transpilation/phy_local_adaptive_decomp.py

Simplifications.  The recursion depth of Python is the argument `fuel`; running out of it is `PyErr.recursion`.  The exception
`SequenceFoundError`, which ends the search, is the third component of the result of `dfs`.  The two classes share `dfs` and `execute`;
what differs is given as arguments (`step`, `extract`).  The thresholds 1e-4 of the two tests are the arguments `off` (an entry off the
diagonal counts as zero) and `del` (a phase counts as zero), so that exact arithmetic is an instance.  `nx.shortest_path` is `sp`.
The graph object that a node shares with its parent (if no pulse was needed) is not changed any more during the search.
-/
namespace Qudits.Adaptive
open LGraph LocalQR Tree

/-- `Node.rotation`, `u_of_level`, `max_cost` and `PI_PULSES`; the root carries an identity gate, which is never put out (`none`). -/
structure NodeData where
  rot : Option RGate
  u : Arr2 ℂ
  limit : ℝ × ℝ
  pulses : List RGate

/-- the tree of a search; `graph` is `None` below the root in the logical search -/
abbrev STree := Tree NodeData (Option LGraph)

/-- `(not not_diag) and valid_diag`, log_local_adaptive_decomp.py 155-166 = phy_local_adaptive_decomp.py 204-216 -/
def IsDiag (off : ℝ) (u : Arr2 ℂ) : Prop :=
  (∀ i < u.rows, ∀ j < u.cols, i ≠ j → ‖u.at' i j‖ ≤ off) ∧ ∃ i < u.rows, i < u.cols ∧ ‖u.at' i i‖ > off

/-- the loops of log_local_adaptive_decomp.py 181-183 -/
def logTriples (n : Nat) : List (Nat × Nat × Nat) :=
  (List.range n).flatMap fun c => (List.range' c (n - c)).flatMap fun r => (List.range' (r + 1) (n - (r + 1))).map fun r2 => (c, r, r2)

/-- the loop of phy_local_adaptive_decomp.py 222-224 -/
def phyTriples (n : Nat) : List (Nat × Nat × Nat) :=
  ((List.range n).flatMap fun c => (List.range n).flatMap fun r => (List.range n).map fun r2 => (c, r, r2)).filter fun t =>
    !(decide (t.2.1 < t.1) || decide (t.2.2 ≤ t.2.1))

/-- A step of the loops: the node with the children made so far, and `global_id_counter`. -/
abbrev Step := STree × Nat → Nat × Nat × Nat → Except PyErr (STree × Nat)

/-- `branch_condition > 0 or abs(branch_condition) < 1.0e-12` -/
def Affordable (limit cost : ℝ) : Prop := limit - cost > 0 ∨ |limit - cost| < 1e-12

open Classical in
/-- Loop body of `LogAdaptiveDecomposition.dfs`, log_local_adaptive_decomp.py 184-215. -/
noncomputable def logStep (dim : Nat) : Step := fun s t => do
  let cur := s.1.top
  let x ← cur.data.u.get t.2.2 t.1
  let y ← cur.data.u.get t.2.1 t.1
  if ‖x‖ > 1e-8 ∧ (‖y‖ > 1e-18 ∨ ‖y‖ = 0) then
    let theta := 2 * arctan2 ‖x‖ ‖y‖
    let phi := -(Real.pi / 2 + Complex.arg y - Complex.arg x)
    let rot ← newRot dim (t.2.1 : Nat) (t.2.2 : Nat) theta phi
    let m ← rArray dim rot.par
    let u ← m.matmul cur.data.u
    let cost := thetaCost rot.par.theta + cur.dcost
    if Affordable cur.data.limit.2 cost then
      pure (nodeAdd (s.2 + 1 : Nat) ⟨some rot, u, cur.data.limit, []⟩ none 0 cost s.1, s.2 + 1)
    else pure s
  else pure s

open Classical in
/-- Loop body of `PhyAdaptiveDecomposition.dfs`, phy_local_adaptive_decomp.py 225-297. -/
noncomputable def phyStep (sp : PathFinder) (dim : Nat) : Step := fun s t => do
  let cur := s.1.top
  let x ← cur.data.u.get t.2.2 t.1
  let y ← cur.data.u.get t.2.1 t.1
  if ‖x‖ > 1e-8 ∧ (‖y‖ > 1e-18 ∨ ‖y‖ = 0) then
    let theta := 2 * arctan2 ‖x‖ ‖y‖
    let phi := -(Real.pi / 2 + Complex.arg y - Complex.arg x)
    let rot ← newRot dim (t.2.1 : Nat) (t.2.2 : Nat) theta phi
    let m ← rArray dim rot.par
    let u ← m.matmul cur.data.u
    match cur.graph with
    | none => .error .attributeError
    | some g =>
      let k ← costCalculator sp dim rot g (countNonzero u)
      let cost := k.piCost + k.gateCost + cur.dcost
      if Affordable cur.data.limit.2 cost then
        let a ← k.placement.lpmap (t.2.1 : Nat)
        let b ← k.placement.lpmap (t.2.2 : Nat)
        let phi := if a > b then phi * -1 else phi
        let r ← newRot dim a b theta phi
        let r ← gateChainCondition dim k.pulses r
        let r ← graphRuleOngate dim r k.placement
        let backs ← k.pulses.mapM fun p => newRot dim p.par.levA p.par.levB p.par.theta (-p.par.phi)
        let g' ← backs.foldlM (fun h p => graphRuleUpdate p h) k.placement
        pure (nodeAdd (s.2 + 1 : Nat) ⟨some r, u, cur.data.limit, k.pulses⟩ (some g') (k.total + cur.cost) cost s.1, s.2 + 1)
      else pure s
  else pure s

/-- the loop over the children; it ends when a sequence is found -/
def visit (f : STree → Nat → Except PyErr (STree × Nat × Bool)) : List STree → Nat → Except PyErr (List STree × Nat × Bool)
  | [], k => .ok ([], k, false)
  | c :: cs, k => do
    let (c', k', found) ← f c k
    if found then pure (c' :: cs, k', true)
    else do
      let (cs', k'', found) ← visit f cs k'
      pure (c' :: cs', k'', found)

open Classical in
/-- `dfs`, log_local_adaptive_decomp.py 153-221, phy_local_adaptive_decomp.py 200-301; the changed node, `global_id_counter` and whether
the search has ended. -/
noncomputable def dfs (off : ℝ) (triples : Nat → List (Nat × Nat × Nat)) (step : Step) : Nat → STree → Nat → Except PyErr (STree × Nat × Bool)
  | 0, _, _ => .error .recursion
  | fuel + 1, .node r cs, k =>
    if IsDiag off r.data.u then .ok (.node { r with finished := true } cs, k, true)
    else do
      let (t, k) ← (triples r.data.u.rows).foldlM step (.node r cs, k)
      match t with
      | .node r' cs' => do
        let (cs'', k, found) ← visit (dfs off triples step fuel) cs' k
        pure (.node r' cs'', k, found)

/-- What `execute` returns; costs are `none` if infinite. -/
structure Result where
  gates : List PInstr
  cost : Option (ℝ × ℝ)
  graph : Option LGraph

/-- `z_extraction`: the nodes of the branch and the placement at its end -/
abbrev Extract := List (TNode NodeData (Option LGraph)) → Option LGraph → Except PyErr (List PInstr × Option LGraph)

/-- the gates of the nodes below the root, log_local_adaptive_decomp.py 112-117 = phy_local_adaptive_decomp.py 124-129 -/
def nodeGates (q : Int) (dim : Nat) (nodes : List (TNode NodeData (Option LGraph))) : List PInstr :=
  nodes.tail.flatMap fun d => (d.data.pulses ++ d.data.rot.toList).map (rotInstr q dim)

open Classical in
/-- `LogAdaptiveDecomposition.z_extraction`, log_local_adaptive_decomp.py 108-151. The placement is not read. -/
noncomputable def logExtract (q : Int) (dim : Nat) (off del : ℝ) : Extract := fun nodes g =>
  match nodes.getLast? with
  | none => .error .indexError
  | some l =>
    if IsDiag off l.data.u then do
      let out ← (List.range l.data.u.rows).foldlM (qrPhase q dim del (fun _ i => .ok (.int i)) {} l.data.u) (nodeGates q dim nodes)
      pure (out, g)
    else .error .runtimeError

/-- One round of the loop over the diagonal if phases are propagated, phy_local_adaptive_decomp.py 151-156. -/
noncomputable def storePhase (del : ℝ) (u : Arr2 ℂ) (g : LGraph) (i : Nat) : Except PyErr LGraph := do
  let x ← u.get i i
  if |Complex.arg x| > del then
    if ← g.hasPhases then
      let z ← g.phase i
      g.setPhase i (newMod (z + Complex.arg x))
    else pure g
  else pure g

open Classical in
/-- `PhyAdaptiveDecomposition.z_extraction`, phy_local_adaptive_decomp.py 119-198. -/
noncomputable def phyExtract (q : Int) (dim : Nat) (off del : ℝ) (zProp : Bool) : Extract := fun nodes g =>
  match nodes.getLast?, g with
  | none, _ => .error .indexError
  | some _, none => .error .attributeError
  | some l, some g =>
    if IsDiag off l.data.u then
      if zProp then do
        let g ← (List.range l.data.u.rows).foldlM (storePhase del l.data.u) g
        pure (nodeGates q dim nodes, some g)
      else do
        let out ← (List.range l.data.u.rows).foldlM (qrPhase q dim del (fun g i => do
          let l ← g.lpmap i
          pure (.int l)) g l.data.u) (nodeGates q dim nodes)
        let (g, more, _) ← takePhases q dim (fun a => attr a "lpmap") g
        pure (out ++ more, some g)
    else .error .runtimeError

/-- The constructors call `phase_storing_setup` (82, 89); `execute`, log_local_adaptive_decomp.py 88-106, phy_local_adaptive_decomp.py
91-117. -/
noncomputable def execute (fuel : Nat) (off : ℝ) (triples : Nat → List (Nat × Nat × Nat)) (step : Step) (extract : Extract) (limit : ℝ × ℝ)
    (u : Arr2 ℂ) (g0 : LGraph) : Except PyErr Result := do
  let g := g0.phaseStoringSetup
  let (t, _, _) ← dfs off triples step fuel (Tree.new 0 ⟨none, u, limit, []⟩ (some g) 0 0 none) 0
  let a ← (retrieve t).2
  if a.nodes.isEmpty then pure ⟨[], a.cost, a.graph⟩
  else do
    let (gates, graph) ← extract a.nodes a.graph
    pure ⟨gates, a.cost, graph⟩

/-- `LogAdaptiveDecomposition(gate, graph, limit, dimension).execute()` -/
noncomputable def logAda (fuel : Nat) (q : Int) (dim : Nat) (off del : ℝ) : ℝ × ℝ → Arr2 ℂ → LGraph → Except PyErr Result :=
  execute fuel off logTriples (logStep dim) (logExtract q dim off del)

/-- `PhyAdaptiveDecomposition(gate, graph, limit, dimension, z_prop).execute()` -/
noncomputable def phyAda (fuel : Nat) (sp : PathFinder) (q : Int) (dim : Nat) (off del : ℝ) (zProp : Bool) :
    ℝ × ℝ → Arr2 ℂ → LGraph → Except PyErr Result :=
  execute fuel off phyTriples (phyStep sp dim) (phyExtract q dim off del zProp)

/-- `LogLocAdaPass.transpile_gate`, log_local_adaptive_decomp.py 33-50, with the graph left in the backend; a graph that is `None` has no
attributes. -/
noncomputable def logAdaGate (fuel : Nat) (sp : PathFinder) (q : Int) (dim : Nat) (u : Arr2 ℂ) (g : Option LGraph) :
    Except PyErr (List PInstr × Option LGraph) :=
  match g with
  | none => .error .attributeError
  | some g => do
    let r ← logQr sp q dim 1e-8 1e-4 false true u g
    let a ← logAda fuel q dim 1e-4 1e-4 (r.alg, r.tot) u r.graph
    pure (a.gates, a.graph)

/-- `PhyLocAdaPass.transpile_gate`, phy_local_adaptive_decomp.py 42-56. -/
noncomputable def phyAdaGate (fuel : Nat) (sp : PathFinder) (q : Int) (dim : Nat) (vrzProp : Bool) (u : Arr2 ℂ) (g : Option LGraph) :
    Except PyErr (List PInstr × Option LGraph) :=
  match g with
  | none => .error .attributeError
  | some g => do
    let r ← phyQr sp q dim 1e-8 1e-4 false true u g
    let a ← phyAda fuel sp q dim 1e-4 1e-4 vrzProp (r.alg, r.tot) u r.graph
    pure (revDag a.gates, a.graph)

end Qudits.Adaptive
