import Verif.Model.LevelGraph
import Mathlib.Analysis.SpecialFunctions.Complex.Arg
/-
The QR decompositions of a gate on one line and the routing of rotations through the energy-level graph:
* /repo/src/mqt/qudits/compiler/onedit/local_operation_swap/swap_routine.py
* /repo/src/mqt/qudits/compiler/compilation_minitools/local_compilation_minitools.py (rotation_cost_calc)
* /repo/src/mqt/qudits/compiler/onedit/mapping_un_aware_transpilation/log_local_qr_decomp.py
* /repo/src/mqt/qudits/compiler/onedit/mapping_aware_transpilation/phy_local_qr_decomp.py

Simplifications.  The two `execute` methods differ in three places only (the level of a pending phase gate, the gates put out for a
rotation, the level of a final phase gate); they are one definition here with these three places as arguments.  The array of the
gate, `gate.to_matrix(identities=0)`, is an argument.  The two thresholds 1e-8 and 1e-4 are arguments too, so that the statement for
exact arithmetic (thresholds 0) and the statement for the thresholds in the code are instances of one theorem.
`nx.shortest_path` is the argument `sp`.
-/
namespace Qudits
open LGraph

/-- A rotation object. Besides its parameters it remembers the order in which the levels were given (r.py 41-45, 91-92). -/
structure RGate where
  origA : Int
  origB : Int
  par : TwoLevel

namespace LocalQR

/-- `gates.R(circuit, "R", qudit, [a, b, theta, phi], dimension)` -/
noncomputable def newRot (dim : Nat) (a b : Int) (theta phi : ℝ) : Except PyErr RGate := do
  let p ← rInit dim (.list [.int a, .int b, .flt theta, .flt phi])
  pure ⟨a, b, p⟩

/-- the rotation as an instruction on line `q` -/
def rotInstr (q : Int) (dim : Nat) (g : RGate) : PInstr := ⟨.r g.par, .one q, dim, none, false⟩

/-- `gates.VirtRz(circuit, "VRz", qudit, [lev, phi], dimension)` -/
noncomputable def phaseInstr (q : Int) (dim : Nat) (lev : PVal) (phi : ℝ) : PInstr :=
  ⟨.virtRz (virtRzInit dim (.list [lev, .flt phi])), .one q, dim, none, false⟩

/-- `np.arctan2(y, x)` -/
noncomputable def arctan2 (y x : ℝ) : ℝ := Complex.arg ⟨x, y⟩

/-! ### routing, swap_routine.py -/

/-- `node_data["lpmap"] == lev` -/
def isLevel (v : PVal) (lev : Int) : Bool :=
  match v with
  | .int k => k == lev
  | _ => false

/-- `find_logic_from_phys`, swap_routine.py 22-31: the last node with each physical level, -1 if there is none. -/
def findLogic (a b : Int) (g : LGraph) : Except PyErr (Int × Int) :=
  g.nodes.foldlM (fun s p => do
    let v ← attr p.2 "lpmap"
    pure (if isLevel v a then p.1 else s.1, if isLevel v b then p.1 else s.2)) (-1, -1)

/-- `graph.nodes[n]["phase_storage"] += pi` and reduction, swap_routine.py 52-53 -/
noncomputable def addPi (g : LGraph) (n : Int) : Except PyErr LGraph := do
  let x ← g.phase n
  g.setPhase n (newMod (x + Real.pi))

/-- `graph_rule_update`, swap_routine.py 34-59. The graph is changed in place; here the changed graph is returned. -/
noncomputable def graphRuleUpdate (r : RGate) (g : LGraph) : Except PyErr LGraph :=
  if |(|r.par.theta| - Real.pi)| < 1e-2 then do
    if !(← g.hasPhases) then pure g
    else
      let n ← findLogic r.par.levA r.par.levB g
      if n.1 ≠ -1 ∧ n.2 ≠ -1 then
        let g ← g.swapNodeAttrSimple n.1 n.2
        let phase := piMod r.par.phi
        if r.par.theta * phase > 0 then addPi g n.2
        else if r.par.theta * phase < 0 then addPi g n.1
        else pure g
      else pure g
  else pure g

/-- `graph_rule_ongate`, swap_routine.py 62-85. -/
noncomputable def graphRuleOngate (dim : Nat) (r : RGate) (g : LGraph) : Except PyErr RGate := do
  if !(← g.hasPhases) then pure r
  else
    let n ← findLogic r.par.levA r.par.levB g
    let phi1 ← if n.1 ≠ -1 then do pure (r.par.phi - (← g.phase n.1)) else pure r.par.phi
    let phi2 ← if n.2 ≠ -1 then do pure (phi1 + (← g.phase n.2)) else pure phi1
    newRot dim r.par.levA r.par.levB r.par.theta phi2

/-- the angle chosen in `gate_chain_condition`, swap_routine.py 93-115 -/
noncomputable def chainTheta (last cur : TwoLevel) : ℝ :=
  if cur.levA = last.levA then cur.theta
  else if cur.levB = last.levB then
    (if cur.levA < last.levA ∨ cur.levA > last.levA then cur.theta * -1 else cur.theta)
  else if cur.levA = last.levB then cur.theta * -1
  else cur.theta

/-- `gate_chain_condition`, swap_routine.py 89-123. -/
noncomputable def gateChainCondition (dim : Nat) (prev : List RGate) (cur : RGate) : Except PyErr RGate :=
  match prev.getLast? with
  | none => .ok cur
  | some last => newRot dim cur.par.levA cur.par.levB (chainTheta last.par cur.par) cur.par.phi

/-- `rotation_cost_calc`, local_compilation_minitools.py 57-74. -/
noncomputable def rotationCost (sp : PathFinder) (r : RGate) (g : LGraph) : Except PyErr ℝ := do
  let ia ← g.isIrnode r.origA
  let ib ← g.isIrnode r.origB
  if ia || ib then
    let f ← g.fstInode
    let x ← g.distanceNodes sp f r.origA
    let y ← g.distanceNodes sp f r.origB
    pure (((min x y + 1 : Int) : ℝ) * thetaCost r.par.theta)
  else pure (thetaCost r.par.theta)

/-- `list[i]` of a path -/
def nodeAt (path : List Int) (i : Nat) : Except PyErr Int :=
  match path[i]? with
  | some n => .ok n
  | none => .error .indexError

/-- `swap_elements`, local_compilation_minitools.py 14-19 -/
def swapElements (path : List Int) (i j : Nat) : Except PyErr (List Int) := do
  let a ← nodeAt path i
  let b ← nodeAt path j
  pure ((path.set i b).set j a)

/-- The loop of `route_states2rotate_basic`, swap_routine.py 140-166; the first argument is `i`. -/
noncomputable def routeLoop (sp : PathFinder) (dim : Nat) :
    Nat → List Int → LGraph → ℝ → List RGate → Except PyErr (ℝ × List RGate × LGraph)
  | 0, _, g, cost, pulses => .ok (cost, pulses, g)
  | i + 1, path, g, cost, pulses => do
    let x ← nodeAt path (i + 1)
    let y ← nodeAt path (i + 2)
    let px ← g.lpmap x
    let py ← g.lpmap y
    let r0 ← newRot dim px py Real.pi (-Real.pi / 2)
    let r1 ← gateChainCondition dim pulses r0
    let r2 ← graphRuleOngate dim r1 g
    let lr ← newRot dim x y r2.par.theta (r2.par.phi / 2)
    let k ← rotationCost sp lr g
    let g' ← g.swapNodes y x
    let path' ← swapElements path (i + 2) (i + 1)
    routeLoop sp dim i path' g' (cost + k) (pulses ++ [r2])

/-- `route_states2rotate_basic`, swap_routine.py 126-168. -/
noncomputable def route (sp : PathFinder) (dim : Nat) (r : RGate) (g : LGraph) : Except PyErr (ℝ × List RGate × LGraph) := do
  let path ← sp g r.origA r.origB
  routeLoop sp dim (path.length - 2) path g 0 []

/-- What `cost_calculator` returns. -/
structure Costs where
  total : ℝ
  pulses : List RGate
  placement : LGraph
  piCost : ℝ
  gateCost : ℝ

/-- `cost_calculator`, swap_routine.py 171-176. -/
noncomputable def costCalculator (sp : PathFinder) (dim : Nat) (r : RGate) (g : LGraph) (nonZeros : Nat) : Except PyErr Costs := do
  let (k, pulses, g') ← route sp dim r g
  let c ← rotationCost sp r g'
  pure ⟨(c + k) * nonZeros, pulses, g', k, c⟩

/-! ### the decomposition -/

/-- `np.count_nonzero(abs(u_) > 1.0e-4)` -/
noncomputable def countNonzero (u : Arr2 ℂ) : Nat :=
  ((Finset.range u.rows ×ˢ Finset.range u.cols).filter fun p => ‖u.at' p.1 p.2‖ > 1e-4).card

/-- Local variables of `execute`. -/
structure QrState where
  u : Arr2 ℂ
  decomp : List PInstr := []
  alg : ℝ := 0
  tot : ℝ := 0

/-- The gates put out for a rotation: arguments are the rotation, the row, its two angles, the pulses and the placement. -/
abbrev Emit := RGate → Nat → ℝ → ℝ → List RGate → LGraph → Except PyErr (List PInstr)

/-- log_local_qr_decomp.py 143 -/
def logEmit (q : Int) (dim : Nat) : Emit := fun r _ _ _ _ _ => .ok [rotInstr q dim r]

/-- phy_local_qr_decomp.py 114-140 -/
noncomputable def phyEmit (q : Int) (dim : Nat) : Emit := fun _ row theta phi pulses g => do
  let a ← g.lpmap ((row : Int) - 1)
  let b ← g.lpmap row
  let phi := if a > b then phi * -1 else phi
  let r ← newRot dim a b theta phi
  let r ← gateChainCondition dim pulses r
  let backs ← pulses.reverse.mapM fun p => newRot dim p.par.levA p.par.levB p.par.theta (-p.par.phi)
  pure (pulses.map (rotInstr q dim) ++ [rotInstr q dim r] ++ backs.map (rotInstr q dim))

/-- Body of the two loops, log_local_qr_decomp.py 97-146 = phy_local_qr_decomp.py 97-143. -/
noncomputable def qrStep (sp : PathFinder) (dim : Nat) (eps : ℝ) (emit : Emit) (g : LGraph) (c : Nat) (st : QrState) (r : Nat) :
    Except PyErr QrState := do
  let x ← st.u.get r c
  if ‖x‖ > eps then
    let y ← st.u.get (r - 1) c
    let theta := 2 * arctan2 ‖x‖ ‖y‖
    let phi := -(Real.pi / 2 + Complex.arg y - Complex.arg x)
    let rot ← newRot dim ((r : Int) - 1) r theta phi
    let m ← rArray dim rot.par
    let u ← m.matmul st.u
    let k ← costCalculator sp dim rot g (countNonzero u)
    let out ← emit rot r theta phi k.pulses k.placement
    pure ⟨u, st.decomp ++ out, st.alg + k.total, st.tot + (2 * k.piCost + k.gateCost)⟩
  else pure st

/-- `dim_iterator[:dim_iterator.index(c)]` with `dim_iterator` the reversed range, 90-96 -/
def rowsOf (n c : Nat) : List Nat := (List.range n).reverse.take ((List.range n).reverse.idxOf c)

/-- One column, 93-146. -/
noncomputable def qrColumn (sp : PathFinder) (dim : Nat) (eps : ℝ) (emit : Emit) (g : LGraph) (n : Nat) (st : QrState) (c : Nat) :
    Except PyErr QrState := (rowsOf n c).foldlM (qrStep sp dim eps emit g c) st

/-- One round of the loop over the diagonal, log_local_qr_decomp.py 150-162, phy_local_qr_decomp.py 147-159. -/
noncomputable def qrPhase (q : Int) (dim : Nat) (del : ℝ) (levelAt : LGraph → Nat → Except PyErr PVal) (g : LGraph) (u : Arr2 ℂ)
    (acc : List PInstr) (i : Nat) : Except PyErr (List PInstr) := do
  let x ← u.get i i
  if |Complex.arg x| > del then
    let l ← levelAt g i
    pure (acc ++ [phaseInstr q dim l (Complex.arg x)])
  else pure acc

/-- One round of the loop over pending phases, 74-88; `recover_dict` is the third component. -/
noncomputable def takePhase (q : Int) (dim : Nat) (preLevel : Attrs → Except PyErr PVal)
    (s : LGraph × List PInstr × PyDict Nat ℝ) (i : Nat) : Except PyErr (LGraph × List PInstr × PyDict Nat ℝ) := do
  let x ← s.1.phase i
  let z := newMod x
  let out ← if |z| > 1e-4 then do
      let a ← s.1.node i
      let l ← preLevel a
      pure (s.2.1 ++ [phaseInstr q dim l z])
    else pure s.2.1
  let g ← s.1.setPhase i 0
  pure (g, out, PyDict.set s.2.2 i z)

/-- 70-88 -/
noncomputable def takePhases (q : Int) (dim : Nat) (preLevel : Attrs → Except PyErr PVal) (g : LGraph) :
    Except PyErr (LGraph × List PInstr × PyDict Nat ℝ) := do
  if ← g.hasPhases then (List.range g.nodes.length).foldlM (takePhase q dim preLevel) (g, [], [])
  else pure (g, [], [])

/-- log_local_qr_decomp.py 164-168, phy_local_qr_decomp.py 161-165 -/
noncomputable def restorePhases (g : LGraph) (saved : PyDict Nat ℝ) : Except PyErr LGraph := do
  if ← g.hasPhases then
    (List.range g.nodes.length).foldlM (fun h i =>
      match PyDict.get? saved i with
      | some z => h.setPhase i z
      | none => .error .keyError) g
  else pure g

/-- What `execute` returns, and the graph it leaves behind. -/
structure QrResult where
  decomp : List PInstr
  alg : ℝ
  tot : ℝ
  graph : LGraph

/-- `execute` of both classes; `eps` is 1e-8 and `del` is 1e-4 in the code. -/
noncomputable def execute (sp : PathFinder) (q : Int) (dim : Nat) (eps del : ℝ) (preLevel : Attrs → Except PyErr PVal) (emit : Emit)
    (levelAt : LGraph → Nat → Except PyErr PVal) (zProp notStandAlone : Bool) (u : Arr2 ℂ) (g0 : LGraph) : Except PyErr QrResult := do
  let (g, pre, saved) ← if zProp then pure (g0, [], []) else takePhases q dim preLevel g0
  let st ← (List.range u.cols).foldlM (qrColumn sp dim eps emit g u.rows) ⟨u, pre, 0, 0⟩
  let out ← (List.range u.rows).foldlM (qrPhase q dim del levelAt g st.u) st.decomp
  let g ← if notStandAlone && !zProp then restorePhases g saved else pure g
  pure ⟨out, st.alg, st.tot, g⟩

/-- `QrDecomp(gate, graph, z_prop, not_stand_alone).execute()`. The level given to a pending phase gate is the attribute dictionary of
the node, which is no level at all (log_local_qr_decomp.py 81); any value that is not a level stands for it. -/
noncomputable def logQr (sp : PathFinder) (q : Int) (dim : Nat) (eps del : ℝ) : Bool → Bool → Arr2 ℂ → LGraph → Except PyErr QrResult :=
  execute sp q dim eps del (fun _ => .ok (.str "node")) (logEmit q dim) (fun g i => do
    let _ ← g.node i
    pure (.int i))

/-- `PhyQrDecomp(gate, graph, z_prop, not_stand_alone).execute()` -/
noncomputable def phyQr (sp : PathFinder) (q : Int) (dim : Nat) (eps del : ℝ) : Bool → Bool → Arr2 ℂ → LGraph → Except PyErr QrResult :=
  execute sp q dim eps del (fun a => attr a "lpmap") (phyEmit q dim) (fun g i => do
    let l ← g.lpmap i
    pure (.int l))

/-! ### the passes -/

/-- `op.dag()`, gate.py 86-89: sets the mark -/
def dag (g : PInstr) : PInstr := { g with dagger := true }

/-- `[op.dag() for op in reversed(l)]` -/
def revDag (l : List PInstr) : List PInstr := l.reverse.map dag

/-- `LogLocQRPass.transpile_gate`, log_local_qr_decomp.py 29-33, with the graph left in the backend. -/
noncomputable def logPassGate (sp : PathFinder) (q : Int) (dim : Nat) (u : Arr2 ℂ) (g : LGraph) : Except PyErr (List PInstr × LGraph) := do
  let r ← logQr sp q dim 1e-8 1e-4 false false u g
  pure (r.decomp, r.graph)

/-- `PhyLocQRPass.transpile_gate`, phy_local_qr_decomp.py 27-31. -/
noncomputable def phyPassGate (sp : PathFinder) (q : Int) (dim : Nat) (u : Arr2 ℂ) (g : LGraph) : Except PyErr (List PInstr × LGraph) := do
  let r ← phyQr sp q dim 1e-8 1e-4 false false u g
  pure (revDag r.decomp, r.graph)

/-- What `PhyLocQRPass.transpile` puts into the circuit for one gate, phy_local_qr_decomp.py 40-42. -/
noncomputable def phyPassInCircuit (sp : PathFinder) (q : Int) (dim : Nat) (u : Arr2 ℂ) (g : LGraph) :
    Except PyErr (List PInstr × LGraph) := do
  let (l, g) ← phyPassGate sp q dim u g
  pure (revDag l, g)

end LocalQR
end Qudits
