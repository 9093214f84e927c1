import Verif.Model.Lanes
import Verif.Model.Adaptive
import Verif.Model.EntQR
/-
The compiler: /repo/src/mqt/qudits/compiler/dit_compiler.py, and the lookup in /repo/src/mqt/qudits/core/lanes.py it uses.

Simplifications.  A circuit is its dimensions, its instructions and its mappings (the copy that is made of it is a deep one, so that the
original is not changed).  A gate object of the circuit is an `Op`: its identity, whether its type is SINGLE, its target, and the array
that `to_matrix(identities=0)` returns; what is read of other gates besides is kept in a table by identity (`Other`).  The dimension of a
gate of type SINGLE is that of its array.  Negative line numbers are not modelled (they raise here).  The backend is the list of its
graphs.  `sp` is `nx.shortest_path`, `rnd` rounds to six digits, `fuel` is the recursion depth of Python.
-/
namespace Qudits

namespace Lanes
variable {β : Type}

/-- the entries of the index of `find_consecutive_singles` in the order in which they are written, lanes.py 101-106 -/
def lookupEntries (groups : PyDict Int (List (List (LaneItem β)))) : List (Nat × Int × Nat × Nat) :=
  groups.flatMap fun kv => kv.2.zipIdx.flatMap fun gi => gi.1.zipIdx.map fun ti => (ti.1.2.oid, kv.1, gi.2, ti.2)

/-- `fast_lookup`, lanes.py 101-106; gate objects are compared by identity -/
def fastLookup (groups : PyDict Int (List (List (LaneItem β)))) : PyDict Nat (Int × Nat × Nat) :=
  (lookupEntries groups).foldl (fun d e => PyDict.set d e.1 e.2) []

/-- `next_is_local`, lanes.py 127-133 -/
def nextIsLocal (groups : PyDict Int (List (List (LaneItem β)))) (oid : Nat) : Except PyErr Bool :=
  match PyDict.get? (fastLookup groups) oid with
  | none => .error .keyError
  | some (line, k, j) =>
    match PyDict.get? groups line with
    | none => .error .keyError
    | some gs =>
      match gs[k]? with
      | none => .error .indexError
      | some g => .ok (decide ((g.length : Int) - 1 ≠ j))

/-- `Lanes(circuit)`, lanes.py 19-25, 39-56: the lanes and `consecutive_view` -/
def new (l : List (Op β)) : Except PyErr (PyDict Int (List (LaneItem β)) × PyDict Int (List (List (LaneItem β)))) := do
  let d ← create (preProcess 0 l)
  let v ← findConsecutive (preProcess 0 l)
  pure (d, v)

end Lanes

namespace Compiler
open LocalQR LGraph

/-- The classes of passes in `passes_enabled`. -/
inductive PassClass where
  | phyLocQR | phyLocAda | logLocQR | zPropagation | zRemoval | logEntQR | phyEntQR | locResynth
  deriving DecidableEq, Repr

/-- `QuditCompiler.passes_enabled`, dit_compiler.py 22-33 -/
def passesEnabled : PyDict String PassClass :=
  [("PhyLocQRPass", .phyLocQR), ("PhyLocAdaPass", .phyLocAda), ("LocQRPass", .phyLocQR), ("LocAdaPass", .phyLocAda),
    ("LogLocQRPass", .logLocQR), ("ZPropagationOptPass", .zPropagation), ("ZRemovalOptPass", .zRemoval), ("LogEntQRCEXPass", .logEntQR),
    ("PhyEntQRCEXPass", .phyEntQR), ("NaiveLocResynthOptPass", .locResynth)]

/-- The tests for "Loc", "Ent" and "Multi" in the name of the class, dit_compiler.py 45-50: the names ZPropagationOptPass and
ZRemovalOptPass (of modules whose path has only "local", "onedit", …) contain none of them. -/
def slotOf : PassClass → Option GateType
  | .phyLocQR => some .single
  | .phyLocAda => some .single
  | .logLocQR => some .single
  | .locResynth => some .single
  | .logEntQR => some .two
  | .phyEntQR => some .two
  | .zPropagation => none
  | .zRemoval => none

/-- `passes_dict` -/
structure Slots where
  single : Option PassClass := none
  two : Option PassClass := none
  multi : Option PassClass := none

/-- `passes_dict.get(gate.gate_type)` -/
def Slots.get (s : Slots) : GateType → Option PassClass
  | .single => s.single
  | .two => s.two
  | .multi => s.multi

/-- `passes_dict[…] = decomposition` -/
def Slots.put (s : Slots) (c : PassClass) : Slots :=
  match slotOf c with
  | some .single => { s with single := some c }
  | some .two => { s with two := some c }
  | some .multi => { s with multi := some c }
  | none => s

/-- The first loop of `compile`, dit_compiler.py 42-50. -/
def slots (names : List String) : Except PyErr Slots :=
  names.foldlM (fun s n => match PyDict.get? passesEnabled n with
    | some c => .ok (s.put c)
    | none => .error .keyError) {}

/-- What is read of a gate that is not of type SINGLE: whether its type is TWO (else it is MULTI), `dimensions`, and the parameters and the
mark if it is a CEx. -/
structure Other where
  two : Bool
  dims : List Nat
  cex : Option (CExParams × Bool) := none

/-- `gate.gate_type` -/
def typeOf (other : Nat → Other) (g : Op (Arr2 ℂ)) : GateType :=
  if g.single then .single else if (other g.oid).two then .two else .multi

/-- An instruction of the new circuit: a gate of the old one, a gate made by a pass for one line, or one made by a pass for two lines. -/
inductive CInstr where
  | kept (g : Op (Arr2 ℂ))
  | one (x : PInstr)
  | pair (e : EntQR.EGate)

/-- `backend.energy_level_graphs`; an entry can become `None` (phy_local_adaptive_decomp.py 55) -/
abbrev Graphs := List (Option LGraph)

/-- `backend.energy_level_graphs[q]` -/
def graphAt (b : Graphs) (q : Int) : Except PyErr (Option LGraph) :=
  if q < 0 then .error .indexError
  else match b[q.toNat]? with
    | some g => .ok g
    | none => .error .indexError

/-- reading an attribute of a graph that may be `None` -/
def theGraph : Option LGraph → Except PyErr LGraph
  | some g => .ok g
  | none => .error .attributeError

/-- an integer attribute; comparing or indexing with anything else raises -/
def asInt : PVal → Except PyErr Int
  | .int n => .ok n
  | _ => .error .typeError

/-- `[lev for lev in graph.log_phy_map if lev < dimension]`, dit_compiler.py 62, phy_ent_qr_cex_decomp.py 32-33; the entries are integers -/
def levelsOf (g : Option LGraph) (dim : Nat) : Except PyErr (List Int) := do
  let g ← theGraph g
  let l ← g.logPhyMap
  let l ← l.mapM asInt
  pure (EntQR.levelList l dim)

/-- A pass on one line reads the graph of the line; `f` gives the new gates and the graph left in the backend. A list of targets is no
index. -/
def onLine (f : Int → Nat → Arr2 ℂ → Option LGraph → Except PyErr (List PInstr × Option LGraph)) (b : Graphs) (g : Op (Arr2 ℂ)) :
    Except PyErr (List CInstr × Graphs) :=
  match g.target with
  | .many _ => .error .typeError
  | .one q => do
    let gr ← graphAt b q
    let (l, gr') ← f q g.body.rows g.body gr
    pure (l.map .one, b.set q.toNat gr')

/-- `PhyLocQRPass.transpile_gate` or `LogLocQRPass.transpile_gate` on a graph that may be `None` -/
def withGraph (f : Int → Nat → Arr2 ℂ → LGraph → Except PyErr (List PInstr × LGraph)) (q : Int) (dim : Nat) (u : Arr2 ℂ)
    (gr : Option LGraph) : Except PyErr (List PInstr × Option LGraph) := do
  let gr ← theGraph gr
  let (l, gr') ← f q dim u gr
  pure (l, some gr')

/-- `list[i]` -/
def itemAt {γ : Type} (l : List γ) (i : Nat) : Except PyErr γ :=
  match l[i]? with
  | some x => .ok x
  | none => .error .indexError

/-- `phyloc.transpile_gate(perm)`, phy_ent_qr_cex_decomp.py 53-56, of which only the graph is used later -/
noncomputable def compilePerm (sp : PathFinder) (q : Int) (dim : Nat) (u : Arr2 ℂ) (b : Graphs) : Except PyErr Graphs := do
  let gr ← graphAt b q
  let (_, gr') ← withGraph (phyPassGate sp) q dim u gr
  pure (b.set q.toNat gr')

/-- `PhyEntQRCEXPass.transpile_gate`, phy_ent_qr_cex_decomp.py 25-66. The four permutation gates are compiled (with the effect this has on
the graphs) and then not used. An integer is no list. -/
noncomputable def phyEnt (sp : PathFinder) (rnd : ℝ → ℝ) (o : Other) (b : Graphs) (g : Op (Arr2 ℂ)) : Except PyErr (List CInstr × Graphs) :=
  match g.target with
  | .one _ => .error .typeError
  | .many qs => do
    let q0 ← itemAt qs 0
    let g0 ← graphAt b q0
    let q1 ← itemAt qs 1
    let g1 ← graphAt b q1
    let d0 ← itemAt o.dims 0
    let lp0 ← levelsOf g0 d0
    let d1 ← itemAt o.dims 1
    let lp1 ← levelsOf g1 d1
    match o.cex with
    | some (p, dagger) => do
      let e ← EntQR.phyCEx ⟨q0, q1, d0, d1⟩ lp0 lp1 p dagger
      pure ([.pair e], b)
    | none => do
      let p0 ← permInit d0 lp0
      let p1 ← permInit d1 lp1
      let b ← compilePerm sp q0 d0 (permArray d0 p0) b
      let b ← compilePerm sp q1 d1 (permArray d1 p1) b
      let b ← compilePerm sp q0 d0 (permArray d0 p0).conjT b
      let b ← compilePerm sp q1 d1 (permArray d1 p1).conjT b
      let l ← EntQR.phyOther ⟨q0, q1, d0, d1⟩ lp0 lp1 rnd g.body
      pure (l.map .pair, b)

/-- `LogEntQRCEXPass.transpile_gate`, log_ent_qr_cex_decomp.py 32-36. -/
noncomputable def logEnt (rnd : ℝ → ℝ) (o : Other) (b : Graphs) (g : Op (Arr2 ℂ)) : Except PyErr (List CInstr × Graphs) :=
  match g.target with
  | .one _ => .error .typeError
  | .many qs => do
    let d0 ← itemAt o.dims 0
    let d1 ← itemAt o.dims 1
    let q0 ← itemAt qs 0
    let q1 ← itemAt qs 1
    let l ← EntQR.logPassGate ⟨q0, q1, d0, d1⟩ rnd g.body
    pure (l.map .pair, b)

/-- `PhyLocAdaPass(backend, vrz_prop).transpile_gate` -/
noncomputable def phyLocAda (fuel : Nat) (sp : PathFinder) (vrzProp : Bool) : Graphs → Op (Arr2 ℂ) → Except PyErr (List CInstr × Graphs) :=
  onLine fun q dim u gr => Adaptive.phyAdaGate fuel sp q dim vrzProp u gr

/-- `PhyLocQRPass(backend).transpile_gate` -/
noncomputable def phyLocQR (sp : PathFinder) : Graphs → Op (Arr2 ℂ) → Except PyErr (List CInstr × Graphs) :=
  onLine (withGraph (phyPassGate sp))

/-- `decomposer.transpile_gate(gate)`, dit_compiler.py 54. -/
noncomputable def transpileGate (fuel : Nat) (sp : PathFinder) (rnd : ℝ → ℝ) (other : Nat → Other) (c : PassClass) (b : Graphs)
    (g : Op (Arr2 ℂ)) : Except PyErr (List CInstr × Graphs) :=
  match c with
  | .phyLocQR => phyLocQR sp b g
  | .phyLocAda => phyLocAda fuel sp false b g
  | .logLocQR => onLine (withGraph (logPassGate sp)) b g
  | .zPropagation => .ok ([.kept g], b)
  | .zRemoval => .ok ([.kept g], b)
  | .logEntQR => logEnt rnd (other g.oid) b g
  | .phyEntQR => phyEnt sp rnd (other g.oid) b g
  | .locResynth => .error .notImplemented

/-- A loop over the gates that collects what `f` makes of them. -/
def collect (f : Graphs → Op (Arr2 ℂ) → Except PyErr (List CInstr × Graphs)) :
    Graphs → List (Op (Arr2 ℂ)) → Except PyErr (List CInstr × Graphs)
  | b, [] => .ok ([], b)
  | b, g :: gs => do
    let (l, b') ← f b g
    let (m, b'') ← collect f b' gs
    pure (l ++ m, b'')

/-- What the compiler reads of a circuit: `dimensions` and `instructions`. -/
structure Circuit where
  dims : List Nat
  gates : List (Op (Arr2 ℂ))

/-- The new circuit: `instructions`, `mappings`; and the graphs left in the backend. The dimensions are those of the old one. -/
structure Compiled where
  gates : List CInstr
  mappings : List (List Int)
  graphs : Graphs

/-- The loop over the graphs, dit_compiler.py 59-63 = 71-74 = 93-96 = 117-120. -/
def mappings (b : Graphs) (dims : List Nat) : Except PyErr (List (List Int)) :=
  (b.zip dims).mapM fun gd => levelsOf gd.1 gd.2

/-- `finish`: copy, mapping, instructions, dit_compiler.py 58-64 -/
def finish (dims : List Nat) (r : List CInstr × Graphs) : Except PyErr Compiled := do
  let m ← mappings r.2 dims
  pure ⟨r.1, m, r.2⟩

/-- Body of the second loop of `compile`, dit_compiler.py 52-56, for any behaviour `run` of the passes. -/
def compileGate (run : PassClass → Graphs → Op (Arr2 ℂ) → Except PyErr (List CInstr × Graphs)) (other : Nat → Other) (s : Slots) (b : Graphs)
    (g : Op (Arr2 ℂ)) : Except PyErr (List CInstr × Graphs) :=
  match s.get (typeOf other g) with
  | some c => run c b g
  | none => .ok ([.kept g], b)

/-- `compile`, dit_compiler.py 37-64, for any behaviour `run` of the passes. -/
def compileWith (run : PassClass → Graphs → Op (Arr2 ℂ) → Except PyErr (List CInstr × Graphs)) (other : Nat → Other) (b : Graphs) (c : Circuit)
    (names : List String) : Except PyErr Compiled := do
  let s ← slots names
  let r ← collect (compileGate run other s) b c.gates
  finish c.dims r

/-- `QuditCompiler.compile`, dit_compiler.py 37-64. -/
noncomputable def compile (fuel : Nat) (sp : PathFinder) (rnd : ℝ → ℝ) (other : Nat → Other) (b : Graphs) (c : Circuit) (names : List String) :
    Except PyErr Compiled :=
  compileWith (transpileGate fuel sp rnd other) other b c names

/-- `compile_O0`, dit_compiler.py 66-75: the mapping is computed a second time. -/
noncomputable def compileO0 (fuel : Nat) (sp : PathFinder) (rnd : ℝ → ℝ) (other : Nat → Other) (b : Graphs) (c : Circuit) : Except PyErr Compiled := do
  let r ← compile fuel sp rnd other b c ["PhyLocQRPass", "PhyEntQRCEXPass"]
  finish c.dims (r.gates, r.graphs)

/-- Loop body of `compile_O1`, dit_compiler.py 84-91: whatever is not of type SINGLE goes to the pass for two lines. -/
noncomputable def gateO1 (sp : PathFinder) (rnd : ℝ → ℝ) (other : Nat → Other) (b : Graphs) (g : Op (Arr2 ℂ)) :
    Except PyErr (List CInstr × Graphs) :=
  if g.single then phyLocQR sp b g else phyEnt sp rnd (other g.oid) b g

/-- `compile_O1`, dit_compiler.py 77-99; `next` is an identity larger than that of every object. -/
noncomputable def compileO1 (sp : PathFinder) (rnd : ℝ → ℝ) (other : Nat → Other) (next : Nat) (b : Graphs) (c : Circuit) : Except PyErr Compiled := do
  let l ← Resynth.transpile c.dims next c.gates
  let r ← collect (gateO1 sp rnd other) b l
  finish c.dims r

/-- Loop body of `compile_O2`, dit_compiler.py 107-115. -/
noncomputable def gateO2 (fuel : Nat) (sp : PathFinder) (rnd : ℝ → ℝ) (other : Nat → Other)
    (view : PyDict Int (List (List (LaneItem (Arr2 ℂ))))) (b : Graphs) (g : Op (Arr2 ℂ)) : Except PyErr (List CInstr × Graphs) :=
  if g.single then do
    let n ← Lanes.nextIsLocal view g.oid
    phyLocAda fuel sp n b g
  else phyEnt sp rnd (other g.oid) b g

/-- `compile_O2`, dit_compiler.py 101-122. -/
noncomputable def compileO2 (fuel : Nat) (sp : PathFinder) (rnd : ℝ → ℝ) (other : Nat → Other) (b : Graphs) (c : Circuit) : Except PyErr Compiled := do
  let (_, view) ← Lanes.new c.gates
  let r ← collect (gateO2 fuel sp rnd other view) b c.gates
  finish c.dims r

end Compiler
end Qudits
