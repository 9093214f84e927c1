import Verif.Model.Compiler
/-
The method `transpile(circuit)` of the decomposition passes, which works on a whole circuit without `QuditCompiler`:
/repo/src/mqt/qudits/compiler/onedit/mapping_aware_transpilation/phy_local_qr_decomp.py 33-47, phy_local_adaptive_decomp.py 56-69,
onedit/mapping_un_aware_transpilation/log_local_qr_decomp.py 35-47, twodit/entanglement_qr/log_ent_qr_cex_decomp.py 38-51,
phy_ent_qr_cex_decomp.py 67-80.

Simplifications: those of Model/Compiler.lean.  The circuit that is returned is a copy with the new instructions; its mappings are those of
the old one.
-/
namespace Qudits
namespace Compiler
open LocalQR LGraph

/-- The passes that decompose gates. -/
inductive DecompPass where
  | phyLocQR | phyLocAda | logLocQR | logEntQR | phyEntQR
  deriving DecidableEq, Repr

/-- the name under which the compiler knows the pass, dit_compiler.py 22-33 -/
def DecompPass.name : DecompPass → String
  | .phyLocQR => "PhyLocQRPass"
  | .phyLocAda => "PhyLocAdaPass"
  | .logLocQR => "LogLocQRPass"
  | .logEntQR => "LogEntQRCEXPass"
  | .phyEntQR => "PhyEntQRCEXPass"

/-- Body of the loop of `transpile`: phy_local_qr_decomp.py 39-45, phy_local_adaptive_decomp.py 62-67, log_local_qr_decomp.py 41-45,
log_ent_qr_cex_decomp.py 43-49, phy_ent_qr_cex_decomp.py 73-78. -/
noncomputable def passStep (fuel : Nat) (sp : PathFinder) (rnd : ℝ → ℝ) (other : Nat → Other) (p : DecompPass) (b : Graphs) (g : Op (Arr2 ℂ)) :
    Except PyErr (List CInstr × Graphs) :=
  match p with
  | .phyLocQR => if typeOf other g = .single then onLine (withGraph (phyPassInCircuit sp)) b g else .ok ([.kept g], b)
  | .phyLocAda => if typeOf other g = .single then phyLocAda fuel sp false b g else .ok ([.kept g], b)
  | .logLocQR => if typeOf other g = .single then onLine (withGraph (logPassGate sp)) b g else .ok ([.kept g], b)
  | .logEntQR =>
    if typeOf other g = .two then do
      let (l, b) ← logEnt rnd (other g.oid) b g
      pure (l.reverse, b)
    else .ok ([.kept g], b)
  | .phyEntQR => if typeOf other g = .two then phyEnt sp rnd (other g.oid) b g else .ok ([.kept g], b)

/-- `pass.transpile(circuit)`: the new instructions and the graphs left in the backend. -/
noncomputable def passTranspile (fuel : Nat) (sp : PathFinder) (rnd : ℝ → ℝ) (other : Nat → Other) (p : DecompPass) (b : Graphs)
    (gs : List (Op (Arr2 ℂ))) : Except PyErr (List CInstr × Graphs) :=
  collect (passStep fuel sp rnd other p) b gs

/-- Body of the loop of `LogLocAdaPass.transpile`, /repo/src/mqt/qudits/compiler/onedit/mapping_un_aware_transpilation/
log_local_adaptive_decomp.py 57-61. -/
noncomputable def logAdaStep (fuel : Nat) (sp : PathFinder) (other : Nat → Other) (b : Graphs) (g : Op (Arr2 ℂ)) :
    Except PyErr (List CInstr × Graphs) :=
  if typeOf other g = .single then onLine (fun q dim u gr => Adaptive.logAdaGate fuel sp q dim u gr) b g else .ok ([.kept g], b)

/-- `LogLocAdaPass.transpile`, log_local_adaptive_decomp.py 52-64. -/
noncomputable def logAdaTranspile (fuel : Nat) (sp : PathFinder) (other : Nat → Other) (b : Graphs) (gs : List (Op (Arr2 ℂ))) :
    Except PyErr (List CInstr × Graphs) :=
  collect (logAdaStep fuel sp other) b gs

end Compiler
end Qudits
