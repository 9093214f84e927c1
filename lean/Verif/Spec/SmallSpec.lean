import Verif.Spec.QrSpec
import Verif.Spec.CompilerSpec
/- Lines that use only the first levels of a device. -/
namespace Qudits.Spec
open LGraph

/-- The graph of a device with `D` levels for a line that uses the first `d` of them: the device keeps these among themselves, level `i` in
`lp i`, and no phases are stored. -/
def Roomy (d D : Nat) (g : LGraph) (lp : Equiv.Perm (Fin d)) : Prop :=
  d ≤ D ∧ ∃ LP : Equiv.Perm (Fin D), Device D g LP ∧ NoPhases D g ∧ ∀ (i : Fin d) (j : Fin D), (j : Nat) = i → (LP j : Nat) = lp i

/-- The path taken between two neighbours among the first `d` levels stays among them. -/
def Stays (d : Nat) (sp : PathFinder) (g : LGraph) : Prop :=
  ∀ r : Nat, 0 < r → r < d → ∀ p, sp g ((r : Int) - 1) r = .ok p → ∀ x ∈ p, x < (d : Int)

/-- The same for every graph with the same nodes and edges, whatever their attributes. -/
def AlwaysStays (d : Nat) (sp : PathFinder) (g : LGraph) : Prop :=
  ∀ g' : LGraph, Wf g' → names g' = names g → g'.edges = g.edges → Stays d sp g'

/-- a rotation or phase gate between levels below `d` -/
def Confined (d : Nat) (x : PInstr) : Prop :=
  (∃ p, x.kind = .r p ∧ 0 ≤ p.levA ∧ p.levA < p.levB ∧ p.levB < d) ∨ (∃ p, x.kind = .virtRz p ∧ 0 ≤ p.levA ∧ p.levA < d)

/-- The graphs of a backend for a register whose lines use the first levels of the devices, of dimensions `D`. -/
def RoomyBackend {n : Nat} (d D : Fin n → Nat) (lp : ∀ i, Equiv.Perm (Fin (d i))) (b : Compiler.Graphs) : Prop :=
  ∀ i : Fin n, ∃ g, b[(i : Nat)]? = some (some g) ∧ Roomy (d i) (D i) g (lp i) ∧ InOrder (D i) g

/-- The error allowed for a gate on a line of dimension `m` on a device with at most `M` levels. -/
noncomputable def roomyError (M m : Nat) : ℝ := m * (M * qrError M 1e-8 1e-4)

end Qudits.Spec
