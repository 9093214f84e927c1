import Verif.Model.PhasePasses
import Verif.Spec.CircuitOp
namespace Qudits.PhasePass
open Spec Matrix

/-! # What the instructions handled by the phase passes mean on a register -/

/-- A gate the phase pass is meant for, on line `q` of dimension `d`: a rotation between two different levels (the
constructor stores the lower one first) or a virtual Z rotation of one level, not marked as adjoint, without controls. -/
def PhaseGate (d : Nat) (q : Int) (g : PInstr) : Prop :=
  g.target = .one q ∧ g.dim = d ∧ g.controls = none ∧ g.dagger = false ∧
  ((∃ p, g.kind = .r p ∧ 0 ≤ p.levA ∧ p.levA < p.levB ∧ p.levB < d) ∨
   (∃ p, g.kind = .virtRz p ∧ 0 ≤ p.levA ∧ p.levA < d))

/-- the operator of a gate on its line: the array it returns, or the adjoint of it for a gate marked as adjoint -/
noncomputable def lineOp (d : Nat) (g : PInstr) : Matrix (Fin d) (Fin d) ℂ :=
  match arrayOf g with
  | some (.ok A) => if g.dagger then (A.toM d)ᴴ else A.toM d
  | _ => 0

/-- what a new rotation keeps of the rotation it replaces -/
def SameRot (g g' : PInstr) : Prop :=
  ∃ p p', g.kind = .r p ∧ g'.kind = .r p' ∧ p'.levA = p.levA ∧ p'.levB = p.levB ∧ p'.theta = regulateTheta p.theta

/-- the gates of a line that are rotations -/
def rotations (l : List PInstr) : List PInstr := l.filter fun g => match g.kind with | .r _ => true | _ => false

/-- the levels `lev` are the ones at which the controls fire -/
def Matches {n : Nat} {d : Fin n → Nat} (c : ControlData) (lev : Reg d) : Prop :=
  ∀ p ∈ c.indices.zip c.ctrlStates, ∀ j : Fin n, p.1 = (j : Nat) → (((lev j : Fin (d j)) : Nat) : Int) = p.2

/-- `sem` gives every instruction its operator on the register `d`:
* an instruction on one line `i` applies a matrix `M` to that line, under its controls if it has any; for the classes
  whose array is modelled, `M` is that array, or its adjoint if the instruction is marked as adjoint;
* an instruction with a list of targets does anything on those lines.
Nothing is said about the levels of controls that name impossible levels. -/
def GateSemantics {n : Nat} (d : Fin n → Nat) (sem : PInstr → Matrix (Reg d) (Reg d) ℂ) : Prop :=
  (∀ (g : PInstr) (i : Fin n), g.target = .one (i : Nat) → ∃ M : Matrix (Fin (d i)) (Fin (d i)) ℂ,
    (∀ A, arrayOf g = some (.ok A) → M = if g.dagger then (A.toM (d i))ᴴ else A.toM (d i)) ∧
    (g.controls = none → sem g = embed1 (X := LvOf d) i M) ∧
    (∀ c, g.controls = some c → ∃ lev : Reg d, (∀ lev' : Reg d, Matches c lev' → Matches c lev) ∧
      sem g = controlled (lineSet n c.indices) lev (embed1 (X := LvOf d) i M))) ∧
  ∀ (g : PInstr) (qs : List Int), g.target = .many qs → ActsOn d qs (sem g)

/-- the stored parameters of a phase gate are what the constructor lets through -/
def PhaseParams (g : PInstr) : Prop :=
  match g.kind with
  | .virtRz p => 0 ≤ p.levA ∧ p.levA < g.dim
  | .rz p => 0 ≤ p.levA ∧ p.levA < p.levB ∧ p.levB < g.dim
  | _ => True

/-- the register contains the line of a one-line instruction, with the dimension recorded in the instruction -/
def OnRegister {n : Nat} (d : Fin n → Nat) (g : PInstr) : Prop :=
  ∀ q, g.target = .one q → ∃ i : Fin n, q = (i : Nat) ∧ g.dim = d i

end Qudits.PhasePass
