import Verif.Model.Compiler
import Verif.Spec.AdaSpec
import Verif.Spec.EntSpec
import Verif.Spec.CircuitOp
import Verif.Spec.UnitaryArr
import Mathlib.Analysis.CStarAlgebra.Matrix
/- What compiled circuits mean on a register. -/
namespace Qudits.Spec
open Matrix Compiler LGraph
open scoped Matrix.Norms.L2Operator

variable {n : Nat}

/-- a gate on line `q` of dimension `d`, without controls -/
def OnLine (q : Int) (d : Nat) (x : PInstr) : Prop := x.target = .one q ∧ x.dim = d ∧ x.controls = none

/-- the line with a given number -/
def lineOf (n : Nat) (q : Int) : Option (Fin n) := if h : 0 ≤ q ∧ q < n then some ⟨q.toNat, by omega⟩ else none

/-- Operator that acts with `A` on the pair of lines `i`, `j`, whose levels are numbered as in `pairOp`. -/
def embedPair (d : Fin n → Nat) (i j : Fin n) (A : Matrix (Fin (d i * d j)) (Fin (d i * d j)) ℂ) : Matrix (Reg d) (Reg d) ℂ := fun x y =>
  if ∀ k, k ≠ i → k ≠ j → x k = y k then A (finProdFinEquiv (x i, x j)) (finProdFinEquiv (y i, y j)) else 0

/-- The operator of an instruction of a compiled circuit; `sem` gives the operators of the gates of the circuit that was compiled. -/
noncomputable def instrOp (d : Fin n → Nat) (sem : Op (Arr2 ℂ) → Matrix (Reg d) (Reg d) ℂ) : CInstr → Matrix (Reg d) (Reg d) ℂ
  | .kept g => sem g
  | .one x =>
    match x.target with
    | .one q =>
      match lineOf n q with
      | some i => embed1 (X := LvOf d) i (PhasePass.lineOp (d i) x)
      | none => 0
    | .many _ => 0
  | .pair (.one k q dim b) =>
    match lineOf n q, k.array dim with
    | some i, .ok A => embed1 (X := LvOf d) i (adjIf b (A.toM (d i)))
    | _, _ => 0
  | .pair (.cex p q0 q1 d0 d1 b) =>
    match lineOf n q0, lineOf n q1 with
    | some i, some j => embedPair d i j (pairOp ⟨q0, q1, d i, d j⟩ (.cex p q0 q1 d0 d1 b))
    | _, _ => 0

/-- `A` on the places of the levels: line by line, logical level `k` is kept in physical level `lp k`. -/
def placed {d : Fin n → Nat} (lp : ∀ i, Equiv.Perm (Fin (d i))) (A : Matrix (Reg d) (Reg d) ℂ) : Matrix (Reg d) (Reg d) ℂ :=
  A.submatrix (fun x i => (lp i).symm (x i)) (fun x i => (lp i).symm (x i))

/-- The graphs of a backend for a register: one for each line, of the dimension of the line, its nodes in order, no phases stored. There may
be more. -/
def Backend (d : Fin n → Nat) (lp : ∀ i, Equiv.Perm (Fin (d i))) (b : Graphs) : Prop :=
  ∀ i : Fin n, ∃ g, b[(i : Nat)]? = some (some g) ∧ Device (d i) g (lp i) ∧ InOrder (d i) g ∧ NoPhases (d i) g

/-- An instruction that a backend with graphs `b` can be given: on one line, a rotation between coupled levels or a phase gate, without controls.
Of what is made of a gate on two qubits, and of gates that are not translated, nothing is asked but that they are on lines of the register. -/
def Native (d : Fin n → Nat) (b : Graphs) : CInstr → Prop
  | .kept g => g.single = false
  | .one x => ∃ (i : Fin n) (gr : LGraph), b[(i : Nat)]? = some (some gr) ∧ OnLine (i : Nat) (d i) x ∧ (CoupledRotation gr x ∨ PhaseRotation x)
  | .pair (.one _ q dim _) => ∃ i : Fin n, q = (i : Nat) ∧ dim = d i
  | .pair (.cex _ q0 q1 d0 d1 _) => ∃ i j : Fin n, i ≠ j ∧ q0 = (i : Nat) ∧ q1 = (j : Nat) ∧ d0 = d i ∧ d1 = d j

/-- a gate on one line -/
def OneLine (d : Fin n → Nat) (g : Op (Arr2 ℂ)) : Prop :=
  g.single = true ∧ ∃ i : Fin n, g.target = .one (i : Nat) ∧ UnitaryArr g.body (d i)

/-- A controlled exchange that is translated as it should be: it is not marked as adjoint, and its two levels keep their order in the placement
or have phase 0. -/
def GoodCEx (d : Fin n → Nat) (lp : ∀ i, Equiv.Perm (Fin (d i))) (other : Nat → Other) (sem : Op (Arr2 ℂ) → Matrix (Reg d) (Reg d) ℂ)
    (g : Op (Arr2 ℂ)) : Prop :=
  g.single = false ∧ (other g.oid).two = true ∧ ∃ (i j : Fin n) (a b : Fin (d j)) (k : Fin (d i)) (phi : ℝ), i ≠ j ∧
    g.target = .many [((i : Nat) : Int), ((j : Nat) : Int)] ∧ (other g.oid).dims = [d i, d j] ∧
    (other g.oid).cex = some (⟨(a : Nat), (b : Nat), (k : Nat), phi⟩, false) ∧ a < b ∧ 0 ≤ phi ∧ phi ≤ 2 * Real.pi ∧ (lp j a < lp j b ∨ phi = 0) ∧
    sem g = embedPair d i j (pairOp ⟨(i : Nat), (j : Nat), d i, d j⟩ (.cex ⟨(a : Nat), (b : Nat), (k : Nat), phi⟩ (i : Nat) (j : Nat) (d i) (d j) false))

/-- Any other gate on two lines that is translated as it should be: the lines are qubits that are kept as they are, the first before the
second. -/
def GoodPair (d : Fin n → Nat) (lp : ∀ i, Equiv.Perm (Fin (d i))) (other : Nat → Other) (sem : Op (Arr2 ℂ) → Matrix (Reg d) (Reg d) ℂ)
    (g : Op (Arr2 ℂ)) : Prop :=
  g.single = false ∧ (other g.oid).two = true ∧ ∃ i j : Fin n, i < j ∧ d i = 2 ∧ d j = 2 ∧ lp i = 1 ∧ lp j = 1 ∧
    g.target = .many [((i : Nat) : Int), ((j : Nat) : Int)] ∧ (other g.oid).dims = [d i, d j] ∧ (other g.oid).cex = none ∧
    UnitaryArr g.body (d i * d j) ∧ sem g = embedPair d i j (g.body.toM (d i * d j))

/-- A gate on three or more lines that are kept as they are. -/
def GoodMulti (d : Fin n → Nat) (lp : ∀ i, Equiv.Perm (Fin (d i))) (other : Nat → Other) (sem : Op (Arr2 ℂ) → Matrix (Reg d) (Reg d) ℂ)
    (g : Op (Arr2 ℂ)) : Prop :=
  g.single = false ∧ (other g.oid).two = false ∧ (∃ qs, g.target = .many qs) ∧ sem g ∈ unitaryGroup (Reg d) ℂ ∧ ∀ i : Fin n, Touches ((i : Nat) : Int) g → lp i = 1

/-- The error allowed for a gate on a line of dimension `m`, for one on two qubits, and for others; `rho` is the error of the rounding. -/
noncomputable def lineError (m : Nat) : ℝ := m * (m * qrError m 1e-8 1e-4)

noncomputable def adaError (m : Nat) : ℝ := m * (m * (qrError m 1e-4 1e-4 + 1e-4))

noncomputable def pairError (rho : ℝ) : ℝ := 4 * (4 * (qrError 4 1e-8 1e-4 + rho))

/-- The error allowed for a gate; `line` is that for gates on one line. -/
noncomputable def gateError (d : Fin n → Nat) (line : Nat → ℝ) (other : Nat → Other) (rho : ℝ) (g : Op (Arr2 ℂ)) : ℝ :=
  match g.target with
  | .one q => match lineOf n q with
    | some i => line (d i)
    | none => 0
  | .many _ => match (other g.oid).cex with
    | none => if (other g.oid).two then pairError rho else 0
    | some _ => 0

/-- What is to be compiled for a circuit with operator `A`: the instructions `l` can be given to the backend, and their product is unitary and, up
to a global phase, within `e` (in operator norm) of `A` on the places of the levels. -/
structure Implements (d : Fin n → Nat) (lp : ∀ i, Equiv.Perm (Fin (d i))) (sem : Op (Arr2 ℂ) → Matrix (Reg d) (Reg d) ℂ) (b : Graphs) (e : ℝ)
    (A : Matrix (Reg d) (Reg d) ℂ) (l : List CInstr) : Prop where
  native : ∀ x ∈ l, Native d b x
  unitary : circuitOp (instrOp d sem) l ∈ unitaryGroup (Reg d) ℂ
  near : ∃ z : ℂ, ‖z‖ = 1 ∧ ‖circuitOp (instrOp d sem) l - z • placed lp A‖ ≤ e

/-- the names of the passes for gates on one line and on two lines -/
def lineNames : List String := ["PhyLocQRPass", "PhyLocAdaPass", "LocQRPass", "LocAdaPass", "LogLocQRPass", "NaiveLocResynthOptPass"]

def pairNames : List String := ["LogEntQRCEXPass", "PhyEntQRCEXPass"]

/-- the names that are accepted although no gate is given to such a pass -/
def zNames : List String := ["ZPropagationOptPass", "ZRemovalOptPass"]

/-- the pass that a name stands for -/
def passNamed : String → PassClass
  | "PhyLocQRPass" | "LocQRPass" => .phyLocQR
  | "PhyLocAdaPass" | "LocAdaPass" => .phyLocAda
  | "LogLocQRPass" => .logLocQR
  | "LogEntQRCEXPass" => .logEntQR
  | "PhyEntQRCEXPass" => .phyEntQR
  | "ZPropagationOptPass" => .zPropagation
  | "ZRemovalOptPass" => .zRemoval
  | _ => .locResynth

/-- the pass for gates of a type: the last one named that is for such gates -/
def passFor (names : List String) : GateType → Option PassClass
  | .single => ((names.filter fun s => decide (s ∈ lineNames)).getLast?).map passNamed
  | .two => ((names.filter fun s => decide (s ∈ pairNames)).getLast?).map passNamed
  | .multi => none

end Qudits.Spec
