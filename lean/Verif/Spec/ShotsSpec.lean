import Verif.Spec.SimSpec
import Verif.Spec.NoiseSpec
import Verif.Spec.TwoLevel
import Verif.Spec.Space
import Verif.Model.Shots
/- What a run with a noise model may return. -/
namespace Qudits.Spec
open Matrix Complex
variable {n : Nat}

/-- The operator of an error gate: the shift `|j⟩ ↦ |j + 1 mod m⟩`, the phases `exp(2 pi i j / m)`, the exchange of two levels without and with the phases of
the Pauli matrix Y (the lower level first), and the sign of one level; on line `q` of the register. -/
inductive ErrorOp (d : Fin n → Nat) : NoisyInstr → Matrix (Reg d) (Reg d) ℂ → Prop
  | x (q : Fin n) : ErrorOp d (.x ((q : Nat) : Int)) (embed1 (X := LvOf d) q fun i j : Fin (d q) => if (i : Nat) = (j + 1) % d q then 1 else 0)
  | z (q : Fin n) : ErrorOp d (.z ((q : Nat) : Int))
      (embed1 (X := LvOf d) q fun i j : Fin (d q) => if i = j then cexp (2 * Real.pi * I / d q * (j : Nat)) else 0)
  | noisex (q : Fin n) (a b : Fin (d q)) (x y : Int) : a < b → ((a : Nat) : Int) = min x y → ((b : Nat) : Int) = max x y →
      ErrorOp d (.noisex ((q : Nat) : Int) x y) (embed1 (X := LvOf d) q (twoLevel a b !![0, 1; 1, 0]))
  | noisey (q : Fin n) (a b : Fin (d q)) (x y : Int) : a < b → ((a : Nat) : Int) = min x y → ((b : Nat) : Int) = max x y →
      ErrorOp d (.noisey ((q : Nat) : Int) x y) (embed1 (X := LvOf d) q (twoLevel a b !![0, -I; I, 0]))
  | noisez (q : Fin n) (l : Fin (d q)) : ErrorOp d (.noisez ((q : Nat) : Int) ((l : Nat) : Int))
      (embed1 (X := LvOf d) q fun i j : Fin (d q) => if i = j then (if i = l then -1 else 1) else 0)

/-- The operators of a circuit (given with its instructions), each followed by the operators of error gates that the noise model allows after it. -/
inductive WithErrorOps (d : Fin n → Nat) (errs : Shots.Errors) : List (Instr × Matrix (Reg d) (Reg d) ℂ) → List (Matrix (Reg d) (Reg d) ℂ) → Prop
  | nil : WithErrorOps d errs [] []
  | cons (i : Instr) (M : Matrix (Reg d) (Reg d) ℂ) (es : List NoisyInstr) (Es : List (Matrix (Reg d) (Reg d) ℂ)) (rest out) :
      (∀ e ∈ es, AllowedError (List.ofFn d) errs i e) → List.Forall₂ (ErrorOp d) es Es → WithErrorOps d errs rest out →
      WithErrorOps d errs ((i, M) :: rest) (M :: (Es ++ out))

/-- The circuit belongs to the register, and its gates have the operators `Ms`. -/
def Operators (d : Fin n → Nat) (circ : List (Instr × Arr2 ℂ)) (Ms : List (Matrix (Reg d) (Reg d) ℂ)) : Prop :=
  List.Forall₂ (fun c M => (∃ ls, Flagged d c.1.gate ls) ∧ HasOperator d c.1.gate c.2 M) circ Ms

/-- `psi` is a state that the noisy circuit may end in. -/
def NoisyState (d : Fin n → Nat) (errs : Shots.Errors) (circ : List (Instr × Arr2 ℂ)) (Ms : List (Matrix (Reg d) (Reg d) ℂ)) (psi : Reg d → ℂ) : Prop :=
  ∃ Ns, WithErrorOps d errs ((circ.map Prod.fst).zip Ms) Ns ∧ psi = Ns.reverse.prod *ᵥ zeroState d

/-- A mode that has a meaning for a gate: `nonlocal` needs a gate on several lines, `control` a gate of type TWO that names its lines in a list, `target` a gate
on several lines or with one named line; the other two modes are for every gate. -/
def ModeFits (i : Instr) (mode : String) : Prop :=
  mode = "local" ∨ mode = "all" ∨ (mode = "nonlocal" ∧ i.gate.gateType ≠ .single) ∨
  (mode = "control" ∧ i.gate.gateType = .two ∧ ∃ qs, i.gate.target = .many qs) ∨
  (mode = "target" ∧ (i.gate.gateType ≠ .single ∨ ∃ q, i.gate.target = .one q))

/-- The levels of a physical noise object (those of the gate itself, if the object says so) exist on every line that the mode selects. -/
def LevelsFit (dims : List Nat) (i : Instr) (mode : String) : NoiseObj ℝ → Prop
  | .math _ => True
  | .sub m => ∀ a b, NoisePair m i a b → a < b ∧ ∀ q dim, Selected i mode q → LineDim dims q dim → 0 ≤ a ∧ b < dim

/-- The numbers of a noise object make sense as probabilities on every line that the mode selects. Mathematical noise: each of the `dim² - 1` errors has
probability `p / dim²`, which leaves `1 - p (dim² - 1) / dim² ≥ 0` for no error; a line with one level has no error. Physical noise: each of three errors has probability
`p / 4`, and the dephasing of levels outside the pair, if there are any, is a probability. -/
def ProbabilitiesFit (dims : List Nat) (i : Instr) (mode : String) : NoiseObj ℝ → Prop
  | .math noise => ∀ q dim, Selected i mode q → LineDim dims q dim → 1 < dim → 0 ≤ noise.depolarizing ∧ noise.depolarizing * (dim ^ 2 - 1) ≤ dim ^ 2
  | .sub m => ∀ e ∈ m, ∀ q dim, Selected i mode q → LineDim dims q dim →
      (0 ≤ e.2.depolarizing ∧ 3 * e.2.depolarizing ≤ 4) ∧ (2 < dim → 0 ≤ e.2.dephasing ∧ e.2.dephasing ≤ 1)

/-- Every entry of the noise model for a gate of the circuit fits that gate. -/
def NoiseFits (dims : List Nat) (errs : Shots.Errors) (instrs : List Instr) : Prop :=
  ∀ i ∈ instrs, ∀ modes, PyDict.get? errs i.tag = some modes → ∀ e ∈ modes, ModeFits i e.1 ∧ LevelsFit dims i e.1 e.2 ∧ ProbabilitiesFit dims i e.1 e.2

/-- The pairs of levels of physical noise are in ascending order, as `add_noise` stores them (C21). -/
def Ascending (errs : Shots.Errors) : Prop :=
  ∀ tag modes, PyDict.get? errs tag = some modes → ∀ mode m, (mode, NoiseObj.sub m) ∈ modes → ∀ k ∈ m.map Prod.fst, k.1 < k.2

/-- The outcome of a measurement of `psi` is `x`, if the number `u` of [0, 1) is cut by the probabilities `|psi y|²`, laid side by side in the order of
the positions. -/
def Born (d : Fin n → Nat) (psi : Reg d → ℂ) (u : ℝ) (x : Reg d) : Prop :=
  ∑ y with idx d y < idx d x, ‖psi y‖ ^ 2 ≤ u ∧ u < ∑ y with idx d y < idx d x, ‖psi y‖ ^ 2 + ‖psi x‖ ^ 2

end Qudits.Spec
