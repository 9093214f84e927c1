import Verif.Model.Noise

/- What a noisy circuit may contain, stated without the factory's functions. -/
namespace Qudits.Spec
open Qudits

/-- Line `q` of gate `i` is selected by a noise mode: the gate's own lines for `local` and (non-local gates)
`nonlocal`, every line of the register for `all`, the first named target of a two-line gate for `control`,
everything after the first line for `target` of a non-local gate and the gate's line for a local one. -/
def Selected (i : Instr) (mode : String) (q : Int) : Prop :=
  let lines := (match i.gate.controls with | some c => c.indices | none => []) ++
    (match i.gate.target with | .one t => [t] | .many ts => ts)
  (mode = "local" ∧ q ∈ lines) ∨
  (mode = "all" ∧ 0 ≤ q ∧ q < i.gate.dims.length) ∨
  (mode = "nonlocal" ∧ i.gate.gateType ≠ .single ∧ q ∈ lines) ∨
  (mode = "control" ∧ i.gate.gateType = .two ∧ ∃ rest, i.gate.target = .many (q :: rest)) ∨
  (mode = "target" ∧ ((i.gate.gateType ≠ .single ∧ ∃ a rest, lines = a :: rest ∧ q ∈ rest) ∨
    (i.gate.gateType = .single ∧ i.gate.target = .one q)))

/-- The level pairs a physical noise object describes for gate `i`: its stored pairs, or the gate's own two
levels if the object is the single negative marker and the gate has two levels. -/
def NoisePair {P : Type} (m : SubspaceNoise P) (i : Instr) (a b : Int) : Prop :=
  match m, i.levels with
  | [(k, _)], some (x, y) => if k.1 < 0 ∨ k.2 < 0 then (a = min x y ∧ b = max x y) else (a, b) = k
  | _, _ => (a, b) ∈ m.map Prod.fst

/-- Line `q` (counted from the end if negative) has dimension `dim`. -/
def LineDim (dims : List Nat) (q : Int) (dim : Nat) : Prop :=
  dims[(if 0 ≤ q then q else (dims.length : Int) + q).toNat]? = some dim

/-- The inserted gate `e` is an error gate allowed by the noise object `o` for gate `i`, on line `q`, and its levels
exist on that line. -/
def ErrorGate {P : Type} (dims : List Nat) (o : NoiseObj P) (i : Instr) (q : Int) (e : NoisyInstr) : Prop :=
  match o with
  | .math _ => e = .x q ∨ e = .z q
  | .sub m => ∃ a b dim, NoisePair m i a b ∧ LineDim dims q dim ∧
      ((0 ≤ a ∧ a < dim ∧ 0 ≤ b ∧ b < dim ∧ (e = .noisex q a b ∨ e = .noisey q a b ∨ e = .noisez q b)) ∨
       (∃ lev : Int, lev ≠ a ∧ lev ≠ b ∧ 0 ≤ lev ∧ lev < dim ∧ e = .noisez q lev))

/-- The allowed insertions after gate `i`: an entry for its tag exists, and the error gate sits on a line selected
by the mode of that entry. -/
def AllowedError {P : Type} (dims : List Nat) (errs : PyDict String (PyDict String (NoiseObj P))) (i : Instr) (g : NoisyInstr) : Prop :=
  ∃ modes mode o q, PyDict.get? errs i.tag = some modes ∧ (mode, o) ∈ modes ∧ Selected i mode q ∧ ErrorGate dims o i q g

/-- the original instruction a member of the noisy circuit copies, if any -/
def original? : NoisyInstr → Option Instr
  | .orig i => some i
  | _ => none

/-- `out` consists of the instructions in order, each directly followed by gates satisfying `ok` for it. -/
inductive Interleaved (ok : Instr → NoisyInstr → Prop) : List Instr → List NoisyInstr → Prop
  | nil : Interleaved ok [] []
  | cons (i : Instr) (ins : List NoisyInstr) (rest : List Instr) (out : List NoisyInstr)
      (h : ∀ e ∈ ins, ok i e) (hrest : Interleaved ok rest out) :
      Interleaved ok (i :: rest) (.orig i :: (ins ++ out))

end Qudits.Spec
