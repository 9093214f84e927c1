import Verif.Spec.ShotsSpec
/- The noise of the shipped fake backends. -/
namespace Qudits.Spec

/-- What happens after the gates with the given tags: mode, probability of depolarizing, probability of dephasing. -/
noncomputable def deviceTable : List (List String × String × ℝ × ℝ) :=
  [(["csum"], "all", 0.001, 0.001), (["csum"], "control", 0.01, 0), (["csum"], "nonlocal", 0.1, 0.1),
   (["cx", "ls", "ms"], "nonlocal", 0.1, 0.001), (["cx", "ls", "ms"], "target", 0.1, 0), (["cx", "ls", "ms"], "control", 0.01, 0),
   (["h", "rxy", "s", "x", "z"], "local", 0.001, 0.001), (["rz", "virtrz"], "local", 0.03, 0.03)]

/-- Errors after a gate on a fake backend: X and Z, on the lines of the gate (also its control lines), after CSum on any line of the register; there are no
errors after gates that are not in the table. -/
def DeviceError (lines : Nat) (i : Instr) (e : NoisyInstr) : Prop :=
  ∃ q, (e = .x q ∨ e = .z q) ∧
    ((i.tag ∈ ["cx", "ls", "ms", "h", "rxy", "s", "x", "z", "rz", "virtrz"] ∧ q ∈ i.gate.controlLines ++ i.gate.target.lines) ∨
      (i.tag = "csum" ∧ 0 ≤ q ∧ q < lines))

/-- An instruction as the circuit makes it: CSum, CEx, LS and MS are gates of type TWO that name their two lines in a list (csum.py 26-37, cx.py 28-39,
ls.py 28-40, ms.py 26-38, and `control` refuses them). -/
def Constructed (i : Instr) : Prop :=
  i.tag ∈ ["csum", "cx", "ls", "ms"] → i.gate.gateType = .two ∧ ∃ a b, i.gate.target = .many [a, b] ∧ i.gate.controlLines = []

end Qudits.Spec
