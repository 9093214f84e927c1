import Verif.Model.Noise
import Mathlib.Data.Real.Basic
/-
The noisy circuit factory once more, /repo/src/mqt/qudits/simulation/noise_tools/noisy_circuit_factory.py 38-111, 172-262, now with the probabilities that the
generator is asked for. `Model/Noise.lean` gives every outcome that a generator might have; here `rng.choice(outcomes, p=p)` also refuses a list `p` that is not a
probability distribution, and the lists are recorded in the order of the calls. Numbers are exact. The checks are those of numpy's `Generator.choice` (`_generator.pyx`):
no negative entry, and a sum that differs from one by at most the square root of the machine epsilon.
-/
namespace Qudits.NoisyFactory

/-- The state of the generation, with the lists of probabilities asked for so far. -/
structure StP extends St where
  asked : List (List ℝ)

/-- A builder call on the noisy circuit. -/
def emitP (s : StP) (g : NoisyInstr) : StP := { s with toSt := emit s.toSt g }

/-- `for _ in range(k): circuit.g(dit)` -/
def emitNP (g : NoisyInstr) : Nat → StP → StP
  | 0, s => s
  | k + 1, s => emitNP g k (emitP s g)

/-- What `Generator.choice` accepts as probabilities. -/
def ValidProbs (p : List ℝ) : Prop := (∀ x ∈ p, 0 ≤ x) ∧ |p.sum - 1| ≤ 1 / 2 ^ 26

open Classical in
/-- `rng.choice(outcomes, p=p)`: the number of the outcome. -/
noncomputable def drawP (rng : Draws) (p : List ℝ) (s : StP) : Except PyErr (Nat × StP) :=
  if ValidProbs p then .ok (rng s.drawn % p.length, { s with drawn := s.drawn + 1, asked := s.asked ++ [p] }) else .error .valueError

/-- The branch for mathematical noise of `_apply_depolarizing_noise` (175-186) on one line. -/
noncomputable def depolMathP (rng : Draws) (dims : List Nat) (prob : ℝ) (dit : Int) (s : StP) : Except PyErr StP := do
  let dim ← dimAt dims dit
  if dim = 0 then .error .zeroDivisionError
  else
    let (k, s) ← drawP rng (depolProbs dim prob) s
    let s := emitNP (.x dit) (k / dim) s
    pure (emitNP (.z dit) (k % dim) s)

/-- One pair of levels of the physical branch (193-218). -/
noncomputable def depolSubOneP (rng : Draws) (dim : Nat) (dit : Int) (s : StP) (e : (Int × Int) × Noise ℝ) : Except PyErr StP :=
  if ¬ (0 ≤ e.1.1 ∧ e.1.1 < dim) ∨ ¬ (0 ≤ e.1.2 ∧ e.1.2 < dim) then .error .indexError
  else do
    let (k, s) ← drawP rng (subspaceProbs e.2.depolarizing) s
    if k = 2 then .ok (emitP s (.noisex dit e.1.1 e.1.2))
    else if k = 1 then .ok (emitP s (.noisez dit e.1.2))
    else if k = 3 then .ok (emitP s (.noisey dit e.1.1 e.1.2))
    else .ok s

/-- `_apply_depolarizing_noise` (172-218). The loop goes over the keys and looks the noise up; a dictionary has every key once. -/
noncomputable def applyDepolP (rng : Draws) (dims : List Nat) (qudits : List Int) (info : NoiseObj ℝ) (s : StP) : Except PyErr StP :=
  match info with
  | .math noise => qudits.foldlM (fun s dit => depolMathP rng dims noise.depolarizing dit s) s
  | .sub m => qudits.foldlM (fun s dit => do
      let dim ← dimAt dims dit
      m.foldlM (fun s e => depolSubOneP rng dim dit s e) s) s

/-- One level of the inner loop (260-262): the outcomes are `[True, False]`. -/
noncomputable def dephaseLevelP (rng : Draws) (dit : Int) (prob : ℝ) (s : StP) (lev : Int) : Except PyErr StP := do
  let (k, s) ← drawP rng [prob, 1 - prob] s
  if k = 0 then pure (emitP s (.noisez dit lev)) else pure s

/-- One pair of levels (239-262). -/
noncomputable def dephaseOneP (rng : Draws) (dim : Nat) (dit : Int) (s : StP) (e : (Int × Int) × Noise ℝ) : Except PyErr StP :=
  if ¬ (0 ≤ e.1.1 ∧ e.1.1 < dim) ∨ ¬ (0 ≤ e.1.2 ∧ e.1.2 < dim) then .error .indexError
  else (((List.range dim).map fun k : Nat => (k : Int)).filter fun k => k ≠ e.1.1 ∧ k ≠ e.1.2).foldlM (dephaseLevelP rng dit e.2.dephasing) s

/-- `_apply_dephasing_noise` (220-262); nothing happens for mathematical noise. -/
noncomputable def applyDephaseP (rng : Draws) (dims : List Nat) (qudits : List Int) (info : NoiseObj ℝ) (s : StP) : Except PyErr StP :=
  match info with
  | .math _ => .ok s
  | .sub m => qudits.foldlM (fun s dit => do
      let dim ← dimAt dims dit
      m.foldlM (fun s e => dephaseOneP rng dim dit s e) s) s

/-- Body of the loop in `_apply_noise` (102-111). -/
noncomputable def applyModeP (rng : Draws) (dims : List Nat) (i : Instr) (s : StP) (e : String × NoiseObj ℝ) : Except PyErr StP := do
  let qudits ← affected i e.1
  let info ← resolveInfo e.2 i
  let s ← applyDepolP rng dims qudits info s
  applyDephaseP rng dims qudits info s

/-- `_apply_noise` (98-111). -/
noncomputable def applyNoiseP (rng : Draws) (dims : List Nat) (errs : PyDict String (PyDict String (NoiseObj ℝ))) (i : Instr) (s : StP) : Except PyErr StP :=
  match PyDict.get? errs i.tag with
  | none => .ok s
  | some modes => modes.foldlM (applyModeP rng dims i) s

/-- `generate_circuit` (38-49). -/
noncomputable def generateP (rng : Draws) (dims : List Nat) (errs : PyDict String (PyDict String (NoiseObj ℝ))) (instrs : List Instr) : Except PyErr StP :=
  instrs.foldlM (fun s i => applyNoiseP rng dims errs i (emitP s (.orig i))) ⟨⟨[], 0, 0⟩, []⟩

end Qudits.NoisyFactory
