import Verif.Spec.LawSpec
import Verif.Spec.MisimNoiseSpec
/- The mean over the errors of a noisy circuit of the decision-diagram simulator. -/
namespace Qudits.Spec
open Matrix Complex
variable {n : Nat}

/-- `E` is applied with probability `p`. -/
noncomputable def withChance {d : Fin n → Nat} (p : ℝ) (E rho : DensityOp d) : DensityOp d := (1 - p) • rho + p • conjBy E rho

/-- The levels that a rotation turns, on a line with `m` levels: its two levels; for a phase on one level this level and the next one, or the last two
levels if it is the last one. -/
def rotationLevels (g : PyGate) (m : Nat) : Option (Fin m × Fin m) :=
  let pair (a b : Int) : Option (Fin m × Fin m) := do
    let a ← below? m a
    let b ← below? m b
    pure (a, b)
  if g.tag = "virtrz" then
    match g.params with
    | .list (.int v :: _) => if v + 1 = m then pair (v - 1) v else pair v (v + 1)
    | _ => none
  else
    match g.params with
    | .list (.int a :: .int b :: _) => pair a b
    | _ => none

/-- The error for depolarisation on a line with `m` levels: the exchange of the levels of a rotation, with a sign; the shift for other gates. -/
def flipError (g : PyGate) (m : Nat) : Matrix (Fin m) (Fin m) ℂ :=
  if g.tag = "rxy" ∨ g.tag = "rz" ∨ g.tag = "virtrz" then
    match rotationLevels g m with
    | some (a, b) => twoLevel a b !![0, -1; 1, 0]
    | none => 1
  else of fun i j => if (i : Nat) = (j + 1) % m then 1 else 0

/-- The error for dephasing on a line with `m` levels: the phases -i and i on the levels of a rotation; the powers of the m-th root of unity for other
gates. -/
noncomputable def phaseError (g : PyGate) (m : Nat) : Matrix (Fin m) (Fin m) ℂ :=
  if g.tag = "rxy" ∨ g.tag = "rz" ∨ g.tag = "virtrz" then
    match rotationLevels g m with
    | some (a, b) => twoLevel a b !![-I, 0; 0, I]
    | none => 1
  else of fun i j => if i = j then cexp (2 * Real.pi * I / m * (j : Nat)) else 0

/-- The lines that get errors together. -/
def errorLines (n : Nat) (g : PyGate) (mode : String) : List (Fin n) :=
  let lines := (match g.gate.target with | .one t => [t] | .many ts => ts).filterMap (below? n)
  if mode = "all" then List.finRange n
  else if mode = "control" then lines.take 1
  else if mode = "target" then (lines.drop 1).take 1
  else lines

/-- Errors on several lines at once, one line after the other. -/
noncomputable def together {d : Fin n → Nat} (lines : List (Fin n)) (A : (q : Fin n) → Matrix (Fin (d q)) (Fin (d q)) ℂ) : DensityOp d :=
  lines.foldl (fun M q => embed1 (X := LvOf d) q (A q) * M) 1

/-- What an entry of the noise model does after gate `g`: with one probability all lines get the error for depolarisation, with the other one all lines
get the error for dephasing. -/
noncomputable def commonEntry (d : Fin n → Nat) (g : PyGate) (e : String × Noise ℝ) (rho : DensityOp d) : DensityOp d :=
  withChance e.2.dephasing (together (errorLines n g e.1) fun q => phaseError g (d q))
    (withChance e.2.depolarizing (together (errorLines n g e.1) fun q => flipError g (d q)) rho)

/-- A circuit with its operators: every gate, followed by the entries for it in the alphabetical order of the modes. -/
noncomputable def commonChannel (d : Fin n → Nat) (noise : PyDict String (PyDict String (Noise ℝ))) : List (PyGate × DensityOp d) → DensityOp d → DensityOp d
  | [], rho => rho
  | (g, M) :: rest, rho => commonChannel d noise rest
      ((((PyDict.get? noise g.tag).getD []).mergeSort fun a b => decide (a.1 ≤ b.1)).foldl (fun rho e => commonEntry d g e rho) (conjBy M rho))

/-- The numbers of the noise model are probabilities. -/
def Probabilities (noise : PyDict String (PyDict String (Noise ℝ))) : Prop :=
  ∀ e ∈ noise, ∀ f ∈ e.2, (0 ≤ f.2.depolarizing ∧ f.2.depolarizing ≤ 1) ∧ 0 ≤ f.2.dephasing ∧ f.2.dephasing ≤ 1

end Qudits.Spec
