import Verif.Spec.ShotsSpec
/- The mean over the errors of a noisy circuit: quantum channels. -/
namespace Qudits.Spec
open Matrix Complex
variable {n : Nat}

/-- The mean of `f` over independent draws, the `j`-th one with the probabilities `Ps[j]` for the outcomes 0, 1, ... -/
noncomputable def mean {V : Type} [AddCommMonoid V] [Module ℝ V] : List (List ℝ) → (List Nat → V) → V
  | [], f => f []
  | p :: Ps, f => ∑ k ∈ Finset.range p.length, p.getD k 0 • mean Ps fun l => f (k :: l)

/-- Operators on the register, among them the density operators. -/
abbrev DensityOp (d : Fin n → Nat) := Matrix (Reg d) (Reg d) ℂ

/-- The density operator of a state. -/
noncomputable def density (d : Fin n → Nat) (psi : Reg d → ℂ) : DensityOp d := fun x y => psi x * star (psi y)

/-- `M` is applied to the state. -/
noncomputable def conjBy {d : Fin n → Nat} (M rho : DensityOp d) : DensityOp d := M * rho * Mᴴ

/-- Line `q` is replaced by the even mixture of its levels, the other lines keep their state. -/
noncomputable def evenMix {d : Fin n → Nat} (q : Fin n) (rho : DensityOp d) : DensityOp d := fun x y =>
  if x q = y q then (1 / d q : ℂ) * ∑ j : Fin (d q), rho (Function.update x q j) (Function.update y q j) else 0

/-- The depolarizing channel of line `q` with probability `p`. -/
noncomputable def depolarize {d : Fin n → Nat} (q : Fin n) (p : ℝ) (rho : DensityOp d) : DensityOp d := (1 - p) • rho + p • evenMix q rho

/-- Each of the three Pauli matrices between the levels `a` and `b` of line `q` with probability `p / 4`. -/
noncomputable def pauliNoise {d : Fin n → Nat} (q : Fin n) (a b : Fin (d q)) (p : ℝ) (rho : DensityOp d) : DensityOp d :=
  (1 - 3 * p / 4) • rho + (p / 4) • (conjBy (embed1 (X := LvOf d) q (twoLevel a b !![0, 1; 1, 0])) rho +
    conjBy (embed1 (X := LvOf d) q (twoLevel a b !![0, -I; I, 0])) rho + conjBy (embed1 (X := LvOf d) q (twoLevel a b !![1, 0; 0, -1])) rho)

/-- The sign of level `l` of line `q` changes with probability `p`. -/
noncomputable def dephase {d : Fin n → Nat} (q : Fin n) (l : Fin (d q)) (p : ℝ) (rho : DensityOp d) : DensityOp d :=
  (1 - p) • rho + p • conjBy (diagonal fun x : Reg d => if x q = l then -1 else 1) rho

/-- The integer as one of `0, ..., m - 1`. -/
def below? (m : Nat) (a : Int) : Option (Fin m) := if h : 0 ≤ a ∧ a < m then some ⟨a.toNat, by omega⟩ else none

/-- The lines of a gate that a mode means, in order. -/
def modeLines (i : Instr) (mode : String) : List Int :=
  let targets := match i.gate.target with | .one t => [t] | .many ts => ts
  let lines := (match i.gate.controls with | some c => c.indices | none => []) ++ targets
  if mode = "local" ∨ mode = "nonlocal" then lines
  else if mode = "all" then (List.range i.gate.dims.length).map fun k : Nat => (k : Int)
  else if mode = "control" then targets.take 1
  else if mode = "target" then (if i.gate.gateType = .single then targets.take 1 else lines.drop 1)
  else []

/-- The pairs of levels with their noise: those of the object, or the gate's own pair if the object is the single negative marker and the gate has two levels. -/
def noiseEntries (m : SubspaceNoise ℝ) (i : Instr) : List ((Int × Int) × Noise ℝ) :=
  match m, i.levels with
  | [(k, noise)], some (x, y) => if k.1 < 0 ∨ k.2 < 0 then [((min x y, max x y), noise)] else [(k, noise)]
  | _, _ => m

/-- Physical noise of one entry on line `q`: errors within the pair. -/
noncomputable def pairChannel {d : Fin n → Nat} (q : Fin n) (e : (Int × Int) × Noise ℝ) (rho : DensityOp d) : DensityOp d :=
  match below? (d q) e.1.1, below? (d q) e.1.2 with
  | some a, some b => pauliNoise q a b e.2.depolarizing rho
  | _, _ => rho

/-- Physical noise of one entry on line `q`: dephasing of the levels outside the pair. -/
noncomputable def restChannel {d : Fin n → Nat} (q : Fin n) (e : (Int × Int) × Noise ℝ) (rho : DensityOp d) : DensityOp d :=
  ((List.finRange (d q)).filter fun l : Fin (d q) => ((l : Nat) : Int) ≠ e.1.1 ∧ ((l : Nat) : Int) ≠ e.1.2).foldl (fun rho l => dephase q l e.2.dephasing rho) rho

/-- What an entry (mode, noise) of a noise model does after gate `i`. -/
noncomputable def entryChannel (d : Fin n → Nat) (i : Instr) (e : String × NoiseObj ℝ) (rho : DensityOp d) : DensityOp d :=
  let qs := (modeLines i e.1).filterMap (below? n)
  match e.2 with
  | .math noise => qs.foldl (fun rho q => depolarize q noise.depolarizing rho) rho
  | .sub m =>
    let rho := qs.foldl (fun rho q => (noiseEntries m i).foldl (fun rho e => pairChannel q e rho) rho) rho
    qs.foldl (fun rho q => (noiseEntries m i).foldl (fun rho e => restChannel q e rho) rho) rho

/-- A circuit with its operators under a noise model: every gate, followed by the entries for it. -/
noncomputable def noisyChannel (d : Fin n → Nat) (errs : Shots.Errors) : List (Instr × DensityOp d) → DensityOp d → DensityOp d
  | [], rho => rho
  | (i, M) :: rest, rho => noisyChannel d errs rest (((PyDict.get? errs i.tag).getD []).foldl (fun rho e => entryChannel d i e rho) (conjBy M rho))

end Qudits.Spec
