import Verif.Spec.QrSpec
import Verif.Spec.TwoLevel
/- What the adaptive decompositions may assume and what they promise. -/
namespace Qudits.Spec
open LGraph LocalQR Matrix

/-- the nodes are listed in the order 0, …, d-1 -/
def InOrder (d : Nat) (g : LGraph) : Prop := names g = (List.range d).map fun i : Nat => (i : Int)

/-- the stored phases are multiples of π -/
def PiPhases (d : Nat) (g : LGraph) : Prop := ∀ i : Fin d, ∃ k : ℤ, stored g i = k * Real.pi

open Classical in
/-- How a graph says that a state is kept: logical level `c` is in the physical level `lpmap` of node `c`, with the phase stored there. -/
noncomputable def frame (d : Nat) (g : LGraph) : Matrix (Fin d) (Fin d) ℂ := fun r c =>
  if value g ((c : Nat) : Int) "lpmap" = some (.int ((r : Nat) : Int)) then Complex.exp (Complex.I * (stored g c : ℝ)) else 0

/-- any two levels are coupled -/
def AllCoupled (d : Nat) (g : LGraph) : Prop := ∀ i j : Fin d, i ≠ j → Joined g ((i : Nat) : Int) ((j : Nat) : Int)

/-- `sp` finds shortest paths, as `nx.shortest_path` does -/
structure FindsShortest (sp : PathFinder) : Prop where
  finds : FindsPaths sp
  shortest : ∀ g a b p p', sp g a b = .ok p → IsPath g a b p' → p.length ≤ p'.length

/-- The matrices that are met when entries below the diagonal are cleared one after the other, each by a rotation with the row above; entries
of modulus at most 1e-8 are left alone. -/
inductive Cleared {d : Nat} (U : Matrix (Fin d) (Fin d) ℂ) : Matrix (Fin d) (Fin d) ℂ → Prop
  | start : Cleared U U
  | turn (W : Matrix (Fin d) (Fin d) ℂ) (h : Cleared U W) (c a r : Fin d) (hr : (r : Nat) = a + 1) (hc : c ≤ a) (hbig : 1e-8 < ‖W r c‖) :
      Cleared U (twoLevel a r (rot (2 * arctan2 ‖W r c‖ ‖W a c‖) (-(Real.pi / 2 + Complex.arg (W a c) - Complex.arg (W r c)))) * W)

/-- no entry of these matrices is so small that a search takes it for neither zero nor nonzero -/
def NoTinyEntries {d : Nat} (U : Matrix (Fin d) (Fin d) ℂ) : Prop := ∀ W, Cleared U W → ∀ i j, W i j = 0 ∨ 1e-18 < ‖W i j‖

/-- a matrix taken for diagonal: entries outside the diagonal are at most `off`, one on the diagonal is larger -/
def DiagonalUpTo {d : Nat} (off : ℝ) (U : Matrix (Fin d) (Fin d) ℂ) : Prop := (∀ i j, i ≠ j → ‖U i j‖ ≤ off) ∧ ∃ i, off < ‖U i i‖

/-- a rotation between two levels of a line of dimension `d` -/
def LevelRotation (d : Nat) (x : PInstr) : Prop := ∃ p, x.kind = .r p ∧ 0 ≤ p.levA ∧ p.levA < p.levB ∧ p.levB < d

end Qudits.Spec
