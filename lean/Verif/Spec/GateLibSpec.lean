import Mathlib.LinearAlgebra.Matrix.Notation
import Mathlib.LinearAlgebra.UnitaryGroup
import Mathlib.Analysis.SpecialFunctions.Complex.Circle
/- Rotations of a two-level system. -/
namespace Qudits.Spec
open Matrix

noncomputable section

/-- the matrix of a list of entries by rows -/
def byRows (d : Nat) (l : List ℂ) : Matrix (Fin d) (Fin d) ℂ := of fun i j => l.getD (d * i + j) 0

def pauliX : Matrix (Fin 2) (Fin 2) ℂ := !![0, 1; 1, 0]
def pauliY : Matrix (Fin 2) (Fin 2) ℂ := !![0, -Complex.I; Complex.I, 0]
def pauliZ : Matrix (Fin 2) (Fin 2) ℂ := !![1, 0; 0, -1]

/-- the rotation exp(-i t/2 P) for P² = 1 -/
def rotation (P : Matrix (Fin 2) (Fin 2) ℂ) (t : ℝ) : Matrix (Fin 2) (Fin 2) ℂ :=
  Complex.cos (t / 2) • (1 : Matrix (Fin 2) (Fin 2) ℂ) - (Complex.I * Complex.sin (t / 2)) • P

/-- `A` on the levels 0 and 1 of three, level 2 left alone -/
def onFirstTwo (A : Matrix (Fin 2) (Fin 2) ℂ) : Matrix (Fin 3) (Fin 3) ℂ := !![A 0 0, A 0 1, 0; A 1 0, A 1 1, 0; 0, 0, 1]

end

end Qudits.Spec
