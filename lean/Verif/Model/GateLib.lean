import Verif.Model.Misim
/-
The two-level gate library of the decision diagram package, /repo/include/dd/GateMatrixDefinitions.hpp 48-121, 157-164, with the three-level
constants of 173-233.  Arrays are lists of entries by rows; SQRT2_2 is exact.
-/
namespace Qudits.DD

noncomputable section

/-- SQRT2_2, Definitions.hpp 76-77 -/
def sqrt22 : ℝ := Real.sqrt 2 / 2

/-- Imat, 48 -/
def iMat2 : List ℂ := [1, 0, 0, 1]

/-- Hmat, 49-50 -/
def hMat2 : List ℂ := [cval sqrt22 0, cval sqrt22 0, cval sqrt22 0, cval (-sqrt22) 0]

/-- Xmat, 51 -/
def xMat2 : List ℂ := [0, 1, 1, 0]

/-- Ymat, 52 -/
def yMat2 : List ℂ := [0, cval 0 (-1), cval 0 1, 0]

/-- Zmat, 53-54 -/
def zMat2 : List ℂ := [1, 0, 0, cval (-1) 0]

/-- Smat, 55 -/
def sMat2 : List ℂ := [1, 0, 0, cval 0 1]

/-- Sdagmat, 56-57 -/
def sDagMat2 : List ℂ := [1, 0, 0, cval 0 (-1)]

/-- Tmat, 58-59 -/
def tMat2 : List ℂ := [1, 0, 0, cval sqrt22 sqrt22]

/-- Tdagmat, 60-61 -/
def tDagMat2 : List ℂ := [1, 0, 0, cval sqrt22 (-sqrt22)]

/-- SXmat, 62-63 -/
def sxMat2 : List ℂ := [cval (1 / 2) (1 / 2), cval (1 / 2) (-(1 / 2)), cval (1 / 2) (-(1 / 2)), cval (1 / 2) (1 / 2)]

/-- SXdagmat, 64-65 -/
def sxDagMat2 : List ℂ := [cval (1 / 2) (-(1 / 2)), cval (1 / 2) (1 / 2), cval (1 / 2) (1 / 2), cval (1 / 2) (-(1 / 2))]

/-- Vmat, 66-67 -/
def vMat2 : List ℂ := [cval sqrt22 0, cval 0 (-sqrt22), cval 0 (-sqrt22), cval sqrt22 0]

/-- Vdagmat, 68-69 -/
def vDagMat2 : List ℂ := [cval sqrt22 0, cval 0 sqrt22, cval 0 sqrt22, cval sqrt22 0]

/-- U3mat, 77-85 -/
def u3Mat (lambda phi theta : ℝ) : List ℂ :=
  [cval (Real.cos (theta / 2)) 0,
   cval (-Real.cos lambda * Real.sin (theta / 2)) (-Real.sin lambda * Real.sin (theta / 2)),
   cval (Real.cos phi * Real.sin (theta / 2)) (Real.sin phi * Real.sin (theta / 2)),
   cval (Real.cos (lambda + phi) * Real.cos (theta / 2)) (Real.sin (lambda + phi) * Real.cos (theta / 2))]

/-- U2mat, 87-93 -/
def u2Mat (lambda phi : ℝ) : List ℂ :=
  [cval sqrt22 0,
   cval (-Real.cos lambda * sqrt22) (-Real.sin lambda * sqrt22),
   cval (Real.cos phi * sqrt22) (Real.sin phi * sqrt22),
   cval (Real.cos (lambda + phi) * sqrt22) (Real.sin (lambda + phi) * sqrt22)]

/-- Phasemat, 95-100 -/
def phaseMat2 (lambda : ℝ) : List ℂ := [1, 0, 0, cval (Real.cos lambda) (Real.sin lambda)]

/-- RXmat, 102-107 -/
def rxMat2 (lambda : ℝ) : List ℂ :=
  [cval (Real.cos (lambda / 2)) 0, cval 0 (-Real.sin (lambda / 2)), cval 0 (-Real.sin (lambda / 2)), cval (Real.cos (lambda / 2)) 0]

/-- RYmat, 109-114 -/
def ryMat2 (lambda : ℝ) : List ℂ :=
  [cval (Real.cos (lambda / 2)) 0, cval (-Real.sin (lambda / 2)) 0, cval (Real.sin (lambda / 2)) 0, cval (Real.cos (lambda / 2)) 0]

/-- RZmat, 116-121 -/
def rzMat2 (lambda : ℝ) : List ℂ :=
  [cval (Real.cos (lambda / 2)) (-Real.sin (lambda / 2)), 0, 0, cval (Real.cos (lambda / 2)) (Real.sin (lambda / 2))]

/-- embX2, 157-164: the entries of an identity are replaced one after the other. -/
def embX2 (phi : ℝ) : List ℂ :=
  (((iMat2.set 0 0).set 1 (cval (-Real.sin phi) (-Real.cos phi))).set 2 (cval (Real.sin phi) (-Real.cos phi))).set 3 0

/-- U301, 220-233 -/
def u301 (lambda phi theta : ℝ) : List ℂ :=
  [cval (Real.cos (theta / 2)) 0,
   cval (-Real.cos lambda * Real.sin (theta / 2)) (-Real.sin lambda * Real.sin (theta / 2)),
   0,
   cval (Real.cos phi * Real.sin (theta / 2)) (Real.sin phi * Real.sin (theta / 2)),
   cval (Real.cos (lambda + phi) * Real.cos (theta / 2)) (Real.sin (lambda + phi) * Real.cos (theta / 2)),
   0, 0, 0, 1]

/-- Pimat (71-75), Pi3 (173-179), Pi4 (337), Pi5 (514), Pi6 (724), Pi7 (927): `zero.at(i + i * d) = 1`. -/
def piMat (d i : Nat) : Except Err (List ℂ) := setAt (i + i * d) 1 (List.replicate (d * d) 0)

/-- PI02, 207-209 -/
def pi02 : List ℂ := [0, 0, cval (-1) 0, 0, 1, 0, 1, 0, 0]

/-- P_I02DAG, 210-212 -/
def pi02Dag : List ℂ := [0, 0, 1, 0, 1, 0, cval (-1) 0, 0, 0]

/-- X01, 213-215 -/
def x01 : List ℂ := [0, 1, 0, 1, 0, 0, 0, 0, 1]

/-- Z01, 216-218 -/
def z01 : List ℂ := [1, 0, 0, 0, cval (-1) 0, 0, 0, 0, 1]

end

end Qudits.DD
