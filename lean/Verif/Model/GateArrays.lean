import Verif.Model.MatrixFactory
import Verif.Model.Angles
import Mathlib.Analysis.Complex.Basic
import Mathlib.Analysis.Normed.Algebra.MatrixExponential
import Mathlib.Analysis.SpecialFunctions.Pow.Complex
import Mathlib.Data.Nat.Sqrt

/-
`__array__` and parameter handling of the gates in /repo/src/mqt/qudits/quantum_circuit/gates/.
Floats are exact complex numbers.  `to_matrix()` of a nested helper gate (no controls, identities=0)
returns its `__array__` unchanged, so the nested calls are modelled by the array function itself.
-/
namespace Qudits
open Complex

/-- One gate parameter. -/
inductive PVal where
  | int (n : Int)
  | flt (x : ℝ)
  | str (s : String)

/-- The `parameters` argument: `None`, a Python list, or anything else (tuple, ndarray, ...). -/
inductive Params where
  | none
  | list (l : List PVal)
  | other

/-- `assert isinstance(parameter[k], int)`, returning the value. -/
def needInt (p : List PVal) (k : Nat) : Except PyErr Int :=
  match p[k]? with
  | .none => .error .indexError
  | some (.int n) => .ok n
  | some _ => .error .assertionError

/-- `assert isinstance(parameter[k], float)`, returning the value. -/
def needFlt (p : List PVal) (k : Nat) : Except PyErr ℝ :=
  match p[k]? with
  | .none => .error .indexError
  | some (.flt x) => .ok x
  | some _ => .error .assertionError

/-- `np.outer(a, b)` of two integer vectors, as a complex array. -/
def outer (a b : List Int) : Arr2 ℂ :=
  ⟨a.length, b.length, fun r c => ((a.getD r 0 : Int) : ℂ) * ((b.getD c 0 : Int) : ℂ)⟩

/-- x.py:36-45 -/
def xArray (d : Nat) : Except PyErr (Arr2 ℂ) :=
  Arr2.accumulate d (Arr2.zeros d d) fun i => do
    let array1 ← basisVec d ((i + 1) % d)
    let array2 ← basisVec d i
    pure (outer array1 array2)

/-- z.py:36-47 -/
noncomputable def zArray (d : Nat) : Except PyErr (Arr2 ℂ) :=
  Arr2.accumulate d (Arr2.zeros d d) fun i => do
    let omega : ℂ := cexp ((pyMod (2 * i / d) 2 : ℝ) * (Real.pi : ℂ) * I)
    let array ← basisVec d i
    pure ((outer array array).smul omega)

/-- h.py:37-48; the loop runs over `itertools.product(range(d), repeat=2)`. -/
noncomputable def hArray (d : Nat) : Except PyErr (Arr2 ℂ) := do
  let m ← Arr2.accumulate (d * d) (Arr2.zeros d d) fun k => do
    let e0 := k / d
    let e1 := k % d
    let omega : ℂ := cexp ((pyMod (2 / d * (e0 * e1)) 2 : ℝ) * (Real.pi : ℂ) * I)
    let array0 ← basisVec d e0
    let array1 ← basisVec d e1
    pure ((outer array0 array1).smul omega)
  pure (m.smul ((1 / Real.sqrt d : ℝ) : ℂ))

/-- s.py:54-72 `is_prime`; `range(3, int(n**0.5)+1, 2)`. -/
def isPrime (n : Nat) : Bool :=
  if n < 2 then false
  else if n = 2 then true
  else if n % 2 = 0 then false
  else (List.range ((Nat.sqrt n + 1 - 3 + 1) / 2)).all fun k => n % (3 + 2 * k) != 0

/-- s.py:27-39: the constructor rejects non-prime dimensions (InvalidQuditDimensionError is a ValueError). -/
def sInit (d : Nat) : Except PyErr Unit := if isPrime d then .ok () else .error .valueError

/-- s.py:41-52 -/
noncomputable def sArray (d : Nat) : Except PyErr (Arr2 ℂ) :=
  if d = 2 then .ok ⟨2, 2, fun r c => if r = 0 ∧ c = 0 then 1 else if r = 1 ∧ c = 1 then I else 0⟩
  else
    Arr2.accumulate d (Arr2.zeros d d) fun i => do
      let omega : ℂ := cexp (2 * Real.pi * I / d)
      let omega := omega ^ ((pyMod ((i * (i + 1) : ℝ) / 2) d : ℝ) : ℂ)
      let array ← basisVec d i
      pure ((outer array array).smul omega)

/-! ### gates on two levels of one line -/

/-- `levels_setter` (r.py:70-74 and identical copies in rz.py, rh.py, noise_x.py, noise_y.py). -/
def levelsSetter (la lb : Int) : Int × Int := if la < lb then (la, lb) else (lb, la)

/-- The level part of `validate_parameter` (r.py:85-89 and copies). -/
def checkLevels (d : Nat) (a b : Int) : Except PyErr Unit :=
  if 0 ≤ a ∧ a < d ∧ 0 ≤ b ∧ b < d ∧ a ≠ b then .ok () else .error .assertionError

/-- State of a constructed two-level gate. Defaults are those of gate.py:43-46. -/
structure TwoLevel where
  levA : Int := 0
  levB : Int := 0
  theta : ℝ := 0
  phi : ℝ := 0

/-- gellmann.py:71-92 (for a list of two ints and a string), 30: `assert validate`; array gellmann.py:45-69.
`type_m` is `"s"`, `"a"` or anything else for the diagonal family. -/
noncomputable def gellMann (d : Nat) (a b : Int) (typ : String) : Except PyErr (Arr2 ℂ) :=
  if 0 ≤ a ∧ a < b then
    let a := a.toNat
    let b := b.toNat
    let z : Arr2 ℂ := Arr2.zeros d d
    if typ = "s" then do
      let m ← z.set a b 1
      m.set b a 1
    else if typ = "a" then do
      let m ← z.set a b (z.at' a b - I)
      m.set b a (m.at' b a + I)
    else do
      let m ← (List.range b).foldlM (fun (m : Arr2 ℂ) j => m.set j j (m.at' j j + 1)) z
      let m ← m.set b b (m.at' b b - b)
      pure (m.smul ((Real.sqrt (2 / (b * (b + 1))) : ℝ) : ℂ))
  else .error .assertionError

/-- r.py:40-47, 76-100: constructor. A parameter object that is not a list leaves the defaults. -/
noncomputable def rInit (d : Nat) : Params → Except PyErr TwoLevel
  | .list p => do
    let a ← needInt p 0
    let b ← needInt p 1
    let theta ← needFlt p 2
    let phi ← needFlt p 3
    checkLevels d a b
    let (la, lb) := levelsSetter a b
    pure { levA := la, levB := lb, theta := regulateTheta theta, phi := phi }
  | _ => .ok {}

/-- r.py:49-68 -/
noncomputable def rArray (d : Nat) (g : TwoLevel) : Except PyErr (Arr2 ℂ) := do
  let a := g.levA.toNat
  let b := g.levB.toNat
  let m0 : Arr2 ℂ := Arr2.identity d
  let m1 ← m0.set a a ((Real.cos (g.theta / 2) : ℝ) * m0.at' a a)
  let m2 ← m1.set b b ((Real.cos (g.theta / 2) : ℝ) * m1.at' b b)
  let ga ← gellMann d g.levA g.levB "a"
  let gs ← gellMann d g.levA g.levB "s"
  let s ← (ga.smul ((Real.sin g.phi : ℝ) : ℂ)).add (gs.smul ((Real.cos g.phi : ℝ) : ℂ))
  m2.add (s.smul (-(I * (Real.sin (g.theta / 2) : ℝ))))

/-- rz.py:39-45, 70-93 -/
noncomputable def rzInit (d : Nat) : Params → Except PyErr TwoLevel
  | .list p => do
    let a ← needInt p 0
    let b ← needInt p 1
    let phi ← needFlt p 2
    checkLevels d a b
    let (la, lb) := levelsSetter a b
    pure { levA := la, levB := lb, phi := regulateTheta phi }
  | _ => .ok {}

/-- rz.py:47-62 -/
noncomputable def rzArray (d : Nat) (g : TwoLevel) : Except PyErr (Arr2 ℂ) := do
  let r1 ← rInit d (.list [.int g.levA, .int g.levB, .flt (-Real.pi / 2), .flt 0])
  let pi_there ← rArray d r1
  let r2 ← rInit d (.list [.int g.levA, .int g.levB, .flt g.phi, .flt (Real.pi / 2)])
  let rotate ← rArray d r2
  let r3 ← rInit d (.list [.int g.levA, .int g.levB, .flt (Real.pi / 2), .flt 0])
  let pi_back ← rArray d r3
  let m ← pi_back.matmul rotate
  m.matmul pi_there

/-- rh.py:40-44, 68-90; noise_x.py:38-42, 61-83; noise_y.py:38-42, 61-83 (three identical copies) -/
noncomputable def levelsInit (d : Nat) : Params → Except PyErr TwoLevel
  | .list p => do
    let a ← needInt p 0
    let b ← needInt p 1
    checkLevels d a b
    let (la, lb) := levelsSetter a b
    pure { levA := la, levB := lb }
  | _ => .ok {}

/-- rh.py:46-60 -/
noncomputable def rhArray (d : Nat) (g : TwoLevel) : Except PyErr (Arr2 ℂ) := do
  let r1 ← rInit d (.list [.int g.levA, .int g.levB, .flt (-Real.pi), .flt 0])
  let pi_x ← rArray d r1
  let r2 ← rInit d (.list [.int g.levA, .int g.levB, .flt (Real.pi / 2), .flt (Real.pi / 2)])
  let rotate ← rArray d r2
  pi_x.matmul rotate

/-- noise_x.py:44-53 -/
def noiseXArray (d : Nat) (g : TwoLevel) : Except PyErr (Arr2 ℂ) := do
  let a := g.levA.toNat
  let b := g.levB.toNat
  let m ← (Arr2.identity d : Arr2 ℂ).set a a 0
  let m ← m.set b b 0
  let m ← m.set a b 1
  m.set b a 1

/-- noise_y.py:44-53 -/
def noiseYArray (d : Nat) (g : TwoLevel) : Except PyErr (Arr2 ℂ) := do
  let a := g.levA.toNat
  let b := g.levB.toNat
  let m ← (Arr2.identity d : Arr2 ℂ).set a a 0
  let m ← m.set b b 0
  let m ← m.set a b (-I)
  m.set b a I

/-- virt_rz.py:38-42, 52-67: unacceptable parameters are silently ignored (defaults). -/
noncomputable def virtRzInit (d : Nat) : Params → TwoLevel
  | .list [.int a, .flt phi] => if 0 ≤ a ∧ a < d then { levA := a, phi := regulateTheta phi } else {}
  | _ => {}

/-- virt_rz.py:44-50 -/
noncomputable def virtRzArray (d : Nat) (g : TwoLevel) : Except PyErr (Arr2 ℂ) :=
  let a := g.levA.toNat
  let m : Arr2 ℂ := Arr2.identity d
  m.set a a (cexp (-I * (g.phi : ℝ)) * m.at' a a)

/-! ### permutation gate -/

/-- perm.py:45-63 for a list of ints. -/
def permInit (d : Nat) (p : List Int) : Except PyErr (List Int) :=
  if p.all fun num => 0 ≤ num && num < p.length && num < d then .ok p else .error .assertionError

/-- perm.py:42-43 `np.eye(d)[:, perm]` for accepted (non-negative, in range) data. -/
def permArray (d : Nat) (p : List Int) : Arr2 ℂ :=
  ⟨d, p.length, fun r c => if (r : Int) = p.getD c 0 then 1 else 0⟩

/-! ### two-line gates; `q0, q1` are the named lines, `d0, d1` their dimensions in that order -/

/-- csum.py:39-57 -/
def csumArray (q0 q1 : Int) (ctrlSize targetSize : Nat) : Except PyErr (Arr2 ℂ) := do
  let xMat ← xArray targetSize
  Arr2.accumulate ctrlSize (Arr2.zeros (ctrlSize * targetSize) (ctrlSize * targetSize)) fun i => do
    let basis ← fromDiracToBasis [i] [ctrlSize]
    let mapmat := outer basis basis
    let xMatI ← xMat.matrixPower i
    pure (if q0 < q1 then mapmat.kron xMatI else xMatI.kron mapmat)

/-- Parameters of a CEx gate. -/
structure CExParams where
  levA : Int := 0
  levB : Int := 1
  ctrl : Int := 1
  phi : ℝ := 0

/-- cx.py:43-51, 86-107: default `[0, 1, 1, 0.0]` unless an accepted list is given. -/
noncomputable def cexInit : Params → Except PyErr CExParams
  | .list p => do
    let a ← needInt p 0
    let b ← needInt p 1
    let c ← needInt p 2
    let phi ← needFlt p 3
    if 0 ≤ a ∧ a < b ∧ 0 ≤ phi ∧ phi ≤ 2 * Real.pi then pure ⟨a, b, c, phi⟩
    else .error .assertionError
  | _ => .ok {}

/-- cx.py:71-75: the operator on the second line at the control level. -/
noncomputable def cexOpArray (d1 : Nat) (g : CExParams) : Except PyErr (Arr2 ℂ) := do
  let lo := g.levA.toNat
  let hi := g.levB.toNat
  let m ← (Arr2.identity d1 : Arr2 ℂ).set lo lo 0
  let m ← m.set lo hi (-I * (Real.cos g.phi : ℝ) - (Real.sin g.phi : ℝ))
  let m ← m.set hi lo (-I * (Real.cos g.phi : ℝ) + (Real.sin g.phi : ℝ))
  m.set hi hi 0

/-- cx.py:53-84 -/
noncomputable def cexArray (q0 q1 : Int) (d0 d1 : Nat) (g : CExParams) : Except PyErr (Arr2 ℂ) :=
  Arr2.accumulate d0 (Arr2.zeros (d0 * d1) (d0 * d1)) fun i => do
    let v ← fromDiracToBasis [i] [d0]
    let mapmat := outer v v
    let op ← if (i : Int) = g.ctrl then cexOpArray d1 g else pure (Arr2.identity d1)
    pure (if q0 < q1 then mapmat.kron op else op.kron mapmat)

/-- `scipy.linalg.expm` of a square array. -/
noncomputable def Arr2.expm (A : Arr2 ℂ) : Arr2 ℂ :=
  ⟨A.rows, A.rows, fun r c =>
    if h : r < A.rows ∧ c < A.rows then NormedSpace.exp (A.toM A.rows) ⟨r, h.1⟩ ⟨c, h.2⟩ else 0⟩

/-- ls.py:61-74 and ms.py:70-84: angle check for a list whose first entry is a number. -/
noncomputable def angleInit (theta : ℝ) : Except PyErr ℝ :=
  if 0 ≤ theta ∧ theta ≤ 2 * Real.pi then .ok theta else .error .assertionError

/-- ls.py:47-59; the dimensions are in the order in which the lines were named. -/
noncomputable def lsArray (d0 d1 : Nat) (theta : ℝ) : Except PyErr (Arr2 ℂ) := do
  let m ← Arr2.accumulate (min d0 d1) (Arr2.zeros (d0 * d1) (d0 * d1)) fun i => do
    let v ← fromDiracToBasis [i, i] [d0, d1]
    pure (outer v v)
  pure (m.smul (-I * (theta : ℝ))).expm

/-- ms.py:45-68 -/
noncomputable def msArray (d0 d1 : Nat) (theta : ℝ) : Except PyErr (Arr2 ℂ) := do
  let s1 ← gellMann d1 0 1 "s"
  let s0 ← gellMann d0 0 1 "s"
  let part1 ← ((Arr2.identity d0).kron s1).add (s0.kron (Arr2.identity d1))
  let part2 ← ((Arr2.identity d0).kron s1).add (s0.kron (Arr2.identity d1))
  let m ← (part1.smul (-I * (theta : ℝ))).matmul part2
  pure (m.smul (1 / 4)).expm

end Qudits
