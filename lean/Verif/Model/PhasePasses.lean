import Verif.Model.PyDict
import Verif.Model.Circuit
import Verif.Model.Gate
import Verif.Model.GateArrays
/-
Model of the two passes on phase rotations:
* src/mqt/qudits/compiler/onedit/local_phases_transpilation/propagate_virtrz.py
* src/mqt/qudits/compiler/onedit/local_phases_transpilation/remove_phase_rotations.py
-/
namespace Qudits

/-- The class of a gate, as far as these passes distinguish it, with its parameters. `other k` is a gate of any other
class; `k` only serves to tell such gates apart. -/
inductive PKind where
  | r (g : TwoLevel)
  | virtRz (g : TwoLevel)
  | rz (g : TwoLevel)
  | z
  | other (k : Nat)

/-- The parts of a gate object these passes read. `dim` is `gate.dimensions` of a gate on one line. -/
structure PInstr where
  kind : PKind
  target : Target
  dim : Nat
  controls : Option ControlData := none
  dagger : Bool := false

namespace PhasePass

/-- `__array__` of the gates whose class is known -/
noncomputable def arrayOf (g : PInstr) : Option (Except PyErr (Arr2 ℂ)) :=
  match g.kind with
  | .r p => some (rArray g.dim p)
  | .virtRz p => some (virtRzArray g.dim p)
  | .rz p => some (rzArray g.dim p)
  | .z => some (zArray g.dim)
  | .other _ => none

/-- `z_angles[lev]` -/
noncomputable def angleAt (z : PyDict Int ℝ) (lev : Int) : Except PyErr ℝ :=
  match PyDict.get? z lev with
  | some x => .ok x
  | none => .error .keyError

/-- `gates.R(circuit, "R", qudit_index, [a, b, theta, phi], dimension)` (propagate_virtrz.py 56-64) -/
noncomputable def newR (q : Int) (dim : Nat) (p : TwoLevel) (phi : ℝ) : Except PyErr PInstr := do
  let r ← rInit dim (.list [.int p.levA, .int p.levB, .flt p.theta, .flt phi])
  return ⟨.r r, .one q, dim, none, false⟩

/-- `gates.VirtRz(circuit, "VRz", qudit_index, [e_lev, z], dimension)` (propagate_virtrz.py 72) -/
noncomputable def newVirtRz (q : Int) (dim : Nat) (e : Int × ℝ) : PInstr :=
  ⟨.virtRz (virtRzInit dim (.list [.int e.1, .flt e.2])), .one q, dim, none, false⟩

/-- the new azimuth of a rotation (propagate_virtrz.py 48-55) -/
noncomputable def newPhi (back : Bool) (phi za zb : ℝ) : ℝ :=
  if back then piMod (phi + za - zb) else piMod (phi - za + zb)

/-- one round of the loop (propagate_virtrz.py 44-66); gates of other classes are passed over -/
noncomputable def propStep (q : Int) (dim : Nat) (back : Bool) (st : PyDict Int ℝ × List PInstr) (g : PInstr) :
    Except PyErr (PyDict Int ℝ × List PInstr) :=
  match g.kind with
  | .r p => do
    let za ← angleAt st.1 p.levA
    let zb ← angleAt st.1 p.levB
    let r ← newR q dim p (newPhi back p.phi za zb)
    return (st.1, st.2 ++ [r])
  | .virtRz p => do
    let za ← angleAt st.1 p.levA
    return (PyDict.set st.1 p.levA (piMod (za + p.phi)), st.2)
  | _ => .ok st

/-- `for i in range(dimension): z_angles[i] = 0.0` (propagate_virtrz.py 36-37) -/
noncomputable def zeroAngles (dim : Nat) : PyDict Int ℝ := (List.range dim).map fun i : Nat => ((i : Int), 0)

/-- `ZPropagationOptPass.propagate_z` (propagate_virtrz.py 29-76). The dimension of a gate with a list of targets is a
list, which `range` refuses. -/
noncomputable def propagateZ (line : List PInstr) (back : Bool) : Except PyErr (List PInstr × List PInstr) :=
  match line with
  | [] => .error .indexError
  | g0 :: _ =>
    match g0.target with
    | .many _ => .error .typeError
    | .one q => do
      let line := if back then line.reverse else line
      let st ← line.foldlM (propStep q g0.dim back) (zeroAngles g0.dim, [])
      let rots := if back then st.2.reverse else st.2
      return (rots, st.1.map (newVirtRz q g0.dim))

/-- state of `find_intervals_with_same_target_qudits` -/
structure IntervalSt where
  intervals : List (List Nat)
  current : List Nat
  targets : List Int

/-- one round of its loop (propagate_virtrz.py 85-99) -/
def intervalStep (st : IntervalSt) (ig : Nat × PInstr) : IntervalSt :=
  let tq := ig.2.target.lines
  if st.targets.length = 0 ∨ tq = st.targets then ⟨st.intervals, st.current ++ [ig.1], tq⟩
  else ⟨st.intervals ++ [st.current], [ig.1], tq⟩

/-- `enumerate(l)`, starting at `k` -/
def enum {γ : Type} : Nat → List γ → List (Nat × γ)
  | _, [] => []
  | k, g :: gs => (k, g) :: enum (k + 1) gs

/-- `find_intervals_with_same_target_qudits` (propagate_virtrz.py 78-105) -/
def findIntervals (l : List PInstr) : List (List Nat) :=
  let st := (enum 0 l).foldl intervalStep ⟨[], [], []⟩
  if st.current.length > 0 then st.intervals ++ [st.current] else st.intervals

/-- body of the loop of `remove_z` (propagate_virtrz.py 112-123) -/
noncomputable def removeZStep (instrs : List PInstr) (back : Bool) (new : List PInstr) (iv : List Nat) :
    Except PyErr (List PInstr) :=
  if iv.length > 1 then do
    let lo := iv.headD 0
    let hi := iv.getLastD 0
    let seq := (instrs.take (hi + 1)).drop lo
    let (fixed, tail) ← propagateZ seq back
    let combined := if back then tail ++ fixed else fixed ++ tail
    return sliceAssign new lo (hi + 1) [] ++ combined
  else .ok new

/-- `ZPropagationOptPass.transpile` = `remove_z` (propagate_virtrz.py 26-27, 107-125): the new instruction list -/
noncomputable def removeZ (l : List PInstr) (back : Bool) : Except PyErr (List PInstr) :=
  (findIntervals l).foldlM (removeZStep l back) l

/-! ### removal of leading and trailing phase gates -/

/-- `isinstance(instruction, (gates.Rz, gates.VirtRz, gates.Z))` -/
def PKind.isPhase : PKind → Bool
  | .virtRz _ => true
  | .rz _ => true
  | .z => true
  | _ => false

/-- the loop of `remove_rz_gates` (remove_phase_rotations.py 36-51) over `(index, instruction)` pairs: the indices to
remove. `seen` is a set, kept as a list without repetition. -/
def removalIndices (numQudits : Nat) : List Int → List (Nat × PInstr) → List Nat
  | _, [] => []
  | seen, (i, g) :: rest =>
    if seen.length = numQudits then []
    else match g.target with
      | .many qs => removalIndices numQudits (qs.foldl (fun s q => s.insert q) seen) rest
      | .one q =>
        if q ∉ seen ∧ PKind.isPhase g.kind then i :: removalIndices numQudits seen rest
        else removalIndices numQudits (seen.insert q) rest

/-- `remove_rz_gates` (remove_phase_rotations.py 27-54) -/
def removeRz (numQudits : Nat) (l : List PInstr) (reverse : Bool) : List PInstr :=
  let idx := removalIndices numQudits [] (if reverse then (enum 0 l).reverse else enum 0 l)
  ((enum 0 l).filter fun ig => ig.1 ∉ idx).map Prod.snd

/-- `ZRemovalOptPass.transpile` (remove_phase_rotations.py 23-25, 56-60) -/
def zRemoval (numQudits : Nat) (l : List PInstr) : List PInstr :=
  removeRz numQudits (removeRz numQudits l false) true

end PhasePass
end Qudits
