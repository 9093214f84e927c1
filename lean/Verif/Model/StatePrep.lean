import Verif.Model.MicroDD
import Verif.Model.LocalQR
/-
State preparation, /repo/src/mqt/qudits/compiler/state_compilation/state_preparation.py.

`labels` is always `0, 1, …, n-1` (line 171), so the label of a node at depth `k` is `k`.  The threshold 1e-5 below which a rotation is
left out is the argument `del`.  The new instructions are returned; the code appends them to a copy of the circuit.
-/
namespace Qudits
open LocalQR
namespace StatePrep
open MicroDD

/-- `find_complex_number`, state_preparation.py 25-32. -/
noncomputable def findComplex (x c : ℂ) : ℂ :=
  ⟨(c.re - x.im * c.im) / (x.re ^ 2 + x.im ^ 2), (c.im + x.im * c.re) / (x.re ^ 2 + x.im ^ 2)⟩

/-- `get_angles`, state_preparation.py 35-39. -/
noncomputable def getAngles (frm goal : ℂ) : ℝ × ℝ :=
  (2 * arctan2 ‖frm‖ ‖goal‖, -(Real.pi / 2 + Complex.arg goal - Complex.arg frm))

/-- `Operation`, state_preparation.py 42-49. -/
structure PrepOp where
  controls : List (Int × Int)
  qudit : Int
  levels : Int × Int
  theta : ℝ
  phi : ℝ

/-- `is_z`, state_preparation.py 51-52. -/
def PrepOp.isZ (o : PrepOp) : Bool := o.levels == (-1, 0)

/-- `np.dot(gate, coef)` -/
noncomputable def matVec (m : Arr2 ℂ) (v : List ℂ) : Except PyErr (List ℂ) :=
  if m.cols = v.length then .ok ((List.range m.rows).map fun r => ∑ c ∈ Finset.range m.cols, m.at' r c * v.getD c 0)
  else .error .valueError

/-- The loop of `retrieve_local_sequence`, 117-121; the first argument is `i + 1`. The dictionary `aplog` is kept in ascending order of its
keys, in which it is read (line 144). -/
noncomputable def seqLoop (d : Nat) : Nat → List ℂ → List ((Int × Int) × ℝ × ℝ) → Except PyErr (List ℂ × List ((Int × Int) × ℝ × ℝ))
  | 0, coef, acc => .ok (coef, acc)
  | i + 1, coef, acc => do
    let (a, p) := getAngles (coef.getD (i + 1) 0) (coef.getD i 0)
    let r ← rInit d (.list [.int i, .int ((i : Int) + 1), .flt a, .flt p])
    let m ← rArray d r
    let coef' ← matVec m coef
    seqLoop d i coef' ((((i : Int), (i : Int) + 1), (-a, p)) :: acc)

/-- `retrieve_local_sequence`, state_preparation.py 108-126, for children with weights `ws` on a line of dimension `d`. -/
noncomputable def localSequence (d : Nat) (fweight : ℂ) (ws : List ℂ) : Except PyErr (List ((Int × Int) × ℝ × ℝ)) :=
  if ws.length = 0 then .error .indexError
  else do
    let (coef, acc) ← seqLoop d (ws.length - 1) ws []
    let phase := Complex.arg (findComplex fweight (coef.getD 0 0))
    pure (((-1, 0), (-phase * 2, 0)) :: acc)

/-- `children[j]` -/
def childAt (cs : List MicroDD) (j : Nat) : Except PyErr MicroDD :=
  match cs[j]? with
  | some c => .ok c
  | none => .error .indexError

/-- `synthesis`, state_preparation.py 128-166; the dimensions are those of the lines from `depth` on. -/
noncomputable def synthesis : List Nat → Nat → MicroDD → List (Int × Int) → Except PyErr (List PrepOp)
  | dims, depth, t, controls =>
    if t.info.terminal then .ok []
    else match dims with
    | [] => .error .indexError
    | c :: cs => do
      let seq ← localSequence c t.weight (t.children.map weight)
      let ops := seq.map fun e => (⟨controls, depth, e.1, e.2.1, e.2.2⟩ : PrepOp)
      if t.info.reduced = some true then
        let j ← match t.info.index[0]? with
          | some j => pure j
          | none => .error .indexError
        let child ← childAt t.children j
        let sub ← synthesis cs (depth + 1) child controls
        pure (ops ++ sub)
      else
        let subs ← (List.range c).mapM fun i => do
          let j ← if t.info.index.length = 0 then pure i else match t.info.index[i]? with
            | some j => pure j
            | none => .error .indexError
          let child ← childAt t.children j
          synthesis cs (depth + 1) child (controls ++ [((depth : Int), (i : Int))])
        pure (ops ++ subs.flatten)

/-- The gate of an operation on a line of dimension `d`, without its controls, state_preparation.py 188-191. -/
noncomputable def prepKind (d : Nat) (o : PrepOp) : Except PyErr PKind :=
  if o.isZ then do
    let p ← rzInit d (.list [.int 0, .int 1, .flt o.theta])
    pure (PKind.rz p)
  else do
    let p ← rInit d (.list [.int o.levels.1, .int o.levels.2, .flt o.theta, .flt o.phi])
    pure (PKind.r p)

/-- The instruction appended for an operation, state_preparation.py 184-191; none below the threshold. -/
noncomputable def instrOf (dims : List Nat) (del : ℝ) (o : PrepOp) : Except PyErr (List PInstr) :=
  if |o.theta| > del then do
    let d ← match dims[o.qudit.toNat]? with
      | some d => pure d
      | none => .error .indexError
    let kind ← prepKind d o
    let g ← Gate.control ⟨dims, "R", .single, .one o.qudit, none, false, false⟩ (o.controls.map Prod.fst) (o.controls.map Prod.snd)
    pure [⟨kind, .one o.qudit, d, g.controls, false⟩]
  else .ok []

/-- the second half of `compile_state`, state_preparation.py 179-193 -/
noncomputable def fromTree (H : List (Int × ℂ) → Int) (del : ℝ) (dims : List Nat) (t : MicroDD) : Except PyErr (List PInstr) := do
  let t ← aggregate dims.length (hashing H t)
  let ops ← synthesis dims 0 t []
  let out ← ops.mapM (instrOf dims del)
  pure out.flatten

/-- `StatePrep(circuit, state).compile_state()` without approximation, state_preparation.py 168-193. -/
noncomputable def compileState (H : List (Int × ℂ) → Int) (del : ℝ) (dims : List Nat) (state : List ℂ) : Except PyErr (List PInstr) := do
  let t ← create dims state
  fromTree H del dims t

end StatePrep
end Qudits
