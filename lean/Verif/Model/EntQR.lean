import Verif.Model.LocalQR
import Mathlib.LinearAlgebra.Matrix.NonsingularInverse
/-
The decomposition of a gate on two lines into rotations on one line and controlled exchanges (CEx):
* /repo/src/mqt/qudits/compiler/twodit/blocks/crot.py, pswap.py, czrot.py
* /repo/src/mqt/qudits/compiler/twodit/entanglement_qr/log_ent_qr_cex_decomp.py, phy_ent_qr_cex_decomp.py
* /repo/src/mqt/qudits/compiler/compilation_minitools/numerical_ansatz_utils.py (on0, on1)

Simplifications.  `CEX_SEQUENCE` is `None`, the value it has in the code (crot.py 14).  The array of the gate,
`gate.to_matrix(identities=0)`, is an argument.  The thresholds 1e-8 and 1e-4 and the rounding of angles to six digits are
arguments (`eps`, `del`, `rnd`); the rounding of matrix entries to 15 digits (log_ent_qr_cex_decomp.py 94-95) is left out.  A gate
object that occurs several times in a list is a value here; `dag` changes the mark only, so sharing makes no difference.
-/
namespace Qudits.EntQR
open LocalQR

/-- The classes of one-line gates that the generators build. -/
inductive OneKind where
  | r (g : TwoLevel)
  | rz (g : TwoLevel)
  | rh (g : TwoLevel)
  | virtRz (g : TwoLevel)

/-- A gate of a decomposition: a gate on one line, or a CEx. The last argument is the mark set by `dag`. -/
inductive EGate where
  | one (k : OneKind) (line : Int) (dim : Nat) (dagger : Bool)
  | cex (g : CExParams) (q0 q1 : Int) (d0 d1 : Nat) (dagger : Bool)

/-- the mark of a gate -/
def EGate.dagger : EGate → Bool
  | .one _ _ _ b => b
  | .cex _ _ _ _ _ b => b

/-- `op.dag()`, gate.py 86-89: sets the mark -/
def EGate.dag : EGate → EGate
  | .one k q d _ => .one k q d true
  | .cex g q0 q1 d0 d1 _ => .cex g q0 q1 d0 d1 true

/-- `__array__` of a one-line gate -/
noncomputable def OneKind.array (d : Nat) : OneKind → Except PyErr (Arr2 ℂ)
  | .r g => rArray d g
  | .rz g => rzArray d g
  | .rh g => rhArray d g
  | .virtRz g => virtRzArray d g

/-- `gate.to_matrix()`: the array, or its adjoint for a marked gate (matrix_factory.py 20-26) -/
noncomputable def EGate.toMatrix : EGate → Except PyErr (Arr2 ℂ)
  | .one k _ d b => do
    let A ← k.array d
    pure (if b then A.conjT else A)
  | .cex g q0 q1 d0 d1 b => do
    let A ← cexArray q0 q1 d0 d1 g
    pure (if b then A.conjT else A)

/-- The two lines, `indices`, and their dimensions. -/
structure Pair where
  q0 : Int
  q1 : Int
  c : Nat
  t : Nat

variable (P : Pair)

/-! ### constructors of gates -/

/-- `gates.R(circuit, name, line, [a, b, theta, phi], dim)` -/
noncomputable def mkR (line : Int) (dim : Nat) (a b : Int) (theta phi : ℝ) : Except PyErr EGate := do
  let g ← newRot dim a b theta phi
  pure (.one (.r g.par) line dim false)

/-- `gates.Rz(circuit, name, line, [a, b, phi], dim)` -/
noncomputable def mkRz (line : Int) (dim : Nat) (a b : Int) (phi : ℝ) : Except PyErr EGate := do
  let g ← rzInit dim (.list [.int a, .int b, .flt phi])
  pure (.one (.rz g) line dim false)

/-- `gates.Rh(circuit, name, line, [a, b], dim)` -/
noncomputable def mkRh (line : Int) (dim : Nat) (a b : Int) : Except PyErr EGate := do
  let g ← levelsInit dim (.list [.int a, .int b])
  pure (.one (.rh g) line dim false)

/-- `gates.VirtRz(circuit, name, line, [a, phi], dim)` -/
noncomputable def mkVirtRz (line : Int) (dim : Nat) (a : Int) (phi : ℝ) : EGate :=
  .one (.virtRz (virtRzInit dim (.list [.int a, .flt phi]))) line dim false

/-- `gates.CEx(circuit, name, indices, None, dims, None)` -/
noncomputable def mkCEx : Except PyErr EGate := do
  let g ← cexInit .none
  pure (.cex g P.q0 P.q1 P.c P.t false)

/-! ### blocks -/

/-- `CRotGen.crot_101_as_list`, crot.py 22-80 -/
noncomputable def crot (theta phi : ℝ) : Except PyErr (List EGate) := do
  let phi := -phi
  let singleExcitation := mkVirtRz P.q1 P.t 0 (-Real.pi)
  let singleExcitationBack := mkVirtRz P.q1 P.t 0 Real.pi
  let frameBack ← mkR P.q1 P.t 0 1 (-Real.pi / 2) (-phi - Real.pi / 2)
  let tminus ← mkRz P.q1 P.t 0 1 (-theta / 2)
  let tplus ← mkRz P.q1 P.t 0 1 (theta / 2)
  let frameThere ← mkR P.q1 P.t 0 1 (Real.pi / 2) (-phi - Real.pi / 2)
  let cex ← mkCEx P
  pure [frameThere, cex, singleExcitation, tminus, cex, tplus, singleExcitationBack, frameBack]

/-- `CRotGen.permute_crot_101_as_list`, crot.py 82-127 -/
noncomputable def permuteCrot (i : Nat) (theta phase : ℝ) : Except PyErr (List EGate) := do
  let a := i / P.t
  let b := i - P.t * a
  let rotation ← crot P theta phase
  if a = 1 ∧ b = 0 then pure rotation
  else
    let (there, back) ← if b ≠ 0 then do
        let p0 ← mkR P.q1 P.t 0 b Real.pi (-Real.pi / 2)
        let p1 ← mkR P.q1 P.t 1 (b + 1 : Nat) (-Real.pi) (Real.pi / 2)
        pure ([p0, p1], [p1.dag, p0.dag])
      else pure ([], [])
    let (there, back) ← if a ≠ 1 then do
        let p ← mkR P.q0 P.c 1 a Real.pi (-Real.pi / 2)
        let p' ← mkR P.q0 P.c 1 a Real.pi (Real.pi / 2)
        pure (there ++ [p], p' :: back)
      else pure (there, back)
    pure (there ++ rotation ++ back)

/-- `PSwapGen.pswap_101_as_list_phases`, pswap.py 22-151 -/
noncomputable def pswapPhases (theta phi : ℝ) : Except PyErr (List EGate) := do
  let theta := if P.t = 2 then -theta else theta
  let h0 ← mkRh P.q0 P.c 0 1
  let h1 ← mkRh P.q1 P.t 0 1
  let zpiov2 ← mkRz P.q0 P.c 0 1 (Real.pi / 2)
  let zp ← mkRz P.q0 P.c 0 1 Real.pi
  let rphiThere ← mkR P.q1 P.t 0 1 (Real.pi / 2) (-phi - Real.pi / 2)
  let rphiBack ← mkR P.q1 P.t 0 1 (-Real.pi / 2) (-phi - Real.pi / 2)
  let singleExcitation := mkVirtRz P.q1 P.t 0 (-Real.pi)
  let singleExcitationBack := mkVirtRz P.q1 P.t 0 Real.pi
  let tminus ← mkRz P.q1 P.t 0 1 (-theta / 2)
  let tplus ← mkRz P.q1 P.t 0 1 (theta / 2)
  let cex ← mkCEx P
  let flip ← if P.t ≠ 2 then do
      let g ← mkR P.q1 P.t 1 ((P.t : Int) - 1) Real.pi (Real.pi / 2)
      pure [g]
    else pure []
  let flipBack ← if P.t ≠ 2 then do
      let g ← mkR P.q1 P.t 1 ((P.t : Int) - 1) (-Real.pi) (Real.pi / 2)
      pure [g]
    else pure []
  pure (flip ++ [h0, h1, zpiov2] ++ [cex, h0, h1, zp] ++
    [rphiThere, cex, singleExcitation, tminus, cex, tplus, singleExcitationBack, rphiBack] ++
    [h0, h1, zpiov2, cex, h0, h1] ++ flipBack)

/-- `PSwapGen.pswap_101_as_list_no_phases`, pswap.py 153-155 -/
noncomputable def pswapNoPhases (theta phi : ℝ) : Except PyErr (List EGate) := do
  let rotation ← pswapPhases P (-theta / 4) phi
  pure (rotation ++ rotation ++ rotation ++ rotation)

/-- `PSwapGen.permute_pswap_101_as_list` with the default `with_phase=False`, pswap.py 157-190 -/
noncomputable def permutePswap (pos : Nat) (theta phase : ℝ) : Except PyErr (List EGate) := do
  let block := pos / P.t
  let rotation ← pswapNoPhases P theta phase
  if block ≠ 0 then
    let p0 ← mkR P.q0 P.c 0 block Real.pi (-Real.pi / 2)
    let p1 ← mkR P.q0 P.c 1 (block + 1 : Nat) (-Real.pi) (Real.pi / 2)
    pure ([p0, p1] ++ rotation ++ [p1.dag, p0.dag])
  else pure rotation

/-- `CZRotGen.z_from_crot_101_list`, czrot.py 20-26 -/
noncomputable def zFromCrot (i : Nat) (phase : ℝ) : Except PyErr (List EGate) := do
  let piThere ← permuteCrot P i (Real.pi / 2) 0
  let rotate ← permuteCrot P i phase (Real.pi / 2)
  let piBack ← permuteCrot P i (-Real.pi / 2) 0
  pure (piBack ++ rotate ++ piThere)

/-- `CZRotGen.z_pswap_101_as_list`, czrot.py 28-33 -/
noncomputable def zPswap (i : Nat) (phase : ℝ) : Except PyErr (List EGate) := do
  let piThere ← permutePswap P i (Real.pi / 2) 0
  let rotate ← permutePswap P i phase (Real.pi / 2)
  let piBack ← permutePswap P i (-Real.pi / 2) 0
  pure (piBack ++ rotate ++ piThere)

/-! ### the decomposition -/

/-- `EntangledQRCEX.get_gate_matrix`, log_ent_qr_cex_decomp.py 63-70, with `on0` and `on1` -/
noncomputable def gateMatrix (g : EGate) : Except PyErr (Arr2 ℂ) :=
  match g with
  | .cex .. => g.toMatrix
  | .one _ line _ _ => do
    let A ← g.toMatrix
    if line = P.q0 then pure (A.kron (Arr2.identity P.t)) else pure ((Arr2.identity P.c).kron A)

/-- `for rotation in sequence: u_ = gate_matrix @ u_`, 109-111 and 147-156 -/
noncomputable def applySeq (u : Arr2 ℂ) (l : List EGate) : Except PyErr (Arr2 ℂ) :=
  l.foldlM (fun u g => do
    let m ← gateMatrix P g
    m.matmul u) u

/-- Local variables of `execute`. -/
structure EState where
  u : Arr2 ℂ
  decomp : List EGate := []
  crots : Nat := 0
  pswaps : Nat := 0

/-- Body of the two loops, 93-112 -/
noncomputable def step (eps : ℝ) (c : Nat) (st : EState) (r : Nat) : Except PyErr EState := do
  let x ← st.u.get r c
  if ‖x‖ > eps then
    let y ← st.u.get (r - 1) c
    let theta := 2 * arctan2 ‖x‖ ‖y‖
    let phi := piMod (-(Real.pi / 2 + Complex.arg y - Complex.arg x))
    if r - 1 ≠ 0 ∧ r % P.t = 0 then
      let seq ← permutePswap P (r - 1) theta phi
      let u ← applySeq P st.u seq
      pure ⟨u, st.decomp ++ seq, st.crots, st.pswaps + 4⟩
    else
      let seq ← permuteCrot P (r - 1) theta phi
      let u ← applySeq P st.u seq
      pure ⟨u, st.decomp ++ seq, st.crots + 1, st.pswaps⟩
  else pure st

/-- One column, 90-112; the rows are those of the decomposition on one line -/
noncomputable def column (eps : ℝ) (n : Nat) (st : EState) (c : Nat) : Except PyErr EState :=
  (rowsOf n c).foldlM (step P eps c) st

/-- One round of the loop that fills the equations, 120-127; the second component is `last_1` -/
def equationRow (n : Nat) (s : Arr2 ℝ × Int) (i : Nat) : Except PyErr (Arr2 ℝ × Int) := do
  let m ← if s.2 + 1 < (n : Int) - 1 then s.1.set i (s.2 + 1).toNat 1 else pure s.1
  let m ← if s.2 > -1 then m.set i s.2.toNat (-1) else pure m
  pure (m, i)

/-- `phase_equations`, 117-127 -/
def equations (n : Nat) : Except PyErr (Arr2 ℝ) := do
  let s ← (List.range n).foldlM (equationRow n) (Arr2.zeros n (n - 1), -1)
  pure s.1

/-- `solve` of the normal equations, 129-136. `numpy.linalg.solve` returns the solution of the square system. -/
noncomputable def solvePhases (n : Nat) (e : Arr2 ℝ) (args : Fin n → ℝ) : Except PyErr (Fin (n - 1) → ℝ) :=
  let E : Matrix (Fin n) (Fin (n - 1)) ℝ := fun i j => e.at' i j
  let pseudoInv := E.transpose * E
  let pseudoDiag := E.transpose.mulVec args
  if pseudoInv.det = 0 then .error .runtimeError else .ok (pseudoInv⁻¹.mulVec pseudoDiag)

/-- One round of the loop over the phases, 138-160 -/
noncomputable def phaseStep (del : ℝ) {m : Nat} (phases : Fin m → ℝ) (st : EState) (i : Fin m) : Except PyErr EState := do
  if |phases i * 2| > del then
    if (i : Nat) ≠ 0 ∧ ((i : Nat) + 1) % P.t = 0 then
      let seq ← zPswap P i (phases i * 2)
      let u ← applySeq P st.u seq
      pure ⟨u, st.decomp ++ seq, st.crots, st.pswaps + 12⟩
    else
      let seq ← zFromCrot P i (phases i * 2)
      let u ← applySeq P st.u seq
      pure ⟨u, st.decomp ++ seq, st.crots + 3, st.pswaps⟩
  else pure st

/-- `args_of_diag`, 114-115: an index error if the array is too small -/
noncomputable def diagArgs (rnd : ℝ → ℝ) (n : Nat) (u : Arr2 ℂ) : Except PyErr (Fin n → ℝ) :=
  if n ≤ u.rows ∧ n ≤ u.cols then .ok fun i => rnd (Complex.arg (u.at' i i)) else .error .indexError

/-- `EntangledQRCEX.execute`, 72-163; in the code `eps` is 1e-8, `del` is 1e-4 and `rnd` rounds to six digits -/
noncomputable def execute (eps del : ℝ) (rnd : ℝ → ℝ) (u : Arr2 ℂ) : Except PyErr EState := do
  let n := P.c * P.t
  let st ← (List.range n).foldlM (column P eps n) ⟨u, [], 0, 0⟩
  let args ← diagArgs rnd n st.u
  let e ← equations n
  let phases ← solvePhases n e args
  (List.finRange (n - 1)).foldlM (phaseStep P del phases) st

/-! ### the passes -/

/-- `[op.dag() for op in reversed(l)]` -/
def revDag (l : List EGate) : List EGate := l.reverse.map EGate.dag

/-- `LogEntQRCEXPass.transpile_gate`, log_ent_qr_cex_decomp.py 32-36 -/
noncomputable def logPassGate (rnd : ℝ → ℝ) (u : Arr2 ℂ) : Except PyErr (List EGate) := do
  let st ← execute P 1e-8 1e-4 rnd u
  pure (revDag st.decomp)

/-- What `LogEntQRCEXPass.transpile` puts into the circuit for one gate, log_ent_qr_cex_decomp.py 43-46 -/
noncomputable def logPassInCircuit (rnd : ℝ → ℝ) (u : Arr2 ℂ) : Except PyErr (List EGate) := do
  let l ← logPassGate P rnd u
  pure l.reverse

/-- `lp_map_0[lev]`: indexing of a list of levels, phy_ent_qr_cex_decomp.py 37-39 -/
def levelAt (lp : List Int) (lev : Int) : Except PyErr Int :=
  if 0 ≤ lev then (match lp[lev.toNat]? with | some x => .ok x | none => .error .indexError)
  else (match lp[((lp.length : Int) + lev).toNat]? with
    | some x => if 0 ≤ (lp.length : Int) + lev then .ok x else .error .indexError
    | none => .error .indexError)

/-- `[lev for lev in graph.log_phy_map if lev < dimension]`, phy_ent_qr_cex_decomp.py 32-33. `log_phy_map` is the list of physical
levels of the logical levels. -/
def levelList (lpMap : List Int) (dim : Nat) : List Int := lpMap.filter fun lev => lev < dim

/-- The branch for a CEx, phy_ent_qr_cex_decomp.py 35-45; `lp0` and `lp1` are the two level lists. The mark of the gate is not read. -/
noncomputable def phyCEx (lp0 lp1 : List Int) (g : CExParams) (_dagger : Bool) : Except PyErr EGate := do
  let ctrl ← levelAt lp0 g.ctrl
  let a ← levelAt lp1 g.levA
  let b ← levelAt lp1 g.levB
  let p ← if a < b then cexInit (.list [.int a, .int b, .int ctrl, .flt g.phi])
    else cexInit (.list [.int b, .int a, .int ctrl, .flt g.phi])
  pure (.cex p P.q0 P.q1 P.c P.t false)

/-- The other branch, phy_ent_qr_cex_decomp.py 47-65. The code also translates four permutation gates and collects them with the
decomposition in a list, but returns the reversed decomposition alone; the unused part is left out, so that the level lists play no role. -/
noncomputable def phyOther (_lp0 _lp1 : List Int) (rnd : ℝ → ℝ) (u : Arr2 ℂ) : Except PyErr (List EGate) := do
  let st ← execute P 1e-8 1e-4 rnd u
  pure (revDag st.decomp)

end Qudits.EntQR
