import Verif.Model.GateArrays
import Mathlib.Analysis.Complex.Trigonometric
import Mathlib.LinearAlgebra.Matrix.Trace
/-
Model of the variational compilation of two-line gates
(src/mqt/qudits/compiler/twodit/variational_twodit_compilation/) and of
src/mqt/qudits/compiler/compilation_minitools/numerical_ansatz_utils.py.

The numerical optimiser (`scipy.optimize.dual_annealing`) is a parameter: see `solveAnneal`. Dimensions are at least one
(for a dimension of zero `dims[0] ** 2 - 1` is negative in Python and zero here).
-/
namespace Qudits
namespace Variational
open Complex

/-! ### parameter vectors -/

/-- `params[i : j]` for `0 ≤ i` -/
def slice {β : Type} (l : List β) (i j : Nat) : List β := (l.take j).drop i

/-- `params_splitter` (parametrize.py 16-44). `%` by zero raises ZeroDivisionError (two lines of one level). The range of
line 41 has `len(params) / step_size` elements. -/
def paramsSplitter {β : Type} (params : List β) (dims : List Nat) : Except PyErr (List (List β)) :=
  match dims with
  | [d0, d1] =>
    let n := d0 ^ 2 - 1
    let m := d1 ^ 2 - 1
    let step := n + m
    if step = 0 then .error .zeroDivisionError
    else if params.length % step ≠ 0 then .error .valueError
    else .ok ((List.range (params.length / step)).flatMap fun k =>
      [slice params (k * step) (k * step + n), slice params (k * step + n) (k * step + step)])
  | _ => .error .valueError

/-- `reindex` (ansatz_gen_utils.py 19-20) -/
def reindex (ir jc numCol : Nat) : Nat := ir * numCol + jc

/-- `assignment[i] = b` -/
def assign {β : Type} (l : List β) (i : Nat) (b : β) : Except PyErr (List β) :=
  if i < l.length then .ok (l.set i b) else .error .indexError

/-- the body of the inner loop of `bounds_assigner` (optimizer.py 56-61) -/
def boundStep {β : Type} (b1 b2 b3 : β) (d m : Nat) (l : List β) (n : Nat) : Except PyErr (List β) :=
  if m = n then assign l (reindex m n d) b3
  else if m > n then assign l (reindex m n d) b1
  else assign l (reindex m n d) b2

/-- `Optimizer.bounds_assigner` (optimizer.py 48-63); `zero` is `(0.0, 0.0)` -/
def boundsAssigner {β : Type} (zero b1 b2 b3 : β) (numParams d : Nat) : Except PyErr (List β) := do
  let a ← (List.range d).foldlM (fun l m => (List.range d).foldlM (boundStep b1 b2 b3 d m) l)
    (List.replicate (numParams + 1) zero)
  pure a.dropLast

/-- `bound_1`, `bound_2`, `bound_3` (ansatz_gen_utils.py 23-25) -/
noncomputable def bound1 : ℝ × ℝ := (0, Real.pi)
noncomputable def bound2 : ℝ × ℝ := (0, Real.pi / 2)
noncomputable def bound3 : ℝ × ℝ := (0, 2 * Real.pi)

/-- `Optimizer.return_bounds` (optimizer.py 65-87); `d0`, `d1` are the class variables `SINGLE_DIM_0`, `SINGLE_DIM_1`. -/
noncomputable def returnBounds (d0 d1 numLayer : Nat) : Except PyErr (List (ℝ × ℝ)) := do
  let line0 ← boundsAssigner (0, 0) bound1 bound2 bound3 (d0 ^ 2 - 1) d0
  let line1 ← boundsAssigner (0, 0) bound1 bound2 bound3 (d1 ^ 2 - 1) d1
  pure ((List.range (numLayer + 1 + 1)).foldl (fun bounds _ => bounds ++ line0 ++ line1) [])

/-! ### local unitaries -/

/-- `params[i]` -/
def paramAt (p : List ℝ) (i : Nat) : Except PyErr ℝ :=
  match p[i]? with
  | some x => .ok x
  | none => .error .indexError

/-- `np.outer(a, a) - np.outer(b, b)` (parametrize.py 55, 64-66) -/
noncomputable def zGen (d a b : Nat) : Except PyErr (Arr2 ℂ) := do
  let l ← fromDiracToBasis [a] [d]
  let e ← fromDiracToBasis [b] [d]
  (outer l l).add ((outer e e).smul (-1))

/-- `-1j * np.outer(m, n) + 1j * np.outer(n, m)` (parametrize.py 68-70) -/
noncomputable def yGen (d m n : Nat) : Except PyErr (Arr2 ℂ) := do
  let mv ← fromDiracToBasis [m] [d]
  let nv ← fromDiracToBasis [n] [d]
  ((outer mv nv).smul (-I)).add ((outer nv mv).smul I)

/-- `np.matmul(c_unitary, expm(1j * x * gen))` -/
noncomputable def timesExp (c : Arr2 ℂ) (x : ℝ) (gen : Arr2 ℂ) : Except PyErr (Arr2 ℂ) :=
  c.matmul ((gen.smul (I * (x : ℂ))).expm)

/-- body of the first loop of `generic_sud` (parametrize.py 51-57) -/
noncomputable def sudDiag (p : List ℝ) (d : Nat) (c : Arr2 ℂ) (l : Nat) : Except PyErr (Arr2 ℂ) := do
  let z ← zGen d l (d - 1)
  let x ← paramAt p (reindex l l d)
  timesExp c x z

/-- body of the second loop of `generic_sud` (parametrize.py 59-74) -/
noncomputable def sudPair (p : List ℝ) (d m : Nat) (c : Arr2 ℂ) (n : Nat) : Except PyErr (Arr2 ℂ) := do
  let z ← zGen d m n
  let y ← yGen d m n
  let x ← paramAt p (reindex n m d)
  let c ← timesExp c x z
  let x' ← paramAt p (reindex m n d)
  timesExp c x' y

/-- `generic_sud` (parametrize.py 47-76) -/
noncomputable def genericSud (p : List ℝ) (d : Nat) : Except PyErr (Arr2 ℂ) := do
  let c ← (List.range (d - 1)).foldlM (sudDiag p d) (Arr2.identity d)
  (List.range (d - 1)).foldlM (fun c m => (List.range' (m + 1) (d - (m + 1))).foldlM (sudPair p d m) c) c

/-! ### embedding by Kronecker products -/

/-- `on1` and `on0` (numerical_ansatz_utils.py 14-19) -/
noncomputable def on1 (g : Arr2 ℂ) (other : Nat) : Arr2 ℂ := (Arr2.identity other).kron g
noncomputable def on0 (g : Arr2 ℂ) (other : Nat) : Arr2 ℂ := g.kron (Arr2.identity other)

/-- `[np.identity(dims[i]) for i in l]` -/
noncomputable def identities (dims l : List Nat) : Except PyErr (List (Arr2 ℂ)) :=
  l.mapM fun i => match dims[i]? with
    | some d => .ok (Arr2.identity d)
    | none => .error .indexError

/-- `gate_expand_to_circuit` (numerical_ansatz_utils.py 22-43) for a target that is not negative; the loop of lines 38-41
multiplies from the right end of the list. -/
noncomputable def gateExpand (gate : Arr2 ℂ) (size target : Nat) (dims : List Nat) : Except PyErr (Arr2 ℂ) :=
  if size < 1 then .error .valueError
  else if target ≥ size then .error .valueError
  else do
    let upper ← identities dims (List.range' (target + 1) (size - (target + 1)))
    let lower ← identities dims (List.range target)
    match (lower ++ gate :: upper).reverse with
    | [] => .error .indexError
    | last :: rest => pure (rest.foldl (fun res g => g.kron res) last)

/-! ### the ansatz as a matrix -/

/-- `np.matmul(unitary, u)`; without a primitive the operand is `None` and numpy raises ValueError. -/
noncomputable def timesPrim (c : Arr2 ℂ) (u : Option (Arr2 ℂ)) : Except PyErr (Arr2 ℂ) :=
  match u with
  | some u => c.matmul u
  | none => .error .valueError

/-- `dims[i]` -/
def dimAt (dims : List Nat) (i : Nat) : Except PyErr Nat :=
  match dims[i]? with
  | some d => .ok d
  | none => .error .indexError

/-- one round of the loop of `prepare_ansatz` (ansatz_gen.py 23-34); the state is `(counter, unitary)` -/
noncomputable def ansatzStep (u : Option (Arr2 ℂ)) (dims : List Nat) (st : Nat × Arr2 ℂ) (p : List ℝ) :
    Except PyErr (Nat × Arr2 ℂ) := do
  let (counter, c) ← if st.1 = 2 then do
      let c ← timesPrim st.2 u
      pure (0, c)
    else pure st
  let d ← dimAt dims counter
  let s ← genericSud p d
  let e ← gateExpand s 2 counter dims
  let c ← c.matmul e
  pure (counter + 1, c)

/-- `prepare_ansatz` (ansatz_gen.py 19-36) -/
noncomputable def prepareAnsatz (u : Option (Arr2 ℂ)) (params : List (List ℝ)) (dims : List Nat) :
    Except PyErr (Arr2 ℂ) := do
  let d0 ← dimAt dims 0
  let start ← gateExpand (Arr2.identity d0) 2 0 dims
  let st ← params.foldlM (ansatzStep u dims) (0, start)
  pure st.2

/-- `"MS" | "LS" | "CU"`, or any other string -/
inductive AnsatzType | ms | ls | cu | other
  deriving DecidableEq

/-- the angle of the light-shift layers (ansatz_gen.py 57-62, instantiate.py 58-63) -/
noncomputable def lsAngle (dims : List Nat) : ℝ :=
  if 2 ∈ dims then Real.pi / 2 else if 3 ∈ dims then 2 * Real.pi / 3 else Real.pi

/-- the array of the entangling gate of a layer (ansatz_gen.py 41, 47, 64-71). `to_matrix` of a gate without controls
returns its array; `custom` is the array of `Primitive.CUSTOM_PRIMITIVE`. -/
noncomputable def layerArray (t : AnsatzType) (custom : Option (Arr2 ℂ)) (d0 d1 : Nat) :
    Except PyErr (Option (Arr2 ℂ)) :=
  match t with
  | .cu => .ok custom
  | .ms => do
    let theta ← angleInit (Real.pi / 2)
    let m ← msArray d0 d1 theta
    pure (some m)
  | .ls => do
    let theta ← angleInit (lsAngle [d0, d1])
    let m ← lsArray d0 d1 theta
    pure (some m)
  | .other => .error .valueError

/-- `cu_ansatz`, `ms_ansatz`, `ls_ansatz` (ansatz_gen.py 39-73) -/
noncomputable def ansatzMatrix (t : AnsatzType) (custom : Option (Arr2 ℂ)) (d0 d1 : Nat) (p : List ℝ) :
    Except PyErr (Arr2 ℂ) := do
  let params ← paramsSplitter p [d0, d1]
  let u ← layerArray t custom d0 d1
  prepareAnsatz u params [d0, d1]

/-! ### the ansatz as a circuit -/

/-- A gate object together with the value of its `__array__()`. -/
structure AGate where
  gate : Gate
  arr : Arr2 ℂ

/-- `CustomOne(circuit, "CUo_SUD", q, matrix, d)` (gates/custom_one.py 20-44) -/
def customOne (dims : List Nat) (q : Nat) (m : Arr2 ℂ) : Except PyErr AGate := do
  let g ← Gate.init dims "CUo_SUD" .single (.one q) none
  pure ⟨g, m⟩

/-- one round of the loop of `ansatz_decompose` (instantiate.py 28-37); `cdims` are the dimensions of the circuit, `dims`
those of the lines the parameters were made for -/
noncomputable def decomposeStep (cdims : List Nat) (u : AGate) (dims : List Nat) (st : Nat × List AGate) (p : List ℝ) :
    Except PyErr (Nat × List AGate) := do
  let (counter, l) := if st.1 = 2 then (0, st.2 ++ [u]) else st
  let d ← dimAt dims counter
  let s ← genericSud p d
  let g ← customOne cdims counter s
  pure (counter + 1, l ++ [g])

/-- `ansatz_decompose` (instantiate.py 20-39) -/
noncomputable def ansatzDecompose (cdims : List Nat) (u : Option AGate) (params : List (List ℝ)) (dims : List Nat) :
    Except PyErr (List AGate) :=
  match u with
  | none => .error .valueError
  | some u => do
    let st ← params.foldlM (decomposeStep cdims u dims) (0, [])
    pure st.2

/-- the entangling gate of a layer (instantiate.py 44, 50, 58-65): on lines 0 and 1 of the circuit -/
noncomputable def layerGate (t : AnsatzType) (cdims : List Nat) (custom : Option AGate) (d0 d1 : Nat) :
    Except PyErr (Option AGate) :=
  match t with
  | .cu => .ok custom
  | .ms => do
    let theta ← angleInit (Real.pi / 2)
    let g ← Gate.init cdims "MS" .two (.many [0, 1]) none
    let m ← msArray d0 d1 theta
    pure (some ⟨g, m⟩)
  | .ls => do
    let theta ← angleInit (lsAngle [d0, d1])
    let g ← Gate.init cdims "LS" .two (.many [0, 1]) none
    let m ← lsArray d0 d1 theta
    pure (some ⟨g, m⟩)
  | .other => .error .valueError

/-- `create_cu_instance`, `create_ms_instance`, `create_ls_instance` (instantiate.py 42-67) -/
noncomputable def createInstance (t : AnsatzType) (cdims : List Nat) (custom : Option AGate) (d0 d1 : Nat) (p : List ℝ) :
    Except PyErr (List AGate) := do
  let params ← paramsSplitter p [d0, d1]
  let u ← layerGate t cdims custom d0 d1
  ansatzDecompose cdims u params [d0, d1]

/-! ### distances (opt/distance_measures.py) -/

/-- `size_check` (16-17) -/
def sizeCheck (a b : Arr2 ℂ) : Bool := decide ((a.rows = b.rows ∧ a.cols = b.cols) ∧ a.rows = a.cols)

/-- `np.trace` -/
noncomputable def trace (a : Arr2 ℂ) : ℂ := ∑ i ∈ Finset.range (min a.rows a.cols), a.at' i i

/-- `fidelity_on_unitares` (33-40); ShapeMismatchError is a ValueError -/
noncomputable def fidelityOnUnitaries (a b : Arr2 ℂ) : Except PyErr ℝ :=
  if sizeCheck a b then do
    let m ← a.conjT.matmul b
    pure (‖trace m‖ / a.rows)
  else .error .valueError

/-- `fidelity_on_operator` (20-30). The denominator is a complex square root; its argument is a product of two sums of squares, so
it is given here as a real number. -/
noncomputable def fidelityOnOperator (a b : Arr2 ℂ) : Except PyErr ℝ :=
  if sizeCheck a b then do
    let m ← a.conjT.matmul b
    let aa ← a.matmul a.conjT
    let bb ← b.matmul b.conjT
    pure (‖trace m‖ / Real.sqrt ((trace aa) * (trace bb)).re)
  else .error .valueError

/-- `naive_state_fidelity` (56-67) on vectors -/
noncomputable def naiveStateFidelity (a b : List ℂ) : Except PyErr ℝ :=
  if a.length ≠ b.length then .error .valueError
  else .ok (‖((a.zip b).map fun p => star p.1 * p.2).sum‖ ^ 2)

/-! ### optimisation -/

/-- How `dual_annealing` calls its objective: the points it evaluates, in order, and the point it would return at the end.
Any list and any point are allowed. -/
structure Annealer where
  points : List (List ℝ)
  result : List ℝ

/-- outcome of the evaluation of the objective (optimizer.py 89-99) -/
inductive ObjOut
  | reached (err : ℝ)
  | timeout
  | value (err : ℝ)

/-- `Optimizer.obj_fun_core` (optimizer.py 89-99) -/
noncomputable def objFunCore (target ansatz : Arr2 ℂ) (tol : ℝ) (timer : Bool) : Except PyErr ObjOut := do
  let f ← fidelityOnUnitaries ansatz target
  if 1 - f < tol then pure (.reached (1 - f))
  else if timer then pure .timeout
  else pure (.value (1 - f))

/-- `FUN_SOLUTION`, `X_SOLUTION`: the empty list or the last solution found -/
abbrev Solution := Option (ℝ × List ℝ)

/-- What `solve_anneal` puts into the queue: an error value with a vector. On a timeout without any solution it is a pair of
empty lists, given here as `none`. -/
abbrev Queued := Option (ℝ × List ℝ)

/-- `Optimizer.solve_anneal` (optimizer.py 116-142): evaluates the objective at the points of the annealer in turn; the time of the
interrupt is given by the number `time` of evaluations before the timer fires. An exception of the objective other than
the two that are caught ends the thread. At the end the value of the objective at the returned point is its error. -/
noncomputable def solveAnneal (t : AnsatzType) (custom : Option (Arr2 ℂ)) (d0 d1 : Nat) (target : Arr2 ℂ) (tol : ℝ)
    (an : Annealer) : (time : Nat) → List (List ℝ) → Solution → Except PyErr (Queued × Solution)
  | _, [], sol => do
    let a ← ansatzMatrix t custom d0 d1 an.result
    let f ← fidelityOnUnitaries a target
    pure (some (1 - f, an.result), sol)
  | time, x :: xs, sol => do
    let a ← ansatzMatrix t custom d0 d1 x
    let o ← objFunCore target a tol (decide (time = 0))
    match o with
    | .reached e => pure (some (e, x), some (e, x))
    | .timeout => pure (sol, sol)
    | .value _ => solveAnneal t custom d0 d1 target tol an (time - 1) xs sol

/-! ### search for the number of layers -/

/-- The loop of `binary_search_compile` (ansatz_solve_n_search.py 32-43). `run k` is the error and vector found with `k` layers. The
result also counts the rounds. The state is `(best_layer, best_error, best_xi)`; the initial error is infinite. -/
noncomputable def searchLoop {β : Type} (run : Nat → ℝ × β) (tol : ℝ) (low high : Int) (best : Nat × WithTop ℝ × β)
    (counter : Nat) : (Nat × WithTop ℝ × β) × Nat :=
  if h : low ≤ high then
    let mid := low + (high - low) / 2
    let r := run mid.toNat
    if r.1 > tol then searchLoop run tol (mid + 1) high best (counter + 1)
    else searchLoop run tol low (mid - 1) (mid.toNat, (r.1 : ℝ), r.2) (counter + 1)
  else (best, counter)
termination_by (high + 1 - low).toNat
decreasing_by all_goals omega

/-- `binary_search_compile` (ansatz_solve_n_search.py 17-45); `empty` is the empty list of parameters -/
noncomputable def binarySearchCompile {β : Type} (run : Nat → ℝ × β) (empty : β) (tol : ℝ) (maxLayer : Int) :
    Except PyErr (Nat × WithTop ℝ × β) :=
  if maxLayer < 0 then .error .valueError
  else .ok (searchLoop run tol 0 maxLayer ((maxLayer / 2).toNat, ⊤, empty) 0).1

/-- `variational_compile` (layered_compilation.py 21-43) for a target on the two lines `q0`, `q1` of a circuit with dimensions `cdims`;
`run` gives what `run(num_layer, ansatz_type)` returns. The result are the instructions of the new circuit. -/
noncomputable def variationalCompile (cdims : List Nat) (q0 q1 : Nat) (tol : ℝ) (t : AnsatzType) (layers : Int)
    (custom : Option AGate) (run : Nat → ℝ × List ℝ) : Except PyErr (List AGate) := do
  let d0 ← dimAt cdims q0
  let d1 ← dimAt cdims q1
  let best ← binarySearchCompile run [] tol layers
  createInstance t cdims custom d0 d1 best.2.2

/-! ### sparsifier (sparsifier.py) -/

/-- `apply_rotations` (23-33): the four local unitaries with the matrix between them -/
noncomputable def applyRotations (m : Arr2 ℂ) (p : List ℝ) (dims : List Nat) : Except PyErr (Arr2 ℂ) := do
  let params ← paramsSplitter p dims
  let d0 ← dimAt dims 0
  let d1 ← dimAt dims 1
  let part := fun (i d target : Nat) => do
    let q ← match params[i]? with
      | some q => Except.ok q
      | none => .error .indexError
    let s ← genericSud q d
    gateExpand s 2 target dims
  let r1 ← part 0 d0 0
  let r2 ← part 1 d1 1
  let r3 ← part 2 d0 0
  let r4 ← part 3 d1 1
  let a ← r1.matmul r2
  let a ← a.matmul m
  let a ← a.matmul r3
  a.matmul r4

/-- `instantiate_rotations` (36-52): the circuit for the same parameters; `gate.dimensions` is `dims` -/
noncomputable def instantiateRotations (cdims : List Nat) (g : AGate) (p : List ℝ) (dims : List Nat) :
    Except PyErr (List AGate) := do
  let params ← paramsSplitter p dims
  let d0 ← dimAt dims 0
  let d1 ← dimAt dims 1
  let part := fun (i d target : Nat) => do
    let q ← match params[i]? with
      | some q => Except.ok q
      | none => .error .indexError
    let s ← genericSud q d
    customOne cdims target s
  let r1 ← part 0 d0 0
  let r2 ← part 1 d1 1
  let r3 ← part 2 d0 0
  let r4 ← part 3 d1 1
  pure [r1, r2, g, r3, r4]

/-- all entries of an array, row by row -/
def entries {β : Type} (x : Arr2 β) : List β :=
  (List.range x.rows).flatMap fun r => (List.range x.cols).map fun c => x.at' r c

/-- `compute_f` (62-95) on the entries `x` of an array -/
noncomputable def computeF (x : List ℝ) : Except PyErr ℝ :=
  let normX1 := (x.map fun a => |a|).sum
  let normX2 := Real.sqrt (x.map fun a => |a| ^ 2).sum
  let normJ2 := Real.sqrt (x.map fun _ => |(1 : ℝ)| ^ 2).sum
  let numerator := normJ2 * normX2 - normX1
  let denominator := normJ2 * normX2 - normX2
  if denominator = 0 then .error .valueError
  else .ok (1 - numerator / denominator)

/-- `density` (55-59) on the entries of an array -/
noncomputable def density (x : List ℝ) : ℝ :=
  let nz := x.filter fun a => a > 1e-8
  if nz.length = 0 then 0 else nz.length / x.length

/-- `objective_function` (98-119) -/
noncomputable def sparsityObjective (p : List ℝ) (m : Arr2 ℂ) (dims : List Nat) : Except PyErr ℝ := do
  let m' ← applyRotations m p dims
  let ghost := (entries m').map fun z => |z.re| + |z.im|
  let f ← computeF ghost
  pure (f * density ghost)

end Variational
end Qudits
