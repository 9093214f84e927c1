import Verif.Model.Backend
import Verif.Model.NoisyDraws
import Verif.Model.MisimNoise
import Mathlib.Analysis.Complex.Norm
/-
Runs of the two simulators with a noise model, shot by shot:
* /repo/src/mqt/qudits/simulation/backends/stochastic_sim.py (all of it)
* /repo/src/mqt/qudits/simulation/save_info.py (save_full_states, save_shots)
* /repo/src/mqt/qudits/simulation/backends/tnsim.py 40-56, misim.py 36-53 (what `run` puts into the job)
* /repo/src/mqt/qudits/simulation/jobs/job_result.py (the two fields)

Simplifications.  Numbers are exact.  `numpy.random.Generator.choice(n, p=p)` is written out after numpy's `_generator.pyx`: the checks on `p`, the
cumulative sums divided by the last one, and the place (`searchsorted(..., side="right")`) of one uniform number of [0, 1).  `multiprocessing.Pool.map`
is written out after CPython's `pool.py`: the arguments are cut into chunks of `ceil(n / (4 * processes))`, a chunk is sent to a worker by one `pickle`,
so that the arguments of a chunk share ONE copy of the factory, and every chunk gets a fresh copy; the results come back in the order of the
arguments.  If several chunks raise, the model raises what the first one raises.  Random sources (the first uniform number of a seeded generator, the
outcomes of the generator of the factory, the draws of the C++ side), the values of `hash`, and the process and millisecond in which a shot is
measured are arbitrary functions.  The default names of files (save_info.py 19-24) are not reached: a name and a path are always given.
-/
namespace Qudits.Shots

/-! ### measure_state -/

/-- `p.cumsum()` -/
noncomputable def cumsum : ℝ → List ℝ → List ℝ
  | _, [] => []
  | acc, x :: l => (acc + x) :: cumsum (acc + x) l

/-- The tolerance of `Generator.choice` for the sum: the square root of the machine epsilon 2^-52. -/
noncomputable def atol : ℝ := 1 / 2 ^ 26

open Classical in
/-- `Generator.choice(len(p), p=p)` where the uniform number is `u`. -/
noncomputable def choice (p : List ℝ) (u : ℝ) : Except PyErr Nat :=
  if p = [] then .error .valueError
  else if ∃ x ∈ p, x < 0 then .error .valueError
  else if atol < |p.sum - 1| then .error .valueError
  else
    let cdf := cumsum 0 p
    .ok ((cdf.map fun c => c / cdf.getLastD 0).countP fun c => decide (c ≤ u))

/-- When and where a shot is measured: `os.getpid()` and `int(time.time() * 1000)`. -/
structure Moment where
  pid : Nat
  ms : Nat

/-- What the runs depend on besides their arguments: `mp.cpu_count()`, `hash` of a pair, the first uniform number of `default_rng(seed)`, the moment
at which shot `i` is measured. -/
structure World where
  processes : Nat
  hash : Nat → Nat → Int
  first : Nat → ℝ
  moment : Nat → Moment

/-- `generate_seed`, stochastic_sim.py 21-24. -/
def seed (W : World) (m : Moment) : Nat := (W.hash m.pid m.ms % 2 ^ 32).toNat

/-- `measure_state`, stochastic_sim.py 27-31. -/
noncomputable def measureState (W : World) (m : Moment) (v : List ℂ) : Except PyErr Nat :=
  choice (v.map fun z => ‖z‖ ^ 2) (W.first (seed W m))

/-! ### the pool -/

/-- The chunk size of `Pool.map`: `divmod(n, 4 * processes)`, plus one if there is a rest. -/
def chunkSize (n processes : Nat) : Nat := if n % (processes * 4) = 0 then n / (processes * 4) else n / (processes * 4) + 1

/-- Chunk number `c`: the numbers of its shots. -/
def chunk (n size c : Nat) : List Nat := ((List.range n).drop (c * size)).take size

/-- `pool.map` for `n` arguments; `work` does the shots of one chunk. -/
def poolMap {E R : Type} (processes n : Nat) (work : List Nat → Except E (List R)) : Except E (List R) := do
  let size := chunkSize n processes
  let parts ← (List.range ((n + size - 1) / size)).mapM fun c => work (chunk n size c)
  pure parts.flatten

/-! ### tnsim -/

/-- The gate object made by a method of the noisy circuit, on one line, and its array: circuit.py 296-301 (x, z), 274-285 (noisex, noisey,
noisez, which is a `VirtRz` by pi). -/
noncomputable def errorOp (dims : List Nat) : NoisyInstr → Except PyErr (Gate × Arr2 ℂ)
  | .orig _ => .error .valueError
  | .x q => do
    let m ← NoisyFactory.dimAt dims q
    let g ← Gate.init dims ("X" ++ toString m) .single (.one q) none
    pure (g, ← xArray m)
  | .z q => do
    let m ← NoisyFactory.dimAt dims q
    let g ← Gate.init dims ("Z" ++ toString m) .single (.one q) none
    pure (g, ← zArray m)
  | .noisex q a b => do
    let m ← NoisyFactory.dimAt dims q
    let g ← Gate.init dims ("NoiseX" ++ toString m) .single (.one q) none
    pure (g, ← noiseXArray m (← levelsInit m (.list [.int a, .int b])))
  | .noisey q a b => do
    let m ← NoisyFactory.dimAt dims q
    let g ← Gate.init dims ("NoiseY" ++ toString m) .single (.one q) none
    pure (g, ← noiseYArray m (← levelsInit m (.list [.int a, .int b])))
  | .noisez q lev => do
    let m ← NoisyFactory.dimAt dims q
    let g ← Gate.init dims ("NoiseZ" ++ toString m) .single (.one q) none
    pure (g, ← virtRzArray m (virtRzInit m (.list [.int lev, .flt Real.pi])))

/-- The gates of the noisy circuit with their arrays; the copies of the original gates have the arrays of the original gates, in order. -/
noncomputable def noisyOps (dims : List Nat) : List NoisyInstr → List (Arr2 ℂ) → Except PyErr (List (Gate × Arr2 ℂ))
  | [], _ => .ok []
  | .orig i :: l, A :: As => do pure ((i.gate, A) :: (← noisyOps dims l As))
  | .orig _ :: _, [] => .error .indexError
  | e :: l, As => do
    let op ← errorOp dims e
    pure (op :: (← noisyOps dims l As))

/-- A noise model: `quantum_errors` with the objects looked up. -/
abbrev Errors := PyDict String (PyDict String (NoiseObj ℝ))

/-- `generate_circuit` by a factory whose generator has already given `off` outcomes, then `backend.execute`, stochastic_sim.py 69-70: the state, and how
many outcomes the generator has given afterwards. -/
noncomputable def tnState (draws : NoisyFactory.Draws) (dims : List Nat) (errs : Errors) (circ : List (Instr × Arr2 ℂ)) (off : Nat) :
    Except PyErr (List ℂ × Nat) := do
  let s ← NoisyFactory.generateP (fun k => draws (off + k)) dims errs (circ.map Prod.fst)
  let v ← Tnsim.execute dims (← noisyOps dims s.instrs (circ.map Prod.snd))
  pure (v, off + s.drawn)

/-- The shots of one chunk with the given numbers, stochastic_sim.py 67-71; `finish i v` makes the result of shot `i` out of the state. -/
def tnChunk {R : Type} (state : Nat → Except PyErr (List ℂ × Nat)) (finish : Nat → List ℂ → Except PyErr R) : Nat → List Nat → Except PyErr (List R)
  | _, [] => .ok []
  | off, i :: is => do
    let (v, off') ← state off
    let r ← finish i v
    pure (r :: (← tnChunk state finish off' is))

/-- The list that `stochastic_simulation` returns: states if `full_state_memory`, otherwise positions. -/
inductive Results
  | states (l : List (List ℂ))
  | positions (l : List Nat)

/-- `stochastic_simulation` for `TNSim`, stochastic_sim.py 42-64. The factory is made once (53) and every chunk has its own copy of it. -/
noncomputable def stochasticTn (W : World) (draws : NoisyFactory.Draws) (dims : List Nat) (errs : Errors) (circ : List (Instr × Arr2 ℂ)) (shots : Nat)
    (full : Bool) : Except PyErr Results :=
  if full then Results.states <$> poolMap W.processes shots (tnChunk (tnState draws dims errs circ) (fun _ v => .ok v) 0)
  else Results.positions <$> poolMap W.processes shots (tnChunk (tnState draws dims errs circ) (fun i v => measureState W (W.moment i) v) 0)

/-! ### misim -/

/-- A Python exception where the C++ code may raise too. -/
def asM {R : Type} : Except PyErr R → Except Misim.MErr R
  | .ok r => .ok r
  | .error e => .error (.py e)

/-- `stochastic_simulation` for `MISim`, stochastic_sim.py 42-64, 74-77. Every shot has its own generator (bindings.cpp 296-297). -/
noncomputable def stochasticMi (H : DD.Hashes) (W : World) (rng : Nat → Misim.Chance ℝ) (dims : List Nat) (errs : Errors) (gates : List PyGate)
    (shots : Nat) (full : Bool) : Except Misim.MErr Results :=
  if full then Results.states <$> poolMap W.processes shots fun is => is.mapM fun i => Misim.executeNoisy H (rng i) dims errs gates
  else Results.positions <$> poolMap W.processes shots fun is => is.mapM fun i => do
    let v ← Misim.executeNoisy H (rng i) dims errs gates
    asM (measureState W (W.moment i) v)

/-! ### saving -/

/-- The table written to a file: save_info.py 40-45 (names and states) or 60-65 (numbers and outcomes). -/
inductive Table
  | vectors (rows : List (String × List ℂ))
  | shots (rows : List (Nat × Nat))

/-- A file: path, name, table. -/
structure Written where
  path : String
  name : String
  table : Table

/-- A string or `None` as a condition. -/
def truthy : Option String → Bool
  | some s => s ≠ ""
  | none => false

/-- `save_results`, stochastic_sim.py 34-39, and the two functions it calls, save_info.py 15-67; `names k` is the k-th `uuid4`. The list holds states exactly
if `full_state_memory` is set, so that the two mixed cases do not arise. -/
def saveResults {N : Type} (names : Nat → String) (a : Settings N) (r : Results) : Option Written :=
  if a.fullStateMemory && truthy a.filePath && truthy a.fileName then
    match r with
    | .states l => some ⟨a.filePath.getD "", a.fileName.getD "", .vectors (((List.range l.length).map names).zip l)⟩
    | .positions _ => none
  else if a.memory && truthy a.filePath && truthy a.fileName then
    match r with
    | .positions l => some ⟨a.filePath.getD "", a.fileName.getD "", .shots ((List.range l.length).zip l)⟩
    | .states _ => none
  else none

/-! ### run -/

/-- A finished job: `get_state_vector()`, `get_counts()` (job_result.py), and the file that was written. -/
structure Done where
  state : List ℂ
  counts : Results
  file : Option Written

/-- `run` of a simulator, tnsim.py 40-56 and misim.py 36-53: `exact` is `self.execute(circuit)`, `noisy e n full` is `stochastic_simulation` up to the saving.
Without a noise model the second field is an empty list. -/
def runWith {E : Type} (asserts : E) (names : Nat → String) (exact : Except E (List ℂ)) (noisy : Errors → Nat → Bool → Except E Results)
    (st : BackendSt Errors) (opts : Options Errors) : Except E Done :=
  match (st.run opts).1 with
  | .shotsAssertion => .error asserts
  | .exact => do pure ⟨← exact, .positions [], none⟩
  | .stochastic a => do
    let v ← exact
    let r ← noisy (a.noiseModel.getD []) a.shots.toNat a.fullStateMemory
    pure ⟨v, r, saveResults names a r⟩

/-- `TNSim.run`. -/
noncomputable def runTn (W : World) (draws : NoisyFactory.Draws) (names : Nat → String) (dims : List Nat) (circ : List (Instr × Arr2 ℂ))
    (st : BackendSt Errors) (opts : Options Errors) : Except PyErr Done :=
  runWith .assertionError names (Tnsim.execute dims (circ.map fun c => (c.1.gate, c.2))) (fun errs n full => stochasticTn W draws dims errs circ n full)
    st opts

/-- `MISim.run`. -/
noncomputable def runMi (H : DD.Hashes) (W : World) (rng : Nat → Misim.Chance ℝ) (names : Nat → String) (dims : List Nat) (gates : List PyGate)
    (st : BackendSt Errors) (opts : Options Errors) : Except Misim.MErr Done :=
  runWith (.py .assertionError) names (Misim.execute H dims gates) (fun errs n full => stochasticMi H W rng dims errs gates n full) st opts

end Qudits.Shots
