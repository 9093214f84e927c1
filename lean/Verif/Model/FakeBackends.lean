import Verif.Model.Shots
/-
The backends that are shipped besides the two simulators, as far as they run circuits:
* /repo/src/mqt/qudits/simulation/backends/fake_backends/fake_traps2three.py 23-36, 74-100
* /repo/src/mqt/qudits/simulation/backends/fake_backends/fake_traps2six.py 23-36, 78-102
* /repo/src/mqt/qudits/simulation/backends/fake_backends/fake_traps3six.py 23-36, 106-131
* /repo/src/mqt/qudits/simulation/backends/innsbruck_01.py 24-38, 78-105
The three fake backends are subclasses of `TNSim` with identical constructors and noise models; their level graphs are in Model/Devices.lean.
-/
namespace Qudits.Shots

/-- The six `Noise` objects of `__noise_model` (fake_traps2three.py 77-82), by number. -/
noncomputable def fakeHeap : Nat → NoiseObj ℝ
  | 0 => .math ⟨0.001, 0.001⟩   -- local_error
  | 1 => .math ⟨0.03, 0.03⟩     -- local_error_rz
  | 2 => .math ⟨0.1, 0.001⟩     -- entangling_error
  | 3 => .math ⟨0.1, 0.1⟩       -- entangling_error_extra
  | 4 => .math ⟨0.1, 0⟩         -- entangling_error_on_target
  | _ => .math ⟨0.01, 0⟩        -- entangling_error_on_control

/-- The seven calls of `__noise_model` (fake_traps2three.py 88-97): object, mode, gates. -/
def fakeCalls : List (Nat × String × List String) :=
  [(0, "all", ["csum"]),
   (2, "nonlocal", ["cx", "ls", "ms"]),
   (4, "target", ["cx", "ls", "ms"]),
   (5, "control", ["csum", "cx", "ls", "ms"]),
   (3, "nonlocal", ["csum"]),
   (0, "local", ["h", "rxy", "s", "x", "z"]),
   (1, "local", ["rz", "virtrz"])]

/-- A sequence of calls of the `add_*` methods (noise.py 89-130); the first exception ends it. -/
def addCalls {P : Type} (m : NoiseModel P) : List (Nat × String × List String) → Except PyErr (NoiseModel P)
  | [] => .ok m
  | (o, mode, gates) :: rest =>
    match m.addError o mode gates with
    | (.error e, _) => .error e
    | (.ok _, m') => addCalls m' rest

/-- `__noise_model` (fake_traps2three.py 74-100), with the objects looked up. -/
noncomputable def fakeNoise : Except PyErr Errors := do
  let m ← addCalls ⟨fakeHeap, []⟩ fakeCalls
  pure (m.errors.map fun g => (g.1, g.2.map fun e => (e.1, m.heap e.2)))

/-- The constructor of the fake backends (fake_traps2three.py 23-36): the constructor of `Backend`, then the option `noise_model` is assigned; `__noise_model`
also assigns the attribute (99). -/
noncomputable def fakeInit (fields : Options Errors) : Except PyErr (BackendSt Errors) := do
  let st := BackendSt.init fields
  let errs ← fakeNoise
  pure ⟨{ st.options with noiseModel := some (some errs) }, { st.attrs with noiseModel := some errs }⟩

/-- The constructor of `Innsbruck01` (innsbruck_01.py 24-38): the option `noise_model` becomes the attribute of that name, which is `None` (backendv2.py 36). -/
def innsbruckInit (fields : Options Errors) : BackendSt Errors :=
  let st := BackendSt.init fields
  ⟨{ st.options with noiseModel := some st.attrs.noiseModel }, st.attrs⟩

/-- `Innsbruck01.run` (innsbruck_01.py 81-96), with `execute` (98-105), which keeps the circuit and assigns an empty list to `outcome`. -/
def innsbruckRun (st : BackendSt Errors) (opts : Options Errors) (_circ : List (Instr × Arr2 ℂ)) : Except PyErr Done × BackendSt Errors :=
  let st' := (st.run opts).2
  if 50 ≤ st'.attrs.shots then (.ok ⟨[], .positions [], none⟩, st') else (.error .assertionError, st')

end Qudits.Shots
