import Verif.Model.PyErr
/-
Model of the provider, the run options of the simulators and job polling.
* src/mqt/qudits/simulation/qudit_provider.py
* src/mqt/qudits/simulation/backends/{backendv2,tnsim,misim}.py
* src/mqt/qudits/simulation/jobs/{job,jobstatus}.py
-/
namespace Qudits

/-! ### provider -/

/-- The backend classes (qudit_provider.py 18-25). -/
inductive BackendClass
  | tnSim | miSim | innsbruck01 | fakeIonTraps2Trits | fakeIonTraps2Six | fakeIonTraps3Six
  deriving DecidableEq, Repr

/-- `__backends` (qudit_provider.py 18-25), in dictionary order. -/
def backendTable : List (List Char × BackendClass) :=
  [("tnsim".toList, .tnSim), ("misim".toList, .miSim), ("innsbruck01".toList, .innsbruck01),
   ("faketraps2trits".toList, .fakeIonTraps2Trits), ("faketraps2six".toList, .fakeIonTraps2Six),
   ("faketraps3six".toList, .fakeIonTraps3Six)]

/-- `re.compile(name)` followed by `regex.search(key)`. The regular-expression engine is a parameter: it may refuse the
pattern (`none`), otherwise it decides for every key. -/
abbrev RegexEngine := List Char → Option (List Char → Bool)

/-- `[key for key in self.__backends if regex.search(key)]` (qudit_provider.py 34, 51). -/
def matchingKeys (search : List Char → Bool) : List (List Char) :=
  (backendTable.map Prod.fst).filter search

/-- `MQTQuditProvider.get_backend` (qudit_provider.py 27-43). `re.error` of a malformed pattern is reported as
`valueError`. -/
def getBackend (engine : RegexEngine) (name : Option (List Char)) : Except PyErr BackendClass :=
  match name with
  | none => .error .valueError
  | some n =>
    match engine n with
    | none => .error .valueError
    | some search =>
      match matchingKeys search with
      | [] => .error .valueError
      | [k] => match backendTable.lookup k with
        | some b => .ok b
        | none => .error .keyError
      | _ :: _ :: _ => .error .valueError

/-- `MQTQuditProvider.backends` (qudit_provider.py 45-51). -/
def listBackends (engine : RegexEngine) (name : Option (List Char)) : Except PyErr (List (List Char)) :=
  match name with
  | none => .ok (backendTable.map Prod.fst)
  | some n =>
    match engine n with
    | none => .error .valueError
    | some search => .ok (matchingKeys search)

/-! ### run options -/

/-- The option dictionary `Backend.DefaultOptions` (backendv2.py 17-23); an absent key is `none`. `N` is the type of
noise models. -/
structure Options (N : Type) where
  shots : Option Int := none
  memory : Option Bool := none
  noiseModel : Option (Option N) := none
  filePath : Option (Option String) := none
  fileName : Option (Option String) := none
  fullStateMemory : Option Bool := none

variable {N : Type}

/-- `dict.update` -/
def Options.update (o fields : Options N) : Options N where
  shots := fields.shots <|> o.shots
  memory := fields.memory <|> o.memory
  noiseModel := fields.noiseModel <|> o.noiseModel
  filePath := fields.filePath <|> o.filePath
  fileName := fields.fileName <|> o.fileName
  fullStateMemory := fields.fullStateMemory <|> o.fullStateMemory

/-- `Backend._default_options` (backendv2.py 51-53). -/
def Options.default : Options N := { shots := some 50, memory := some false, noiseModel := some none }

/-- The attributes a run works with (backendv2.py 36-41). -/
structure Settings (N : Type) where
  noiseModel : Option N := none
  shots : Int := 50
  memory : Bool := false
  fullStateMemory : Bool := false
  filePath : Option String := none
  fileName : Option String := none

/-- A simulator object: its `_options` and attributes. -/
structure BackendSt (N : Type) where
  options : Options N
  attrs : Settings N

/-- `Backend.__init__` (backendv2.py 25-45). -/
def BackendSt.init (fields : Options N) : BackendSt N := ⟨Options.default.update fields, {}⟩

/-- What a run does, as seen from the settings it uses (tnsim.py 50-54, misim.py 47-51 in their files): a plain
simulation without counts, a stochastic simulation (`stochastic_simulation`, stochastic_sim.py 42-64, which reads noise
model, number of shots and storage settings from the attributes), or a failing assertion on the number of shots. -/
inductive RunKind (N : Type)
  | exact
  | stochastic (s : Settings N)
  | shotsAssertion

/-- `TNSim.run` (tnsim.py 40-56) and `MISim.run` (misim.py 36-53), identical in how they treat options. -/
def BackendSt.run (st : BackendSt N) (opts : Options N) : RunKind N × BackendSt N :=
  let o := st.options.update opts
  let a : Settings N := {
    noiseModel := o.noiseModel.getD none
    shots := o.shots.getD 50
    memory := o.memory.getD false
    fullStateMemory := o.fullStateMemory.getD false
    filePath := o.filePath.getD none
    fileName := o.fileName.getD none }
  let st' : BackendSt N := ⟨o, a⟩
  if a.noiseModel.isSome then
    if 50 ≤ a.shots then (.stochastic a, st') else (.shotsAssertion, st')
  else (.exact, st')

/-- a history of runs on one backend object -/
def BackendSt.runAll (st : BackendSt N) (hist : List (Options N)) : BackendSt N :=
  hist.foldl (fun st o => (st.run o).2) st

/-- names of option fields given to `set_options` -/
def Options.given (o : Options N) : List String :=
  (if o.shots.isSome then ["shots"] else []) ++ (if o.memory.isSome then ["memory"] else []) ++
  (if o.noiseModel.isSome then ["noise_model"] else []) ++ (if o.filePath.isSome then ["file_path"] else []) ++
  (if o.fileName.isSome then ["file_name"] else []) ++ (if o.fullStateMemory.isSome then ["full_state_memory"] else [])

/-- the public attributes of a Python `dict` -/
def dictAttributes : List String :=
  ["clear", "copy", "fromkeys", "get", "items", "keys", "pop", "popitem", "setdefault", "update", "values"]

/-- `Backend.set_options` (backendv2.py 55-60): `hasattr` is asked of the dictionary object, so it knows only dictionary
methods. -/
def BackendSt.setOptions (st : BackendSt N) (fields : Options N) : Except PyErr (BackendSt N) :=
  if fields.given.all (fun f => f ∈ dictAttributes) then .ok { st with options := st.options.update fields }
  else .error .attributeError

/-! ### jobs -/

/-- `JobStatus` (jobstatus.py 6-15). -/
inductive JobStatus
  | initializing | queued | validating | running | cancelled | done | error
  deriving DecidableEq, Repr

/-- all members, in order -/
def JobStatus.all : List JobStatus := [.initializing, .queued, .validating, .running, .cancelled, .done, .error]

/-- values of the enumeration -/
def JobStatus.value : JobStatus → String
  | .initializing => "initializing" | .queued => "queued" | .validating => "validating" | .running => "running"
  | .cancelled => "cancelled" | .done => "done" | .error => "error"

/-- `JOB_FINAL_STATES` (jobstatus.py 64). -/
def jobFinalStates : List JobStatus := [.done, .cancelled, .error]

/-- `JobStatus.is_final` (jobstatus.py 53-56). -/
def JobStatus.isFinal (s : JobStatus) : Bool := s ∈ jobFinalStates

/-- `JobStatus.non_final_states` (jobstatus.py 58-61). -/
def JobStatus.nonFinalStates : List JobStatus := JobStatus.all.filter fun s => s ∉ jobFinalStates

/-- `JobStatus.from_string` (jobstatus.py 34-51), given the lower-cased string. -/
def JobStatus.fromString (lower : String) : Except PyErr JobStatus :=
  match JobStatus.all.find? fun s => s.value = lower with
  | some s => .ok s
  | none => .error .valueError

/-- `Job.in_final_state` (job.py 69-71): membership in the set `{DONE, ERROR}`. -/
def Job.inFinalState (s : JobStatus) : Bool := s ∈ [JobStatus.done, JobStatus.error]

/-- outcome of waiting: returned after poll `n`, an exception after poll `n`, or still polling -/
inductive WaitResult
  | returned (n : Nat)
  | raised (n : Nat) (e : PyErr)
  | waiting
  deriving DecidableEq, Repr

/-- The loop of `Job.wait_for_final_state` (job.py 89-98), from poll number `n` on. `status k` is the answer of the `k`-th
call of `status()`, `elapsed k` the elapsed time computed right after it; `fuel` bounds how long we watch. The callback
has no influence and is not modelled. -/
def waitLoop (status : Nat → Except PyErr JobStatus) (elapsed : Nat → Rat) (timeout : Option Rat) :
    Nat → Nat → WaitResult
  | 0, _ => .waiting
  | fuel + 1, n =>
    match status n with
    | .error e => .raised n e
    | .ok s =>
      if s ∈ [JobStatus.done, JobStatus.error] then .returned n
      else if timeout.any (fun t => decide (t ≤ elapsed n)) then .raised n .jobTimeout
      else waitLoop status elapsed timeout fuel (n + 1)

/-- `Job.wait_for_final_state` (job.py 73-98) with `_async = True` (the class default). -/
def waitForFinalState (status : Nat → Except PyErr JobStatus) (elapsed : Nat → Rat) (timeout : Option Rat)
    (fuel : Nat) : WaitResult := waitLoop status elapsed timeout fuel 0

/-- `Job.status` of the base class (job.py 115-117); the simulators return plain `Job` objects. -/
def Job.baseStatus : Nat → Except PyErr JobStatus := fun _ => .error .notImplemented

end Qudits
