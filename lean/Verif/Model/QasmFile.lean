import Verif.Model.Qasm

/-
Model of saving a circuit to a file and loading it: `QuantumCircuit.save_to_file`,
`QuantumCircuit.load_from_file` (circuit.py:380-413), `Gate.return_custom_data` (gate.py:218-225) and the
part of `QASM.parse_gate` that loads a matrix from a file (qasm.py:106-108).

A disk is a table of the matrix files and a table of the text files, by the path given to the operating
system. Opening, reading and writing succeed; the working directory does not change; a text is read as it
was written (no carriage returns in it). Every gate of the circuit has that circuit as its parent. What is
left on the disk when writing raises is not modelled.
-/
namespace Qudits.Qasm
open Qudits

/-! ### paths -/

/-- the components of a POSIX path: empty ones and `.` are dropped (pathlib, `_parse_path`) -/
def pathParts (s : Text) : List Text :=
  (splitChar '/' s).filter fun p => !p.isEmpty && p != ['.']

/-- the root of a POSIX path: exactly two leading slashes are kept -/
def pathRoot : Text → Text
  | '/' :: '/' :: '/' :: _ => ['/']
  | '/' :: '/' :: _ => ['/', '/']
  | '/' :: _ => ['/']
  | _ => []

/-- components joined by slashes -/
def joinSlash : List Text → Text
  | [] => []
  | [x] => x
  | x :: xs => x ++ '/' :: joinSlash xs

/-- `str` of a path with this root and these components -/
def renderPath (root : Text) (parts : List Text) : Text :=
  if root.isEmpty && parts.isEmpty then ['.'] else root ++ joinSlash parts

/-- `str(Path(s))` -/
def normPath (s : Text) : Text := renderPath (pathRoot s) (pathParts s)

/-- `str(Path(dir) / file)`: an absolute second part replaces the first -/
def joinPath (dir file : Text) : Text :=
  if (pathRoot file).isEmpty then renderPath (pathRoot dir) (pathParts dir ++ pathParts file)
  else normPath file

/-! ### gates with their matrices, disks -/

/-- A gate object together with the array in `_params`, if that is an array. -/
structure FGate where
  gate : QG
  data : Option (Arr2 ℂ)

structure Disk where
  arrays : PyDict Text (Arr2 ℂ) := []
  texts : PyDict Text Text := []

/-! ### writing -/

/-- `return_custom_data` (gate.py:218-225) with `path_save = dir` and the four letters drawn; the text and
the file written -/
def customData (dir key : Text) (name : String) (a : Arr2 ℂ) : Text × Option (Text × Arr2 ℂ) :=
  if dir.isEmpty then ("(custom_data) ".toList, none)
  else
    let path := joinPath dir (name.toList ++ '_' :: key ++ ".npy".toList)
    ('(' :: path ++ ") ".toList, some (path, a))

/-- the parameter part of `__qasm__` (gate.py:161-168): the text, the number of keys drawn so far and the
matrix files. `keys k` are the letters of the `k`-th draw. -/
def paramPart (F : PyFloat) (dir : Text) (keys : Nat → Text) (g : FGate) (k : Nat) (fs : PyDict Text (Arr2 ℂ)) :
    Except PyErr (Text × Nat × PyDict Text (Arr2 ℂ)) :=
  match g.gate.params, g.data with
  | .array, some a =>
    match customData dir (keys k) g.gate.base.name a with
    | (t, none) => .ok (t, k, fs)
    | (t, some (p, a)) => .ok (t, k + 1, fs.set p a)
  | p, _ => (fun t => (t, k, fs)) <$> showParams F p

/-- the rest of `__qasm__` (gate.py:169-186) after the text `ps` of the parameters -/
def lineOf (inv : PyDict Nat (String × Nat)) (g : QG) (ps : Text) : Except PyErr Text := do
  let ts ← g.base.target.lines.mapM (showQudit inv)
  let head := g.cls.tag.toList ++ ' ' :: ps ++ joinComma ts
  match g.base.controls with
  | Option.none => pure (head ++ ";\n".toList)
  | some c =>
    match ts.getLast? with
    | Option.none => .error .nameError
    | some last =>
      pure (head ++ " ctl ".toList ++ (c.indices.map fun _ => last ++ [' ']).flatten ++
        ('[' :: joinComma (c.ctrlStates.map showInt) ++ [']']) ++ ";\n".toList)

/-- the loop over the instructions (circuit.py:370-371) -/
def writeGates (F : PyFloat) (inv : PyDict Nat (String × Nat)) (dir : Text) (keys : Nat → Text) :
    List FGate → Nat → PyDict Text (Arr2 ℂ) → Except PyErr (Text × PyDict Text (Arr2 ℂ))
  | [], _, fs => .ok ([], fs)
  | g :: gs, k, fs => do
    let (ps, k, fs) ← paramPart F dir keys g k fs
    let l ← lineOf inv g.gate ps
    let (rest, fs) ← writeGates F inv dir keys gs k fs
    pure (l ++ rest, fs)

/-- `to_qasm` (circuit.py:362-378) while `path_save = dir` -/
def toQasmAt (F : PyFloat) (dir : Text) (keys : Nat → Text) (c : Circ FGate) (fs : PyDict Text (Arr2 ℂ)) :
    Except PyErr (Text × PyDict Text (Arr2 ℂ)) := do
  let regs := (c.qregs.map fun r => regLine r ++ ['\n']).flatten
  let creg := "creg meas[".toList ++ showNat c.dims.length ++ "];\n".toList
  let (gs, fs) ← writeGates F c.inverseSitemap dir keys c.instructions 0 fs
  let ms ← c.qregs.foldlM (fun (acc : Text × Nat) r => do
    let (t, k) ← measureLines c.dims.length r acc.2
    pure (acc.1 ++ t, k)) ([], 0)
  pure ("DITQASM 2.0;\n".toList ++ regs ++ creg ++ gs ++ ms.1, fs)

/-- `save_to_file(name, dir)` (circuit.py:380-402): the path returned and the disk afterwards -/
def saveToFile (F : PyFloat) (keys : Nat → Text) (disk : Disk) (c : Circ FGate) (name dir : Text) :
    Except PyErr (Text × Disk) := do
  let path := joinPath dir (name ++ ".qasm".toList)
  let (text, arrays) ← toQasmAt F dir keys c disk.arrays
  pure (path, { arrays := arrays, texts := disk.texts.set path text })

/-! ### reading -/

/-- `"params"` of a parsed gate (qasm.py:106-113): numbers or a loaded matrix -/
inductive RParams where
  | nums (l : List (Option ℝ))
  | data (a : Arr2 ℂ)

/-- One parsed gate (qasm.py:148). -/
structure OpF where
  name : Text
  params : RParams
  qudits : List (Nat × Nat)
  controls : Option ControlData

/-- qasm.py:106-113; `np.load` of a path that is no file raises an OSError -/
def loadParams (F : PyFloat) (fs : PyDict Text (Arr2 ℂ)) : Option Text → Except PyErr RParams
  | some (x :: t) =>
    if hasSub ".npy".toList (x :: t) then
      match fs.get? (x :: t) with
      | some a => .ok (.data a)
      | Option.none => .error .osError
    else .nums <$> (splitChar ',' (stripWith (fun c => c == '(' || c == ')' || c == '[' || c == ']')
      (x :: t))).mapM F.eval
  | _ => .ok (.nums [])

/-- `parse_gate` (qasm.py:89-153), as `parseGate` but with loaded matrices -/
def parseGateF (F : PyFloat) (fs : PyDict Text (Arr2 ℂ)) (line : Text) (m : PyDict (String × Nat) (Nat × Nat)) :
    Except PyErr (Option OpF) :=
  match Rgx.gate.search line with
  | Option.none => .ok Option.none
  | some (_, c) => do
    let params ← loadParams F fs (group c 2)
    let qs ← (splitChar ',' ((group c 3).getD [])).mapM (parseTarget m)
    let ctl ← match group c 5 with
      | Option.none => pure []
      | some _ =>
        let t := (group c 6).getD []
        (Rgx.qregIndexing.findall (t.length + 1) t).mapM (lookupSite m)
    let levels ← match group c 8 with
      | Option.none => pure []
      | some t =>
          ((Re.grp 0 Rgx.digits).findall (t.length + 1) t).mapM fun d => pyInt ((group d 0).getD [])
    let ctl := (ctl.filterMap id).map fun s => ((s.1 : Nat) : Int)
    let levels := levels.map fun l : Nat => (l : Int)
    let controls := if ctl.isEmpty && levels.isEmpty then Option.none else some ⟨ctl, levels⟩
    pure (some ⟨(group c 1).getD [], params, qs.filterMap id, controls⟩)

/-- One line of `parse_ditqasm2_str` (qasm.py:203-229); the gates are collected in the second
component, the list of `PState` stays empty. -/
def parseLineF (F : PyFloat) (fs : PyDict Text (Arr2 ℂ)) (s : PState × List OpF) (current : Text) :
    Except PyErr (PState × List OpF) := do
  let line := strip current
  let (skip, inComment) := parseNonspecial line s.1.inComment
  let st := { s.1 with inComment := inComment }
  if skip then pure (st, s.2)
  else match ← parseQreg line st.sitemap with
    | some m => pure ({ st with sitemap := m }, s.2)
    | Option.none => match ← parseCreg line st.classic with
      | some m => pure ({ st with classic := m }, s.2)
      | Option.none =>
        if (Rgx.ignore.matchAt line).isSome then pure (st, s.2)
        else match ← parseGateF F fs line st.sitemap with
          | some op => pure (st, s.2 ++ [op])
          | Option.none =>
            if (Rgx.error.matchAt line).isSome then .error .notImplemented else .error .syntaxError

/-- `parse_ditqasm2_str` (qasm.py:167-237). -/
def parseF (F : PyFloat) (fs : PyDict Text (Arr2 ℂ)) (contents : Text) : Except PyErr (PState × List OpF) :=
  (splitChar '\n' contents).foldlM (parseLineF F fs) ({}, [])

/-- the gate object together with the array it was given, if it keeps it -/
def withData (a : Arr2 ℂ) (g : QG) : FGate :=
  ⟨g, match g.params with | .array => some a | _ => Option.none⟩

/-- The call of a builder (circuit.py:349-357); an array without entries counts as no parameters
(`is_not_none_or_empty`, circuit.py:48-53). -/
noncomputable def callBuilderF (dims : List Nat) (cls : Cls) (t : Target) (params : RParams)
    (c : Option ControlData) : Except PyErr (Option FGate) :=
  match params with
  | .nums l => (Option.map fun g => ⟨g, Option.none⟩) <$> callBuilder dims cls t l c
  | .data a =>
    if a.rows * a.cols = 0 then (Option.map fun g => ⟨g, Option.none⟩) <$> callBuilder dims cls t [] c
    else match cls with
      | .csum | .randu | .h | .s | .x | .z => .error .typeError
      | .cx | .ls | .ms | .pm =>
        match c with
        | Option.none => (fun g => some (withData a g)) <$> construct dims cls t .array Option.none
        | some _ => .error .typeError
      | .gell => (fun _ => Option.none) <$> construct dims cls t .array c
      | _ => (fun g => some (withData a g)) <$> construct dims cls t .array c

/-- One instruction of `from_qasm` (circuit.py:333-360). -/
noncomputable def addOpF (c : Circ FGate) (op : OpF) : Except PyErr (Circ FGate) :=
  match qasmSet.get? (String.ofList op.name) with
  | Option.none => .ok c
  | some cls =>
    match op.qudits with
    | [] => .error .indexError
    | q :: qs => do
      let t : Target := if qs.isEmpty then .one q.1 else .many ((q :: qs).map fun x => ((x.1 : Nat) : Int))
      match ← callBuilderF c.dims cls t op.params op.controls with
      | some g => pure (c.addGate g)
      | Option.none => pure c

/-- `from_qasm` (circuit.py:317-360) with the matrix files of a disk. -/
noncomputable def fromQasmF (F : PyFloat) (fs : PyDict Text (Arr2 ℂ)) (c : Circ FGate) (text : Text) :
    Except PyErr (Circ FGate) := do
  let prog ← parseF F fs text
  let c ← c.reset.appendAll (fromMap prog.1.sitemap)
  let c := (cregFromMap prog.1.classic).foldl Circ.appendClassic c
  prog.2.foldlM addOpF c

/-- `load_from_file(path)` (circuit.py:404-413). -/
noncomputable def loadFromFile (F : PyFloat) (disk : Disk) (c : Circ FGate) (path : Text) :
    Except PyErr (Circ FGate) :=
  match disk.texts.get? (normPath path) with
  | some text => fromQasmF F disk.arrays c text
  | Option.none => .error .osError

end Qudits.Qasm
