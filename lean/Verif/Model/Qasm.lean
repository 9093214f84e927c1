import Verif.Model.Circuit
import Verif.Model.Gate
import Verif.Model.GateArrays
import Verif.Model.Regex

/-
Model of the QASM writer and reader: `QuantumCircuit.to_qasm`, `QuantumCircuit.from_qasm`,
`Gate.__qasm__`, `QuantumRegister.__qasm__`, `QuantumRegister.from_map`, `ClassicRegister.from_map`
and the class `QASM`, together with the gate constructors they call
(src/mqt/qudits/quantum_circuit/{circuit,gate,qasm}.py, components/*.py, gates/*.py).

Text is ASCII.  Files (`.npy` parameters, `save_to_file`) are in Model/QasmFile.lean: here `path_save` is `None`
when text is written, and reading a parameter text containing `.npy` is outside the model.
-/
namespace Qudits.Qasm
open Qudits

/-! ### numbers as text -/

/-- Python's text of a `float` and its evaluation of an arithmetic expression. `isFloat` tells which
reals are (finite) Python floats. -/
structure PyFloat where
  isFloat : ℝ → Prop
  /-- `f"{x}"` -/
  text : ℝ → Text
  /-- `safe_eval_math_expression` (qasm.py:78-87): a number, `None` on a syntax error, or an
  exception other than ValueError and SyntaxError -/
  eval : Text → Except PyErr (Option ℝ)

/-! ### gate objects -/

/-- The gate classes of gates/*.py. -/
inductive Cls where
  | csum | cuOne | cuTwo | cuMulti | cx | gell | h | ls | ms | pm | r | rh | randu | rz | virtrz
  | s | x | z | noiseX | noiseY
  deriving DecidableEq, Repr

/-- `qasm_tag` of each class (csum.py:36, custom_one.py:37, …, z.py:33). -/
def Cls.tag : Cls → String
  | .csum => "csum" | .cuOne => "cuone" | .cuTwo => "cutwo" | .cuMulti => "cumulti" | .cx => "cx"
  | .gell => "gell" | .h => "h" | .ls => "ls" | .ms => "ms" | .pm => "pm" | .r => "rxy"
  | .rh => "rh" | .randu => "rdu" | .rz => "rz" | .virtrz => "virtrz" | .s => "s" | .x => "x"
  | .z => "z" | .noiseX => "noisex" | .noiseY => "noisey"

/-- `qasm_to_gate_set_dict` (circuit.py:70-89). -/
def qasmSet : PyDict String Cls :=
  [("csum", .csum), ("cuone", .cuOne), ("cutwo", .cuTwo), ("cumulti", .cuMulti), ("cx", .cx),
   ("gell", .gell), ("h", .h), ("ls", .ls), ("ms", .ms), ("pm", .pm), ("rxy", .r), ("rh", .rh),
   ("rdu", .randu), ("rz", .rz), ("virtrz", .virtrz), ("s", .s), ("x", .x), ("z", .z)]

/-- A `parameters` argument: `None`, a list, a tuple of evaluated texts, an array (contents not
kept), or a `ControlData` object passed in its place. -/
inductive PArg where
  | none
  | list (l : List PVal)
  | tuple (l : List (Option ℝ))
  | array
  | ctl

/-- as seen by the `isinstance` checks of `validate_parameter` -/
def PArg.toParams : PArg → Params
  | .none => .none
  | .list l => .list l
  | _ => .other

/-- `_params` after a constructor which stores accepted lists only. -/
def PArg.ifList : PArg → PArg
  | .list l => .list l
  | _ => .none

/-- The attributes a constructor sets, per family of classes. -/
inductive Attrs where
  | plain
  | two (g : TwoLevel)
  | cex (p : CExParams)
  | angle (theta : Option ℝ)
  | perm (p : Option (List Int))
  | custom (stored : Bool)

/-- A gate object: the fields of the base class, `_params` and the class' own attributes. -/
structure QG where
  cls : Cls
  base : Gate
  params : PArg
  attrs : Attrs

/-- `self.dimensions[q]` -/
def dimOf (dims : List Nat) (q : Int) : Except PyErr Nat :=
  let i := if q < 0 then q + dims.length else q
  if i < 0 then .error .indexError
  else match dims[i.toNat]? with
    | some d => .ok d
    | Option.none => .error .indexError

/-- the line of a single-qudit builder: indexing a list with a list is a TypeError -/
def oneLine (dims : List Nat) : Target → Except PyErr Nat
  | .one q => dimOf dims q
  | .many _ => .error .typeError

/-- `[self.dimensions[i] for i in qudits]`: iterating over an int is a TypeError -/
def manyLines (dims : List Nat) : Target → Except PyErr (List Nat)
  | .one _ => .error .typeError
  | .many qs => qs.mapM (dimOf dims)

/-- `prefix + str(dimension)` -/
def name1 (pre : String) (d : Nat) : String := pre ++ String.ofList (showNat d)

/-- `prefix + str(dimensions)` -/
def nameN (pre : String) (ds : List Nat) : String :=
  pre ++ String.ofList ('[' :: joinComma (ds.map showNat) ++ [']'])

/-- `parameters[0]` of ls.py:41 and ms.py:39, as a number -/
def firstNumber : PArg → Except PyErr (Option ℝ)
  | .none => .error .typeError
  | .ctl => .error .typeError
  | .array => .ok Option.none
  | .list l => match l.head? with
    | Option.none => .error .indexError
    | some (.int n) => .ok (some n)
    | some (.flt x) => .ok (some x)
    | some (.str _) => .error .typeError
  | .tuple l => match l.head? with
    | Option.none => .error .indexError
    | some x => .ok x

/-- ls.py:61-76, ms.py:70-86: the angle check applies to lists only. -/
noncomputable def angleAttr (p : PArg) : Except PyErr Attrs := do
  let t ← firstNumber p
  match p, t with
  | .list _, some θ => let θ ← angleInit θ; pure (.angle (some θ))
  | _, t => pure (.angle t)

/-- the ints of a list parameter (perm.py:49-57); other entries are not modelled further -/
def intsOf : List PVal → Except PyErr (List Int)
  | [] => .ok []
  | .int n :: l => do let r ← intsOf l; pure (n :: r)
  | _ :: _ => .error .typeError

/-- Constructors of the gate classes as called by the builders of circuit.py:175-301.
`dims` is `circuit.dimensions`. -/
noncomputable def construct (dims : List Nat) (cls : Cls) (t : Target) (p : PArg)
    (c : Option ControlData) : Except PyErr QG :=
  match cls with
  | .h => do
    let d ← oneLine dims t
    let g ← Gate.init dims (name1 "H" d) .single t c
    pure ⟨cls, g, .none, .plain⟩
  | .x => do
    let d ← oneLine dims t
    let g ← Gate.init dims (name1 "X" d) .single t c
    pure ⟨cls, g, .none, .plain⟩
  | .z => do
    let d ← oneLine dims t
    let g ← Gate.init dims (name1 "Z" d) .single t c
    pure ⟨cls, g, .none, .plain⟩
  | .s => do
    let d ← oneLine dims t
    sInit d
    let g ← Gate.init dims (name1 "S" d) .single t c
    pure ⟨cls, g, .none, .plain⟩
  | .r => do
    let d ← oneLine dims t
    let g ← Gate.init dims (name1 "R" d) .single t c
    let a ← rInit d p.toParams
    pure ⟨cls, g, p.ifList, .two a⟩
  | .rz => do
    let d ← oneLine dims t
    let g ← Gate.init dims (name1 "Rz" d) .single t c
    let a ← rzInit d p.toParams
    pure ⟨cls, g, p.ifList, .two a⟩
  | .rh => do
    let d ← oneLine dims t
    let g ← Gate.init dims (name1 "Rh" d) .single t c
    let a ← levelsInit d p.toParams
    pure ⟨cls, g, p.ifList, .two a⟩
  | .noiseX => do
    let d ← oneLine dims t
    let g ← Gate.init dims (name1 "NoiseX" d) .single t c
    let a ← levelsInit d p.toParams
    pure ⟨cls, g, p.ifList, .two a⟩
  | .noiseY => do
    let d ← oneLine dims t
    let g ← Gate.init dims (name1 "NoiseY" d) .single t c
    let a ← levelsInit d p.toParams
    pure ⟨cls, g, p.ifList, .two a⟩
  | .virtrz => do
    let d ← oneLine dims t
    let g ← Gate.init dims (name1 "VirtRz" d) .single t c
    let stored := match p with                                     -- virt_rz.py:52-67
      | .list [.int a, .flt _] => decide (0 ≤ a ∧ a < d)
      | _ => false
    pure ⟨cls, g, if stored then p else .none, .two (virtRzInit d p.toParams)⟩
  | .gell => do
    let d ← oneLine dims t
    match p with
    | .list l => do
      let a ← needInt l 0
      let b ← needInt l 1
      match l[2]? with
      | some (.str _) =>
        if 0 ≤ a ∧ a < b then do
          let g ← Gate.init dims (name1 "Gell" d) .single t c
          pure ⟨cls, g, p, .two { levA := a, levB := b }⟩
        else .error .assertionError
      | some _ => .error .assertionError
      | Option.none => .error .indexError
    | _ => .error .assertionError                                  -- gellmann.py:29
  | .pm => do
    let d ← oneLine dims t
    let g ← Gate.init dims (name1 "Pm" d) .single t c
    match p with
    | .list l => do
      let l ← intsOf l
      let l ← permInit d l
      pure ⟨cls, g, p, .perm (some l)⟩
    | _ => pure ⟨cls, g, p, .perm Option.none⟩
  | .cuOne => do
    let d ← oneLine dims t
    let g ← Gate.init dims (name1 "CUo" d) .single t c
    pure ⟨cls, g, p, .custom (match p with | .array => true | _ => false)⟩
  | .cuTwo => do
    let ds ← manyLines dims t
    let g ← Gate.init dims (nameN "CUt" ds) .two t c
    pure ⟨cls, g, p, .custom (match p with | .array => true | _ => false)⟩
  | .cuMulti => do
    let ds ← manyLines dims t
    let g ← Gate.init dims (nameN "CUm" ds) .multi t c
    pure ⟨cls, g, p, .custom (match p with | .array => true | _ => false)⟩
  | .csum => do
    let ds ← manyLines dims t
    let g ← Gate.init dims (nameN "CSum" ds) .two t Option.none
    pure ⟨cls, g, .none, .plain⟩
  | .randu => do
    let ds ← manyLines dims t
    let g ← Gate.init dims (nameN "RandU" ds) .multi t Option.none
    pure ⟨cls, g, .none, .plain⟩
  | .cx => do
    let ds ← manyLines dims t
    let g ← Gate.init dims (nameN "CEx" ds) .two t Option.none
    let a ← cexInit p.toParams
    let stored := match p with                                      -- cx.py:40-51
      | .list l => .list l
      | _ => .list [.int 0, .int 1, .int 1, .flt 0]
    pure ⟨cls, g, stored, .cex a⟩
  | .ls => do
    let ds ← manyLines dims t
    let _ ← firstNumber p
    let g ← Gate.init dims (nameN "LS" ds) .two t Option.none
    let a ← angleAttr p
    pure ⟨cls, g, p, a⟩
  | .ms => do
    let ds ← manyLines dims t
    let _ ← firstNumber p
    let g ← Gate.init dims (nameN "MS" ds) .two t Option.none
    let a ← angleAttr p
    pure ⟨cls, g, p, a⟩

/-- `__array__` of a gate object. Custom and random gates are not modelled here (their data is not
kept) and give an error. -/
noncomputable def QG.array (g : QG) : Except PyErr (Arr2 ℂ) :=
  match g.cls, g.base.target, g.attrs with
  | .h, .one q, _ => do hArray (← dimOf g.base.dims q)
  | .x, .one q, _ => do xArray (← dimOf g.base.dims q)
  | .z, .one q, _ => do zArray (← dimOf g.base.dims q)
  | .s, .one q, _ => do sArray (← dimOf g.base.dims q)
  | .r, .one q, .two a => do rArray (← dimOf g.base.dims q) a
  | .rz, .one q, .two a => do rzArray (← dimOf g.base.dims q) a
  | .rh, .one q, .two a => do rhArray (← dimOf g.base.dims q) a
  | .noiseX, .one q, .two a => do noiseXArray (← dimOf g.base.dims q) a
  | .noiseY, .one q, .two a => do noiseYArray (← dimOf g.base.dims q) a
  | .virtrz, .one q, .two a => do virtRzArray (← dimOf g.base.dims q) a
  | .pm, .one q, .perm (some p) => do pure (permArray (← dimOf g.base.dims q) p)
  | .pm, .one _, .perm Option.none => .error .attributeError          -- perm.py:43
  | .csum, .many [q0, q1], _ => do csumArray q0 q1 (← dimOf g.base.dims q0) (← dimOf g.base.dims q1)
  | .cx, .many [q0, q1], .cex p => do
    cexArray q0 q1 (← dimOf g.base.dims q0) (← dimOf g.base.dims q1) p
  | .ls, .many [q0, q1], .angle (some θ) => do
    lsArray (← dimOf g.base.dims q0) (← dimOf g.base.dims q1) θ
  | .ms, .many [q0, q1], .angle (some θ) => do
    msArray (← dimOf g.base.dims q0) (← dimOf g.base.dims q1) θ
  | _, _, _ => .error .runtimeError

/-! ### writing -/

/-- `QuantumRegister.__qasm__` (quantum_register.py:46-48): the list of dimensions without spaces. -/
def regLine (r : QReg) : Text :=
  "qreg ".toList ++ r.label.toList ++ " [".toList ++ showNat r.size ++ "]".toList ++
    ('[' :: joinComma (r.dims.map showNat) ++ [']']).filter (fun c => c != ' ') ++ ";".toList

/-- `f"{parameter}"` -/
def showPVal (F : PyFloat) : PVal → Text
  | .int n => showInt n
  | .flt x => F.text x
  | .str s => s.toList

/-- the parameter part of `__qasm__` (gate.py:161-168); `return_custom_data` (gate.py:218-220) -/
def showParams (F : PyFloat) : PArg → Except PyErr Text
  | .array => .ok "(custom_data) ".toList
  | .none => .ok []
  | .ctl => .error .typeError
  | .list l => .ok (if l.isEmpty then [] else
      '(' :: joinComma (l.map (showPVal F)) ++ ") ".toList)
  | .tuple l => .ok (if l.isEmpty then [] else
      '(' :: joinComma (l.map fun x => match x with
        | some x => F.text x
        | Option.none => "None".toList) ++ ") ".toList)

/-- `inverse_sitemap[q]` as text `name[index]` (gate.py:175) -/
def showQudit (inv : PyDict Nat (String × Nat)) (q : Int) : Except PyErr Text :=
  if q < 0 then .error .keyError
  else match inv.get? q.toNat with
    | some (lbl, i) => .ok (lbl.toList ++ '[' :: showNat i ++ [']'])
    | Option.none => .error .keyError

/-- `Gate.__qasm__` (gate.py:158-186). The loop over the controls prints the variable `qudit`, which
holds the last target. -/
def gateLine (F : PyFloat) (inv : PyDict Nat (String × Nat)) (g : QG) : Except PyErr Text := do
  let ps ← showParams F g.params
  let ts ← g.base.target.lines.mapM (showQudit inv)
  let head := g.cls.tag.toList ++ ' ' :: ps ++ joinComma ts
  match g.base.controls with
  | Option.none => pure (head ++ ";\n".toList)
  | some c =>
    match ts.getLast? with
    | Option.none => .error .nameError
    | some last =>
      pure (head ++ " ctl ".toList ++ (c.indices.map fun _ => last ++ [' ']).flatten ++
        ('[' :: joinComma (c.ctrlStates.map showInt) ++ [']']) ++ ";\n".toList)

/-- the measure lines of one register (circuit.py:375-376); `k` is the position of the iterator over
`range(n)`, exhausting it raises StopIteration -/
def measureLines (n : Nat) (r : QReg) (k : Nat) : Except PyErr (Text × Nat) :=
  (List.range r.size).foldlM (fun (acc : Text × Nat) i =>
    if acc.2 < n then
      .ok (acc.1 ++ ("measure ".toList ++ r.label.toList ++ '[' :: showNat i ++ "] -> meas[".toList ++
        showNat acc.2 ++ "];\n".toList), acc.2 + 1)
    else .error .stopIteration) ([], k)

/-- `QuantumCircuit.to_qasm` (circuit.py:362-378). -/
def toQasm (F : PyFloat) (c : Circ QG) : Except PyErr Text := do
  let regs := (c.qregs.map fun r => regLine r ++ ['\n']).flatten
  let creg := "creg meas[".toList ++ showNat c.dims.length ++ "];\n".toList
  let gs ← c.instructions.mapM (gateLine F c.inverseSitemap)
  let ms ← c.qregs.foldlM (fun (acc : Text × Nat) r => do
    let (t, k) ← measureLines c.dims.length r acc.2
    pure (acc.1 ++ t, k)) ([], 0)
  pure ("DITQASM 2.0;\n".toList ++ regs ++ creg ++ gs.flatten ++ ms.1)

/-! ### patterns -/

namespace Rgx
open Re

/-- qasm.py:174 -/
def header : Re :=
  .alt (.grp 1 (cat [lit "DITQASM".toList, sp1, ch '2', .cls (fun c => c != '\n'), lit "0;".toList]))
    (.grp 2 (cat [lit "include".toList, sp1, lit "\"qelib1".toList, .cls (fun c => c != '\n'),
      lit "inc\";".toList]))

/-- qasm.py:175-177 -/
def comment : Re := lit "//".toList
def commentStart : Re := lit "/*".toList
def commentEnd : Re := lit "*/".toList

/-- qasm.py:178 -/
def qreg : Re :=
  cat [lit "qreg".toList, sp1, .grp 1 word, sp1, .grp 2 (cat [ch '[', sp, num, sp, ch ']']),
    .opt (cat [sp, ch '[', .grp 3 (cat [num, .star (cat [ch ',', sp, num])]), ch ']']), ch ';']

/-- qasm.py:179 -/
def creg : Re :=
  cat [lit "creg".toList, sp1, .grp 1 word, sp, ch '[', sp, .grp 2 num, sp, ch ']', sp, ch ';']

/-- qasm.py:181 -/
def qregIndexing : Re := cat [sp, .grp 1 word, sp, .grp 2 (cat [ch '[', sp, num, sp, ch ']'])]

/-- qasm.py:52, 121, 134 -/
def bracketed : Re := cat [ch '[', .grp 1 num, ch ']']

/-- qasm.py:184-188 -/
def gate : Re :=
  cat [.grp 1 word, sp, .opt (cat [ch '(', .grp 2 (.star (.cls (fun c => c != ')'))), ch ')']), sp,
    .grp 3 (cat [word, ch '[', num, ch ']', sp,
      .star (.grp 4 (cat [ch ',', sp, word, ch '[', num, ch ']']))]), sp,
    .opt (.grp 5 (cat [lit "ctl".toList,
      .grp 6 (cat [sp1, word, ch '[', num, ch ']', sp,
        .star (.grp 7 (cat [sp, word, sp, ch '[', num, ch ']']))]), sp,
      .grp 8 (cat [ch '[', .grp 9 (cat [num, .star (.grp 10 (cat [ch ',', sp, num]))]), ch ']'])])),
    sp, ch ';']

/-- qasm.py:189-190 -/
def error : Re := .grp 1 (.alt (lit "gate_matrix".toList) (lit "if".toList))
def ignore : Re := .grp 1 (.alt (lit "measure".toList) (lit "barrier".toList))

/-- qasm.py:141 -/
def digits : Re := num

end Rgx

/-! ### reading -/

/-- `int(text)` of a text of digits between spaces -/
def pyInt (s : Text) : Except PyErr Nat :=
  let t := strip s
  if t.isEmpty || !t.all isDigit then .error .valueError else .ok (Nat.ofDigitChars 10 t 0)

/-- One parsed gate (qasm.py:148). -/
structure Op where
  name : Text
  params : List (Option ℝ)
  qudits : List (Nat × Nat)
  controls : Option ControlData

/-- The tables filled while parsing (qasm.py:194-202). -/
structure PState where
  sitemap : PyDict (String × Nat) (Nat × Nat) := []
  classic : PyDict (String × Nat) Nat := []
  gates : List Op := []
  inComment : Bool := false

/-- `parse_nonspecial_lines` (qasm.py:22-42). -/
def parseNonspecial (line : Text) (inComment : Bool) : Bool × Bool :=
  if line.isEmpty then (true, inComment)
  else if (Rgx.comment.matchAt line).isSome then (true, inComment)
  else
    let inComment := inComment || (Rgx.commentStart.matchAt line).isSome
    if inComment then (true, !(Rgx.commentEnd.matchAt line).isSome)
    else if (Rgx.header.matchAt line).isSome then (true, inComment)
    else (false, inComment)

/-- the loop qasm.py:62-63: the right-hand side is evaluated before the key is inserted -/
def addSites (name : String) (dims : List Nat) :
    List Nat → PyDict (String × Nat) (Nat × Nat) → Except PyErr (PyDict (String × Nat) (Nat × Nat))
  | [], m => .ok m
  | i :: is, m => match dims[i]? with
    | Option.none => .error .indexError
    | some d => addSites name dims is (m.set (name, i) (m.length, d))

/-- `parse_qreg` (qasm.py:44-66); `none` stands for `False`. If the bracketed size contains spaces,
`nq` stays unbound: UnboundLocalError, a NameError. -/
def parseQreg (line : Text) (m : PyDict (String × Nat) (Nat × Nat)) :
    Except PyErr (Option (PyDict (String × Nat) (Nat × Nat))) :=
  match Rgx.qreg.matchAt line with
  | Option.none => .ok Option.none
  | some (_, c) => do
    let name := (group c 1).getD []
    let nqu := (group c 2).getD []
    let nq? ← match Rgx.bracketed.search nqu with
      | some (_, b) => do let n ← pyInt ((group b 1).getD []); pure (some n)
      | Option.none => pure Option.none
    let qdims ← match group c 3 with
      | some (x :: t) => (splitChar ',' (x :: t)).mapM pyInt
      | _ => match nq? with
        | some n => pure (List.replicate n 2)
        | Option.none => .error .nameError
    match nq? with
    | Option.none => .error .nameError
    | some n => do
      let m ← addSites (String.ofList name) qdims (List.range n) m
      pure (some m)

/-- `parse_creg` (qasm.py:68-76). -/
def parseCreg (line : Text) (m : PyDict (String × Nat) Nat) :
    Except PyErr (Option (PyDict (String × Nat) Nat)) :=
  match Rgx.creg.matchAt line with
  | Option.none => .ok Option.none
  | some (_, c) => do
    let name := String.ofList ((group c 1).getD [])
    let n ← pyInt ((group c 2).getD [])
    pure (some ((List.range n).foldl (fun m i => m.set (name, i) m.length) m))

/-- the parameter tuple (qasm.py:106-113) -/
def parseParams (F : PyFloat) : Option Text → Except PyErr (List (Option ℝ))
  | some (x :: t) =>
    if hasSub ".npy".toList (x :: t) then .error .notImplemented            -- file access
    else (splitChar ',' (stripWith (fun c => c == '(' || c == ')' || c == '[' || c == ']')
      (x :: t))).mapM F.eval
  | _ => .ok []

/-- `sitemap[name, index]` of a captured `name` and `[index]` (qasm.py:119-125, 132-139);
`none` when the index is not of the form `[digits]` -/
def lookupSite (m : PyDict (String × Nat) (Nat × Nat)) (c : Caps) :
    Except PyErr (Option (Nat × Nat)) :=
  match Rgx.bracketed.search ((group c 2).getD []) with
  | Option.none => .ok Option.none
  | some (_, b) => do
    let i ← pyInt ((group b 1).getD [])
    match m.get? (String.ofList ((group c 1).getD []), i) with
    | Option.none => .error .keyError
    | some site => pure (some site)

/-- one target text (qasm.py:116-125) -/
def parseTarget (m : PyDict (String × Nat) (Nat × Nat)) (dit : Text) :
    Except PyErr (Option (Nat × Nat)) :=
  match Rgx.qregIndexing.matchAt dit with
  | Option.none => .ok Option.none
  | some (_, c) => lookupSite m c

/-- `parse_gate` (qasm.py:89-153); `none` stands for `False`. -/
def parseGate (F : PyFloat) (line : Text) (m : PyDict (String × Nat) (Nat × Nat)) :
    Except PyErr (Option Op) :=
  match Rgx.gate.search line with
  | Option.none => .ok Option.none
  | some (_, c) => do
    let params ← parseParams F (group c 2)
    let qs ← (splitChar ',' ((group c 3).getD [])).mapM (parseTarget m)
    let ctl ← match group c 5 with
      | Option.none => pure []
      | some _ =>
        let t := (group c 6).getD []
        (Rgx.qregIndexing.findall (t.length + 1) t).mapM (lookupSite m)
    let levels ← match group c 8 with
      | Option.none => pure []
      | some t =>
          ((Re.grp 0 Rgx.digits).findall (t.length + 1) t).mapM fun d => pyInt ((group d 0).getD [])
    let ctl := (ctl.filterMap id).map fun s => ((s.1 : Nat) : Int)
    let levels := levels.map fun l : Nat => (l : Int)
    let controls := if ctl.isEmpty && levels.isEmpty then Option.none else some ⟨ctl, levels⟩
    pure (some ⟨(group c 1).getD [], params, qs.filterMap id, controls⟩)

/-- One line of `parse_ditqasm2_str` (qasm.py:203-229). -/
def parseLine (F : PyFloat) (st : PState) (current : Text) : Except PyErr PState := do
  let line := strip current
  let (skip, inComment) := parseNonspecial line st.inComment
  let st := { st with inComment := inComment }
  if skip then pure st
  else match ← parseQreg line st.sitemap with
    | some m => pure { st with sitemap := m }
    | Option.none => match ← parseCreg line st.classic with
      | some m => pure { st with classic := m }
      | Option.none =>
        if (Rgx.ignore.matchAt line).isSome then pure st
        else match ← parseGate F line st.sitemap with
          | some op => pure { st with gates := st.gates ++ [op] }
          | Option.none =>
            if (Rgx.error.matchAt line).isSome then .error .notImplemented else .error .syntaxError

/-- `parse_ditqasm2_str` (qasm.py:167-237). -/
def parse (F : PyFloat) (contents : Text) : Except PyErr PState :=
  (splitChar '\n' contents).foldlM (parseLine F) {}

/-- `QuantumRegister.from_map` (quantum_register.py:12-38): the two lists of `registers_map`. -/
def regsMap (sitemap : PyDict (String × Nat) (Nat × Nat)) : PyDict String (PyDict Nat Nat × List Nat) :=
  sitemap.foldl (fun (m : PyDict String (PyDict Nat Nat × List Nat)) e =>
    match m.get? e.1.1 with
    | Option.none => m.set e.1.1 ([(e.1.2, e.2.1)], [e.2.2])
    | some (loc, ds) => m.set e.1.1 (loc.set e.1.2 e.2.1, ds ++ [e.2.2])) []

def fromMap (sitemap : PyDict (String × Nat) (Nat × Nat)) : List QReg :=
  (regsMap sitemap).map fun e => ⟨e.1, e.2.1.length, e.2.2, e.2.1⟩

/-- `ClassicRegister.from_map` (classic_register.py:11-28): labels and sizes. The numbers it writes
into `local_sitemap` are all overwritten by `append_classic` and are not kept. -/
def cregFromMap (m : PyDict (String × Nat) Nat) : List CReg :=
  (m.foldl (fun (acc : PyDict String (List Nat)) e =>
    match acc.get? e.1.1 with
    | Option.none => acc.set e.1.1 [e.1.2]
    | some l => acc.set e.1.1 (if e.1.2 ∈ l then l else l ++ [e.1.2])) []).map
    fun e => ⟨e.1, e.2.length, []⟩

/-- The positional call of circuit.py:349-357 on a builder: too few or too many arguments raise
TypeError; a `ControlData` or a tuple may land in the other parameter. `none`: the builder
`gellmann` is not decorated and adds nothing to the circuit (circuit.py:229). -/
noncomputable def callBuilder (dims : List Nat) (cls : Cls) (t : Target) (params : List (Option ℝ))
    (c : Option ControlData) : Except PyErr (Option QG) :=
  let p := params.isEmpty
  match cls with
  | .csum | .randu =>
    match p, c with
    | true, Option.none => some <$> construct dims cls t .none Option.none
    | _, _ => .error .typeError
  | .h | .s | .x | .z =>
    match p, c with
    | true, c => some <$> construct dims cls t .none c
    | false, _ => .error .typeError
  | .cx =>
    match p, c with
    | true, Option.none => some <$> construct dims cls t .none Option.none
    | true, some _ => some <$> construct dims cls t .ctl Option.none
    | false, Option.none => some <$> construct dims cls t (.tuple params) Option.none
    | false, some _ => .error .typeError
  | .ls | .ms | .pm =>
    match p, c with
    | true, Option.none => .error .typeError
    | true, some _ => some <$> construct dims cls t .ctl Option.none
    | false, Option.none => some <$> construct dims cls t (.tuple params) Option.none
    | false, some _ => .error .typeError
  | .gell =>
    match p, c with
    | true, Option.none => .error .typeError
    | true, some _ => (fun _ => Option.none) <$> construct dims cls t .ctl Option.none
    | false, c => (fun _ => Option.none) <$> construct dims cls t (.tuple params) c
  | _ =>
    match p, c with
    | true, Option.none => .error .typeError
    | true, some _ => some <$> construct dims cls t .ctl Option.none
    | false, c => some <$> construct dims cls t (.tuple params) c

/-- One instruction of `from_qasm` (circuit.py:333-360): an unknown name is skipped. -/
noncomputable def addOp (c : Circ QG) (op : Op) : Except PyErr (Circ QG) :=
  match qasmSet.get? (String.ofList op.name) with
  | Option.none => .ok c
  | some cls =>
    match op.qudits with
    | [] => .error .indexError
    | q :: qs => do
      let t : Target := if qs.isEmpty then .one q.1 else .many ((q :: qs).map fun x => ((x.1 : Nat) : Int))
      match ← callBuilder c.dims cls t op.params op.controls with
      | some g => pure (c.addGate g)
      | Option.none => pure c

/-- `QuantumCircuit.from_qasm` (circuit.py:317-360). -/
noncomputable def fromQasm (F : PyFloat) (c : Circ QG) (text : Text) : Except PyErr (Circ QG) := do
  let prog ← parse F text
  let c ← c.reset.appendAll (fromMap prog.sitemap)
  let c := (cregFromMap prog.classic).foldl Circ.appendClassic c
  prog.gates.foldlM addOp c

end Qudits.Qasm
