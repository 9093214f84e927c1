import Verif.Model.PyDict
import Verif.Model.PyErr

/-
Model of the bookkeeping part of `QuantumCircuit`
(`/repo/src/mqt/qudits/quantum_circuit/circuit.py`) and of the register classes
(`components/quantum_register.py`, `components/classic_register.py`).

Gates are an arbitrary type `γ` here.  Simplifications: a register object is not shared between two
circuits; when `append` raises, the half-updated circuit is not kept.
-/
namespace Qudits

/-- `QuantumRegister` (quantum_register.py:40-44): label, size, dimensions, local_sitemap. -/
structure QReg where
  label : String
  size : Nat
  dims : List Nat
  localSitemap : PyDict Nat Nat := []
  deriving DecidableEq, Repr

/-- `QuantumRegister.__init__` (quantum_register.py:40-44): `dims=None` means qubits. -/
def QReg.mk' (name : String) (size : Nat) (dims : Option (List Nat)) : QReg :=
  { label := name, size := size, dims := dims.getD (List.replicate size 2) }

/-- `ClassicRegister` (classic_register.py). -/
structure CReg where
  label : String
  size : Nat
  localSitemap : PyDict Nat Nat := []
  deriving DecidableEq, Repr

/-- The attributes of `QuantumCircuit` set in `__init__` (circuit.py:91-104). -/
structure Circ (γ : Type) where
  numberGates : Int := 0
  instructions : List γ := []
  qregs : List QReg := []
  cregs : List CReg := []
  sitemap : PyDict (String × Nat) (Nat × Nat) := []
  inverseSitemap : PyDict Nat (String × Nat) := []
  classicSitemap : PyDict (String × Nat) Nat := []
  clInverseSitemap : PyDict Nat (String × Nat) := []
  numCl : Nat := 0
  numQudits : Nat := 0
  dims : List Nat := []
  mappings : Option (List (List Nat)) := none
  deriving DecidableEq, Repr

variable {γ : Type}

/-- `QuantumCircuit()` (circuit.py:91-107). -/
def Circ.empty : Circ γ := {}

/-- The three dictionaries written by the loop of `append` (circuit.py:160-163). -/
structure AppendMaps where
  loc : PyDict Nat Nat
  site : PyDict (String × Nat) (Nat × Nat)
  inv : PyDict Nat (String × Nat)

/-- One iteration of the loop of `append` (circuit.py:161-163);
`qreg.dimensions[i]` may raise `IndexError`. -/
def appendStep (r : QReg) (n : Nat) (m : AppendMaps) (i : Nat) : Except PyErr AppendMaps :=
  match r.dims[i]? with
  | none => .error .indexError
  | some d => .ok
      { loc := m.loc.set i (n + i)
        site := m.site.set (r.label, i) (n + i, d)
        inv := m.inv.set (n + i) (r.label, i) }

/-- `QuantumCircuit.append` (circuit.py:154-163). -/
def Circ.append (c : Circ γ) (r : QReg) : Except PyErr (Circ γ) := do
  let n := c.sitemap.length
  let m ← (List.range r.size).foldlM (appendStep r n) ⟨r.localSitemap, c.sitemap, c.inverseSitemap⟩
  return { c with
    qregs := c.qregs ++ [{ r with localSitemap := m.loc }]
    numQudits := c.numQudits + r.size
    dims := c.dims ++ r.dims
    sitemap := m.site
    inverseSitemap := m.inv }

/-- A sequence of `append` calls. -/
def Circ.appendAll (c : Circ γ) (rs : List QReg) : Except PyErr (Circ γ) :=
  rs.foldlM Circ.append c

/-- `QuantumCircuit.append_classic` (circuit.py:165-173). -/
def Circ.appendClassic (c : Circ γ) (r : CReg) : Circ γ :=
  let n := c.classicSitemap.length
  let idx := List.range r.size
  { c with
    cregs := c.cregs ++ [{ r with localSitemap := idx.foldl (fun d i => d.set i (n + i)) r.localSitemap }]
    numCl := c.numCl + r.size
    classicSitemap := idx.foldl (fun d i => d.set (r.label, i) (n + i)) c.classicSitemap
    clInverseSitemap := idx.foldl (fun d i => d.set (n + i) (r.label, i)) c.clInverseSitemap }

/-- `QuantumCircuit.reset` (circuit.py:137-149): everything except `mappings`. -/
def Circ.reset (c : Circ γ) : Circ γ := { (Circ.empty : Circ γ) with mappings := c.mappings }

/-- `add_gate_decorator` (circuit.py:59-66): effect of any decorated gate builder on the circuit. -/
def Circ.addGate (c : Circ γ) (g : γ) : Circ γ :=
  { c with numberGates := c.numberGates + 1, instructions := c.instructions ++ [g] }

/-- Python slice bound normalisation for a list of length `n`. -/
def sliceBound (n : Nat) (i : Int) : Nat :=
  if i < 0 then (i + n).toNat else min i.toNat n

/-- `xs[a:b] = seq` with Python semantics (negative bounds count from the end, bounds are clipped,
an end before the start is treated as the start). -/
def sliceAssign (xs : List γ) (a b : Int) (seq : List γ) : List γ :=
  let lo := sliceBound xs.length a
  let hi := max lo (sliceBound xs.length b)
  xs.take lo ++ seq ++ xs.drop hi

/-- `QuantumCircuit.replace_gate` (circuit.py:303-305). -/
def Circ.replaceGate (c : Circ γ) (i : Int) (seq : List γ) : Circ γ :=
  { c with
    instructions := sliceAssign c.instructions i (i + 1) seq
    numberGates := (c.numberGates - 1) + seq.length }

/-- `QuantumCircuit.set_instructions` (circuit.py:307-311). -/
def Circ.setInstructions (c : Circ γ) (seq : List γ) : Circ γ :=
  { c with instructions := [] ++ seq, numberGates := seq.length }

/-- `QuantumCircuit.set_mapping` (circuit.py:313-315). -/
def Circ.setMapping (c : Circ γ) (m : List (List Nat)) : Circ γ := { c with mappings := some m }

/-- `QuantumCircuit.__init__` with more than one argument (circuit.py:108-113). -/
def Circ.init (num : Nat) (dims : Option (List Nat)) : Except PyErr (Circ γ) :=
  Circ.empty.append (QReg.mk' "q" num dims)

end Qudits
