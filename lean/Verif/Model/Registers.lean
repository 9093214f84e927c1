import Verif.Model.Circuit

/-
Model of indexing registers: `QuantumRegister.__getitem__` (quantum_register.py:50-55) and
`ClassicRegister.__getitem__` (classic_register.py:38-43), which are the same code.
-/
namespace Qudits

/-- What stands between the brackets: an integer or a slice. -/
inductive PyKey where
  | int (i : Int)
  | slice (start stop step : Option Int)

/-- The result: a number or a list. -/
inductive PyItem where
  | one (n : Nat)
  | many (l : List Nat)
  deriving DecidableEq, Repr

/-- `self.local_sitemap[i]`: the keys are the numbers given by `append`. -/
def siteAt (m : PyDict Nat Nat) (i : Int) : Except PyErr Nat :=
  if 0 ≤ i then
    match m.get? i.toNat with
    | some n => .ok n
    | none => .error .keyError
  else .error .keyError

/-- `range(start, stop)` of integers -/
def pyRange (a b : Int) : List Int := (List.range (b - a).toNat).map fun k : Nat => a + (k : Int)

/-- `__getitem__` (quantum_register.py:50-55, classic_register.py:38-43). The step is not looked at; `range` raises a
TypeError if a bound is `None`. -/
def getItem (m : PyDict Nat Nat) : PyKey → Except PyErr PyItem
  | .int i => .one <$> siteAt m i
  | .slice (some a) (some b) _ => .many <$> (pyRange a b).mapM (siteAt m)
  | .slice _ _ _ => .error .typeError

/-- `qreg[key]` -/
def QReg.getItem (r : QReg) (k : PyKey) : Except PyErr PyItem := Qudits.getItem r.localSitemap k

/-- `creg[key]` -/
def CReg.getItem (r : CReg) (k : PyKey) : Except PyErr PyItem := Qudits.getItem r.localSitemap k

end Qudits
