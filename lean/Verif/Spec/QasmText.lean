import Verif.Model.Qasm

/-
What the QASM theorems assume about Python's text of numbers, and what it means that two gate objects
are the same.
-/
namespace Qudits.Qasm
open Qudits

/-- an identifier: a text matched by `\w+` -/
def Ident (s : Text) : Prop := s ≠ [] ∧ ∀ x ∈ s, isWord x = true

/-- Registers as a user creates them: identifiers as names, all different, at least one qudit each, one
dimension per qudit, not yet placed in a circuit. -/
structure GoodRegs (regs : List QReg) : Prop where
  ident : ∀ r ∈ regs, Ident r.label.toList
  size : ∀ r ∈ regs, r.size ≠ 0
  dims : ∀ r ∈ regs, r.dims.length = r.size
  fresh : ∀ r ∈ regs, r.localSitemap = []
  names : (regs.map QReg.label).Nodup

/-- The written parameters of a gate have no line break. -/
def OneLine (F : PyFloat) (g : QG) : Prop := ∀ t, showParams F g.params = .ok t → '\n' ∉ t

/-- The two circuits have the same quantum registers on the same lines. -/
def SameRegisters {γ : Type} (c c' : Circ γ) : Prop :=
  c'.qregs = c.qregs ∧ c'.sitemap = c.sitemap ∧ c'.inverseSitemap = c.inverseSitemap ∧
    c'.numQudits = c.numQudits ∧ c'.dims = c.dims

/-- A text with none of the characters the reader treats specially. (`y` is excluded because a
parameter text containing `.npy` is read as a file name.) -/
def Clean (s : Text) : Prop := s ≠ [] ∧ ∀ x ∈ s, x ∉ [',', '(', ')', '[', ']', '\n', 'y']

/-- Python prints a float as a text which evaluates to that float; integers that are floats evaluate to
themselves; an unknown name raises an exception. -/
structure Laws (F : PyFloat) : Prop where
  clean : ∀ x, F.isFloat x → Clean (F.text x)
  float : ∀ x, F.isFloat x → F.eval (F.text x) = .ok (some x) ∧ F.eval (' ' :: F.text x) = .ok (some x)
  int : ∀ n : Int, F.isFloat n → F.eval (showInt n) = .ok (some (n : ℝ)) ∧
    F.eval (' ' :: showInt n) = .ok (some (n : ℝ))
  name : ∃ e, F.eval "custom_data".toList = .error e

/-- the value of a number given as parameter -/
noncomputable def PVal.value : PVal → Option ℝ
  | .int n => some n
  | .flt x => some x
  | .str _ => none

/-- the parameters are absent or a list of numbers -/
def Numbers (F : PyFloat) : PArg → Prop
  | .none => True
  | .list l => ∀ v ∈ l, ∃ x, PVal.value v = some x ∧ F.isFloat x
  | _ => False

/-- two gate objects are of the same class, act on the same lines with the same controls and adjoint
mark, and have the same attributes -/
def Same (g g' : QG) : Prop := g'.cls = g.cls ∧ g'.base = g.base ∧ g'.attrs = g.attrs

/-- A gate object as one of the builders made it, without controls, with numbers as parameters; gates on
several lines name at least two; rotations and permutations have parameters. -/
structure Readable (F : PyFloat) (dims : List Nat) (g : QG) : Prop where
  built : ∃ t p, construct dims g.cls t p none = .ok g
  lines : ∀ q ∈ g.base.target.lines, 0 ≤ q
  numbers : Numbers F g.params
  kind : g.cls ∈ [.h, .x, .z, .s, .noiseX, .noiseY] ∨
    (g.cls ∈ [.r, .rz, .rh, .virtrz, .pm] ∧ ∃ l, l ≠ [] ∧ g.params = .list l) ∨
    (g.cls ∈ [.csum, .randu, .cx, .ls, .ms] ∧ 2 ≤ g.base.target.lines.length)

/-- The gates that come back: Hadamard, shift, clock, phase gate, controlled sum, LS, MS, and controlled
exchange with its default parameters. -/
structure Plain (F : PyFloat) (dims : List Nat) (g : QG) : Prop extends Readable F dims g where
  cls : g.cls ∈ [.h, .x, .z, .s, .csum, .cx, .ls, .ms]
  default : g.cls = .cx → g.attrs = .cex {}

/-- The attributes of the gate object made from a written gate: rotations come back on levels 0 and 0
with angle 0, permutations without their data, a controlled exchange with default parameters. -/
noncomputable def readAttrs (g : QG) : Attrs :=
  match g.cls with
  | .r | .rz | .rh | .virtrz => .two {}
  | .pm => .perm none
  | .cx => .cex {}
  | _ => g.attrs

/-- `g'` is what the written gate `g` is read as. -/
def ReadBack (g g' : QG) : Prop := g'.cls = g.cls ∧ g'.base = g.base ∧ g'.attrs = readAttrs g

/-- the classes whose tag the reader knows: all but the two noise gates -/
def Cls.known : Cls → Bool
  | .noiseX | .noiseY => false
  | _ => true

/-- The circuit a user makes from a circuit with registers by adding classical registers and gates. -/
def grow {γ : Type} (c : Circ γ) (cs : List CReg) (gs : List γ) : Circ γ :=
  gs.foldl Circ.addGate (cs.foldl Circ.appendClassic c)

end Qudits.Qasm
