import Verif.Model.Drawing
/- What a drawing tells. -/
namespace Qudits.Spec
open Visual

/-- What is told about a gate in the drawing of one line: nothing, a gate of no named kind, a custom gate, a phase gate with its level and the text of
its angle, a rotation with its two levels as one row of digits and the texts of its angles. -/
inductive View where
  | nothing
  | someGate
  | custom
  | phase (lev : Nat) (phi : List Char)
  | rotation (levs : List Char) (theta phi : List Char)
  deriving DecidableEq

/-- A gate on one line only, uncontrolled, on line `j`. -/
def LocalTo {R : Type} (j : Nat) (g : DrawGate R) : Prop := g.single = true ∧ g.target = some j

instance {R : Type} (j : Nat) (g : DrawGate R) : Decidable (LocalTo j g) := inferInstanceAs (Decidable (_ ∧ _))

/-- what is told about `g` on line `j` -/
def view {R : Type} (fmt : R → List Char) (j : Nat) (g : DrawGate R) : View :=
  if LocalTo j g then
    match g.kind with
    | .virtRz (some (a, phi)) => .phase a (fmt phi)
    | .r (some (a, b, theta, phi)) => .rotation (Nat.toDigits 10 a ++ Nat.toDigits 10 b) (fmt theta) (fmt phi)
    | .customOne => .custom
    | _ => .someGate
  else .nothing

/-- Two gates of the same named kind, with the same levels and the same texts of their angles. -/
def SameShown {R : Type} (fmt : R → List Char) : DrawKind R → DrawKind R → Prop
  | .virtRz (some (a, p)), .virtRz (some (a', p')) => a = a' ∧ fmt p = fmt p'
  | .r (some (a, b, t, p)), .r (some (a', b', t', p')) => a = a' ∧ b = b' ∧ fmt t = fmt t' ∧ fmt p = fmt p'
  | .customOne, .customOne => True
  | .other, .other => True
  | _, _ => False

/-- the levels of a rotation have one digit -/
def OneDigit {R : Type} (g : DrawGate R) : Prop := ∀ a b t p, g.kind = .r (some (a, b, t, p)) → a < 10 ∧ b < 10

/-- A phase gate or rotation whose parameters were not accepted. -/
def Unfinished {R : Type} (g : DrawGate R) : Prop := g.kind = .virtRz none ∨ g.kind = .r none

/-- Texts of numbers: digits, sign and point (or `inf`, `nan`); no comma, bracket. -/
def PlainText {R : Type} (fmt : R → List Char) : Prop := ∀ x, ',' ∉ fmt x ∧ ')' ∉ fmt x

end Qudits.Spec
