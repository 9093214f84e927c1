import Verif.Model.Circuit
/-
Specification of register layout: registers occupy consecutive blocks of lines.
-/
namespace Qudits.Spec

/-- First global line of the `k`-th register. -/
def offset (regs : List QReg) (k : Nat) : Nat := ((regs.take k).map QReg.size).sum

/-- Total number of lines. -/
def total (regs : List QReg) : Nat := (regs.map QReg.size).sum

/-- "Local index `i` of register `lbl` is global line `line` and has dimension `dim`". -/
def Placed (regs : List QReg) (lbl : String) (i line dim : Nat) : Prop :=
  ∃ k, ∃ h : k < regs.length, regs[k].label = lbl ∧ i < regs[k].size ∧
    line = offset regs k + i ∧ regs[k].dims[i]? = some dim

/-- An edit of a circuit's instruction list, as the user sees it. -/
inductive Edit (γ : Type) where
  | add (g : γ)
  | replace (i : Nat) (seq : List γ)
  | overwrite (seq : List γ)
  | clear

/-- What an edit means on a plain list. -/
def Edit.onList {γ : Type} : Edit γ → List γ → List γ
  | .add g, l => l ++ [g]
  | .replace i seq, l => l.take i ++ seq ++ l.drop (i + 1)
  | .overwrite seq, _ => seq
  | .clear, _ => []

/-- Edits that refer to an existing gate. -/
def Edit.valid {γ : Type} : Edit γ → List γ → Prop
  | .replace i _, l => i < l.length
  | _, _ => True

end Qudits.Spec
