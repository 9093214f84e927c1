import Verif.Model.Registers

/-
Specification of the numbering of classical bits and of indexing a register.
-/
namespace Qudits.Spec

/-- First number of the `k`-th classical register. -/
def bitOffset (regs : List CReg) (k : Nat) : Nat := ((regs.take k).map CReg.size).sum

/-- Total number of classical bits. -/
def bitTotal (regs : List CReg) : Nat := (regs.map CReg.size).sum

/-- "Bit `i` of register `lbl` is number `n`". -/
def BitPlaced (regs : List CReg) (lbl : String) (i n : Nat) : Prop :=
  ∃ k, ∃ h : k < regs.length, regs[k].label = lbl ∧ i < regs[k].size ∧ n = bitOffset regs k + i

/-- Indexing a register of `size` lines that begins at `start` returns the numbers of the lines that are named. -/
def Indexed (start size : Nat) (get : PyKey → Except PyErr PyItem) : Prop :=
  (∀ i : Nat, i < size → get (.int i) = .ok (.one (start + i))) ∧
  (∀ i : Int, i < 0 ∨ (size : Int) ≤ i → get (.int i) = .error .keyError) ∧
  (∀ a b : Nat, b ≤ size → get (.slice (some a) (some b) none) = .ok (.many ((List.range' a (b - a)).map (start + ·)))) ∧
  (∀ a b : Int, a < b → a < 0 ∨ (size : Int) < b → ∀ s, get (.slice (some a) (some b) s) = .error .keyError)

end Qudits.Spec
