import Verif.Spec.Space
import Verif.Spec.Radix
import Mathlib.Data.Finset.Sort
import Mathlib.Data.Fintype.Sort

/- Registers with lines `0, …, n-1` of dimensions `d i`, and the indexing of operators on them. -/
namespace Qudits.Spec

variable {n : Nat} {α : Type}

/-- Levels per line. -/
abbrev LvOf (d : Fin n → Nat) : Fin n → Type := fun i => Fin (d i)

/-- Basis states of the register. -/
abbrev Reg (d : Fin n → Nat) := Lv (LvOf d)

/-- Index of a state of the lines in `S` (taken in ascending order). -/
def subIdx (d : Fin n → Nat) (S : Finset (Fin n)) (w : SubLv (LvOf d) S) : Nat :=
  index (S.sort.map d) (S.sort.attach.map fun i => (w ⟨i.1, (Finset.mem_sort _).1 i.2⟩ : Nat))

/-- The matrix on the states of `S` whose entries are read from an array. -/
def onLines (d : Fin n → Nat) (S : Finset (Fin n)) (f : Nat → Nat → α) :
    Matrix (SubLv (LvOf d) S) (SubLv (LvOf d) S) α :=
  fun w v => f (subIdx d S w) (subIdx d S v)

end Qudits.Spec
