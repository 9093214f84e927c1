import Verif.Spec.Register
import Verif.Model.NArr
import Mathlib.Data.Finset.Sort
/-
What the numeric results shown to the user have to be.
-/
namespace Qudits.Spec

variable {n : Nat} {α : Type}

/-- The state of the lines in `S` that is left when the other lines of the state `rho` are discarded: its entry between `v` and `w` adds
up the entries of `rho` between all states that extend `v` and `w` by the same levels of the discarded lines. -/
def reduced [AddCommMonoid α] (d : Fin n → Nat) (S : Finset (Fin n)) (rho : Matrix (Reg d) (Reg d) α) :
    Matrix (SubLv (LvOf d) S) (SubLv (LvOf d) S) α :=
  fun v w => ∑ x : Reg d, ∑ y : Reg d, if restr S x = v ∧ restr S y = w ∧ ∀ i, i ∉ S → x i = y i then rho x y else 0

/-- The operator whose entries an array of the size of the register holds. -/
def opOf (d : Fin n → Nat) (A : Arr2 α) : Matrix (Reg d) (Reg d) α := fun x y => A.at' (idx d x) (idx d y)

/-- The levels of a basis state, relabelled line by line. -/
def relabel (d : Fin n → Nat) (m : (i : Fin n) → Equiv.Perm (Fin (d i))) (x : Reg d) : Reg d := fun i => m i (x i)

/-- A relabelling written as the library stores it: for each line the list of the images of its levels. -/
def mappingLists (d : Fin n → Nat) (m : (i : Fin n) → Equiv.Perm (Fin (d i))) : List (List Nat) :=
  List.ofFn fun i => List.ofFn fun k => (m i k : Nat)

end Qudits.Spec
