import Verif.Model.CustomGates
import Verif.Spec.SimSpec
import Mathlib.LinearAlgebra.UnitaryGroup
/- Circuits of gates that are given by arrays. -/
namespace Qudits.Spec
open Custom
variable {n : Nat}

/-- The object is returned by one of the methods of the circuit, for the lines `ts` in this order and no controls. -/
def MadeBy (d : Fin n → Nat) (o : Obj) (ts : List (Fin n)) : Prop :=
  (∃ q p, ts = [q] ∧ cuOne (List.ofFn d) q p none = .ok o) ∨
  (∃ p, ts.length = 2 ∧ cuTwo (List.ofFn d) (ts.map Fin.val) p none = .ok o) ∨
  (∃ p, cuMulti (List.ofFn d) (ts.map Fin.val) p none = .ok o) ∨
  randU (List.ofFn d) (ts.map Fin.val) = .ok o

/-- Such an object, after any number of calls of `dag`. -/
def UsedBy (d : Fin n → Nat) (o : Obj) (ts : List (Fin n)) : Prop := ∃ o₀ k, MadeBy d o₀ ts ∧ o = Obj.dag^[k] o₀

/-- The array of the gate at position `i` of the circuit: what is in memory at the place it keeps, or the draw with the number of random gates before. -/
def arrayAt (mem draws : Nat → Arr2 ℂ) (os : List Obj) (i : Nat) : Option (Arr2 ℂ) :=
  match os[i]? with
  | some ⟨_, .stored a⟩ => a.map mem
  | some ⟨_, .drawn⟩ => some (draws ((os.take i).filter fun o => decide (o.source = .drawn)).length)
  | none => none

/-- The array is a square with as many rows as the lines have levels together. -/
def Fits (d : Fin n → Nat) (ts : List (Fin n)) (A : Arr2 ℂ) : Prop := A.rows = ∏ i ∈ ts.toFinset, d i ∧ A.cols = ∏ i ∈ ts.toFinset, d i

/-- The operator of an array `A` on lines, of its adjoint if the gate is marked. The levels of the lines are numbered in ascending order of the lines. -/
noncomputable def arrayOp (d : Fin n → Nat) (o : Obj) (ts : List (Fin n)) (A : Arr2 ℂ) : Matrix (Reg d) (Reg d) ℂ :=
  embed ts.toFinset (if o.gate.dagger then (onLines d ts.toFinset A.at').conjTranspose else onLines d ts.toFinset A.at')

/-- The array is a unitary matrix. -/
def UnitaryOn (d : Fin n → Nat) (ts : List (Fin n)) (A : Arr2 ℂ) : Prop :=
  A.toM (∏ i ∈ ts.toFinset, d i) ∈ Matrix.unitaryGroup (Fin (∏ i ∈ ts.toFinset, d i)) ℂ

end Qudits.Spec
