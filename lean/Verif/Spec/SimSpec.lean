import Verif.Spec.Register
import Verif.Spec.GateSpec
import Verif.Model.MatrixFactory
/-
What a circuit simulator has to return.
-/
namespace Qudits.Spec

/-- The state with every line at level 0. -/
def zeroState {n : Nat} {α : Type} [Zero α] [One α] (d : Fin n → Nat) : Reg d → α :=
  fun x => if ∀ i, ((x i : Fin (d i)) : Nat) = 0 then 1 else 0

/-- `v` lists the amplitudes of `psi`, line 0 being the most significant digit of the position. -/
structure Lists {n : Nat} {α : Type} (d : Fin n → Nat) (v : List α) (psi : Reg d → α) : Prop where
  length : v.length = ∏ i, d i
  entry : ∀ x, v[idx d x]? = some (psi x)

/-- The full-register array of the gate (with the array `arr` as its `__array__`) is the operator `M`. -/
def HasOperator {n : Nat} {α : Type} [Zero α] [One α] [Mul α] [Star α] (d : Fin n → Nat) (g : Gate) (arr : Arr2 α)
    (M : Matrix (Reg d) (Reg d) α) : Prop :=
  ∃ B, g.toMatrix arr 2 = .ok B ∧ B.rows = ∏ i, d i ∧ B.cols = ∏ i, d i ∧
    ∀ x y, B.at' (idx d x) (idx d y) = M x y

/-- The gate belongs to the register `d` and acts on the different lines `ls`; its type says how many lines it has, or is MULTI, and its
long-range flag says whether some line between them is not touched. -/
structure Flagged {n : Nat} (d : Fin n → Nat) (g : Gate) (ls : List (Fin n)) : Prop where
  dims : g.dims = List.ofFn d
  lines : g.controlLines ++ g.target.lines = ls.map fun i : Fin n => ((i : Nat) : Int)
  nodup : ls.Nodup
  nonempty : ls ≠ []
  type : g.gateType = typeFor ls.length ∨ g.gateType = .multi
  long : g.longRange = true ↔ HasGap (g.controlLines ++ g.target.lines)

end Qudits.Spec
