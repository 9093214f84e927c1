import Verif.Model.Misim
import Verif.Spec.SimSpec
import Mathlib.Data.Nat.Prime.Basic
/-
The gates that both simulators are meant to support.
-/
namespace Qudits.Spec

/-- The gate object that a circuit method returns for an uncontrolled gate on the lines `ts`, possibly after calls of `dag()`. -/
def Made {n : Nat} (d : Fin n → Nat) (g : Gate) (t : Target) (ts : List (Fin n)) : Prop :=
  t.lines = (ts.map fun i : Fin n => ((i : Nat) : Int)) ∧
    ∃ name g0 k, Gate.init (List.ofFn d) name (typeFor ts.length) t none = .ok g0 ∧ g = Gate.dag^[k] g0

/-- Uncontrolled gates of a register whose operated line has dimension 2 to 7 and whose levels are given in ascending order. -/
inductive Common {n : Nat} (d : Fin n → Nat) : PyGate → Prop
  | plain (g : Gate) (q : Fin n) (tag : String) : Made d g (.one (q : Nat)) [q] → 2 ≤ d q → d q ≤ 7 →
      tag ∈ ["x", "z", "h"] → Common d ⟨g, tag, [d q], .none⟩
  | s (g : Gate) (q : Fin n) : Made d g (.one (q : Nat)) [q] → 2 ≤ d q → d q ≤ 7 → (d q).Prime → Common d ⟨g, "s", [d q], .none⟩
  | rxy (g : Gate) (q : Fin n) (a b : Fin (d q)) (theta phi : ℝ) : Made d g (.one (q : Nat)) [q] → d q ≤ 7 → a < b →
      Common d ⟨g, "rxy", [d q], .list [.int (a : Nat), .int (b : Nat), .flt theta, .flt phi]⟩
  | rz (g : Gate) (q : Fin n) (a b : Fin (d q)) (phi : ℝ) : Made d g (.one (q : Nat)) [q] → d q ≤ 7 → a < b →
      Common d ⟨g, "rz", [d q], .list [.int (a : Nat), .int (b : Nat), .flt phi]⟩
  | rh (g : Gate) (q : Fin n) (a b : Fin (d q)) : Made d g (.one (q : Nat)) [q] → d q ≤ 7 → a < b →
      Common d ⟨g, "rh", [d q], .list [.int (a : Nat), .int (b : Nat)]⟩
  | virtrz (g : Gate) (q : Fin n) (a : Fin (d q)) (phi : ℝ) : Made d g (.one (q : Nat)) [q] → 2 ≤ d q → d q ≤ 7 →
      Common d ⟨g, "virtrz", [d q], .list [.int (a : Nat), .flt phi]⟩
  | cx (g : Gate) (c q : Fin n) (l : Fin (d c)) (a b : Fin (d q)) (phi : ℝ) : Made d g (.many [(c : Nat), (q : Nat)]) [c, q] →
      c ≠ q → d q ≤ 7 → a < b → 0 ≤ phi → phi ≤ 2 * Real.pi →
      Common d ⟨g, "cx", [d c, d q], .list [.int (a : Nat), .int (b : Nat), .int (l : Nat), .flt phi]⟩
  | csum (g : Gate) (c q : Fin n) : Made d g (.many [(c : Nat), (q : Nat)]) [c, q] → c ≠ q → 2 ≤ d q → d q ≤ 7 →
      Common d ⟨g, "csum", [d c, d q], .none⟩

end Qudits.Spec
