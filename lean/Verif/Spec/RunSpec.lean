import Verif.Spec.CompilerSpec
import Verif.Spec.SimSpec
import Verif.Model.RunCompiled
/- What a run of a compiled circuit has to show. -/
namespace Qudits.Spec
open Compiler

variable {n : Nat}

/-- The objects behind the gates of a circuit: each is a gate of the register, and its operator is the one that `sem` says. -/
def Objects (d : Fin n → Nat) (sem : Op (Arr2 ℂ) → Matrix (Reg d) (Reg d) ℂ) (obj : Nat → Gate × Arr2 ℂ) (gs : List (Op (Arr2 ℂ))) : Prop :=
  ∀ g ∈ gs, (∃ ls, Flagged d (obj g.oid).1 ls) ∧ HasOperator d (obj g.oid).1 (obj g.oid).2 (sem g)

/-- The numbers `r` are the moduli of the amplitudes `w`, up to `e`. -/
def ShowsAs (e : ℝ) (r : List ℝ) (w : List ℂ) : Prop :=
  r.length = w.length ∧ ∀ (k : Nat) (a : ℝ) (z : ℂ), r[k]? = some a → w[k]? = some z → |a - ‖z‖| ≤ e

/-- The compiler returns a circuit, and for it the same is shown, up to `e`, as for the circuit `gs`: `plot_state(compiled.simulate(), compiled)`
are the moduli of the entries of `circuit.simulate()`. -/
def RunsAs (d : Fin n → Nat) (obj : Nat → Gate × Arr2 ℂ) (gs : List (Op (Arr2 ℂ))) (e : ℝ) (res : Except PyErr Compiled) : Prop :=
  ∃ c v r w, res = .ok c ∧ simulate (List.ofFn d) obj c.gates = .ok v ∧ shown (List.ofFn d) c v = .ok r ∧
    simulateGates (List.ofFn d) obj gs = .ok w ∧ ShowsAs e r w

/-- The placement is undone by doing it again, and leaves level 0 of every line where it is. -/
def Readable {d : Fin n → Nat} (lp : ∀ i, Equiv.Perm (Fin (d i))) : Prop :=
  (∀ i k, lp i (lp i k) = k) ∧ ∀ (i : Fin n) (k : Fin (d i)), (k : Nat) = 0 → lp i k = k

end Qudits.Spec
