import Verif.Model.Variational
/-
The runs of the variational search with the state they share:
/repo/src/mqt/qudits/compiler/twodit/variational_twodit_compilation/ansatz/ansatz_solve_n_search.py 13-64 and opt/optimizer.py 20-44, 88-142.

`Optimizer.timer_var`, `X_SOLUTION` and `FUN_SOLUTION` are class variables. Every run starts a timer that sets `timer_var` after a fixed time and that is
never cancelled; nothing sets `timer_var` back. Time is counted in evaluations of the objective function. The objective is a parameter: `err x` is
`1 - fidelity_on_unitares(ansatz(x), TARGET_GATE)`; the points visited by `dual_annealing` are arbitrary, as in Model/Variational.lean.
-/
namespace Qudits.Variational

/-- The class variables and the clock: `timers` are the times at which a timer sets `timer_var`. -/
structure OptState (β : Type) where
  clock : Nat := 0
  timers : List Nat := []
  sol : Option (ℝ × β) := none

/-- `Optimizer.timer_var` -/
def OptState.fired {β : Type} (st : OptState β) : Bool := st.timers.any fun t => decide (t ≤ st.clock)

/-- The points that `dual_annealing` visits in one run, and the one it returns. -/
structure Visits (β : Type) where
  points : List β
  result : β

open Classical in
/-- `solve_anneal`, optimizer.py 116-142, with `obj_fun_core`, 88-99. `none` stands for the pair of empty lists. -/
noncomputable def solveT {β : Type} (err : β → Except PyErr ℝ) (tol : ℝ) (result : β) :
    List β → OptState β → Except PyErr (Option (ℝ × β) × OptState β)
  | [], st => do
    let e ← err result
    pure (some (e, result), st)
  | x :: xs, st => do
    let e ← err x
    if e < tol then pure (some (e, x), { st with clock := st.clock + 1, sol := some (e, x) })
    else if st.fired then pure (st.sol, { st with clock := st.clock + 1 })
    else solveT err tol result xs { st with clock := st.clock + 1 }

/-- `run`, ansatz_solve_n_search.py 48-64: a timer is started beside the thread, which is waited for. -/
noncomputable def runT {β : Type} (err : β → Except PyErr ℝ) (tol : ℝ) (duration : Nat) (v : Visits β) (st : OptState β) :
    Except PyErr (Option (ℝ × β) × OptState β) :=
  solveT err tol v.result v.points { st with timers := (st.clock + duration) :: st.timers }

open Classical in
/-- The loop of `binary_search_compile`, ansatz_solve_n_search.py 31-43. `error > tol` raises if `error` is the empty list. `visits k` is what the
annealer does with `k` layers. -/
noncomputable def searchT {β : Type} (err : β → Except PyErr ℝ) (tol : ℝ) (duration : Nat) (visits : Nat → Visits β) (low high : Int)
    (best : Nat × WithTop ℝ × β) (st : OptState β) : Except PyErr ((Nat × WithTop ℝ × β) × OptState β) :=
  if h : low ≤ high then
    let mid := low + (high - low) / 2
    match runT err tol duration (visits mid.toNat) st with
    | .error e => .error e
    | .ok (none, _) => .error .typeError
    | .ok (some (e, x), st') =>
      if e > tol then searchT err tol duration visits (mid + 1) high best st'
      else searchT err tol duration visits low (mid - 1) (mid.toNat, (e : ℝ), x) st'
  else .ok (best, st)
termination_by (high + 1 - low).toNat
decreasing_by all_goals omega

/-- `Optimizer.set_class_variables` (30-44) for the part of the state modelled here, then `binary_search_compile` (17-45): `timer_var` and the timers stay. -/
noncomputable def compileT {β : Type} (err : β → Except PyErr ℝ) (empty : β) (tol : ℝ) (duration : Nat) (visits : Nat → Visits β) (maxLayer : Int)
    (st : OptState β) : Except PyErr ((Nat × WithTop ℝ × β) × OptState β) :=
  if maxLayer < 0 then .error .valueError
  else searchT err tol duration visits 0 maxLayer ((maxLayer / 2).toNat, ⊤, empty) { st with sol := none }

end Qudits.Variational
