import Verif.Spec.CompilerSpec
/- What `compile` is meant to do with the passes that are named. -/
namespace Qudits.Spec
open Matrix Compiler LGraph

variable {n : Nat}

/-- A gate that is not of type SINGLE, on lines that are kept as they are. -/
def GoodKept (d : Fin n → Nat) (lp : ∀ i, Equiv.Perm (Fin (d i))) (sem : Op (Arr2 ℂ) → Matrix (Reg d) (Reg d) ℂ) (g : Op (Arr2 ℂ)) : Prop :=
  g.single = false ∧ (∃ qs, g.target = .many qs) ∧ sem g ∈ unitaryGroup (Reg d) ℂ ∧ ∀ i : Fin n, Touches ((i : Nat) : Int) g → lp i = 1

/-- A gate on two qubits, the first before the second. -/
def QubitPair (d : Fin n → Nat) (other : Nat → Other) (sem : Op (Arr2 ℂ) → Matrix (Reg d) (Reg d) ℂ) (g : Op (Arr2 ℂ)) (i j : Fin n) : Prop :=
  g.single = false ∧ (other g.oid).two = true ∧ i < j ∧ d i = 2 ∧ d j = 2 ∧ g.target = .many [((i : Nat) : Int), ((j : Nat) : Int)] ∧
    (other g.oid).dims = [d i, d j] ∧ UnitaryArr g.body (d i * d j) ∧ sem g = embedPair d i j (g.body.toM (d i * d j))

/-- The gates that are translated as they should be by the pass they are given; `b` is the backend. -/
def TranslatedBy (d : Fin n → Nat) (lp : ∀ i, Equiv.Perm (Fin (d i))) (other : Nat → Other) (sem : Op (Arr2 ℂ) → Matrix (Reg d) (Reg d) ℂ) (b : Graphs)
    (g : Op (Arr2 ℂ)) : Option PassClass → Prop
  | some .phyLocQR => OneLine d g
  | some .phyLocAda => OneLine d g ∧ ∀ i : Fin n, g.target = .one (i : Nat) →
      d i ≤ 10000 ∧ NoTinyEntries (g.body.toM (d i)) ∧ ∀ gr, b[(i : Nat)]? = some (some gr) → AllCoupled (d i) gr
  | some .phyEntQR => GoodCEx d lp other sem g ∨ GoodPair d lp other sem g
  | some .logEntQR => ∃ i j, QubitPair d other sem g i j ∧ lp i = 1 ∧ lp j = 1
  | none => GoodKept d lp sem g
  | _ => False

/-- The error allowed for a gate given to a pass. -/
noncomputable def passError (d : Fin n → Nat) (other : Nat → Other) (rho : ℝ) (g : Op (Arr2 ℂ)) : Option PassClass → ℝ
  | some .phyLocQR => gateError d lineError other rho g
  | some .phyLocAda => gateError d adaError other rho g
  | some .phyEntQR => gateError d lineError other rho g
  | some .logEntQR => pairError rho
  | some .logLocQR => gateError d lineError other rho g
  | _ => 0

/-- A gate for the two logical passes. -/
def LogicalGate (d : Fin n → Nat) (other : Nat → Other) (sem : Op (Arr2 ℂ) → Matrix (Reg d) (Reg d) ℂ) (g : Op (Arr2 ℂ)) : Prop :=
  OneLine d g ∨ (∃ i j, QubitPair d other sem g i j) ∨ (g.single = false ∧ (other g.oid).two = false ∧ sem g ∈ unitaryGroup (Reg d) ℂ)

/-- The circuit in which every gate on one line is replaced by its inverse. -/
noncomputable def invertSingles {d : Fin n → Nat} (sem : Op (Arr2 ℂ) → Matrix (Reg d) (Reg d) ℂ) (g : Op (Arr2 ℂ)) : Matrix (Reg d) (Reg d) ℂ :=
  if g.single = true then (sem g)ᴴ else sem g

end Qudits.Spec
