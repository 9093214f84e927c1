import Verif.Spec.MisimSpec
import Verif.Model.MisimNoise
/- The noisy circuits of the decision-diagram simulator, stated without its functions. -/
namespace Qudits.Spec
open Qudits

variable {n : Nat}

/-- A draw with probability `p` for `true` can have this outcome. -/
def Possible (p : ℝ) (b : Bool) : Prop := if b then 0 < p else p < 1

/-- The draws have outcomes of positive probability only. -/
def Faithful (rng : Misim.Chance ℝ) : Prop := ∀ k p, Possible p (rng k p)

/-- The lines that get errors together: those that the gate acts on for `local` and `nonlocal`, all lines for `all`, the first of them for `control`,
the second for `target`. -/
def ErrorLines (g : PyGate) (mode : String) (lines : List (Fin n)) : Prop :=
  ((mode = "local" ∨ mode = "nonlocal") ∧ (lines.map fun i : Fin n => ((i : Nat) : Int)) = g.gate.target.lines) ∨
  (mode = "all" ∧ lines = List.finRange n) ∨
  (mode = "control" ∧ ∃ q rest, lines = [q] ∧ g.gate.target.lines = ((q : Nat) : Int) :: rest) ∨
  (mode = "target" ∧ ∃ p q rest, lines = [q] ∧ g.gate.target.lines = p :: ((q : Nat) : Int) :: rest)

/-- `a` and `b` are the levels of the rotation `g`: those it turns, and for a phase on one level this level with the next one (with the one
before it if it is the last of the line). -/
def TurnedLevels (g : PyGate) (dim : Nat) (a b : Nat) : Prop :=
  (g.tag ≠ "virtrz" ∧ ∃ rest, g.params = .list (.int a :: .int b :: rest)) ∨
  (g.tag = "virtrz" ∧ ∃ (v : Nat) (rest : List PVal), g.params = .list (.int v :: rest) ∧
    ((v ≠ dim - 1 ∧ a = v ∧ b = v + 1) ∨ (v = dim - 1 ∧ a = dim - 2 ∧ b = dim - 1)))

/-- The error for depolarisation on line `q` after `g`: the exchange of the levels of a rotation (by an angle of π around an axis at π/2), the
shift X for any other gate. -/
def DepolError (d : Fin n → Nat) (g : PyGate) (q : Fin n) (e : PyGate) : Prop :=
  Made d e.gate (.one (q : Nat)) [q] ∧ e.gate.dagger = false ∧ e.dimensions = [d q] ∧
  if g.tag = "rxy" ∨ g.tag = "rz" ∨ g.tag = "virtrz" then
    e.tag = "rxy" ∧ ∃ a b : Nat, TurnedLevels g (d q) a b ∧ e.params = .list [.int a, .int b, .flt Real.pi, .flt (Real.pi / 2)]
  else e.tag = "x" ∧ e.params = .none

/-- The error for dephasing on line `q` after `g`: the phases ∓i on the levels of a rotation, the gate Z for any other gate. -/
def DephaseError (d : Fin n → Nat) (g : PyGate) (q : Fin n) (e : PyGate) : Prop :=
  Made d e.gate (.one (q : Nat)) [q] ∧ e.gate.dagger = false ∧ e.dimensions = [d q] ∧
  if g.tag = "rxy" ∨ g.tag = "rz" ∨ g.tag = "virtrz" then
    e.tag = "rz" ∧ ∃ a b : Nat, TurnedLevels g (d q) a b ∧ e.params = .list [.int a, .int b, .flt Real.pi]
  else e.tag = "z" ∧ e.params = .none

/-- What one entry of the noise model adds after `g`: two draws, one for the depolarisation of all its lines together, one for the dephasing of all
of them. -/
inductive OneEntry (d : Fin n → Nat) (g : PyGate) : String × Noise ℝ → List PyGate → Prop
  | mk (mode : String) (p : Noise ℝ) (lines : List (Fin n)) (x z : Bool) (xs zs : List PyGate) (hl : ErrorLines g mode lines)
      (hx : Possible p.depolarizing x) (hz : Possible p.dephasing z)
      (hxs : if x then List.Forall₂ (DepolError d g) lines xs else xs = [])
      (hzs : if z then List.Forall₂ (DephaseError d g) lines zs else zs = []) : OneEntry d g (mode, p) (xs ++ zs)

/-- `gs'` is `gs` with errors: after a gate for which there are entries in the noise model, what each entry adds, in the alphabetical order of the
modes. -/
inductive WithErrors (d : Fin n → Nat) (noise : PyDict String (PyDict String (Noise ℝ))) : List PyGate → List PyGate → Prop
  | nil : WithErrors d noise [] []
  | quiet (g : PyGate) (gs gs' : List PyGate) (h : PyDict.get? noise g.tag = none) (hr : WithErrors d noise gs gs') :
      WithErrors d noise (g :: gs) (g :: gs')
  | noisy (g : PyGate) (gs gs' : List PyGate) (modes l : List (String × Noise ℝ)) (blocks : List (List PyGate))
      (h : PyDict.get? noise g.tag = some modes) (hp : l.Perm modes) (hs : l.Pairwise fun a b => a.1 < b.1)
      (hb : List.Forall₂ (OneEntry d g) l blocks) (hr : WithErrors d noise gs gs') :
      WithErrors d noise (g :: gs) (g :: (blocks.flatten ++ gs'))

/-- The noise model with these entries, none of them restricted to levels. -/
def asModel (noise : PyDict String (PyDict String (Noise ℝ))) : PyDict String (PyDict String (NoiseObj ℝ)) :=
  noise.map fun e => (e.1, e.2.map fun f => (f.1, .math f.2))

/-- Dictionaries have no key twice. -/
def Keyed (noise : PyDict String (PyDict String (Noise ℝ))) : Prop :=
  (PyDict.keys noise).Nodup ∧ ∀ e ∈ noise, (PyDict.keys e.2).Nodup

/-- Every entry for a gate of the circuit can be applied: the mode is a known one, `target` is used for gates on two lines, and with `all` every line
has the levels that a rotation turns. -/
def Applicable (d : Fin n → Nat) (noise : PyDict String (PyDict String (Noise ℝ))) (gs : List PyGate) : Prop :=
  ∀ g ∈ gs, ∀ modes, PyDict.get? noise g.tag = some modes → ∀ e ∈ modes,
    e.1 ∈ ["local", "nonlocal", "all", "control", "target"] ∧ (e.1 = "target" → 2 ≤ g.gate.target.lines.length) ∧
    (e.1 = "all" → (g.tag = "rxy" ∨ g.tag = "rz" ∨ g.tag = "virtrz") → ∀ q, ∃ a b : Fin (d q), a < b ∧ TurnedLevels g (d q) a b)

end Qudits.Spec
