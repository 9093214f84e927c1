import Verif.Model.LocalQR
import Verif.Spec.GraphSpec
import Verif.Spec.PhaseSpec
import Mathlib.Data.List.Chain
/- What the QR passes may assume of a device and what they promise. -/
namespace Qudits.Spec
open LGraph Matrix

/-- two nodes are joined by an edge -/
def Joined (g : LGraph) (u v : Int) : Prop := (edgeData g u v).isSome

/-- `p` leads from `a` to `b` along edges, without visiting a node twice -/
structure IsPath (g : LGraph) (a b : Int) (p : List Int) : Prop where
  first : p.head? = some a
  last : p.getLast? = some b
  steps : p.IsChain (Joined g)
  nodup : p.Nodup

/-- `sp` finds a path from a node of the graph whenever there is one. (`nx.shortest_path` finds a shortest one; nothing here depends on this.) -/
def FindsPaths (sp : PathFinder) : Prop :=
  ∀ g a b, Wf g → a ∈ names g → (∃ p, IsPath g a b p) → ∃ p, sp g a b = .ok p ∧ IsPath g a b p

/-- The graph of a qudit of dimension `d`: its nodes are the levels `0, …, d-1`, node `i` is kept in physical level `lp i`, some level
can be initialised, every level can be reached from every other. A stored phase is a number. -/
structure Device (d : Nat) (g : LGraph) (lp : Equiv.Perm (Fin d)) : Prop where
  wf : Wf g
  uniform : Uniform g
  names : (names g).Perm ((List.range d).map fun i : Nat => (i : Int))
  lp : ∀ i : Fin d, value g (i : Nat) "lpmap" = some (.int ((lp i : Fin d) : Nat))
  level : ∀ i : Fin d, ∃ s, value g (i : Nat) "level" = some (.str s)
  start : ∃ i : Fin d, value g (i : Nat) "level" = some (.str "i")
  conn : ∀ i j : Fin d, ∃ p, IsPath g (i : Nat) (j : Nat) p
  phases : ∀ (i : Fin d) (v : PVal), value g (i : Nat) "phase_storage" = some v → ∃ x, v = .flt x

/-- no phases are stored, or all are zero -/
def NoPhases (d : Nat) (g : LGraph) : Prop :=
  ∀ (i : Fin d) (v : PVal), value g (i : Nat) "phase_storage" = some v → v = .flt 0

/-- the phase stored for a level, 0 if none is -/
noncomputable def stored {d : Nat} (g : LGraph) (i : Fin d) : ℝ :=
  match value g (i : Nat) "phase_storage" with
  | some (.flt x) => x
  | _ => 0

/-- the matrix that carries logical level `i` to physical level `lp i` -/
def relabelling {d : Nat} (lp : Equiv.Perm (Fin d)) : Matrix (Fin d) (Fin d) ℂ := fun r c => if r = lp c then 1 else 0

/-- a rotation between two levels that are coupled on the device -/
def CoupledRotation (g : LGraph) (x : PInstr) : Prop :=
  ∃ p data, x.kind = .r p ∧ (PhysEdge g p.levA p.levB data)

/-- a rotation between neighbouring levels -/
def AdjacentRotation (d : Nat) (x : PInstr) : Prop :=
  ∃ p, x.kind = .r p ∧ 0 ≤ p.levA ∧ p.levB = p.levA + 1 ∧ p.levB < d

/-- a virtual phase gate -/
def PhaseRotation (x : PInstr) : Prop := ∃ p, x.kind = .virtRz p

/-- `A` is the identity up to `e` in every entry -/
def NearOne {d : Nat} (e : ℝ) (A : Matrix (Fin d) (Fin d) ℂ) : Prop := ∀ i j, ‖A i j - (1 : Matrix (Fin d) (Fin d) ℂ) i j‖ ≤ e

/-- The error that the two thresholds of a decomposition allow: entries of modulus at most `eps` are not cleared, phases of modulus at
most `del` are not corrected. It is 0 if both are. -/
noncomputable def qrError (d : Nat) (eps del : ℝ) : ℝ :=
  Real.sqrt (((d * (d - 1) / 2 : Nat) : ℝ) * eps ^ 2) + 2 * (((d * (d - 1) / 2 : Nat) : ℝ) * eps ^ 2) + del

/-- `A` and `B` differ by at most `e` in every entry -/
def Near {d : Nat} (e : ℝ) (A B : Matrix (Fin d) (Fin d) ℂ) : Prop := ∀ i j, ‖(A - B) i j‖ ≤ e

end Qudits.Spec
