import Verif.Model.DD
import Verif.Spec.Register
/-
What a decision diagram stands for.
-/
namespace Qudits.Spec
open DD

/-- The product of the weights along a path; a path lists, from the top, the position of the edge taken out of each node. -/
def val : (ds : List Nat) → Edge ds → List Nat → ℂ
  | _, none, _ => 0
  | [], some (w, _), _ => w
  | _ :: _, some _, [] => 0
  | _ :: ds, some (w, n), k :: p => w * val ds (at' n.edges k) p

/-- Positions of the edges for the row `xs` and the column `ys` (blocks are stored row by row). -/
def flat : List Nat → List Nat → List Nat → List Nat
  | d :: ds, x :: xs, y :: ys => (d * x + y) :: flat ds xs ys
  | _, _, _ => []

/-- The entry of a matrix diagram. -/
def entry (ds : List Nat) (e : Edge ds) (xs ys : List Nat) : ℂ := val ds e (flat ds xs ys)

/-- Number of edges out of a node. -/
def arity (k : Kind) (d : Nat) : Nat := d * cols k d

/-- A proper diagram: weights are not zero except in `Edge::zero`, nodes have as many edges as their register asks for, not all of
them zero, and the flags of a matrix node are those computed by `checkSpecialMatrices`. -/
def Proper (k : Kind) : (ds : List Nat) → Edge ds → Prop
  | _, none => True
  | [], some (w, _) => w ≠ 0
  | d :: ds, some (w, n) =>
    w ≠ 0 ∧ n.edges.length = arity k d ∧ (∀ e ∈ n.edges, Proper k ds e) ∧ (∃ e ∈ n.edges, e ≠ none) ∧
      (k = .mat → checkSpecial d n.edges = .ok (n.sym, n.ident))

/-- The registers of a package, listed from the top of its diagrams: line 0 is at the bottom. -/
def regs {n : Nat} (d : Fin n → Nat) : List Nat := (List.ofFn d).reverse

/-- The levels of a basis state, listed from the top of the diagram. -/
def top {n : Nat} {d : Fin n → Nat} (x : Reg d) : List Nat := (List.ofFn fun i => (x i : Nat)).reverse

/-- The vector a diagram represents. -/
def vecOf {n : Nat} (d : Fin n → Nat) (e : Edge (regs d)) : Reg d → ℂ := fun x => val (regs d) e (top x)

/-- The matrix a diagram represents. -/
def matOf {n : Nat} (d : Fin n → Nat) (e : Edge (regs d)) : Matrix (Reg d) (Reg d) ℂ :=
  fun x y => entry (regs d) e (top x) (top y)

/-- The tables a package can have: those of a new package, and those left by any operation on proper diagrams of any
registers, with any hash functions. -/
inductive Reachable (H : Hashes) : Tables → Prop
  | new : Reachable H Tables.empty
  | add (k : Kind) (ds : List Nat) (x y r : Edge ds) (t t' : Tables) : Reachable H t → Proper k ds x → Proper k ds y →
      add2 H k ds x y t = .ok (r, t') → Reachable H t'
  | mul (k : Kind) (ds : List Nat) (x y r : Edge ds) (t t' : Tables) : Reachable H t → Proper .mat ds x → Proper k ds y →
      multiply H k ds x y t = .ok (r, t') → Reachable H t'
  | adj (ds : List Nat) (x r : Edge ds) (t t' : Tables) : Reachable H t → Proper .mat ds x →
      conjugateTranspose H ds x t = .ok (r, t') → Reachable H t'

/-- The operator does nothing on the lines other than `q` (it may be conditioned on their levels). -/
def ActsOnLine {n : Nat} {d : Fin n → Nat} (q : Fin n) (A : Matrix (Reg d) (Reg d) ℂ) : Prop :=
  ∀ x y, (∃ i, i ≠ q ∧ x i ≠ y i) → A x y = 0

end Qudits.Spec
