import Verif.Model.MicroDD
import Verif.Spec.Radix
import Verif.Spec.TwoLevel
/-! # What a decision tree of a state means -/
namespace Qudits.Spec
open MicroDD

/-- the product of the weights below the root along a path of levels -/
noncomputable def ampRel : MicroDD → List Nat → ℂ
  | t, [] => if t.info.terminal then 1 else 0
  | t, l :: p =>
    if t.info.terminal then 0
    else match t.children[l]? with
      | some c => c.weight * ampRel c p
      | none => 0

/-- the amplitude stored for a path of levels -/
noncomputable def amp (t : MicroDD) (path : List Nat) : ℂ := t.weight * ampRel t path

/-- A normalised tree over the given dimensions: at the last level every node is a leaf; above it a node is either dead (weight zero,
marked terminal) or it has a positive real weight and one child per level, the weights of the children having 2-norm one. -/
def Normal : List Nat → MicroDD → Prop
  | [], t => t.info.terminal = true
  | c :: cs, t =>
    (t.info.terminal = true ∧ t.weight = 0) ∨
    (t.info.terminal = false ∧ (∃ r : ℝ, 0 < r ∧ t.weight = r) ∧ t.children.length = c ∧
      (t.children.map fun u => ‖u.weight‖ ^ 2).sum = 1 ∧ ∀ u ∈ t.children, Normal cs u)

/-- Sharing is harmless in the tree: if a node above the last level has two children with non-zero weight and all such children stand for
the same sub-state, then the child for level 0 is one of them. -/
def SharableTree : List Nat → MicroDD → Prop
  | c :: c' :: cs, t => t.info.terminal = false →
      ((∃ (i j : Nat) (a b : MicroDD), i ≠ j ∧ t.children[i]? = some a ∧ t.children[j]? = some b ∧ a.weight ≠ 0 ∧ b.weight ≠ 0) →
        (∀ a b : MicroDD, a ∈ t.children → b ∈ t.children → a.weight ≠ 0 → b.weight ≠ 0 →
          ∀ p, Levels (c' :: cs) p → ampRel a p = ampRel b p) →
        ∃ a : MicroDD, t.children[0]? = some a ∧ a.weight ≠ 0) ∧
      ∀ a ∈ t.children, SharableTree (c' :: cs) a
  | _, _ => True

/-- the same condition in terms of the state: if two of the parts into which the first line splits the state are non-zero and all non-zero parts
are positive multiples of each other, then the part for level 0 is non-zero; and so on for the parts. The last line is exempt. -/
def SharableState : List Nat → List ℂ → Prop
  | c :: c' :: cs, data =>
      ((∃ i j, i < c ∧ j < c ∧ i ≠ j ∧ (∃ x ∈ slice data i (c' :: cs).prod, x ≠ 0) ∧ (∃ x ∈ slice data j (c' :: cs).prod, x ≠ 0)) →
        (∀ i j, i < c → j < c → (∃ x ∈ slice data i (c' :: cs).prod, x ≠ 0) → (∃ x ∈ slice data j (c' :: cs).prod, x ≠ 0) →
          ∃ r : ℝ, 0 < r ∧ slice data i (c' :: cs).prod = (slice data j (c' :: cs).prod).map fun x => (r : ℂ) * x) →
        ∃ x ∈ slice data 0 (c' :: cs).prod, x ≠ 0) ∧
      ∀ i, i < c → SharableState (c' :: cs) (slice data i (c' :: cs).prod)
  | _, _ => True

/-- no sharing has been recorded yet; a terminal node has only childless children -/
def Shape : List Nat → MicroDD → Prop
  | [], _ => True
  | _ :: cs, t => (t.info.terminal = true → ∀ u ∈ t.children, u.info.terminal = true ∧ u.children = []) ∧
      (t.info.terminal = false → t.info.index = [] ∧ ∀ u ∈ t.children, Shape cs u)

/-- the tuples that are hashed when the tree is hashed -/
inductive Hashed (H : List (Int × ℂ) → Int) : MicroDD → List (Int × ℂ) → Prop
  | leaf {t} : t.info.terminal = true → Hashed H t [((t.children.head?.map fun c => c.info.hash).getD 0, 1)]
  | inner {t} : t.info.terminal = false → Hashed H t (t.children.map fun c => ((hashing H c).info.hash, c.weight))
  | deeper {t c x} : t.info.terminal = false → c ∈ t.children → Hashed H c x → Hashed H t x

/-- no two different tuples among them have the same hash -/
def NoCollision (H : List (Int × ℂ) → Int) (t : MicroDD) : Prop :=
  ∀ x y, Hashed H t x → Hashed H t y → H x = H y → x = y

/-- the 2-norm of a vector -/
noncomputable def vecNorm (v : List ℂ) : ℝ := Real.sqrt ((v.map fun x => ‖x‖ ^ 2).sum)

/-- The operator on a line of `d` levels that an entry `(levels, angles)` of a local sequence stands for: levels `(-1, 0)` mean the phase
rotation diag(exp(-iθ/2), exp(iθ/2)) of levels 0 and 1, levels `(a, b)` the rotation by `θ` about the axis at azimuth `φ`. -/
noncomputable def entryOp (d : Nat) (e : (Int × Int) × ℝ × ℝ) : Matrix (Fin d) (Fin d) ℂ :=
  let a := if e.1 = (-1, 0) then 0 else e.1.1.toNat
  let b := if e.1 = (-1, 0) then 1 else e.1.2.toNat
  let m := if e.1 = (-1, 0) then !![Complex.exp (-(Complex.I * ((e.2.1 / 2 : ℝ) : ℂ))), 0; 0, Complex.exp (Complex.I * ((e.2.1 / 2 : ℝ) : ℂ))]
    else rot e.2.1 e.2.2
  if h : a < d ∧ b < d then twoLevel ⟨a, h.1⟩ ⟨b, h.2⟩ m else 1

/-- the first basis vector -/
def first (d : Nat) : Fin d → ℂ := fun i => if (i : Nat) = 0 then 1 else 0

end Qudits.Spec
