import Verif.Model.DD
/-
Reading a whole matrix diagram, reading entries by a string of digits and counting nodes, /repo/include/dd/MDDPackage.hpp.

Simplifications as in Model/DD.lean (exact weights; a node is its content).  The printing of `getVector` on a matrix is left
out.  A string is the list of the codes of its characters (signed, as `char` is).
-/
namespace Qudits.DD
open Classical

/-- `vec.at(i) = x`. -/
def writeAt (v : List ℂ) (i : Nat) (x : ℂ) : Except Err (List ℂ) :=
  if i < v.length then .ok (v.set i x) else .error .outOfRange

/-- `getVector(edge, amp, i, vec, next, pathTracker)`, MDDPackage.hpp 1684-1722, for a matrix: zero edges are followed too, and
only the first position of their block is written. -/
noncomputable def readOutM : (ds : List Nat) → Edge ds → ℂ → Nat → Nat → List ℂ → Except Err (List ℂ)
  | _, none, amp, i, _, v => writeAt v i (0 * amp)
  | [], some (w, _), amp, i, _, v => writeAt v i (w * amp)
  | _ :: ds, some (w, n), amp, i, next, v =>
    (List.range n.edges.length).foldlM
      (fun v k => readOutM ds (at' n.edges k) (w * amp) (i + k * ((next - i) / n.edges.length))
        (i + (k + 1) * ((next - i) / n.edges.length)) v) v

/-- `getVectorizedMatrix(edge)`, MDDPackage.hpp 1672-1682. -/
noncomputable def getVectorizedMatrix (ds : List Nat) (e : Edge ds) : Except Err (List ℂ) :=
  readOutM ds e 1 0 (ds.foldl (fun p d => p * d * d) 1) (List.replicate (ds.foldl (fun p d => p * d * d) 1) 0)

/-- Loop of `getValueByPath(edge, pathElements)`, MDDPackage.hpp 1579-1595: the character at the variable index of the node,
minus '0', is the number of the edge; a negative number becomes a huge one, and `at` throws for every number out of range. -/
def valueByString : (ds : List Nat) → Edge ds → ℂ → List Int → Except Err ℂ
  | _, none, amp, _ => .ok (amp * 0)
  | [], some (w, _), amp, _ => .ok (amp * w)
  | _ :: ds, some (w, n), amp, path =>
    match path[ds.length]? with
    | none => .error .outOfRange
    | some c =>
      if 0 ≤ c - 48 ∧ (c - 48).toNat < n.edges.length then
        valueByString ds (at' n.edges (c - 48).toNat) (amp * w) path
      else .error .outOfRange

/-- `getValueByPath(edge, pathElements)`, MDDPackage.hpp 1573-1595; a terminal edge is its weight. -/
def getValueByString (ds : List Nat) (e : Edge ds) (path : List Int) : Except Err ℂ :=
  match ds, e with
  | _, none => .ok 0
  | [], some (w, _) => .ok w
  | _ :: _, some _ => valueByString ds e 1 path

/-- A node pointer: registers below and including the node, and its content; the terminal is over no registers. -/
abbrev Ptr := (ds : List Nat) × Node ds

/-- `edge.nextNode`; `Edge::zero` points to the terminal. -/
def nextNode : {ds : List Nat} → Edge ds → Ptr
  | _, none => ⟨[], ()⟩
  | ds, some (_, n) => ⟨ds, n⟩

/-- `nodeCount(e, v)`, MDDPackage.hpp 1544-1557: the number returned and the set `v` afterwards. -/
noncomputable def nodeCount : (ds : List Nat) → Edge ds → Finset Ptr → Nat × Finset Ptr
  | _, none, v => (1, insert ⟨[], ()⟩ v)
  | [], some (_, n), v => (1, insert ⟨[], n⟩ v)
  | d :: ds, some (_, n), v =>
    n.edges.foldl
      (fun s e => if nextNode e ∈ s.2 then s else (s.1 + (nodeCount ds e s.2).1, (nodeCount ds e s.2).2))
      (1, insert ⟨d :: ds, n⟩ v)

end Qudits.DD
