import Verif.Model.PyErr
import Mathlib.Analysis.Complex.Norm
import Mathlib.Analysis.Real.Sqrt
/-
The decision tree of a state, /repo/src/mqt/qudits/core/micro_dd.py.

A node holds its weight, the terminal mark, the hash, the `reduced` mark and `children_index`; Python changes these in place, here the
changed tree is returned.  `one` and `zero` are nodes without children; their own weights are never read by the functions below.
Python's `hash` of a tuple is the parameter `H`.  Floats are exact, `x == 0` is equality of complex numbers.
-/
namespace Qudits

/-- `MicroDDNode` without its children, micro_dd.py 8-20. -/
structure MInfo where
  weight : ℂ := 1
  terminal : Bool := false
  hash : Int := 0
  reduced : Option Bool := none
  index : List Nat := []

/-- `MicroDDNode` -/
inductive MicroDD where
  | node (info : MInfo) (children : List MicroDD)

namespace MicroDD

def info : MicroDD → MInfo
  | node i _ => i

def children : MicroDD → List MicroDD
  | node _ cs => cs

def weight (t : MicroDD) : ℂ := t.info.weight

/-- `node.weight = w` -/
def setWeight (t : MicroDD) (w : ℂ) : MicroDD := node { t.info with weight := w } t.children

/-- micro_dd.py 41-43 -/
noncomputable def zeroNode : MicroDD := node { terminal := true, hash := 0 } []

/-- micro_dd.py 44-46 -/
noncomputable def oneNode : MicroDD := node { terminal := true, hash := 1 } []

/-- `normalize`, micro_dd.py 100-111. -/
noncomputable def normalize (inW : ℂ) (out : List ℂ) : ℂ × List ℂ :=
  let norm := Real.sqrt ((out.map fun x => x.re ^ 2 + x.im ^ 2).sum)
  if norm = 0 then (0, out) else (inW * norm, out.map fun x => x / norm)

/-- `data[i * s : (i + 1) * s]` -/
def slice (data : List ℂ) (i s : Nat) : List ℂ := (data.drop (i * s)).take s

/-- `build_decision_tree`, micro_dd.py 125-175; the list of dimensions is that of the lines from `depth` on. -/
noncomputable def build : List Nat → List ℂ → Except PyErr MicroDD
  | [], data =>
    match data with
    | [] => .error .indexError
    | x :: _ => .ok (node { weight := x, terminal := true } [if x = 0 then zeroNode else oneNode])
  | c :: cs, data =>
    if c = 0 then .error .zeroDivisionError
    else do
      let s := data.length / c
      let ch ← (List.range c).mapM fun i => build cs (slice data i s)
      let (w, new) := normalize 1 (ch.map weight)
      if w = 0 then pure (node { weight := w, terminal := true } [zeroNode.setWeight (new.headD 0)])
      else pure (node { weight := w } (ch.zipWith setWeight new))

/-- `create_decision_tree`, micro_dd.py 114-122, without the node counter. -/
noncomputable def create (dims : List Nat) (data : List ℂ) : Except PyErr MicroDD := build dims data

/-! ### sharing -/

mutual
/-- `dd_reduction_hashing`, micro_dd.py 236-249. The hash of an inner node is taken over all its children; the code takes the first
`cardinalities[depth]`, which is their number. -/
noncomputable def hashing (H : List (Int × ℂ) → Int) : MicroDD → MicroDD
  | node i cs =>
    if i.terminal then
      node { i with hash := H [((cs.head?.map fun c => c.info.hash).getD 0, 1)] } cs
    else
      let cs' := hashings H cs
      node { i with hash := H (cs'.map fun c => (c.info.hash, c.weight)) } cs'
noncomputable def hashings (H : List (Int × ℂ) → Int) : List MicroDD → List MicroDD
  | [] => []
  | c :: cs => hashing H c :: hashings H cs
end

/-- `children_index`, micro_dd.py 258-266: the position of the first child with the same hash. -/
def firstWith (hs : List Int) (i : Nat) : Nat := hs.idxOf (hs.getD i 0)

/-- the `reduced` mark of a node that is not terminal, micro_dd.py 277-288 -/
noncomputable def reducedMark (index : List Nat) (cs : List MicroDD) : Except PyErr Bool :=
  let live := ((List.range cs.length).filter fun i => (cs.map weight).getD i 0 ≠ 0).map fun i => index.getD i 0
  if live.length = 1 then .ok false
  else match live with
    | [] => .error .indexError
    | x :: xs => .ok (xs.all fun y => y == x)

mutual
/-- `dd_reduction_aggregation`, micro_dd.py 252-288. The first argument counts the lines that remain. A child is treated only if it is the
first with its hash (`child.id not in done`); `id(obj)` is represented by the position. -/
noncomputable def aggregate : Nat → MicroDD → Except PyErr MicroDD
  | 0, t => .ok t
  | k + 1, node i cs => do
    let hs := cs.map fun c => c.info.hash
    let index := i.index ++ (List.range cs.length).map (firstWith hs)
    let cs' ← aggregates k hs 0 cs
    let r ← if i.terminal then pure true else reducedMark index cs'
    pure (node { i with index := index, reduced := some r } cs')
noncomputable def aggregates : Nat → List Int → Nat → List MicroDD → Except PyErr (List MicroDD)
  | _, _, _, [] => .ok []
  | k, hs, j, c :: cs => do
    let c' ← if firstWith hs j = j then aggregate k c else pure c
    let cs' ← aggregates k hs (j + 1) cs
    pure (c' :: cs')
end

/-! ### approximation -/

/-- `normalize_all` (217-233) and the second half of `dd_approximation`: the children are normalised from below, the norm is moved into
the weight of the node. -/
noncomputable def normalizeAll : Nat → MicroDD → MicroDD
  | 0, t => t
  | k + 1, node i cs =>
    if i.terminal then node i cs
    else
      let cs' := cs.map (normalizeAll k)
      let (w, new) := normalize i.weight (cs'.map weight)
      if w = 0 then node { i with weight := w, terminal := true } [zeroNode]
      else if cs'.length ≠ 1 then node { i with weight := w } (cs'.zipWith setWeight new)
      else node { i with weight := w } cs'

end MicroDD
end Qudits
