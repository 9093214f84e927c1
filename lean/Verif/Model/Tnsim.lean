import Verif.Model.MatrixFactory
import Verif.Spec.Radix
/-
Model of src/mqt/qudits/simulation/backends/tnsim.py (TNSim.execute and its helpers).

The `tensornetwork` library is modelled as follows. A node is a tensor with one edge per axis; edges are numbered and have
a dimension. `tn.connect(e1, e2)` of two dangling edges makes them one edge and raises ValueError if the dimensions
differ; since `e2` always belongs to the node just created, the model lets that axis use `e1`. Contracting the network with
a given order of the open edges is the sum over all assignments of levels to the edges, that agree with the requested
levels on the open edges, of the product of the tensor entries (that is what the library documents; how it orders the
pairwise contractions is not modelled).
-/
namespace Qudits

/-- An n-dimensional numpy array: its shape and its entry function. -/
structure Tensor (α : Type) where
  shape : List Nat
  val : List Nat → α

namespace Tnsim
variable {α : Type}

/-- the two-dimensional array `m.T` as a tensor (tnsim.py:95) -/
def transposed (m : Arr2 α) : Tensor α := ⟨[m.cols, m.rows], fun ix => m.at' (ix.getD 1 0) (ix.getD 0 0)⟩

/-- `m.T.reshape(shape)` in row-major order (tnsim.py:99-108, 111-115); ValueError unless the sizes agree -/
def reshapeT (m : Arr2 α) (shape : List Nat) : Except PyErr (Tensor α) :=
  if shape.prod = m.cols * m.rows then
    .ok ⟨shape, fun ix => m.at' (Spec.index shape ix % m.rows) (Spec.index shape ix / m.rows)⟩
  else .error .valueError

/-- `system_sizes[i]` -/
def sizeAt (sizes : List Nat) (i : Nat) : Except PyErr Nat :=
  match sizes[i]? with
  | some s => .ok s
  | none => .error .indexError

/-- The tensor of an operation and the lines it is connected to (tnsim.py:90-116). -/
def opTensor [Zero α] [One α] [Mul α] [Star α] (sizes : List Nat) (g : Gate) (arr : Arr2 α) :
    Except PyErr (Tensor α × List Nat) := do
  let m ← g.toMatrix arr 1
  let ref ← g.referenceLines
  let lines := ref.map Int.toNat
  let s := lines.insertionSort (· ≤ ·)
  if g.gateType = .single then return (transposed m, lines)
  else if g.gateType = .two ∧ g.longRange = false then
    match s with
    | l0 :: l1 :: _ => do
      let a ← sizeAt sizes l0
      let b ← sizeAt sizes l1
      let t ← reshapeT m [a, b, a, b]
      return (t, s)
    | _ => .error .indexError
  else
    let interested := List.range' (s.headD 0) (s.getLastD 0 + 1 - s.headD 0)
    let dims ← interested.mapM (sizeAt sizes)
    let t ← reshapeT m (dims ++ dims)
    return (t, interested)

/-- A tensor network under construction: the dimension of every edge, the nodes with the edges of their axes, and
`qudits_legs`. -/
structure Net (α : Type) where
  edgeDims : List Nat
  nodes : List (Tensor α × List Nat)
  legs : List Nat

/-- the nodes for the initial state (tnsim.py:82-88); `z[0] = 1` raises on an empty list -/
def start [Zero α] [One α] (sizes : List Nat) : Except PyErr (Net α) :=
  if 0 ∈ sizes then .error .indexError
  else .ok ⟨sizes, sizes.mapIdx fun i s => (⟨[s], fun ix => if ix.getD 0 0 = 0 then 1 else 0⟩, [i]), List.range sizes.length⟩

/-- One round of the loop of `__apply_gate` (tnsim.py:72-74) for axis `i` and line `bit`; the state is the list of legs
and the edges chosen for the first axes. The outgoing axes have the edges `base, base + 1, ...`. -/
def connect (edgeDims shape : List Nat) (base : Nat) (st : List Nat × List Nat) (ib : Nat × Nat) :
    Except PyErr (List Nat × List Nat) :=
  match st.1[ib.2]?, shape[ib.1]? with
  | some e, some s =>
    if edgeDims.getD e 0 = s then .ok (st.1.set ib.2 (base + ib.1), st.2 ++ [e]) else .error .valueError
  | _, _ => .error .indexError

/-- `__apply_gate` (tnsim.py:69-74). The tensors have one incoming and one outgoing axis per line. -/
def applyGate (net : Net α) (t : Tensor α) (lines : List Nat) : Except PyErr (Net α) :=
  if t.shape.length < 2 * lines.length then .error .indexError
  else do
    let base := net.edgeDims.length
    let edgeDims := net.edgeDims ++ t.shape.drop lines.length
    let st ← (lines.mapIdx fun i bit => (i, bit)).foldlM (connect edgeDims t.shape base) (net.legs, [])
    let outs := (List.range (t.shape.length - lines.length)).map (base + ·)
    return ⟨edgeDims, net.nodes ++ [(t, st.2 ++ outs)], st.1⟩

/-- the entry of the contracted network at the given levels of the legs -/
def amp [Zero α] [One α] [Add α] [Mul α] (net : Net α) (out : List Nat) : α :=
  ((itProduct (siteLogics net.edgeDims)).map fun a =>
    if net.legs.map (fun e => a.getD e 0) = out then
      (net.nodes.map fun p => p.1.val (p.2.map fun e => a.getD e 0)).prod
    else 0).sum

/-- `TNSim.execute` (tnsim.py:58-67, 76-120): the entries of the returned `1 × size` array. An empty network cannot be
contracted; the axes of the result have the sizes of the dangling edges, and `reshape` (tnsim.py:67) raises unless there
are as many entries as the register has. -/
def execute [Zero α] [One α] [Add α] [Mul α] [Star α] (sizes : List Nat) (ops : List (Gate × Arr2 α)) :
    Except PyErr (List α) := do
  let net0 ← start sizes
  let net ← ops.foldlM (fun net op => do
    let tl ← opTensor sizes op.1 op.2
    applyGate net tl.1 tl.2) net0
  if net.nodes.length = 0 then .error .valueError
  else
    let shape := net.legs.map fun e => net.edgeDims.getD e 0
    if shape.prod = sizes.prod then return (itProduct (siteLogics shape)).map (amp net)
    else .error .valueError

end Tnsim
end Qudits
