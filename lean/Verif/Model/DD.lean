import Mathlib.Analysis.Complex.Basic
import Mathlib.Analysis.Real.Sqrt
/-
The decision-diagram package, /repo/include/dd/MDDPackage.hpp, with the compute tables of
/repo/include/dd/ComputeTable.hpp and UnaryComputeTable.hpp.

Simplifications.  Weights are exact complex numbers (no tolerance: "approximately zero" is "zero", "approximately one" is
"one"; the complex table and the cache of weights are not modelled).  A node is its content (the list of its outgoing edges
and the two flags of a matrix node): the unique table, which makes two nodes with the same content one node, is modelled
and proved apart (Model/UniqueTable.lean), so that comparing two node pointers here is comparing contents.  The registers
are listed from the top of the diagram, that is `registersSizes` reversed; the variable index of a node over `d :: ds` is
`ds.length`.  `start` is 0.  The edge `none` is `Edge::zero` (the terminal with weight zero).
-/
namespace Qudits.DD
open Classical

/-- C++ exceptions (and the null-pointer access of an edge that was never set). -/
inductive Err where
  | outOfRange
  | invalidArgument
  | runtimeError
  | nullPointer
  deriving DecidableEq, Repr

/-- vNode / mNode, MDDPackage.hpp 129-148, 361-378: outgoing edges; the flags are used for matrices only. -/
structure NodeData (E : Type) where
  edges : List E
  symmetric : Bool
  identity : Bool

/-- Nodes over the registers `ds`; over no register there is only the terminal. -/
def Node : List Nat → Type
  | [] => Unit
  | _ :: ds => NodeData (Option (ℂ × Node ds))

/-- Edges: `Edge::zero`, or a weight and a node. -/
abbrev Edge (ds : List Nat) := Option (ℂ × Node ds)

/-- Build a node. -/
def mkNode {d : Nat} {ds : List Nat} (es : List (Edge ds)) (s i : Bool) : Node (d :: ds) := NodeData.mk es s i

def Node.edges {d : Nat} {ds : List Nat} (n : Node (d :: ds)) : List (Edge ds) := NodeData.edges n

def Node.sym {d : Nat} {ds : List Nat} (n : Node (d :: ds)) : Bool := NodeData.symmetric n

def Node.ident {d : Nat} {ds : List Nat} (n : Node (d :: ds)) : Bool := NodeData.identity n

/-- `edge.weight`. -/
def weight {ds : List Nat} : Edge ds → ℂ
  | none => 0
  | some (w, _) => w

/-- The edge with another weight; a zero weight gives `Edge::zero`. -/
noncomputable def setW {ds : List Nat} (w : ℂ) : Edge ds → Edge ds
  | none => none
  | some (_, n) => if w = 0 then none else some (w, n)

/-- `edges.at(i)`; the index is always in range where this is used. -/
def at' {ds : List Nat} (es : List (Edge ds)) (i : Nat) : Edge ds := (es[i]?).getD none

/-! ### normalisation and node construction -/

/-- Loop of `normalize(vEdge)`, MDDPackage.hpp 213-223: largest squared magnitude, scanning from the last child down. -/
noncomputable def argMaxV {ds : List Nat} (es : List (Edge ds)) : ℝ × Nat :=
  (List.range es.length).foldr
    (fun i b => if Complex.normSq (weight (at' es i)) ≥ b.1 then (Complex.normSq (weight (at' es i)), i) else b)
    (Complex.normSq (weight (at' es 0)), 0)

/-- `normalize(const vEdge&, bool)`, MDDPackage.hpp 150-266: weight of the new edge and the new children; `none` is
`vEdge::zero`. -/
noncomputable def normalizeV {ds : List Nat} (cached : Bool) (es : List (Edge ds)) : Option (ℂ × List (Edge ds)) :=
  match (List.range es.length).filter (fun i => weight (at' es i) ≠ 0) with
  | [] => none
  | [k] => some (weight (at' es k), es.mapIdx fun i e => if i = k then setW 1 e else e)
  | _ =>
    let a := (argMaxV es).2
    let norm := Real.sqrt ((es.map fun e => Complex.normSq (weight e)).sum)
    let magMax := Real.sqrt (argMaxV es).1
    let commonFactor : ℂ := ((norm / magMax : ℝ) : ℂ)
    let w := if cached = true ∧ weight (at' es a) ≠ 1 then weight (at' es a) * commonFactor else commonFactor
    if w = 0 then none
    else some (w, es.mapIdx fun i e => if i = a then setW ((magMax / norm : ℝ) : ℂ) e else setW (weight e / w) e)

/-- Loop of `normalize(mEdge)`, MDDPackage.hpp 406-428: the first child of largest magnitude and its weight. -/
noncomputable def maxM {ds : List Nat} : List (Edge ds) → Nat → Option (Nat × ℂ) → Option (Nat × ℂ)
  | [], _, best => best
  | e :: es, i, best =>
    if weight e = 0 then maxM es (i + 1) best
    else
      match best with
      | none => maxM es (i + 1) (some (i, weight e))
      | some (k, w) =>
        if Complex.normSq (weight e) - Complex.normSq w > 0 then maxM es (i + 1) (some (i, weight e))
        else maxM es (i + 1) (some (k, w))

/-- `normalize(const mEdge&, bool)`, MDDPackage.hpp 383-476. -/
noncomputable def normalizeM {ds : List Nat} (es : List (Edge ds)) : Option (ℂ × List (Edge ds)) :=
  match maxM es 0 none with
  | none => none
  | some (k, w) => some (w, es.mapIdx fun i e => if i = k then setW 1 e else setW (weight e / w) e)

/-- `edge.nextNode->symmetric`; the terminal is symmetric (1975-1984). -/
def symOf : {ds : List Nat} → Edge ds → Bool
  | _, none => true
  | [], some _ => true
  | _ :: _, some (_, n) => n.sym

/-- `edge.nextNode->identity`; the terminal is an identity (1975-1984). -/
def identOf : {ds : List Nat} → Edge ds → Bool
  | _, none => true
  | [], some _ => true
  | _ :: _, some (_, n) => n.ident

/-- `transpose`, MDDPackage.hpp 1871-1904.  The vector `newEdge` is created empty (1883) and written with `.at` (1890),
which throws as soon as the register has a level. -/
def transpose : {ds : List Nat} → Edge ds → Except Err (Edge ds)
  | _, none => .ok none
  | [], some e => .ok (some e)
  | d :: _, some (w, n) => if n.sym then .ok (some (w, n)) else if d = 0 then .ok none else .error .outOfRange

/-- The pairs of two nested loops. -/
def pairs (r c : Nat) : List (Nat × Nat) := (List.range r).flatMap fun i => (List.range c).map fun j => (i, j)

/-- Loop of `checkSpecialMatrices`, MDDPackage.hpp 1823-1833. -/
noncomputable def symLoop {ds : List Nat} (d : Nat) (es : List (Edge ds)) : List (Nat × Nat) → Except Err Bool
  | [] => .ok true
  | (i, j) :: ps =>
    if i = j then symLoop d es ps
    else
      match transpose (at' es (i * d + j)) with
      | .error e => .error e
      | .ok t => if t = at' es (j * d + i) then symLoop d es ps else .ok false

/-- `checkSpecialMatrices`, MDDPackage.hpp 1803-1861: the flags `symmetric` and `identity` of a new matrix node. -/
noncomputable def checkSpecial {ds : List Nat} (d : Nat) (es : List (Edge ds)) : Except Err (Bool × Bool) :=
  if (List.range d).all fun i => symOf (at' es (i * d + i)) then
    match symLoop d es (pairs d d) with
    | .error e => .error e
    | .ok false => .ok (false, false)
    | .ok true =>
      .ok (true, (pairs d d).all fun p =>
        if p.1 = p.2 then identOf (at' es (p.1 * d + p.2)) && decide (weight (at' es (p.1 * d + p.2)) = 1)
        else decide (weight (at' es (p.1 * d + p.2)) = 0))
  else .ok (false, false)

/-- Vector or matrix diagrams. -/
inductive Kind where
  | vec
  | mat
  deriving DecidableEq

/-- `makeDDNode`, MDDPackage.hpp 317-358, for a vector node. -/
noncomputable def makeV {ds : List Nat} (d : Nat) (es : List (Edge ds)) (cached : Bool) : Edge (d :: ds) :=
  match normalizeV cached es with
  | none => none
  | some (w, es') => some (w, mkNode es' false false)

/-- `makeDDNode`, MDDPackage.hpp 317-358, for a matrix node; `cached` does not matter in exact arithmetic. -/
noncomputable def makeM {ds : List Nat} (d : Nat) (es : List (Edge ds)) : Except Err (Edge (d :: ds)) :=
  match normalizeM es with
  | none => .ok none
  | some (w, es') =>
    match checkSpecial d es' with
    | .error e => .error e
    | .ok (s, i) => .ok (some (w, mkNode es' s i))

/-- `makeDDNode<Node>` with cached weights. -/
noncomputable def makeDDNode {ds : List Nat} (k : Kind) (d : Nat) (es : List (Edge ds)) : Except Err (Edge (d :: ds)) :=
  match k with
  | .vec => .ok (makeV d es true)
  | .mat => makeM d es

/-! ### states and gates -/

/-- `makeZeroState`, MDDPackage.hpp 269-292. -/
noncomputable def makeZeroState : (ds : List Nat) → Edge ds
  | [] => some (1, ())
  | d :: ds => makeV d (makeZeroState ds :: List.replicate (d - 1) none) false

/-- `makeBasisState`, MDDPackage.hpp 295-313; `state` is listed from the top register down. -/
noncomputable def makeBasisState : (ds : List Nat) → List Nat → Except Err (Edge ds)
  | [], _ => .ok (some (1, ()))
  | _ :: _, [] => .error .outOfRange
  | d :: ds, k :: state =>
    match makeBasisState ds state with
    | .error e => .error e
    | .ok f => if k < d then .ok (makeV d ((List.replicate d (none : Edge ds)).set k f) false) else .error .outOfRange

/-- `makeIdent`, MDDPackage.hpp 608-685 (with `leastSignificantQubit` 0; the table of identities built before is not
modelled). -/
noncomputable def makeIdent : (ds : List Nat) → Except Err (Edge ds)
  | [] => .ok (some (1, ()))
  | d :: ds =>
    match makeIdent ds with
    | .error e => .error e
    | .ok e => makeM d ((pairs d d).map fun p => if p.1 = p.2 then e else none)

/-- A control: register and level; `Controls` is a set ordered by register, then level (Control.hpp 17-60). -/
abbrev Ctrl := Nat × Nat

/-- `makeGateDD`, MDDPackage.hpp 510-562: the edges of the target node after the lines below the target.  `r` is the radix
of the target.  Also returns the controls not consumed. -/
noncomputable def gateBelow (mat : List ℂ) (r : Nat) : (ds : List Nat) → List Ctrl → Except Err (List (Edge ds) × List Ctrl)
  | [], cs =>
    if mat.length < r * r then .error .outOfRange
    else .ok ((List.range (r * r)).map fun i => if mat.getD i 0 = 0 then none else some (mat.getD i 0, ()), cs)
  | d :: ds, cs =>
    match gateBelow mat r ds cs with
    | .error e => .error e
    | .ok (es, c :: cs') =>
      if c.1 = ds.length then
        match makeIdent ds with
        | .error e => .error e
        | .ok ident =>
          match (pairs r r).mapM fun p =>
              if p.1 = p.2 then
                makeM d ((pairs d d).map fun q =>
                  if q.1 = q.2 then (if q.1 = c.2 then at' es (p.1 * r + p.2) else ident) else none)
              else if c.2 < d then
                makeM d ((List.replicate (d * d) none).set (c.2 + d * c.2) (at' es (p.1 * r + p.2)))
              else .error .outOfRange with
          | .error e => .error e
          | .ok es' => .ok (es', cs')
      else
        match (pairs r r).mapM fun p =>
            makeM d ((pairs d d).map fun q => if q.1 = q.2 then at' es (p.1 * r + p.2) else none) with
        | .error e => .error e
        | .ok es' => .ok (es', c :: cs')
    | .ok (es, []) =>
      match (pairs r r).mapM fun p =>
          makeM d ((pairs d d).map fun q => if q.1 = q.2 then at' es (p.1 * r + p.2) else none) with
      | .error e => .error e
      | .ok es' => .ok (es', [])

/-- `makeGateDD`, MDDPackage.hpp 495-597: the target line and the lines above it.  The error for a missing target is that
of `registersSizes.at(target)` (508). -/
noncomputable def gateUp (mat : List ℂ) (target : Nat) : (ds : List Nat) → List Ctrl → Except Err (Edge ds × List Ctrl)
  | [], _ => .error .outOfRange
  | d :: ds, cs =>
    if ds.length = target then
      match gateBelow mat d ds cs with
      | .error e => .error e
      | .ok (es, cs') =>
        match makeM d es with
        | .error e => .error e
        | .ok e => .ok (e, cs')
    else
      match gateUp mat target ds cs with
      | .error e => .error e
      | .ok (e, c :: cs') =>
        if c.1 = ds.length then
          match makeIdent ds with
          | .error e => .error e
          | .ok ident =>
            match makeM d ((pairs d d).map fun q => if q.1 = q.2 then (if q.1 = c.2 then e else ident) else none) with
            | .error e => .error e
            | .ok e' => .ok (e', cs')
        else
          match makeM d ((pairs d d).map fun q => if q.1 = q.2 then e else none) with
          | .error e => .error e
          | .ok e' => .ok (e', c :: cs')
      | .ok (e, []) =>
        match makeM d ((pairs d d).map fun q => if q.1 = q.2 then e else none) with
        | .error e => .error e
        | .ok e' => .ok (e', [])

/-- `makeGateDD(mat, n, controls, target)` with `n` the number of registers. -/
noncomputable def makeGateDD (ds : List Nat) (mat : List ℂ) (cs : List Ctrl) (target : Nat) : Except Err (Edge ds) :=
  match gateUp mat target ds cs with
  | .error e => .error e
  | .ok (e, _) => .ok e

/-! ### compute tables -/

/-- An entry of a compute table, ComputeTable.hpp 27-31. -/
structure Entry (ds : List Nat) where
  left : Edge ds
  right : Edge ds
  result : Edge ds

/-- A compute table: one entry per bucket. -/
abbrev Table := Nat → Option (Σ ds, Entry ds)

/-- The compute tables used by the operations below, MDDPackage.hpp 703-704, 840-841, 1868-1869 (for the unary table the
right operand repeats the left one). -/
structure Tables where
  add : Kind → Table
  mul : Kind → Table
  ctrans : Table

/-- The hash functions (bucket numbers); nothing is assumed about them. -/
structure Hashes where
  add : Kind → (ds : List Nat) → Edge ds → Edge ds → Nat
  mul : Kind → (ds : List Nat) → Edge ds → Edge ds → Nat
  ctrans : (ds : List Nat) → Edge ds → Nat

/-- All tables empty, as in a new package. -/
def Tables.empty : Tables := ⟨fun _ _ => none, fun _ _ => none, fun _ => none⟩

/-- `ComputeTable::lookup`, ComputeTable.hpp 55-72, in the given bucket; `none` is a miss. -/
noncomputable def Table.lookup (t : Table) (bucket : Nat) {ds : List Nat} (x y : Edge ds) : Option (Edge ds) :=
  match t bucket with
  | none => none
  | some ⟨ds', e⟩ =>
    if h : ds' = ds then
      if (h ▸ e : Entry ds).left ≠ x then none
      else if (h ▸ e : Entry ds).right ≠ y then none
      else some (h ▸ e : Entry ds).result
    else none

/-- `ComputeTable::insert`, ComputeTable.hpp 48-53. -/
def Table.insert (t : Table) (bucket : Nat) {ds : List Nat} (x y r : Edge ds) : Table :=
  fun b => if b = bucket then some ⟨ds, ⟨x, y, r⟩⟩ else t b

/-- Computations that use the tables and may throw. -/
abbrev M (α : Type) := StateT Tables (Except Err) α

/-- A computation that does not use the tables. -/
def lift {α : Type} (x : Except Err α) : M α := fun t =>
  match x with
  | .error e => .error e
  | .ok a => .ok (a, t)

variable (H : Hashes)

/-! ### addition -/

/-- Multiply the weight of an edge. -/
noncomputable def scale {ds : List Nat} (a : ℂ) (e : Edge ds) : Edge ds := setW (weight e * a) e

/-- Remember a sum. -/
noncomputable def rememberAdd (k : Kind) {ds : List Nat} (x y r : Edge ds) : M Unit :=
  modify fun t => { t with add := Function.update t.add k ((t.add k).insert (H.add k ds x y) x y r) }

/-- `add2`, MDDPackage.hpp 727-835. -/
noncomputable def add2 (k : Kind) : (ds : List Nat) → Edge ds → Edge ds → M (Edge ds)
  | _, none, y => pure y
  | _, x, none => pure x
  | [], some (a, _), some (b, _) => pure (if a + b = 0 then none else some (a + b, ()))
  | d :: ds, some (a, n), some (b, m) =>
    if n = m then pure (if a + b = 0 then none else some (a + b, m))
    else do
      let t ← get
      match (t.add k).lookup (H.add k (d :: ds) (some (a, n)) (some (b, m))) (some (a, n)) (some (b, m)) with
      | some r => pure r
      | none => do
        let es ← (List.range n.edges.length).mapM fun i =>
          add2 k ds (scale a (at' n.edges i)) (scale b (at' m.edges i))
        let e ← lift (makeDDNode k d es)
        rememberAdd H k (some (a, n)) (some (b, m)) e
        pure e

/-! ### multiplication -/

/-- Number of columns of the right operand at a register, MDDPackage.hpp 977-982. -/
def cols (k : Kind) (d : Nat) : Nat :=
  match k with
  | .vec => 1
  | .mat => d

/-- Remember a product. -/
noncomputable def rememberMul (k : Kind) {ds : List Nat} (x y r : Edge ds) : M Unit :=
  modify fun t => { t with mul := Function.update t.mul k ((t.mul k).insert (H.mul k ds x y) x y r) }

/-- `multiply2` / `multiply`, MDDPackage.hpp 848-873, 876-1045: matrix times vector (`vec`) or matrix times matrix. -/
noncomputable def multiply (k : Kind) : (ds : List Nat) → Edge ds → Edge ds → M (Edge ds)
  | _, none, _ => pure none
  | _, _, none => pure none
  | [], some (a, _), some (b, _) => pure (some (a * b, ()))
  | d :: ds, some (a, n), some (b, m) => do
    let t ← get
    match (t.mul k).lookup (H.mul k (d :: ds) (some (1, n)) (some (1, m))) (some (1, n)) (some (1, m)) with
    | some r => pure (scale b (scale a r))
    | none =>
      if n.ident then do
        let r : Edge (d :: ds) ← if k = .mat ∧ m.ident then lift (makeIdent (d :: ds)) else pure (some (1, m))
        rememberMul H k (some (1, n)) (some (1, m)) r
        pure (setW (a * b) r)
      else if k = .mat ∧ m.ident then do
        rememberMul H k (some (1, n)) (some (1, m)) (some (1, n))
        pure (setW (a * b) (some (1, n)))
      else do
        let es ← (pairs d (cols k d)).mapM fun p =>
          (List.range d).foldlM (fun acc q => do
            let r ← multiply k ds (at' n.edges (d * p.1 + q)) (at' m.edges (p.2 + cols k d * q))
            if weight acc = 0 then pure r
            else if weight r ≠ 0 then add2 H k ds acc r
            else pure acc) none
        let e ← lift (makeDDNode k d es)
        rememberMul H k (some (1, n)) (some (1, m)) e
        pure (scale b (scale a e))

/-! ### conjugate transposition -/

/-- Remember an adjoint. -/
noncomputable def rememberCtrans {ds : List Nat} (x r : Edge ds) : M Unit :=
  modify fun t => { t with ctrans := t.ctrans.insert (H.ctrans ds x) x x r }

/-- `conjugateTranspose`, MDDPackage.hpp 1905-1944. -/
noncomputable def conjugateTranspose : (ds : List Nat) → Edge ds → M (Edge ds)
  | _, none => pure none
  | [], some (w, _) => pure (some (star w, ()))
  | d :: ds, some (w, n) => do
    let t ← get
    match t.ctrans.lookup (H.ctrans (d :: ds) (some (w, n))) (some (w, n)) (some (w, n)) with
    | some r => pure r
    | none => do
      let es ← (pairs d d).mapM fun p => conjugateTranspose ds (at' n.edges (d * p.2 + p.1))
      let e ← lift (makeM d es)
      let r := scale (star w) e
      rememberCtrans H (some (w, n)) r
      pure r

/-! ### reading a vector -/

/-- `getVector(edge, amp, i, vec, next)`, MDDPackage.hpp 1684-1722, for a vector. -/
noncomputable def readOut : (ds : List Nat) → Edge ds → ℂ → Nat → Nat → List ℂ → List ℂ
  | _, none, amp, i, _, v => v.set i (0 * amp)
  | [], some (w, _), amp, i, _, v => v.set i (w * amp)
  | _ :: ds, some (w, n), amp, i, next, v =>
    (List.range n.edges.length).foldl
      (fun v k =>
        if weight (at' n.edges k) = 0 then v
        else readOut ds (at' n.edges k) (w * amp) (i + k * ((next - i) / n.edges.length))
          (i + (k + 1) * ((next - i) / n.edges.length)) v) v

/-- `getVector(edge)`, MDDPackage.hpp 1663-1670. -/
noncomputable def getVector (ds : List Nat) (e : Edge ds) : List ℂ :=
  readOut ds e 1 0 ds.prod (List.replicate ds.prod 0)

/-! ### inner product -/

/-- Inner `innerProduct(x, y, var)`, MDDPackage.hpp 1080-1137, without its compute table: the weights of the children of
`y` are conjugated on the way down. -/
noncomputable def innerRec : (ds : List Nat) → Edge ds → Edge ds → ℂ
  | _, none, _ => 0
  | _, _, none => 0
  | [], some (a, _), some (b, _) => a * b
  | d :: ds, some (a, n), some (b, m) =>
    ((List.range d).map fun i => innerRec ds (at' n.edges i)
      (match at' m.edges i with
        | none => none
        | some (w, q) => some (star w, q))).sum * a * b

/-- `innerProduct(x, y)`, MDDPackage.hpp 1052-1072. -/
noncomputable def innerProduct (ds : List Nat) (x y : Edge ds) : ℂ := innerRec ds x y

/-- `fidelity(x, y)`, MDDPackage.hpp 1074-1077. -/
noncomputable def fidelity (ds : List Nat) (x y : Edge ds) : ℝ :=
  (innerProduct ds x y).re * (innerProduct ds x y).re + (innerProduct ds x y).im * (innerProduct ds x y).im

/-! ### single entries -/

/-- `getValueByPath(const vEdge&, ...)`, MDDPackage.hpp 1598-1625; `repr` is listed from the top register down. -/
noncomputable def valueByPathV : (ds : List Nat) → Edge ds → ℂ → List Nat → Except Err ℂ
  | _, none, amp, _ => .ok (0 * amp)
  | [], some (w, _), amp, _ => .ok (w * amp)
  | _ :: _, some _, _, [] => .error .outOfRange
  | _ :: ds, some (w, n), amp, k :: repr =>
    if k < n.edges.length then
      if weight (at' n.edges k) = 0 then .ok 0 else valueByPathV ds (at' n.edges k) (w * amp) repr
    else .error .outOfRange

/-- `getValueByPath(const mEdge&, ...)`, MDDPackage.hpp 1627-1661: the row is multiplied by the number of edges (1650). -/
noncomputable def valueByPathM : (ds : List Nat) → Edge ds → ℂ → List Nat → List Nat → Except Err ℂ
  | _, none, amp, _, _ => .ok (0 * amp)
  | [], some (w, _), amp, _, _ => .ok (w * amp)
  | _ :: ds, some (w, n), amp, i :: ri, j :: rj =>
    if i * n.edges.length + j < n.edges.length then
      if weight (at' n.edges (i * n.edges.length + j)) = 0 then .ok 0
      else valueByPathM ds (at' n.edges (i * n.edges.length + j)) (w * amp) ri rj
    else .error .outOfRange
  | _ :: _, some _, _, _, _ => .error .outOfRange

/-- `getReprOfIndex`, MDDPackage.hpp 1724-1752: digits from the top register down (`ds` is listed from the top). -/
def reprOfIndex : List Nat → Nat → Nat → List Nat
  | [], _, _ => []
  | d :: ds, i, cardinality => i / (cardinality / d) :: reprOfIndex ds (i % (cardinality / d)) (cardinality / d)

end Qudits.DD
