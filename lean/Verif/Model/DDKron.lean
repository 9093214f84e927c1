import Verif.Model.DD
/-
Kronecker products of matrix diagrams, /repo/include/dd/MDDPackage.hpp 1139-1250.

Simplifications: as in Model/DD.lean; `incIdx` is true (the default).  The nodes of `x` are moved up by the registers of
`y`; the model takes the sizes of the registers they come to (`registersSizes` at the new indices) to be those of the
registers they come from.  For vector diagrams the template does not compile (`vNode` has no member `identity`).
-/
namespace Qudits.DD
open Classical

/-- An entry of the compute table of Kronecker products, MDDPackage.hpp 1143-1144. -/
structure KEntry (ds1 ds2 : List Nat) where
  left : Edge ds1
  right : Edge ds2
  result : Edge (ds1 ++ ds2)

/-- The compute table of Kronecker products: one entry per bucket. -/
abbrev KTable := Nat → Option (Σ p : List Nat × List Nat, KEntry p.1 p.2)

/-- The hash function (bucket numbers); nothing is assumed about it. -/
abbrev KHash := (ds1 ds2 : List Nat) → Edge ds1 → Edge ds2 → Nat

/-- `ComputeTable::lookup`, ComputeTable.hpp 55-72, in the given bucket. -/
noncomputable def KTable.lookup (t : KTable) (bucket : Nat) {ds1 ds2 : List Nat} (x : Edge ds1) (y : Edge ds2) :
    Option (Edge (ds1 ++ ds2)) :=
  match t bucket with
  | none => none
  | some ⟨p, e⟩ =>
    if h : p = (ds1, ds2) then
      if (h ▸ e : KEntry (ds1, ds2).1 (ds1, ds2).2).left ≠ x then none
      else if (h ▸ e : KEntry (ds1, ds2).1 (ds1, ds2).2).right ≠ y then none
      else some (h ▸ e : KEntry (ds1, ds2).1 (ds1, ds2).2).result
    else none

/-- `ComputeTable::insert`, ComputeTable.hpp 48-53. -/
def KTable.insert (t : KTable) (bucket : Nat) {ds1 ds2 : List Nat} (x : Edge ds1) (y : Edge ds2) (r : Edge (ds1 ++ ds2)) :
    KTable :=
  fun b => if b = bucket then some ⟨(ds1, ds2), ⟨x, y, r⟩⟩ else t b

/-- Edges of a node on whose diagonal `e` stands, MDDPackage.hpp 1190-1198 and 1205-1213: `len` edges, all zero, and `e`
written with `.at` at `i + i * d` for every `i < d`. -/
def diagEdges {ds : List Nat} (len d : Nat) (e : Edge ds) : Except Err (List (Edge ds)) :=
  (List.range d).foldlM (fun es i => if i + i * d < es.length then .ok (es.set (i + i * d) e) else .error .outOfRange)
    (List.replicate len none)

/-- The identity branch of `kronecker2`, MDDPackage.hpp 1190-1219: one node with `y` on its diagonal, which has as many
edges (`len`) and the stride (`d`) of the top node of `x`, and above it one node for each further register of `x`, which
has as many edges as the node below it and the stride of the register of the node below it. -/
noncomputable def identUp (len d : Nat) : (as : List Nat) → {ds2 : List Nat} → Edge ds2 → Except Err (Edge (as ++ ds2))
  | [], _, y => .ok y
  | [a], _, y =>
    match diagEdges len d y with
    | .error e => .error e
    | .ok es => makeM a es
  | a :: b :: as, _, y =>
    match identUp len d (b :: as) y with
    | .error e => .error e
    | .ok none => .error .outOfRange
    | .ok (some (w, n)) =>
      match diagEdges n.edges.length b (some (w, n)) with
      | .error e => .error e
      | .ok es => makeM a es

/-- Computations that use the table and may throw. -/
abbrev KM (α : Type) := StateT KTable (Except Err) α

/-- A computation that does not use the table. -/
def klift {α : Type} (x : Except Err α) : KM α := fun t =>
  match x with
  | .error e => .error e
  | .ok a => .ok (a, t)

/-- `kronecker2` (and `kronecker`), MDDPackage.hpp 1150-1161, 1176-1249.  In the identity branch the weight of the result is the
weight of `y` (1221-1222); the weight of `x` is not used. -/
noncomputable def kronecker (H : KHash) : (ds1 : List Nat) → Edge ds1 → (ds2 : List Nat) → Edge ds2 → KM (Edge (ds1 ++ ds2))
  | _, none, _, _ => pure none
  | _, _, _, none => pure none
  | [], some (a, _), _, some (b, m) => pure (some (a * b, m))
  | d :: ds, some (a, n), ds2, some (b, m) => do
    let t ← get
    match t.lookup (H (d :: ds) ds2 (some (a, n)) (some (b, m))) (some (a, n)) (some (b, m)) with
    | some r => pure r
    | none =>
      if n.ident then do
        let e ← klift (identUp n.edges.length d (d :: ds) (some (b, m) : Edge ds2))
        let r := setW b e
        modify fun t => t.insert (H (d :: ds) ds2 (some (a, n)) (some (b, m))) (some (a, n)) (some (b, m)) r
        pure r
      else do
        let es ← (List.range n.edges.length).mapM fun i => kronecker H ds (at' n.edges i) ds2 (some (b, m))
        let e ← klift (makeM d es)
        let r := scale a e
        modify fun t => t.insert (H (d :: ds) ds2 (some (a, n)) (some (b, m))) (some (a, n)) (some (b, m)) r
        pure r

/-- The first half of `extend`, MDDPackage.hpp 1165-1169: identities on the registers `ls` below. -/
noncomputable def extendBelow (H : KHash) (ds : List Nat) (e : Edge ds) : (ls : List Nat) → KM (Edge (ds ++ ls))
  | [] => pure ((List.append_nil ds).symm ▸ e)
  | l :: ls => do
    let i ← klift (makeIdent (l :: ls))
    kronecker H ds e (l :: ls) i

/-- The second half of `extend`, MDDPackage.hpp 1170-1173: identities on the registers `hs` above. -/
noncomputable def extendAbove (H : KHash) (ds : List Nat) (e : Edge ds) : (hs : List Nat) → KM (Edge (hs ++ ds))
  | [] => pure e
  | h :: hs => do
    let i ← klift (makeIdent (h :: hs))
    kronecker H (h :: hs) i ds e

/-- `extend`, MDDPackage.hpp 1163-1174. -/
noncomputable def extend (H : KHash) (hs ls ds : List Nat) (e : Edge ds) : KM (Edge (hs ++ (ds ++ ls))) := do
  let f ← extendBelow H ds e ls
  extendAbove H (ds ++ ls) f hs

end Qudits.DD
