import Verif.Model.Gate
import Verif.Model.NArr
import Mathlib.Algebra.BigOperators.Group.List.Basic

/-
Model of components/extensions/matrix_factory.py.  Lines are non-negative here.
-/
namespace Qudits

/-- `itertools.product(*lists)`: the last list varies fastest. -/
def itProduct {β : Type} : List (List β) → List (List β)
  | [] => [[]]
  | l :: ls => l.flatMap fun x => (itProduct ls).map (x :: ·)

/-- `[list(range(d)) for d in dims]` -/
def siteLogics (dims : List Nat) : List (List Nat) := dims.map List.range

/-- `operator.itemgetter(*idx)(state)`, with a single item read as a list of one element
(matrix_factory.py:104-106, 118-121 do that conversion). No index at all is a TypeError. -/
def itemgetter (idx : List Nat) (state : List Nat) : Except PyErr (List Nat) :=
  if idx = [] then .error .typeError
  else idx.mapM fun i => match state[i]? with
    | some v => .ok v
    | none => .error .indexError

/-- Dictionary lookup `og_state_to_index[tuple(key)]` (matrix_factory.py:91, 122-123): position of the
key in the list of states. -/
def stateIndex (states : List (List Nat)) (key : List Nat) : Except PyErr Nat :=
  match states.idxOf? key with
  | some i => .ok i
  | none => .error .keyError

/-- `global_index_to_state[r]` -/
def indexState (states : List (List Nat)) (r : Nat) : Except PyErr (List Nat) :=
  match states[r]? with
  | some s => .ok s
  | none => .error .keyError

variable {α : Type}

/-- The value read from the small matrix for states `sr`, `sc` (matrix_factory.py:116-124 and 130-138). -/
def ogValue (m : Arr2 α) (ogStates : List (List Nat)) (slideA : List Nat) (sr sc : List Nat) :
    Except PyErr α := do
  let kr ← itemgetter slideA sr
  let kc ← itemgetter slideA sc
  let i ← stateIndex ogStates kr
  let j ← stateIndex ogStates kc
  m.get i j

/-- `not rest or itemgetter(*rest)(r) == itemgetter(*rest)(c)` (matrix_factory.py:111-113, 127-129). -/
def restEqual (rest : List Nat) (sr sc : List Nat) : Except PyErr Bool :=
  if rest = [] then .ok true
  else do
    let a ← itemgetter rest sr
    let b ← itemgetter rest sc
    return decide (a = b)

/-- One entry of the result (matrix_factory.py:97-139): the identity entry unless overwritten. -/
def embedEntry [Zero α] [One α] (m : Arr2 α) (globalStates ogStates : List (List Nat))
    (slideA rest : List Nat) (ctrl : Option (List Nat × List Int)) (r c : Nat) : Except PyErr α := do
  let ident : α := if r = c then 1 else 0
  let sr ← indexState globalStates r
  let sc ← indexState globalStates c
  match ctrl with
  | some (slideC, levels) =>
    let er ← itemgetter slideC sr
    let ec ← itemgetter slideC sc
    if er.map (fun (n : Nat) => (n : Int)) = levels ∧ er = ec then
      if (← restEqual rest sr sc) then ogValue m ogStates slideA sr sc else pure ident
    else pure ident
  | none =>
    if (← restEqual rest sr sc) then ogValue m ogStates slideA sr sc else pure ident

/-- `apply_identities_and_controls` (matrix_factory.py:52-141). `refLines` is always
`range(lo, lo + len)`; `q - min(ref_lines)` is `q - lo`. The order in which the set
`rest_of_indices` is iterated does not matter, it is taken ascending. The dimension list for a single
target is looked up at the absolute line number (line 84). -/
def applyIdentitiesAndControls [Zero α] [One α] (m : Arr2 α) (targets : List Nat) (dims : List Nat)
    (lo len : Nat) (ctrl : Option (List Nat × List Int)) : Except PyErr (Arr2 α) := do
  let ts := targets.insertionSort (· ≤ ·)
  let slideA := ts.map (· - lo)
  if dims.length = 0 then .error .valueError
  else if ts.length = len ∧ ctrl = none then pure m
  else
    let ctrlLines := match ctrl with
      | some (cs, _) => cs
      | none => []
    let restLines := (List.range' lo len).filter fun q => decide (q ∉ ts) && decide (q ∉ ctrlLines)
    let rest := restLines.map (· - lo)
    let tdims ← if ts.length = 1 then
        (match dims[ts.headD 0]? with
          | some d => .ok [d]
          | none => .error .indexError)
      else itemgetter slideA dims
    let ogStates := itProduct (siteLogics tdims)
    let globalStates := itProduct (siteLogics dims)
    Arr2.fill dims.prod (embedEntry m globalStates ogStates slideA rest
      (ctrl.map fun p => (p.1.map (· - lo), p.2)))

/-- One round of the loop in `wrap_in_identities` (matrix_factory.py:154-160). -/
def wrapStep [Zero α] [One α] [Mul α] (m : Arr2 α) (lo hi : Nat) (sizes : List Nat) (result : Arr2 α)
    (i : Nat) : Arr2 α :=
  if i = lo then (if i = 0 then m else result.kron m)
  else if (i < lo ∧ i ≠ 0) ∨ i > hi then result.kron (Arr2.identity (sizes.getD i 0))
  else result

/-- `wrap_in_identities` (matrix_factory.py:143-162). -/
def wrapInIdentities [Zero α] [One α] [Mul α] (m : Arr2 α) (indices : List Nat) (sizes : List Nat) :
    Except PyErr (Arr2 α) :=
  let s := indices.insertionSort (· ≤ ·)
  if s.any (fun i => decide (sizes.length ≤ i)) then .error .valueError
  else
    match s.head?, s.getLast?, sizes.head? with
    | some lo, some hi, some d0 =>
      .ok ((List.range sizes.length).foldl (wrapStep m lo hi sizes) (Arr2.identity d0))
    | _, _, _ => .error .indexError

/-- `generate_matrix` (matrix_factory.py:21-50) for a gate whose lines are non-negative; `arr` is the
value of `gate.__array__()`. -/
def Gate.toMatrix [Zero α] [One α] [Mul α] [Star α] (g : Gate) (arr : Arr2 α) (ids : Nat) :
    Except PyErr (Arr2 α) := do
  let m := if g.dagger then arr.conjT else arr
  let lines ← g.referenceLines
  let nl := lines.map Int.toNat
  let s := nl.insertionSort (· ≤ ·)
  let lo := s.headD 0
  let hi := s.getLastD 0
  let dimsSlice := (g.dims.take (hi + 1)).drop lo
  let len := hi + 1 - lo
  let targets := g.target.lines.map Int.toNat
  let m ← match g.controls with
    | some c =>
      applyIdentitiesAndControls m targets dimsSlice lo len (some (c.indices.map Int.toNat, c.ctrlStates))
    | none => if ids > 0 then applyIdentitiesAndControls m targets dimsSlice lo len none else pure m
  if ids ≥ 2 then wrapInIdentities m nl g.dims else pure m

/-- `np.kron` of two vectors. -/
def kronVec (a b : List Int) : List Int := a.flatMap fun x => b.map (x * ·)

/-- One basis vector `temp = [0]*d; temp[basis] = 1` (matrix_factory.py:171-174). -/
def basisVec (d l : Nat) : Except PyErr (List Int) :=
  if l < d then .ok ((List.replicate d 0).set l 1) else .error .indexError

/-- The list of one-line basis vectors of `from_dirac_to_basis` (matrix_factory.py:170-174);
`d[i]` raises IndexError when the dimension list is too short. -/
def basisVecs : List Nat → List Nat → Except PyErr (List (List Int))
  | [], _ => .ok []
  | _ :: _, [] => .error .indexError
  | l :: ls, d :: ds => do
    let v ← basisVec d l
    let vs ← basisVecs ls ds
    pure (v :: vs)

/-- `from_dirac_to_basis` (matrix_factory.py:165-180) for non-negative levels and a list of dimensions. -/
def fromDiracToBasis (vec dims : List Nat) : Except PyErr (List Int) := do
  let vs ← basisVecs vec dims
  match vs with
  | [] => .error .indexError
  | v :: rest => pure (rest.foldl kronVec v)

/-- `calculate_q0_q1` (matrix_factory.py:183-187). -/
def calculateQ0Q1 (lev dim : Nat) : Except PyErr (Nat × Nat) :=
  if dim = 0 then .error .zeroDivisionError
  else
    let q1 := lev % dim
    .ok ((lev - q1) / dim, q1)

/-- `insert_at` (matrix_factory.py:190-204): overwrite a block of the big array. -/
def insertAt (big : Arr2 α) (x1 y1 : Nat) (small : Arr2 α) : Except PyErr (Arr2 α) :=
  if ¬ x1 + small.rows ≤ big.rows then .error .assertionError
  else if ¬ y1 + small.cols ≤ big.cols then .error .assertionError
  else .ok ⟨big.rows, big.cols, fun r c =>
    if x1 ≤ r ∧ r < x1 + small.rows ∧ y1 ≤ c ∧ c < y1 + small.cols then small.at' (r - x1) (c - y1)
    else big.at' r c⟩

end Qudits
