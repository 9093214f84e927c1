import Mathlib.Algebra.Order.Field.Basic
import Mathlib.Algebra.Order.Group.Abs
import Mathlib.Logic.Function.Basic
/-
The table of real numbers of the decision-diagram package, /repo/include/dd/ComplexTable.hpp, on a memory of entries that are
linked by their `next` pointers.

Simplifications.  Numbers are elements of an ordered field instead of floating-point numbers, `std::nearbyint` and the constant
`SQRT2_2` are parameters.  An entry that a chunk hands out has the next unused number as address (getEntry 257-269).  Statistics
other than `count` are left out.  The tolerance is the one set before the table was made (`setTolerance` is static and can also be
called later).
-/
namespace Qudits.DD

/-- The constants of the table: `TOLERANCE` (523-525), `SQRT2_2`, `MASK = NBUCKET - 1` (130), `std::nearbyint`, the largest
reference count, `INITIAL_GC_LIMIT` (29). -/
structure CParams (α : Type) where
  tol : α
  sqrt : α
  mask : Nat
  nearest : α → Int
  maxRef : Nat
  gcStart : Nat

/-- `Entry`, 32-35. -/
structure CEntry (α : Type) where
  value : α
  next : Option Nat
  refCount : Nat

/-- A pointer to an entry without its sign: the static entries (105-116) or an address. -/
inductive CPtr
  | zero
  | one
  | sqrt
  | entry (a : Nat)
  deriving DecidableEq

/-- The members of the table, 505-542: memory, `table`, `tailTable`, `available`, number of entries handed out by the chunks,
`count`, `gcLimit`. -/
structure CTable (α : Type) where
  mem : Nat → CEntry α
  table : Nat → Option Nat
  tail : Nat → Option Nat
  available : Option Nat
  fresh : Nat
  count : Nat
  gcLimit : Nat

variable {α : Type} [Field α] [LinearOrder α]

/-- `hash`, 133-137, for numbers that are not negative. -/
def CParams.hash (P : CParams α) (v : α) : Nat :=
  min (P.nearest (v * (P.mask : α))).toNat P.mask

/-- `val` of an unsigned pointer, 62-67. -/
def CTable.val (P : CParams α) (s : CTable α) : CPtr → α
  | .zero => 0
  | .one => 1
  | .sqrt => P.sqrt
  | .entry a => (s.mem a).value

/-- The members before the constructor runs, 505-542. -/
def CTable.blank (P : CParams α) : CTable α :=
  ⟨fun _ => ⟨0, none, 0⟩, fun _ => none, fun _ => none, none, 0, 0, P.gcStart⟩

/-- `getEntry`, 247-270. -/
def CTable.getEntry (s : CTable α) : Nat × CTable α :=
  match s.available with
  | some e => (e, { s with
      available := (s.mem e).next
      mem := Function.update s.mem e { s.mem e with refCount := 0 } })
  | none => (s.fresh, { s with fresh := s.fresh + 1 })

/-- `entry->value = val`, 585, 615. -/
def CTable.setValue (s : CTable α) (e : Nat) (v : α) : CTable α :=
  { s with mem := Function.update s.mem e { s.mem e with value := v } }

/-- An assignment to a `next` pointer. -/
def CTable.setNext (s : CTable α) (e : Nat) (n : Option Nat) : CTable α :=
  { s with mem := Function.update s.mem e { s.mem e with next := n } }

/-- `returnEntry`, 272-275. -/
def CTable.returnEntry (s : CTable α) (e : Nat) : CTable α :=
  { s.setNext e s.available with available := some e }

/-- The end of `findOrInsert` and of `insert`, 590-602, 626-638: the entry is put between `prev` and `curr`. -/
def CTable.link (s : CTable α) (key e : Nat) (prev curr : Option Nat) : CTable α :=
  let s := match prev with
    | none => { s with table := Function.update s.table key (some e) }
    | some p => s.setNext p (some e)
  let s := s.setNext e curr
  let s := match curr with
    | none => { s with tail := Function.update s.tail key (some e) }
    | some _ => s
  { s with count := s.count + 1 }

/-- How the loop of `findOrInsert` ends: at an entry or between two. -/
inductive CFound
  | hit (a : Nat)
  | gap (prev curr : Option Nat)

/-- The loop of `findOrInsert`, 547-581, for at most the given number of rounds; `none` if it is still running then. -/
def cscan (tol : α) (mem : Nat → CEntry α) (v : α) : Nat → Option Nat → Option Nat → Option CFound
  | _, prev, none => some (.gap prev none)
  | 0, _, some _ => none
  | k + 1, prev, some c =>
    if (mem c).value ≤ v + tol then
      if |(mem c).value - v| ≤ tol then
        match (mem c).next with
        | none => some (.hit c)
        | some n =>
          if (mem n).value ≤ v + tol ∧ |(mem n).value - v| < |(mem c).value - v| then some (.hit n)
          else some (.hit c)
      else cscan tol mem v k (some c) (mem c).next
    else some (.gap prev (some c))

/-- The loop of `insert`, 617-624, for at most the given number of rounds. -/
def cplace (mem : Nat → CEntry α) (v : α) : Nat → Option Nat → Option Nat → Option (Option Nat × Option Nat)
  | _, prev, none => some (prev, none)
  | 0, _, some _ => none
  | k + 1, prev, some c =>
    if (mem c).value ≤ v then cplace mem v k (some c) (mem c).next else some (prev, some c)

/-- `findOrInsert`, 544-603. The loop runs over one bucket, so that the number of entries bounds its rounds; `none` stands for a
loop that does not end. -/
def CTable.findOrInsert (P : CParams α) (s : CTable α) (key : Nat) (v : α) : Option (CPtr × CTable α) :=
  match cscan P.tol s.mem v s.fresh none (s.table key) with
  | none => none
  | some (.hit a) => some (.entry a, s)
  | some (.gap prev curr) =>
    let (e, s) := s.getEntry
    let s := s.setValue e v
    some (.entry e, s.link key e prev curr)

/-- `insert`, 612-639. -/
def CTable.insert (s : CTable α) (key : Nat) (v : α) : Option (CPtr × CTable α) :=
  let (e, s) := s.getEntry
  let s := s.setValue e v
  match cplace s.mem v s.fresh none (s.table key) with
  | none => none
  | some (prev, curr) => some (.entry e, s.link key e prev curr)

/-- Whether a bucket end is there and matches, 204-207. -/
def CTable.near (P : CParams α) (s : CTable α) (v : α) : Option Nat → Bool
  | none => false
  | some a => |v - (s.mem a).value| ≤ P.tol

/-- `lookup`, 152-245, for numbers that are not negative (the assertion 154). -/
def CTable.lookup (P : CParams α) (s : CTable α) (v : α) : Option (CPtr × CTable α) :=
  if |v| ≤ P.tol then some (.zero, s)
  else if |v - 1| ≤ P.tol then some (.one, s)
  else if |v - P.sqrt| ≤ P.tol then some (.sqrt, s)
  else
    let lowerKey := P.hash (v - P.tol)
    let upperKey := P.hash (v + P.tol)
    if upperKey = lowerKey then s.findOrInsert P lowerKey v
    else
      let key := P.hash v
      let pLower := if lowerKey ≠ key then s.tail lowerKey else s.tail key
      let pUpper := if lowerKey ≠ key then s.table key else s.table upperKey
      match pLower, pUpper, s.near P v pLower, s.near P v pUpper with
      | some l, some u, true, true =>
        if |(s.mem l).value - v| < |(s.mem u).value - v| then some (.entry l, s) else some (.entry u, s)
      | some l, _, true, _ => some (.entry l, s)
      | _, some u, _, true => some (.entry u, s)
      | _, _, _, _ => s.insert key v

/-- `incRef`, 278-297, of an aligned pointer. -/
def CTable.incRef (P : CParams α) (s : CTable α) : CPtr → CTable α
  | .entry a =>
    if (s.mem a).refCount = P.maxRef then s
    else { s with mem := Function.update s.mem a { s.mem a with refCount := (s.mem a).refCount + 1 } }
  | _ => s

/-- `decRef`, 300-322; `none`: it throws. -/
def CTable.decRef (P : CParams α) (s : CTable α) : CPtr → Option (CTable α)
  | .entry a =>
    if (s.mem a).refCount = P.maxRef then some s
    else if (s.mem a).refCount = 0 then none
    else some { s with mem := Function.update s.mem a { s.mem a with refCount := (s.mem a).refCount - 1 } }
  | _ => some s

/-- The constructor, 118-122: 1/2 is put into the table and its count is raised. -/
def CTable.new (P : CParams α) : Option (CTable α) :=
  match (CTable.blank P).lookup P (1 / 2) with
  | some (.entry a, s) =>
    some { s with mem := Function.update s.mem a { s.mem a with refCount := (s.mem a).refCount + 1 } }
  | some (_, s) => some s
  | none => none

/-- The inner loop of `garbageCollect`, 343-360, for at most the given number of rounds: `p`, `lastp`, and how many entries were
collected and kept. -/
def csweep (key : Nat) : Nat → CTable α → Option Nat → Option Nat → Nat → Nat → Option (CTable α × Nat × Nat)
  | _, s, none, _, c, r => some (s, c, r)
  | 0, _, some _, _, _, _ => none
  | k + 1, s, some p, last, c, r =>
    if (s.mem p).refCount = 0 then
      let next := (s.mem p).next
      let s := match last with
        | none => { s with table := Function.update s.table key next }
        | some l => s.setNext l next
      let s := s.returnEntry p
      csweep key k { s with tail := Function.update s.tail key last } next last (c + 1) r
    else
      csweep key k { s with tail := Function.update s.tail key (some p) } (s.mem p).next (some p) c (r + 1)

/-- The outer loop of `garbageCollect`, 340-361, over the given buckets. -/
def csweepAll : List Nat → CTable α → Nat → Nat → Option (CTable α × Nat × Nat)
  | [], s, c, r => some (s, c, r)
  | key :: keys, s, c, r =>
    match csweep key s.fresh s (s.table key) none c r with
    | none => none
    | some (s, c, r) => csweepAll keys s c r

/-- `garbageCollect`, 328-376; the number is the returned one. -/
def CTable.collect (P : CParams α) (s : CTable α) (force : Bool) : Option (CTable α × Nat) :=
  if (force = false ∧ s.count < s.gcLimit) ∨ s.count ≤ 1 then some (s, 0)
  else
    match csweepAll (List.range (P.mask + 1)) s 0 0 with
    | none => none
    | some (s, collected, remaining) =>
      let limit :=
        if s.gcLimit / 10 * 9 < remaining then remaining + P.gcStart
        else if remaining < s.gcLimit / 128 then s.gcLimit / 2
        else s.gcLimit
      some ({ s with gcLimit := limit, count := remaining }, collected)

/-- `clear`, 378-421. The first chunk is used again with all its counts set to 0, later chunks are made anew. -/
def CTable.clear (P : CParams α) (s : CTable α) : CTable α :=
  { mem := fun a => { s.mem a with refCount := 0 }
    table := fun _ => none
    tail := fun _ => none
    available := none
    fresh := 0
    count := 0
    gcLimit := P.gcStart }

end Qudits.DD
