import Verif.Model.ComplexTable
/-
What the table of real numbers of the decision-diagram package is meant to do.
-/
namespace Qudits.DD

variable {α : Type} [Field α] [LinearOrder α]

/-- Following `next` from the pointer one comes to the entry. -/
inductive Reaches (next : Nat → Option Nat) : Option Nat → Nat → Prop
  | here (a : Nat) : Reaches next (some a) a
  | there {b a : Nat} (h : Reaches next (next b) a) : Reaches next (some b) a

/-- The entry is in one of the buckets of the table. -/
def CTable.Stored (P : CParams α) (s : CTable α) (a : Nat) : Prop :=
  ∃ key, key ≤ P.mask ∧ Reaches (fun b => (s.mem b).next) (s.table key) a

/-- A number that a pointer of the table may stand for: a static one, or one in a bucket. -/
def CTable.Valid (P : CParams α) (s : CTable α) : CPtr → Prop
  | .entry a => s.Stored P a
  | _ => True

/-- What is asked of the constants: the tolerance is positive and small compared to the width of a bucket and to the distances
between the static numbers, rounding is to a nearest integer and monotone. -/
structure CParams.Fits (P : CParams α) : Prop where
  tol_pos : 0 < P.tol
  tol_small : 2 * P.tol * (P.mask : α) < 1
  sqrt_pos : P.tol < P.sqrt
  sqrt_lt : P.sqrt + P.tol < 1
  mono : ∀ {x y : α}, x ≤ y → P.nearest x ≤ P.nearest y
  close : ∀ x : α, |(P.nearest x : α) - x| ≤ 1 / 2

/-- The tables that programs get: a new one, and what the operations make of it. Counts are changed for stored entries only. -/
inductive Run (P : CParams α) : CTable α → Prop
  | new {s : CTable α} (h : CTable.new P = some s) : Run P s
  | lookup {s s' : CTable α} {v : α} {p : CPtr} (hs : Run P s) (hv : 0 ≤ v) (h : s.lookup P v = some (p, s')) : Run P s'
  | incRef {s : CTable α} {p : CPtr} (hs : Run P s) (hp : s.Valid P p) : Run P (s.incRef P p)
  | decRef {s s' : CTable α} {p : CPtr} (hs : Run P s) (hp : s.Valid P p) (h : s.decRef P p = some s') : Run P s'
  | collect {s s' : CTable α} {force : Bool} {n : Nat} (hs : Run P s) (h : s.collect P force = some (s', n)) : Run P s'
  | clear {s : CTable α} (hs : Run P s) : Run P (s.clear P)

end Qudits.DD
