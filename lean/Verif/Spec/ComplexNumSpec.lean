import Verif.Spec.ComplexSpec
import Verif.Model.ComplexNumbers
/-
What the complex numbers of the decision-diagram package are meant to do.
-/
namespace Qudits.DD

variable {α : Type} [Field α] [LinearOrder α]

/-- The pointer is one of the table, and not to a negative zero. -/
def CNums.Proper (P : CParams α) (n : CNums α) (p : SPtr) : Prop :=
  ∃ q, p.ptr = .table q ∧ n.table.Valid P q ∧ (p.neg = true → q ≠ .zero)

/-- The number of the cache holds the two values; nothing else differs between the two states. -/
structure Written (n n' : CNums α) (r : Nat × Nat) (x y : α) : Prop where
  real : (n'.cache.mem r.1).value = x
  img : (n'.cache.mem r.2).value = y
  table : n'.table = n.table
  others : ∀ a, a ≠ r.1 → a ≠ r.2 → n'.cache.mem a = n.cache.mem a
  links : ∀ a, (n'.cache.mem a).next = (n.cache.mem a).next
  rest : n'.cache.available = n.cache.available ∧ n'.cache.fresh = n.cache.fresh ∧ n'.cache.count = n.cache.count

/-- An operand may be read after the real part of the target has been written: its imaginary part is not stored there. -/
def Num.ReadableFor (a : Num) (r : Nat × Nat) : Prop := a.img.ptr ≠ .cache r.1

/-- The caches that programs get, with the numbers that are in use: numbers are taken, values are written anywhere, numbers
in use are given back, and the cache is emptied. -/
inductive CacheRun : CCache α → List (Nat × Nat) → Prop
  | new : CacheRun CCache.new []
  | get {c c' : CCache α} {u : List (Nat × Nat)} {z : Nat × Nat} (h : CacheRun c u) (e : c.get = some (z, c')) : CacheRun c' (z :: u)
  | write {c : CCache α} {u : List (Nat × Nat)} (h : CacheRun c u) (a : Nat) (x : α) :
      CacheRun { c with mem := Function.update c.mem a { c.mem a with value := x } } u
  | giveBack {c : CCache α} {u : List (Nat × Nat)} {z : Nat × Nat} (h : CacheRun c u) (hz : z ∈ u) :
      CacheRun (c.giveBack z) (u.erase z)
  | clear {c : CCache α} {u : List (Nat × Nat)} (h : CacheRun c u) : CacheRun c.clear []

/-- The entries of a list of numbers of the cache. -/
def entries (u : List (Nat × Nat)) : List Nat := u.flatMap fun z => [z.1, z.2]

end Qudits.DD
