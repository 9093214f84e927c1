import Verif.Model.ComplexTable
/-
Complex numbers of the decision-diagram package as pairs of signed pointers, /repo/include/dd/Complex.hpp and
/repo/include/dd/ComplexNumbers.hpp, and the cache of temporary numbers, /repo/include/dd/ComplexCache.hpp.

Simplifications.  Numbers are elements of an ordered field; `std::signbit` of a number is whether it is negative (of a negative
zero it is true, but both branches of `lookup` then give the same pointer).  The target of an operation is a number of the cache,
as everywhere in the package.  A chunk of the cache has an even number of entries (2048, doubled), so that the two entries that are
handed out are always neighbours; fresh entries have the next unused addresses.
-/
namespace Qudits.DD

/-- Where a pointer points: the table (or a static entry), or an entry of the cache. -/
inductive NPtr
  | table (p : CPtr)
  | cache (a : Nat)
  deriving DecidableEq

/-- A pointer with the sign in its lowest bit, ComplexTable.hpp 37-60. -/
structure SPtr where
  neg : Bool
  ptr : NPtr
  deriving DecidableEq

/-- `Complex`, Complex.hpp 20-22. -/
structure Num where
  real : SPtr
  img : SPtr
  deriving DecidableEq

/-- The static `zero` and `one`, Complex.hpp 75, 78. -/
def Num.zero : Num := ⟨⟨false, .table .zero⟩, ⟨false, .table .zero⟩⟩

def Num.one : Num := ⟨⟨false, .table .one⟩, ⟨false, .table .zero⟩⟩

/-- `flipPointerSign`, ComplexTable.hpp 52-55. -/
def SPtr.flip (p : SPtr) : SPtr := ⟨!p.neg, p.ptr⟩

/-- `getNegativePointer`, ComplexTable.hpp 47-50. -/
def SPtr.negative (p : CPtr) : SPtr := ⟨true, .table p⟩

/-- The cache, ComplexCache.hpp 123-132: memory, `available`, number of entries handed out by the chunks, `count`. -/
structure CCache (α : Type) where
  mem : Nat → CEntry α
  available : Option Nat
  fresh : Nat
  count : Nat

/-- `ComplexNumbers`, 21-23. -/
structure CNums (α : Type) where
  table : CTable α
  cache : CCache α

variable {α : Type} [Field α] [LinearOrder α]

/-- A new cache, ComplexCache.hpp 25-32. -/
def CCache.new : CCache α := ⟨fun _ => ⟨0, none, 0⟩, none, 0, 0⟩

/-- `getCachedComplex`, ComplexCache.hpp 42-69; `none`: the pointer `available->next` is null (excluded by an assertion). -/
def CCache.get (c : CCache α) : Option ((Nat × Nat) × CCache α) :=
  match c.available with
  | some a =>
    match (c.mem a).next with
    | some b => some ((a, b), { c with available := (c.mem b).next, count := c.count + 2 })
    | none => none
  | none => some ((c.fresh, c.fresh + 1), { c with fresh := c.fresh + 2, count := c.count + 2 })

/-- `getTemporaryComplex`, ComplexCache.hpp 71-88. -/
def CCache.temporary (c : CCache α) : Option (Nat × Nat) :=
  match c.available with
  | some a =>
    match (c.mem a).next with
    | some b => some (a, b)
    | none => none
  | none => some (c.fresh, c.fresh + 1)

/-- `returnToCache`, ComplexCache.hpp 90-100. -/
def CCache.giveBack (c : CCache α) (z : Nat × Nat) : CCache α :=
  let mem := Function.update c.mem z.2 { c.mem z.2 with next := c.available }
  let mem := Function.update mem z.1 { mem z.1 with next := some z.2 }
  { c with mem := mem, available := some z.1, count := c.count - 2 }

/-- `clear`, ComplexCache.hpp 102-119. -/
def CCache.clear (c : CCache α) : CCache α := { c with available := none, fresh := 0, count := 0 }

/-- The number of the cache as `Complex`. -/
def Num.cached (z : Nat × Nat) : Num := ⟨⟨false, .cache z.1⟩, ⟨false, .cache z.2⟩⟩

/-- `CTEntry::val`, ComplexTable.hpp 62-67. -/
def CNums.val (P : CParams α) (n : CNums α) (p : SPtr) : α :=
  let v := match p.ptr with
    | .table q => n.table.val P q
    | .cache a => (n.cache.mem a).value
  if p.neg then -v else v

/-- `approximatelyZero`, ComplexTable.hpp 85-90: the pointers are compared first. -/
def CNums.nearZero (P : CParams α) (n : CNums α) (p : SPtr) : Bool :=
  p = ⟨false, .table .zero⟩ ∨ |n.val P p| ≤ P.tol

/-- `approximatelyOne`, ComplexTable.hpp 92-97, 80-83. -/
def CNums.nearOne (P : CParams α) (n : CNums α) (p : SPtr) : Bool :=
  p = ⟨false, .table .one⟩ ∨ n.val P p = 1 ∨ |n.val P p - 1| ≤ P.tol

/-- `approximatelyEquals`, ComplexTable.hpp 76-83. -/
def CNums.nearEq (P : CParams α) (n : CNums α) (p q : SPtr) : Bool :=
  p = q ∨ n.val P p = n.val P q ∨ |n.val P p - n.val P q| ≤ P.tol

/-- `approximatelyZero`, `approximatelyOne`, `approximatelyEquals` of complex numbers, Complex.hpp 36-48. -/
def CNums.zeroish (P : CParams α) (n : CNums α) (a : Num) : Bool := n.nearZero P a.real && n.nearZero P a.img

def CNums.oneish (P : CParams α) (n : CNums α) (a : Num) : Bool := n.nearOne P a.real && n.nearZero P a.img

def CNums.equalish (P : CParams α) (n : CNums α) (a b : Num) : Bool := n.nearEq P a.real b.real && n.nearEq P a.img b.img

/-- An assignment `e->value = x` to an entry of the cache. -/
def CNums.set (n : CNums α) (a : Nat) (x : α) : CNums α :=
  { n with cache := { n.cache with mem := Function.update n.cache.mem a { n.cache.mem a with value := x } } }

/-- `setVal`, Complex.hpp 31-34: the second number is read after the first was written. -/
def CNums.setVal (P : CParams α) (n : CNums α) (r : Nat × Nat) (a : Num) : CNums α :=
  let n := n.set r.1 (n.val P a.real)
  n.set r.2 (n.val P a.img)

/-- `add`, 37-42: the imaginary parts are read after the real part was written. -/
def CNums.add (P : CParams α) (n : CNums α) (r : Nat × Nat) (a b : Num) : CNums α :=
  let n := n.set r.1 (n.val P a.real + n.val P b.real)
  n.set r.2 (n.val P a.img + n.val P b.img)

/-- `sub`, 43-48. -/
def CNums.sub (P : CParams α) (n : CNums α) (r : Nat × Nat) (a b : Num) : CNums α :=
  let n := n.set r.1 (n.val P a.real - n.val P b.real)
  n.set r.2 (n.val P a.img - n.val P b.img)

/-- `mul`, 49-68. -/
def CNums.mul (P : CParams α) (n : CNums α) (r : Nat × Nat) (a b : Num) : CNums α :=
  if n.oneish P a then n.setVal P r b
  else if n.oneish P b then n.setVal P r a
  else if n.zeroish P a || n.zeroish P b then (n.set r.1 0).set r.2 0
  else
    let ar := n.val P a.real
    let ai := n.val P a.img
    let br := n.val P b.real
    let bi := n.val P b.img
    (n.set r.1 (ar * br - ai * bi)).set r.2 (ar * bi + ai * br)

/-- `div`, 69-88; `none`: a division by 0, the result is not a number. -/
def CNums.div (P : CParams α) (n : CNums α) (r : Nat × Nat) (a b : Num) : Option (CNums α) :=
  if n.equalish P a b then some ((n.set r.1 1).set r.2 0)
  else if n.oneish P b then some (n.setVal P r a)
  else
    let ar := n.val P a.real
    let ai := n.val P a.img
    let br := n.val P b.real
    let bi := n.val P b.img
    let cmag := br * br + bi * bi
    if cmag = 0 then none
    else some ((n.set r.1 ((ar * br + ai * bi) / cmag)).set r.2 ((ai * br - ar * bi) / cmag))

/-- `conj`, 101-107. -/
def Num.conj (a : Num) : Num := if a.img ≠ Num.zero.img then { a with img := a.img.flip } else a

/-- `neg`, 108-117. -/
def Num.neg (a : Num) : Num :=
  let r := if a.img ≠ Num.zero.img then { a with img := a.img.flip } else a
  if a.real ≠ Num.zero.img then { r with real := a.real.flip } else r

/-- One half of `lookup`, 159-171 and 173-185. -/
def CNums.lookupPart (P : CParams α) (n : CNums α) (x : α) : Option (SPtr × CNums α) :=
  if x < 0 then
    if |x| < P.tol then some (⟨false, .table .zero⟩, n)
    else
      match n.table.lookup P |x| with
      | none => none
      | some (p, t) => some (.negative p, { n with table := t })
  else
    match n.table.lookup P x with
    | none => none
    | some (p, t) => some (⟨false, .table p⟩, { n with table := t })

/-- `lookup` of two numbers, 156-188. -/
def CNums.lookup (P : CParams α) (n : CNums α) (r i : α) : Option (Num × CNums α) :=
  match n.lookupPart P r with
  | none => none
  | some (p, n) =>
    match n.lookupPart P i with
    | none => none
    | some (q, n) => some (⟨p, q⟩, n)

/-- `lookup` of a complex number, 144-155. -/
def CNums.lookupNum (P : CParams α) (n : CNums α) (c : Num) : Option (Num × CNums α) :=
  if c = Num.zero then some (Num.zero, n)
  else if c = Num.one then some (Num.one, n)
  else n.lookup P (n.val P c.real) (n.val P c.img)

/-- `addCached`, `mulCached`, 119-135: a number is taken from the cache and written. -/
def CNums.addCached (P : CParams α) (n : CNums α) (a b : Num) : Option (Num × CNums α) :=
  match n.cache.get with
  | none => none
  | some (r, c) => some (.cached r, ({ n with cache := c } : CNums α).add P r a b)

def CNums.mulCached (P : CParams α) (n : CNums α) (a b : Num) : Option (Num × CNums α) :=
  match n.cache.get with
  | none => none
  | some (r, c) => some (.cached r, ({ n with cache := c } : CNums α).mul P r a b)

end Qudits.DD
