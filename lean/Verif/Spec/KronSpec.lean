import Verif.Model.DDKron
import Verif.Spec.DDSpec
/-
Kronecker products of matrix diagrams.
-/
namespace Qudits.Spec
open DD

/-- The diagram `r` stands for the Kronecker product of the matrices of `x` and `y`. -/
def IsKron {ds1 ds2 : List Nat} (x : Edge ds1) (y : Edge ds2) (r : Edge (ds1 ++ ds2)) : Prop :=
  ∀ xs ys us vs, Levels ds1 xs → Levels ds1 ys → Levels ds2 us → Levels ds2 vs →
    entry (ds1 ++ ds2) r (xs ++ us) (ys ++ vs) = entry ds1 x xs ys * entry ds2 y us vs

/-- No path from the top comes to a multiple of the identity (on at least one register) other than the identity. -/
def PlainIdentities : (ds : List Nat) → Edge ds → Prop
  | _, none => True
  | [], some _ => True
  | _ :: ds, some (w, n) => if n.ident then w = 1 else ∀ e ∈ n.edges, PlainIdentities ds e

/-- All registers have the size of each other. -/
def SameSizes (ds : List Nat) : Prop := ∀ a ∈ ds, ∀ b ∈ ds, a = b

/-- The tables a package can have: that of a new package, and those left by any Kronecker product. -/
inductive KReachable (H : KHash) : KTable → Prop
  | new : KReachable H fun _ => none
  | kron (ds1 : List Nat) (x : Edge ds1) (ds2 : List Nat) (y : Edge ds2) (r : Edge (ds1 ++ ds2)) (t t' : KTable) :
      KReachable H t → kronecker H ds1 x ds2 y t = .ok (r, t') → KReachable H t'

end Qudits.Spec
