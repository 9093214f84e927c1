import Verif.Model.EntQR
import Verif.Spec.QrSpec
/-
What a list of gates on two lines means.  The levels of the pair are numbered `k * t + l`, where `k` is the level of the first line,
`l` the level of the second and `t` the dimension of the second.
-/
namespace Qudits.Spec
open Matrix Complex EntQR

variable {c t : Nat}

/-- `A` on the first line of a pair. -/
def onFirst (t : Nat) (A : Matrix (Fin c) (Fin c) ℂ) : Matrix (Fin (c * t)) (Fin (c * t)) ℂ := fun x y =>
  if x.modNat = y.modNat then A x.divNat y.divNat else 0

/-- `B` on the second line of a pair. -/
def onSecond (c : Nat) (B : Matrix (Fin t) (Fin t) ℂ) : Matrix (Fin (c * t)) (Fin (c * t)) ℂ := fun x y =>
  if x.divNat = y.divNat then B x.modNat y.modNat else 0

/-- `B` on the second line if the first line is at level `k`. -/
def ifFirst (c : Nat) (k : Int) (B : Matrix (Fin t) (Fin t) ℂ) : Matrix (Fin (c * t)) (Fin (c * t)) ℂ := fun x y =>
  if x.divNat = y.divNat then (if ((x.divNat : Nat) : Int) = k then B else 1) x.modNat y.modNat else 0

/-- the adjoint if the mark is set -/
def adjIf {n : Type} (b : Bool) (A : Matrix n n ℂ) : Matrix n n ℂ := if b then Aᴴ else A

/-- The operator of a gate on the pair of lines. -/
noncomputable def pairOp (P : Pair) : EGate → Matrix (Fin (P.c * P.t)) (Fin (P.c * P.t)) ℂ
  | .one k line d b =>
    match k.array d with
    | .ok A => if line = P.q0 then onFirst P.t (adjIf b (A.toM P.c)) else onSecond P.c (adjIf b (A.toM P.t))
    | .error _ => 0
  | .cex g _ _ _ _ b =>
    match cexOpArray P.t g with
    | .ok A => adjIf b (ifFirst P.c g.ctrl (A.toM P.t))
    | .error _ => 0

/-- The rotation by `phi` about the polar axis. -/
noncomputable def zrot (phi : ℝ) : Matrix (Fin 2) (Fin 2) ℂ :=
  !![cexp (-(I * ((phi / 2 : ℝ) : ℂ))), 0; 0, cexp (I * ((phi / 2 : ℝ) : ℂ))]

/-- A gate that the decomposition is allowed to use: a gate on one of the two lines, or the controlled exchange of levels 0 and 1 of the
second line at level 1 of the first. -/
def Elementary (P : Pair) : EGate → Prop
  | .one _ line d _ => line = P.q0 ∧ d = P.c ∨ line = P.q1 ∧ d = P.t
  | .cex g q0 q1 d0 d1 _ => g = ⟨0, 1, 1, 0⟩ ∧ q0 = P.q0 ∧ q1 = P.q1 ∧ d0 = P.c ∧ d1 = P.t

/-- The placement of the levels of the pair that the placements of the levels of the lines give. -/
def pairPlace (f0 : Equiv.Perm (Fin c)) (f1 : Equiv.Perm (Fin t)) : Equiv.Perm (Fin (c * t)) :=
  (finProdFinEquiv.symm.trans (Equiv.prodCongr f0 f1)).trans finProdFinEquiv

/-- A placement as the list of the physical levels of the logical levels. -/
def placementList {n : Nat} (f : Equiv.Perm (Fin n)) : List Int := List.ofFn fun i => ((f i : Nat) : Int)

/-- the number of controlled exchanges in a list -/
def entangling (l : List EGate) : Nat := (l.filter fun g => match g with | .cex .. => true | _ => false).length

end Qudits.Spec
