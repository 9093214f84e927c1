import Verif.Lemmas.PrepTree
import Verif.Lemmas.PrepSeq
namespace Qudits
open Spec MicroDD StatePrep LocalQR Matrix

/-! Operations on functions of level assignments. -/

/-- the controls are met -/
def Sat (ctl : List (Int × Int)) (x : Nat → Nat) : Prop := ∀ p ∈ ctl, ((x p.1.toNat : Nat) : Int) = p.2

/-- every level exists, levels beyond the register are zero -/
def ValidLv (D : List Nat) (x : Nat → Nat) : Prop := ∀ i, x i < D.getD i 1

open Classical in
/-- the effect of an operation on a state -/
noncomputable def act (D : List Nat) (o : PrepOp) (ψ : (Nat → Nat) → ℂ) : (Nat → Nat) → ℂ := fun x =>
  if h : Sat o.controls x ∧ x o.qudit.toNat < D.getD o.qudit.toNat 1 then
    ∑ l : Fin (D.getD o.qudit.toNat 1), entryOp (D.getD o.qudit.toNat 1) (o.levels, (o.theta, o.phi)) ⟨x o.qudit.toNat, h.2⟩ l *
      ψ (Function.update x o.qudit.toNat l)
  else ψ x

noncomputable def acts (D : List Nat) : List PrepOp → ((Nat → Nat) → ℂ) → (Nat → Nat) → ℂ
  | [], ψ => ψ
  | o :: os, ψ => acts D os (act D o ψ)

theorem acts_append (D : List Nat) (a b : List PrepOp) (ψ : (Nat → Nat) → ℂ) : acts D (a ++ b) ψ = acts D b (acts D a ψ) := by
  induction a generalizing ψ with
  | nil => rfl
  | cons o os ih => exact ih _

/-- operations whose controls fail at `x` do nothing there -/
theorem acts_unsat (D : List Nat) (p : Int × Int) (x : Nat → Nat) (hx : ((x p.1.toNat : Nat) : Int) ≠ p.2) (ops : List PrepOp) :
    (∀ o ∈ ops, p ∈ o.controls) → ∀ ψ, acts D ops ψ x = ψ x := by
  induction ops with
  | nil => intro _ ψ; rfl
  | cons o os ih =>
    intro h ψ
    change acts D os (act D o ψ) x = ψ x
    rw [ih (fun o ho => h o (by simp [ho])), act, dif_neg]
    intro hs
    exact hx (hs.1 p (h o (by simp)))

theorem sat_update {ctl : List (Int × Int)} {k : Nat} (hk : ∀ p ∈ ctl, p.1.toNat ≠ k) (x : Nat → Nat) (l : Nat) :
    Sat ctl (Function.update x k l) ↔ Sat ctl x := by
  unfold Sat
  refine forall_congr' fun p => forall_congr' fun hp => ?_
  rw [Function.update_of_ne (hk p hp)]

/-- a local sequence acts with its product -/
theorem acts_local (D : List Nat) (ctl : List (Int × Int)) (k : Nat) (hk : ∀ p ∈ ctl, p.1.toNat ≠ k)
    (seq : List ((Int × Int) × ℝ × ℝ)) : ∀ (ψ : (Nat → Nat) → ℂ) (x : Nat → Nat), Sat ctl x → ∀ hx : x k < D.getD k 1,
    acts D (seq.map fun e => (⟨ctl, k, e.1, e.2.1, e.2.2⟩ : PrepOp)) ψ x =
      ∑ l : Fin (D.getD k 1), circuitOp (entryOp (D.getD k 1)) seq ⟨x k, hx⟩ l * ψ (Function.update x k l) := by
  induction seq with
  | nil =>
    intro ψ x _ hx
    simp only [List.map_nil, acts, circuitOp_nil, Matrix.one_apply]
    rw [Finset.sum_eq_single (⟨x k, hx⟩ : Fin (D.getD k 1))]
    · simp
    · intro b _ hb; rw [if_neg (Ne.symm hb), zero_mul]
    · intro h; exact absurd (Finset.mem_univ _) h
  | cons e es ih =>
    intro ψ x hs hx
    rw [List.map_cons]
    change acts D _ (act D _ ψ) x = _
    rw [ih _ x hs hx, circuitOp_cons]
    simp only [Matrix.mul_apply, Finset.sum_mul]
    rw [Finset.sum_comm]
    refine Finset.sum_congr rfl fun l _ => ?_
    rw [act, dif_pos (show _ ∧ _ from ⟨(sat_update hk x l).2 hs, by simpa using l.2⟩), Finset.mul_sum]
    refine Finset.sum_congr rfl fun m _ => ?_
    simp only [Int.toNat_natCast, Function.update_self, Function.update_idem]
    rw [mul_assoc]

/-- levels of the lines from `k` on -/
def lvl (x : Nat → Nat) (k : Nat) : List Nat → List Nat
  | [] => []
  | _ :: cs => x k :: lvl x (k + 1) cs

theorem lvl_length (x : Nat → Nat) : ∀ (k : Nat) (dims : List Nat), (lvl x k dims).length = dims.length
  | _, [] => rfl
  | k, _ :: cs => by simp [lvl, lvl_length x (k + 1) cs]

theorem drop_succ_of {D : List Nat} {k c : Nat} {cs : List Nat} (h : D.drop k = c :: cs) :
    k < D.length ∧ D.getD k 1 = c ∧ D.getD k 0 = c ∧ D.drop (k + 1) = cs := by
  have hk : k < D.length := by
    by_contra hk
    rw [List.drop_eq_nil_of_le (by omega)] at h
    cases h
  have h2 := List.drop_eq_getElem_cons hk
  rw [h2] at h
  injection h with h3 h4
  refine ⟨hk, ?_, ?_, h4⟩ <;> rw [List.getD_eq_getElem?_getD, List.getElem?_eq_getElem hk, Option.getD_some, h3]

theorem lvl_levels {D : List Nat} {x : Nat → Nat} (hx : ValidLv D x) : ∀ (dims : List Nat) (k : Nat), D.drop k = dims →
    Levels dims (lvl x k dims)
  | [], _, _ => List.Forall₂.nil
  | c :: cs, k, h => by
    obtain ⟨_, h2, _, h4⟩ := drop_succ_of h
    exact List.Forall₂.cons (h2 ▸ hx k) (lvl_levels hx cs (k + 1) h4)

/-- lines from `k` on set to zero -/
def zeroFrom (k : Nat) (x : Nat → Nat) : Nat → Nat := fun i => if i < k then x i else 0

theorem valid_zeroFrom {D : List Nat} {x : Nat → Nat} (hx : ValidLv D x) (k : Nat) : ValidLv D (zeroFrom k x) := by
  intro i
  unfold zeroFrom
  split
  · exact hx i
  · exact lt_of_le_of_lt (Nat.zero_le _) (hx i)

/-- controls on different lines before `k`, at existing levels, in ascending order -/
def CtlOK (D : List Nat) (k : Nat) (ctl : List (Int × Int)) : Prop :=
  ctl.Pairwise (fun p q => p.1 < q.1) ∧ ∀ p ∈ ctl, ∃ line lev : Nat, p = ((line : Int), (lev : Int)) ∧ line < k ∧ lev < D.getD line 0

def OpOK (D : List Nat) (o : PrepOp) : Prop :=
  ∃ k : Nat, o.qudit = k ∧ k < D.length ∧
    (o.levels = (-1, 0) ∨ ∃ i : Nat, i + 1 < D.getD k 0 ∧ o.levels = ((i : Int), (i : Int) + 1)) ∧ CtlOK D k o.controls

theorem CtlOK.weaken {D : List Nat} {k : Nat} {ctl : List (Int × Int)} (h : CtlOK D k ctl) : CtlOK D (k + 1) ctl :=
  ⟨h.1, fun p hp => by obtain ⟨a, b, e, h1, h2⟩ := h.2 p hp; exact ⟨a, b, e, by omega, h2⟩⟩

theorem CtlOK.push {D : List Nat} {k : Nat} {ctl : List (Int × Int)} (h : CtlOK D k ctl) {i : Nat} (hi : i < D.getD k 0) :
    CtlOK D (k + 1) (ctl ++ [((k : Int), (i : Int))]) := by
  refine ⟨?_, ?_⟩
  · rw [List.pairwise_append]
    refine ⟨h.1, List.pairwise_singleton _ _, ?_⟩
    intro p hp q hq
    rw [List.mem_singleton.1 hq]
    obtain ⟨a, b, e, h1, h2⟩ := h.2 p hp
    rw [e]; simp only; omega
  · intro p hp
    rcases List.mem_append.1 hp with hp | hp
    · exact h.weaken.2 p hp
    · rw [List.mem_singleton.1 hp]; exact ⟨k, i, rfl, by omega, hi⟩

theorem CtlOK.ne {D : List Nat} {k : Nat} {ctl : List (Int × Int)} (h : CtlOK D k ctl) : ∀ p ∈ ctl, p.1.toNat ≠ k := by
  intro p hp
  obtain ⟨a, b, e, h1, h2⟩ := h.2 p hp
  rw [e]; simp; omega

theorem CtlOK.sat_congr {D : List Nat} {k : Nat} {ctl : List (Int × Int)} (h : CtlOK D k ctl) {x y : Nat → Nat}
    (hxy : ∀ i, i < k → y i = x i) (hx : Sat ctl x) : Sat ctl y := by
  intro p hp
  obtain ⟨a, b, e, h1, h2⟩ := h.2 p hp
  have := hx p hp
  rw [e] at this ⊢
  simp only [Int.toNat_natCast] at this ⊢
  rw [hxy a h1]; exact this

/-- the state after the local sequence of a node on the lines above it -/
theorem local_state {D : List Nat} {k c : Nat} {cs : List Nat} (hdrop : D.drop k = c :: cs) {ctl : List (Int × Int)} (hctl : CtlOK D k ctl)
    {seq : List ((Int × Int) × ℝ × ℝ)} {ws : List ℂ} (hseq : circuitOp (entryOp c) seq *ᵥ first c = vec c ws)
    (ψ : (Nat → Nat) → ℂ) (x : Nat → Nat) (hx : ValidLv D x) (hs : Sat ctl x)
    (hψ : ∀ x', ValidLv D x' → (∀ i, i < k → x' i = x i) → (∃ i, k ≤ i ∧ x' i ≠ 0) → ψ x' = 0) :
    ((∃ i, k < i ∧ x i ≠ 0) → acts D (seq.map fun e => (⟨ctl, k, e.1, e.2.1, e.2.2⟩ : PrepOp)) ψ x = 0) ∧
    ((∀ i, k < i → x i = 0) → acts D (seq.map fun e => (⟨ctl, k, e.1, e.2.1, e.2.2⟩ : PrepOp)) ψ x =
      ws.getD (x k) 0 * ψ (zeroFrom k x)) := by
  obtain ⟨h1, h2, h3, h4⟩ := drop_succ_of hdrop
  have hup : ∀ l : Nat, l < D.getD k 1 → ValidLv D (Function.update x k l) := by
    intro l hl i
    by_cases hi : i = k
    · subst hi; rw [Function.update_self]; exact hl
    · rw [Function.update_of_ne hi]; exact hx i
  rw [acts_local D ctl k hctl.ne seq ψ x hs (hx k)]
  constructor
  · rintro ⟨i, hi, hne⟩
    refine Finset.sum_eq_zero fun l _ => ?_
    rw [hψ _ (hup l l.2) (fun j hj => by rw [Function.update_of_ne (by omega)]) ⟨i, by omega, by rw [Function.update_of_ne (by omega)]; exact hne⟩,
      mul_zero]
  · intro hz
    have hpos : 0 < D.getD k 1 := lt_of_le_of_lt (Nat.zero_le _) (hx k)
    rw [Finset.sum_eq_single (⟨0, hpos⟩ : Fin (D.getD k 1))]
    · have hu : Function.update x k 0 = zeroFrom k x := by
        funext i
        unfold zeroFrom
        by_cases hi : i = k
        · subst hi; simp
        · rw [Function.update_of_ne hi]
          split
          · rfl
          · exact hz i (by omega)
      simp only [hu]
      congr 1
      subst h2
      have := congrFun hseq ⟨x k, hx k⟩
      simp only [vec] at this
      rw [← this, Matrix.mulVec, dotProduct, Finset.sum_eq_single (⟨0, hpos⟩ : Fin (D.getD k 1))]
      · simp [first]
      · intro b _ hb
        have : (b : Nat) ≠ 0 := fun h => hb (Fin.ext h)
        simp [first, this]
      · intro h; exact absurd (Finset.mem_univ _) h
    · intro b _ hb
      have : (b : Nat) ≠ 0 := fun h => hb (Fin.ext h)
      rw [hψ _ (hup b b.2) (fun j hj => by rw [Function.update_of_ne (by omega)]) ⟨k, le_refl _, by rw [Function.update_self]; exact this⟩,
        mul_zero]
    · intro h; exact absurd (Finset.mem_univ _) h

end Qudits
