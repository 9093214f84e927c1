import Verif.Model.Verifier
import Verif.Spec.VerifierSpec
import Verif.Lemmas.GateArrays
import Verif.Lemmas.PrepSeq
import Verif.Lemmas.Register
import Verif.Lemmas.OpNorm
/- Lemmas about the checks of naive_unitary_verifier.py. -/
namespace Qudits.Verifier
open Spec Matrix StatePrep
open scoped Matrix.Norms.L2Operator

/-- the loop over the gates, for arrays of the same size -/
theorem products {m : Nat} (ids : Nat) (ops : List (Gate × Arr2 ℂ)) (Ms : List (Matrix (Fin m) (Fin m) ℂ))
    (h : List.Forall₂ (fun op M => ∃ B, op.1.toMatrix op.2 ids = .ok B ∧ B.rows = m ∧ B.cols = m ∧ B.toM m = M) ops Ms) (T : Arr2 ℂ)
    (hr : T.rows = m) (hc : T.cols = m) :
    ∃ R, ops.foldlM (fun m op => do
        let a ← op.1.toMatrix op.2 ids
        a.matmul m) T = .ok R ∧ R.rows = m ∧ R.cols = m ∧ R.toM m = Ms.reverse.prod * T.toM m := by
  induction h generalizing T with
  | nil => exact ⟨T, rfl, hr, hc, by simp⟩
  | @cons op M ops Ms h1 h2 ih =>
    obtain ⟨B, b1, b2, b3, b4⟩ := h1
    obtain ⟨A, a1, a2, a3, a4⟩ := matmul_ok B T m b2 b3 hr hc
    obtain ⟨R, r1, r2, r3, r4⟩ := ih A a2 a3
    refine ⟨R, ?_, r2, r3, ?_⟩
    · rw [List.foldlM_cons, b1]
      simp only [bind, Except.bind, a1]
      exact r1
    · rw [r4, a4, b4, List.reverse_cons, List.prod_append, List.prod_singleton, Matrix.mul_assoc]

theorem applyAll_ok {m : Nat} (ops : List (Gate × Arr2 ℂ)) (Ms : List (Matrix (Fin m) (Fin m) ℂ))
    (h : List.Forall₂ (fun op M => ∃ B, op.1.toMatrix op.2 2 = .ok B ∧ B.rows = m ∧ B.cols = m ∧ B.toM m = M) ops Ms) (v : List ℂ)
    (hv : v.length = m) : ∃ u, applyAll ops v = .ok u ∧ u.length = m ∧ vec m u = Ms.reverse.prod *ᵥ vec m v := by
  unfold applyAll
  induction h generalizing v with
  | nil => exact ⟨v, rfl, hv, by simp⟩
  | @cons op M ops Ms h1 h2 ih =>
    obtain ⟨B, b1, b2, b3, b4⟩ := h1
    obtain ⟨w, w1, w2, w3⟩ := matVec_ok B m b2 b3 v hv
    obtain ⟨u, u1, u2, u3⟩ := ih w w2
    refine ⟨u, ?_, u2, ?_⟩
    · rw [List.foldlM_cons, b1]
      simp only [bind, Except.bind, w1]
      exact u1
    · rw [u3, w3, b4, List.reverse_cons, List.prod_append, List.prod_singleton, Matrix.mulVec_mulVec]

/-! ### permutations -/

theorem item_ok {m : Nat} (p : Equiv.Perm (Fin m)) (i : Fin m) : item (permList p) i = .ok ((p i : Nat) : Int) := by
  unfold item permList
  rw [List.getElem?_ofFn, dif_pos i.isLt]

theorem position_ok {m : Nat} (k : Fin m) : position m ((k : Nat) : Int) = .ok (k : Nat) := by
  unfold position
  rw [if_pos (by have := k.isLt; omega)]
  simp

/-- the matrix that carries level `s i` to level `p i` -/
def carry {m : Nat} (s p : Equiv.Perm (Fin m)) : Matrix (Fin m) (Fin m) ℂ := fun r c => if r = p (s.symm c) then 1 else 0

theorem carry_apply {m : Nat} (s p : Equiv.Perm (Fin m)) (r c : Fin m) : carry s p r c = if r = p (s.symm c) then 1 else 0 := rfl

theorem permMatrix_fun {m : Nat} (s : Equiv.Perm (Fin m)) (p : Fin m → Fin m) :
    ∃ A, permMatrix m (permList s) (List.ofFn fun i => ((p i : Nat) : Int)) = .ok A ∧ A.rows = m ∧ A.cols = m ∧
      ∀ r c, A.toM m r c = if r = p (s.symm c) then 1 else 0 := by
  obtain ⟨A, h1, h2, h3, h4⟩ := accumulate_ok m (Arr2.zeros m m : Arr2 ℂ) (fun i => do
    let a ← item (permList s) i
    let a ← position m a
    let b ← item (List.ofFn fun i => ((p i : Nat) : Int)) i
    let b ← position m b
    pure (⟨m, m, fun r c => if r = b ∧ c = a then 1 else 0⟩ : Arr2 ℂ))
    (fun i => if h : i < m then ⟨m, m, fun r c => if r = (p ⟨i, h⟩ : Nat) ∧ c = (s ⟨i, h⟩ : Nat) then 1 else 0⟩ else Arr2.zeros m m) (by
      intro i hi
      have e1 := item_ok s ⟨i, hi⟩
      have e2 : item (List.ofFn fun i => ((p i : Nat) : Int)) i = .ok ((p ⟨i, hi⟩ : Nat) : Int) := by
        unfold item
        rw [List.getElem?_ofFn, dif_pos hi]
      simp only at e1
      simp only [e1, e2, bind, Except.bind, position_ok, dif_pos hi]
      rfl) (by
      intro i hi
      rw [dif_pos hi]
      exact ⟨rfl, rfl⟩)
  refine ⟨A, h1, h2, h3, ?_⟩
  intro r c
  show A.at' r c = _
  rw [h4, Finset.sum_range]
  simp only [Arr2.zeros, zero_add, Fin.is_lt, dif_pos, Fin.eta]
  rw [Finset.sum_eq_single (s.symm c)]
  · simp [Fin.ext_iff]
  · intro b _ hb
    rw [if_neg]
    rintro ⟨_, h⟩
    apply hb
    rw [Equiv.eq_symm_apply]
    exact Fin.ext h.symm
  · intro h; exact absurd (Finset.mem_univ _) h

theorem permMatrix_ok {m : Nat} (s p : Equiv.Perm (Fin m)) :
    ∃ A, permMatrix m (permList s) (permList p) = .ok A ∧ A.rows = m ∧ A.cols = m ∧ A.toM m = carry s p := by
  obtain ⟨A, h1, h2, h3, h4⟩ := permMatrix_fun s p
  exact ⟨A, h1, h2, h3, by ext r c; exact h4 r c⟩

theorem carry_unitary {m : Nat} (s p : Equiv.Perm (Fin m)) : carry s p * carry p s = 1 := by
  ext r c
  rw [Matrix.mul_apply]
  unfold carry
  rw [Finset.sum_eq_single (s (p.symm c))]
  · simp [Matrix.one_apply]
  · intro b _ hb
    rw [if_neg hb, mul_zero]
  · intro h; exact absurd (Finset.mem_univ _) h

theorem inv_carry {m : Nat} (s p : Equiv.Perm (Fin m)) (A : Arr2 ℂ) (hr : A.rows = m) (hc : A.cols = m) (hA : A.toM m = carry s p) :
    ∃ B, Visual.inv A = .ok B ∧ B.rows = m ∧ B.cols = m ∧ B.toM m = carry p s := by
  obtain ⟨ar, ac, aa⟩ := A
  simp only at hr hc
  subst hr
  have h1 : carry p s * carry s p = 1 := carry_unitary p s
  have hdet : ((⟨ar, ac, aa⟩ : Arr2 ℂ).toM ar).det ≠ 0 := by
    intro h
    rw [hA] at h
    have := congrArg Matrix.det h1
    rw [Matrix.det_mul, h, mul_zero, Matrix.det_one] at this
    exact zero_ne_one this
  unfold Visual.inv
  refine ⟨_, if_pos ⟨hc.symm, hdet⟩, rfl, rfl, ?_⟩
  ext r c
  show (if h : (r : Nat) < ar ∧ (c : Nat) < ar then _ else _) = _
  rw [dif_pos ⟨r.isLt, c.isLt⟩]
  simp only
  rw [hA, Matrix.inv_eq_left_inv h1]

/-- conjugating by the placements is reading the entries at other levels -/
theorem carry_entry {m : Nat} (s p q : Equiv.Perm (Fin m)) (D : Matrix (Fin m) (Fin m) ℂ) (i j : Fin m) :
    (carry q s * (D * carry s p)) (s i) (s j) = D (q i) (p j) := by
  rw [Matrix.mul_apply, Finset.sum_eq_single (q i)]
  · rw [carry_apply, if_pos (by simp), one_mul, Matrix.mul_apply, Finset.sum_eq_single (p j)]
    · rw [carry_apply, if_pos (by simp), mul_one]
    · intro b _ hb
      rw [carry_apply, if_neg (by simpa using hb), mul_zero]
    · intro h; exact absurd (Finset.mem_univ _) h
  · intro b _ hb
    rw [carry_apply, if_neg, zero_mul]
    intro h
    apply hb
    have := s.injective h
    rw [Equiv.eq_symm_apply] at this
    exact this.symm
  · intro h; exact absurd (Finset.mem_univ _) h

/-! ### the comparison -/

/-- the comparison at the end of `verify` -/
def Passes {m : Nat} (hm : 0 < m) (W : Matrix (Fin m) (Fin m) ℂ) : Prop :=
  W ⟨0, hm⟩ ⟨0, hm⟩ ≠ 0 ∧ ∀ r c, ‖W r c / W ⟨0, hm⟩ ⟨0, hm⟩ - (if r = c then 1 else 0)‖ < 1 / 10000

theorem passes_near {m : Nat} (hm : 0 < m) (W : Matrix (Fin m) (Fin m) ℂ) (hW : W ∈ unitaryGroup (Fin m) ℂ) (h : Passes hm W) :
    ∃ z : ℂ, ‖z‖ = 1 ∧ ‖W - z • (1 : Matrix (Fin m) (Fin m) ℂ)‖ ≤ m * (1 / 10000) + m * (1 / 10000) ^ 2 := by
  obtain ⟨h0, h⟩ := h
  set w := W ⟨0, hm⟩ ⟨0, hm⟩ with hw
  have hpos : 0 < ‖w‖ := norm_pos_iff.2 h0
  have hent : ∀ r c, ‖W r c - w * (if r = c then 1 else 0)‖ ≤ ‖w‖ * (1 / 10000) := by
    intro r c
    have e : W r c - w * (if r = c then 1 else 0) = w * (W r c / w - (if r = c then 1 else 0)) := by
      rw [mul_sub, mul_div_cancel₀ _ h0]
    rw [e, norm_mul]
    exact mul_le_mul_of_nonneg_left (h r c).le (norm_nonneg _)
  have hcol : ∑ r, ‖W r ⟨0, hm⟩‖ ^ 2 = 1 := by
    have := congrFun (congrFun ((mem_unitaryGroup_iff').1 hW) ⟨0, hm⟩) ⟨0, hm⟩
    rw [Matrix.mul_apply, one_apply_eq] at this
    have e : ((∑ r, ‖W r ⟨0, hm⟩‖ ^ 2 : ℝ) : ℂ) = 1 := by
      rw [← this]
      push_cast
      refine Finset.sum_congr rfl fun i _ => ?_
      rw [star_apply, RCLike.star_def, Complex.conj_mul']
    exact_mod_cast e
  have hle : ‖w‖ ≤ 1 := by
    have : ‖w‖ ^ 2 ≤ 1 := by
      rw [← hcol]
      exact Finset.single_le_sum (f := fun r => ‖W r ⟨0, hm⟩‖ ^ 2) (fun _ _ => by positivity) (Finset.mem_univ _)
    nlinarith [norm_nonneg w]
  have hge : 1 - m * (1 / 10000 : ℝ) ^ 2 ≤ ‖w‖ := by
    have e1 : ∑ r, ‖W r ⟨0, hm⟩‖ ^ 2 ≤ ‖w‖ ^ 2 + m * (1 / 10000 : ℝ) ^ 2 := by
      rw [← Finset.add_sum_erase _ _ (Finset.mem_univ (⟨0, hm⟩ : Fin m))]
      refine add_le_add (le_refl _) ?_
      refine (Finset.sum_le_card_nsmul _ _ ((1 / 10000 : ℝ) ^ 2) ?_).trans ?_
      · intro r hr
        have hr' := Finset.ne_of_mem_erase hr
        have := hent r ⟨0, hm⟩
        rw [if_neg hr', mul_zero, sub_zero] at this
        have : ‖W r ⟨0, hm⟩‖ ≤ 1 / 10000 := this.trans (by nlinarith)
        exact pow_le_pow_left₀ (norm_nonneg _) this 2
      · rw [nsmul_eq_mul]
        refine mul_le_mul_of_nonneg_right ?_ (by positivity)
        have := Finset.card_erase_le (s := (Finset.univ : Finset (Fin m))) (a := ⟨0, hm⟩)
        rw [Finset.card_univ, Fintype.card_fin] at this
        exact_mod_cast this
    rw [hcol] at e1
    nlinarith [norm_nonneg w]
  refine ⟨w / ‖w‖, ?_, ?_⟩
  · rw [norm_div, Complex.norm_real, norm_norm, div_self hpos.ne']
  · have e1 : W - (w / (‖w‖ : ℂ)) • (1 : Matrix (Fin m) (Fin m) ℂ) =
        (W - w • (1 : Matrix (Fin m) (Fin m) ℂ)) + (w - w / (‖w‖ : ℂ)) • (1 : Matrix (Fin m) (Fin m) ℂ) := by
      rw [sub_smul]; abel
    rw [e1]
    refine (norm_add_le _ _).trans (add_le_add ?_ ?_)
    · have := norm_le_of_entries (e := 1 / 10000) (by norm_num) (W - w • (1 : Matrix (Fin m) (Fin m) ℂ)) (by
        intro r c
        rw [Matrix.sub_apply, Matrix.smul_apply, one_apply, smul_eq_mul]
        exact (hent r c).trans (by nlinarith))
      rwa [Fintype.card_fin] at this
    · have hone : ‖(1 : Matrix (Fin m) (Fin m) ℂ)‖ ≤ 1 := by
        have : Nonempty (Fin m) := ⟨⟨0, hm⟩⟩
        rw [norm_one]
      refine (norm_smul_le _ _).trans ?_
      have e2 : w - w / (‖w‖ : ℂ) = (w / (‖w‖ : ℂ)) * ((‖w‖ - 1 : ℝ) : ℂ) := by
        have : (‖w‖ : ℂ) ≠ 0 := by exact_mod_cast hpos.ne'
        push_cast
        field_simp
      rw [e2, norm_mul, norm_div, Complex.norm_real, Complex.norm_real, norm_norm, div_self hpos.ne', one_mul, Real.norm_eq_abs,
        abs_of_nonpos (by linarith)]
      nlinarith [norm_nonneg (1 : Matrix (Fin m) (Fin m) ℂ)]

theorem near_passes {m : Nat} (hm : 0 < m) (W : Matrix (Fin m) (Fin m) ℂ) {z : ℂ} (hz : ‖z‖ = 1)
    (h : ‖W - z • (1 : Matrix (Fin m) (Fin m) ℂ)‖ ≤ 49 / 1000000) : Passes hm W := by
  have hent : ∀ r c, ‖W r c - z * (if r = c then 1 else 0)‖ ≤ 49 / 1000000 := by
    intro r c
    have := (norm_entry_le _ r c).trans h
    rwa [Matrix.sub_apply, Matrix.smul_apply, one_apply, smul_eq_mul] at this
  set w := W ⟨0, hm⟩ ⟨0, hm⟩ with hw
  have h1 : ‖w - z‖ ≤ 49 / 1000000 := by
    have := hent ⟨0, hm⟩ ⟨0, hm⟩
    rwa [if_pos rfl, mul_one] at this
  have h2 : 1 - 49 / 1000000 ≤ ‖w‖ := by
    have := norm_sub_norm_le z w
    rw [norm_sub_rev, hz] at this
    linarith
  have h0 : w ≠ 0 := by
    intro h
    rw [h, norm_zero] at h2
    norm_num at h2
  refine ⟨h0, fun r c => ?_⟩
  have hpos : 0 < ‖w‖ := norm_pos_iff.2 h0
  have e : W r c / w - (if r = c then 1 else 0) = (W r c - z * (if r = c then 1 else 0) + (z - w) * (if r = c then 1 else 0)) / w := by
    field_simp
    ring
  rw [← hw, e, norm_div, div_lt_iff₀ hpos]
  have h3 : ‖(z - w) * (if r = c then 1 else 0 : ℂ)‖ ≤ 49 / 1000000 := by
    rw [norm_mul, norm_sub_rev]
    split_ifs
    · rwa [norm_one, mul_one]
    · rw [norm_zero, mul_zero]; norm_num
  have := (norm_add_le (W r c - z * (if r = c then 1 else 0)) ((z - w) * (if r = c then 1 else 0 : ℂ))).trans (add_le_add (hent r c) h3)
  nlinarith

end Qudits.Verifier
