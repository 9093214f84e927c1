import Verif.Lemmas.TwoLevel
import Verif.Lemmas.Angles
import Mathlib.Analysis.SpecialFunctions.Complex.Arg
import Mathlib.LinearAlgebra.UnitaryGroup
import Mathlib.Algebra.BigOperators.Ring.Finset
import Mathlib.Algebra.Order.BigOperators.Group.Finset
import Mathlib.Tactic.LinearCombination
import Mathlib.Tactic.NormNum
namespace Qudits.QRAlg
open Matrix Complex Spec

variable {d : Nat}

/-! ### the rotation that clears an entry -/

theorem clears (x y : ℂ) (hx : x ≠ 0) (theta phi : ℝ) (ht : theta = 2 * Complex.arg ⟨‖y‖, ‖x‖⟩)
    (hp : phi = -(Real.pi / 2 + Complex.arg y - Complex.arg x)) :
    rot theta phi 1 0 * y + rot theta phi 1 1 * x = 0 := by
  set z : ℂ := ⟨‖y‖, ‖x‖⟩ with hz
  have hz0 : z ≠ 0 := by
    intro h
    have := congrArg Complex.im h
    simp [hz] at this
    exact hx this
  have hc : Real.cos (theta / 2) = ‖y‖ / ‖z‖ := by
    rw [ht, mul_div_cancel_left₀ _ two_ne_zero, Complex.cos_arg hz0]
  have hs : Real.sin (theta / 2) = ‖x‖ / ‖z‖ := by
    rw [ht, mul_div_cancel_left₀ _ two_ne_zero, Complex.sin_arg]
  have hzn : (‖z‖ : ℂ) ≠ 0 := by simpa using hz0
  have ey : (‖y‖ : ℂ) * cexp (Complex.arg y * I) = y := Complex.norm_mul_exp_arg_mul_I y
  have ex : (‖x‖ : ℂ) * cexp (Complex.arg x * I) = x := Complex.norm_mul_exp_arg_mul_I x
  have e1 : cexp (I * phi) = -I * cexp (-(Complex.arg y * I)) * cexp (Complex.arg x * I) := by
    have : (I * (phi : ℂ)) = -(Real.pi / 2 * I) + (-(Complex.arg y * I) + Complex.arg x * I) := by
      rw [hp]; push_cast; ring
    rw [this, Complex.exp_add, Complex.exp_add, Complex.exp_neg, Complex.exp_pi_div_two_mul_I, Complex.inv_I]
    ring
  have e2 : cexp (-(Complex.arg y * I)) * cexp (Complex.arg y * I) = 1 := by rw [← Complex.exp_add]; simp
  simp only [rot, Matrix.of_apply, Matrix.cons_val', Matrix.cons_val_zero, Matrix.cons_val_one, Matrix.cons_val_fin_one]
  rw [hc, hs, e1]
  push_cast
  field_simp
  have key : -I * -I = -1 := by simp
  calc _ = -I * -I * cexp (-(Complex.arg y * I)) * (‖x‖ * cexp (Complex.arg x * I)) * y + ‖y‖ * x := by ring
    _ = -(cexp (-(Complex.arg y * I)) * x * y) + ‖y‖ * x := by rw [key, ex]; ring
    _ = -(cexp (-(Complex.arg y * I)) * x * (‖y‖ * cexp (Complex.arg y * I))) + ‖y‖ * x := by rw [ey]
    _ = -((cexp (-(Complex.arg y * I)) * cexp (Complex.arg y * I)) * x * ‖y‖) + ‖y‖ * x := by ring
    _ = ‖z‖ * 0 := by rw [e2]; ring

/-! ### norms -/

theorem normSq_two (M : Matrix (Fin 2) (Fin 2) ℂ) (hM : M ∈ unitaryGroup (Fin 2) ℂ) (a b : ℂ) :
    ‖M 0 0 * a + M 0 1 * b‖ ^ 2 + ‖M 1 0 * a + M 1 1 * b‖ ^ 2 = ‖a‖ ^ 2 + ‖b‖ ^ 2 := by
  have h := (mem_unitaryGroup_iff').1 hM
  have e00 := congrFun (congrFun h 0) 0
  have e01 := congrFun (congrFun h 0) 1
  have e10 := congrFun (congrFun h 1) 0
  have e11 := congrFun (congrFun h 1) 1
  simp only [Matrix.mul_apply, Fin.sum_univ_two, Matrix.star_apply, Matrix.one_apply_eq, RCLike.star_def] at e00 e11
  simp only [Matrix.mul_apply, Fin.sum_univ_two, Matrix.star_apply, RCLike.star_def, Matrix.one_apply_ne (show (0 : Fin 2) ≠ 1 by decide)] at e01
  simp only [Matrix.mul_apply, Fin.sum_univ_two, Matrix.star_apply, RCLike.star_def, Matrix.one_apply_ne (show (1 : Fin 2) ≠ 0 by decide)] at e10
  have hn : ∀ z : ℂ, ((‖z‖ ^ 2 : ℝ) : ℂ) = (starRingEnd ℂ) z * z := by
    intro z
    rw [← Complex.normSq_eq_norm_sq, ← Complex.normSq_eq_conj_mul_self]
  apply Complex.ofReal_injective
  push_cast [hn]
  simp only [map_add, map_mul]
  linear_combination (starRingEnd ℂ a * a) * e00 + (starRingEnd ℂ a * b) * e01 + (starRingEnd ℂ b * a) * e10 + (starRingEnd ℂ b * b) * e11

/-- the mass of column `c` in the rows of `S` does not change when rows inside `S` are rotated -/
theorem mass_twoLevel (a b : Fin d) (hab : a ≠ b) (M : Matrix (Fin 2) (Fin 2) ℂ) (hM : M ∈ unitaryGroup (Fin 2) ℂ)
    (W : Matrix (Fin d) (Fin d) ℂ) (S : Finset (Fin d)) (ha : a ∈ S) (hb : b ∈ S) (c : Fin d) :
    ∑ r ∈ S, ‖(twoLevel a b M * W) r c‖ ^ 2 = ∑ r ∈ S, ‖W r c‖ ^ 2 := by
  rw [← Finset.add_sum_erase S _ ha, ← Finset.add_sum_erase (S.erase a) _ (Finset.mem_erase.2 ⟨hab.symm, hb⟩),
    ← Finset.add_sum_erase S (fun r => ‖W r c‖ ^ 2) ha,
    ← Finset.add_sum_erase (S.erase a) (fun r => ‖W r c‖ ^ 2) (Finset.mem_erase.2 ⟨hab.symm, hb⟩),
    ← add_assoc, ← add_assoc, twoLevel_mul_fst M hab, twoLevel_mul_snd M hab, normSq_two M hM]
  congr 1
  apply Finset.sum_congr rfl
  intro r hr
  rw [Finset.mem_erase, Finset.mem_erase] at hr
  rw [twoLevel_mul_other M W r c hr.2.1 hr.1]

theorem col_mass (W : Matrix (Fin d) (Fin d) ℂ) (hW : W ∈ unitaryGroup (Fin d) ℂ) (c : Fin d) : ∑ r, ‖W r c‖ ^ 2 = 1 := by
  have h := congrFun (congrFun ((mem_unitaryGroup_iff').1 hW) c) c
  simp only [Matrix.mul_apply, Matrix.star_apply, RCLike.star_def, Matrix.one_apply_eq] at h
  apply Complex.ofReal_injective
  push_cast
  rw [← h]
  apply Finset.sum_congr rfl
  intro r _
  rw [← Complex.normSq_eq_conj_mul_self, Complex.normSq_eq_norm_sq]
  push_cast; rfl

theorem row_mass (W : Matrix (Fin d) (Fin d) ℂ) (hW : W ∈ unitaryGroup (Fin d) ℂ) (r : Fin d) : ∑ c, ‖W r c‖ ^ 2 = 1 := by
  have h : Wᴴ ∈ unitaryGroup (Fin d) ℂ := Unitary.star_mem hW
  have := col_mass Wᴴ h r
  simpa [Matrix.conjTranspose_apply] using this

/-- a unitary matrix has the same mass above right and below left of any position on the diagonal -/
theorem block_mass (W : Matrix (Fin d) (Fin d) ℂ) (hW : W ∈ unitaryGroup (Fin d) ℂ) (p : Fin d → Prop) [DecidablePred p] :
    ∑ i ∈ Finset.univ.filter p, ∑ j ∈ Finset.univ.filter (fun j => ¬ p j), ‖W i j‖ ^ 2 =
      ∑ i ∈ Finset.univ.filter (fun i => ¬ p i), ∑ j ∈ Finset.univ.filter p, ‖W i j‖ ^ 2 := by
  have h1 : ∑ i ∈ Finset.univ.filter p, ∑ j, ‖W i j‖ ^ 2 = (Finset.univ.filter p).card := by
    rw [Finset.sum_congr rfl (fun i _ => row_mass W hW i)]; simp
  have h2 : ∑ j ∈ Finset.univ.filter p, ∑ i, ‖W i j‖ ^ 2 = (Finset.univ.filter p).card := by
    rw [Finset.sum_congr rfl (fun j _ => col_mass W hW j)]; simp
  have h3 : ∀ f : Fin d → ℝ, ∑ j, f j = ∑ j ∈ Finset.univ.filter p, f j + ∑ j ∈ Finset.univ.filter (fun j => ¬ p j), f j :=
    fun f => (Finset.sum_filter_add_sum_filter_not Finset.univ p f).symm
  rw [Finset.sum_congr rfl (fun i _ => h3 _), Finset.sum_add_distrib] at h1
  rw [Finset.sum_congr rfl (fun i _ => h3 _), Finset.sum_add_distrib] at h2
  rw [Finset.sum_comm (s := Finset.univ.filter p) (t := Finset.univ.filter p)] at h2
  rw [Finset.sum_comm (s := Finset.univ.filter fun i => ¬ p i)]
  linarith

/-- the rows below row `c` -/
def below (c : Fin d) : Finset (Fin d) := Finset.univ.filter fun r => c < r

theorem mem_below (c r : Fin d) : r ∈ below c ↔ c < r := by simp [below]

theorem card_below (c : Fin d) : (below c).card = d - 1 - (c : Nat) := by
  unfold below
  rw [show (Finset.univ.filter fun r => c < r) = Finset.Ioi c by ext; simp, Fin.card_Ioi]

/-- If the mass below the diagonal is at most `B`, a unitary matrix is close to a diagonal matrix of phases. -/
theorem near_diagonal (W : Matrix (Fin d) (Fin d) ℂ) (hW : W ∈ unitaryGroup (Fin d) ℂ) (B : ℝ)
    (hB : ∑ c, ∑ r ∈ below c, ‖W r c‖ ^ 2 ≤ B) :
    (∀ i j, i ≠ j → ‖W i j‖ ^ 2 ≤ B) ∧ ∀ i, 1 - 2 * B ≤ ‖W i i‖ ∧ ‖W i i‖ ≤ 1 := by
  have low : ∀ p : Fin d → Prop, ∀ _ : DecidablePred p, (∀ i j, ¬ p i → p j → j < i) →
      ∑ i ∈ Finset.univ.filter (fun i => ¬ p i), ∑ j ∈ Finset.univ.filter p, ‖W i j‖ ^ 2 ≤ B := by
    intro p _ hp
    refine le_trans ?_ hB
    rw [Finset.sum_comm]
    refine le_trans (Finset.sum_le_sum (g := fun j => ∑ r ∈ below j, ‖W r j‖ ^ 2) ?_) ?_
    · intro j hj
      apply Finset.sum_le_sum_of_subset_of_nonneg
      · intro i hi
        rw [mem_below]
        exact hp i j (Finset.mem_filter.1 hi).2 (Finset.mem_filter.1 hj).2
      · intros; positivity
    · apply Finset.sum_le_sum_of_subset_of_nonneg (Finset.filter_subset _ _)
      intros; exact Finset.sum_nonneg (fun _ _ => by positivity)
  have up : ∀ p : Fin d → Prop, ∀ _ : DecidablePred p, (∀ i j, ¬ p i → p j → j < i) →
      ∑ i ∈ Finset.univ.filter p, ∑ j ∈ Finset.univ.filter (fun j => ¬ p j), ‖W i j‖ ^ 2 ≤ B := by
    intro p hd hp
    rw [block_mass W hW p]
    exact low p hd hp
  have rowLow : ∀ i, ∑ j ∈ Finset.univ.filter (fun j => j < i), ‖W i j‖ ^ 2 ≤ B := by
    intro i
    refine le_trans ?_ (low (fun j => j < i) inferInstance (fun a b ha hb => lt_of_lt_of_le hb (not_lt.1 ha)))
    apply Finset.single_le_sum (f := fun i' => ∑ j ∈ Finset.univ.filter (fun j => j < i), ‖W i' j‖ ^ 2)
    · intros; exact Finset.sum_nonneg (fun _ _ => by positivity)
    · simp
  have rowUp : ∀ i, ∑ j ∈ Finset.univ.filter (fun j => i < j), ‖W i j‖ ^ 2 ≤ B := by
    intro i
    refine le_trans ?_ (up (fun j => j ≤ i) inferInstance (fun a b ha hb => lt_of_le_of_lt hb (not_le.1 ha)))
    refine le_trans (le_of_eq ?_) (Finset.single_le_sum
      (f := fun i' => ∑ j ∈ Finset.univ.filter (fun j => ¬ j ≤ i), ‖W i' j‖ ^ 2) (a := i) ?_ (by simp))
    · simp only [not_le]
    · intros; exact Finset.sum_nonneg (fun _ _ => by positivity)
  constructor
  · intro i j hij
    rcases lt_or_gt_of_ne hij with h | h
    · refine le_trans ?_ (rowUp i)
      exact Finset.single_le_sum (f := fun j => ‖W i j‖ ^ 2) (fun _ _ => by positivity) (by simpa using h)
    · refine le_trans ?_ (rowLow i)
      exact Finset.single_le_sum (f := fun j => ‖W i j‖ ^ 2) (fun _ _ => by positivity) (by simpa using h)
  · intro i
    have hr := row_mass W hW i
    have hsplit : ∑ j, ‖W i j‖ ^ 2 = ‖W i i‖ ^ 2 + (∑ j ∈ Finset.univ.filter (fun j => j < i), ‖W i j‖ ^ 2 +
        ∑ j ∈ Finset.univ.filter (fun j => i < j), ‖W i j‖ ^ 2) := by
      rw [← Finset.sum_filter_add_sum_filter_not Finset.univ (fun j => j < i),
        ← Finset.sum_filter_add_sum_filter_not (Finset.univ.filter fun j => ¬ j < i) (fun j => i < j),
        Finset.filter_filter, Finset.filter_filter]
      have e1 : (Finset.univ.filter fun j => ¬ j < i ∧ i < j) = Finset.univ.filter fun j => i < j := by
        ext j; simp only [Finset.mem_filter, Finset.mem_univ, true_and]
        exact ⟨fun h => h.2, fun h => ⟨not_lt.2 h.le, h⟩⟩
      have e2 : (Finset.univ.filter fun j => ¬ j < i ∧ ¬ i < j) = {i} := by
        ext j; simp only [Finset.mem_filter, Finset.mem_univ, true_and, Finset.mem_singleton, not_lt]
        exact ⟨fun h => le_antisymm h.2 h.1, fun h => by simp [h]⟩
      rw [e1, e2, Finset.sum_singleton]
      ring
    have h0 : ‖W i i‖ ^ 2 ≤ 1 := by
      rw [← hr, hsplit]
      have := Finset.sum_nonneg (s := Finset.univ.filter (fun j => j < i)) (f := fun j => ‖W i j‖ ^ 2) (fun _ _ => by positivity)
      have := Finset.sum_nonneg (s := Finset.univ.filter (fun j => i < j)) (f := fun j => ‖W i j‖ ^ 2) (fun _ _ => by positivity)
      linarith
    have hn := norm_nonneg (W i i)
    have h1 : ‖W i i‖ ≤ 1 := by nlinarith
    refine ⟨?_, h1⟩
    have := rowLow i
    have := rowUp i
    nlinarith

end Qudits.QRAlg
