import Verif.Spec.QrSpec
import Verif.Lemmas.LevelGraph
import Verif.Lemmas.QRAlg
import Verif.Lemmas.TwoLevelGates
import Mathlib.Tactic.IntervalCases
namespace Qudits
open LGraph Spec Matrix LocalQR

variable {d : Nat}

/-! ### rotations -/

theorem newRot_ok (a b : Fin d) (hab : a ≠ b) (theta phi : ℝ) : newRot d (a : Nat) (b : Nat) theta phi =
    .ok ⟨(a : Nat), (b : Nat), ⟨((min a b : Fin d) : Nat), ((max a b : Fin d) : Nat), regulateTheta theta, phi⟩⟩ := by
  have hne : (a : Nat) ≠ (b : Nat) := fun h => hab (Fin.ext h)
  have ha := a.isLt
  have hb := b.isLt
  have hc : checkLevels d (a : Nat) (b : Nat) = .ok () := by
    unfold checkLevels
    rw [if_pos (by omega)]
  have hl : levelsSetter ((a : Nat) : Int) ((b : Nat) : Int) = ((((min a b : Fin d) : Nat) : Int), (((max a b : Fin d) : Nat) : Int)) := by
    unfold levelsSetter
    rcases lt_or_gt_of_ne hab with h | h
    · rw [min_eq_left h.le, max_eq_right h.le, if_pos (by exact_mod_cast h)]
    · rw [min_eq_right h.le, max_eq_left h.le, if_neg (by rw [Fin.lt_def] at h; omega)]
  unfold newRot rInit
  simp only [needInt, needFlt, bind, Except.bind, pure, Except.pure, List.getElem?_cons_zero, List.getElem?_cons_succ, hc, hl]

theorem twoLevel_swap (a b : Fin d) (hab : a ≠ b) (theta phi : ℝ) : twoLevel b a (rot theta (-phi)) = twoLevel a b (rot theta phi) := by
  ext r c
  unfold twoLevel rot
  simp only [Matrix.of_apply, Matrix.cons_val', Matrix.cons_val_zero, Matrix.cons_val_one, Matrix.cons_val_fin_one, Complex.ofReal_neg,
    mul_neg, neg_neg]
  by_cases h1 : r = a <;> by_cases h2 : r = b <;> by_cases h3 : c = a <;> by_cases h4 : c = b <;>
    simp_all

theorem lineOp_rot (q : Int) (r : RGate) (a b : Fin d) (hab : a ≠ b) (hA : r.par.levA = ((min a b : Fin d) : Nat))
    (hB : r.par.levB = ((max a b : Fin d) : Nat)) : PhasePass.lineOp d (rotInstr q d r) =
      twoLevel a b (rot r.par.theta (if a < b then r.par.phi else -r.par.phi)) := by
  have hlt : min a b < max a b := by
    rcases lt_or_gt_of_ne hab with h | h
    · rwa [min_eq_left h.le, max_eq_right h.le]
    · rwa [min_eq_right h.le, max_eq_left h.le]
  obtain ⟨A, h1, _, _, h4⟩ := rArray_ok (d := d) (g := r.par) ⟨hA, hB, hlt⟩
  unfold PhasePass.lineOp rotInstr PhasePass.arrayOf
  simp only [h1, h4]
  rw [if_neg (by decide)]
  rcases lt_or_gt_of_ne hab with h | h
  · rw [min_eq_left h.le, max_eq_right h.le, if_pos h]
  · rw [min_eq_right h.le, max_eq_left h.le, if_neg (not_lt.2 h.le)]
    conv_rhs => rw [← twoLevel_swap a b hab]
    rw [neg_neg]

theorem regulate_pi : regulateTheta Real.pi = Real.pi := by
  have hp := Real.pi_ne_zero
  have h1 : pyMod 1 4 = 1 := by
    unfold pyMod
    rw [show ⌊(1 : ℝ) / 4⌋ = 0 by rw [Int.floor_eq_iff]; norm_num]
    norm_num
  unfold regulateTheta
  simp only [div_self hp, abs_one, h1]
  rw [if_neg (not_lt.2 Real.pi_pos.le), abs_one, if_neg (by norm_num), one_mul]

theorem regulate_neg_pi : regulateTheta (-Real.pi) = -Real.pi := by
  have hp := Real.pi_ne_zero
  have h1 : pyMod 1 4 = 1 := by
    unfold pyMod
    rw [show ⌊(1 : ℝ) / 4⌋ = 0 by rw [Int.floor_eq_iff]; norm_num]
    norm_num
  have h2 : |(-Real.pi) / Real.pi| = 1 := by rw [neg_div, div_self hp, abs_neg, abs_one]
  unfold regulateTheta
  simp only [h2, h1]
  simp only [show -Real.pi < 0 by linarith [Real.pi_pos], if_true, one_mul, abs_neg, abs_one]
  rw [if_neg (by norm_num), neg_one_mul]

/-- the sign of an angle -/
def IsSign (e : ℝ) : Prop := e = 1 ∨ e = -1

theorem IsSign.mul {e f : ℝ} (he : IsSign e) (hf : IsSign f) : IsSign (e * f) := by
  rcases he with rfl | rfl <;> rcases hf with rfl | rfl <;> simp [IsSign]

theorem IsSign.sq {e : ℝ} (he : IsSign e) : e * e = 1 := by rcases he with rfl | rfl <;> norm_num

theorem regulate_sign {e : ℝ} (he : IsSign e) : regulateTheta (e * Real.pi) = e * Real.pi := by
  rcases he with rfl | rfl
  · rw [one_mul, regulate_pi]
  · rw [neg_one_mul, regulate_neg_pi]

theorem rot_sign {e : ℝ} (he : IsSign e) (theta phi : ℝ) : rot (e * theta) phi =
    !![rot theta phi 0 0, e * rot theta phi 0 1; e * rot theta phi 1 0, rot theta phi 1 1] := by
  unfold rot
  rcases he with rfl | rfl
  · simp
  · ext i j
    fin_cases i <;> fin_cases j <;> simp [neg_div]

/-- a pulse: rotation by ±π about the fixed axis -/
theorem pulse_matrix {e : ℝ} (he : IsSign e) : rot (e * Real.pi) (-Real.pi / 2) = !![0, (e : ℂ); -e, 0] := by
  rw [rot_sign he]
  unfold rot
  have h1 : Complex.exp (-(Complex.I * ((-Real.pi / 2 : ℝ) : ℂ))) = Complex.I := by
    rw [show -(Complex.I * ((-Real.pi / 2 : ℝ) : ℂ)) = Real.pi / 2 * Complex.I by push_cast; ring, Complex.exp_pi_div_two_mul_I]
  have h2 : Complex.exp (Complex.I * ((-Real.pi / 2 : ℝ) : ℂ)) = -Complex.I := by
    rw [show Complex.I * ((-Real.pi / 2 : ℝ) : ℂ) = -(Real.pi / 2 * Complex.I) by push_cast; ring, Complex.exp_neg,
      Complex.exp_pi_div_two_mul_I, Complex.inv_I]
  simp only [h1, h2, Real.cos_pi_div_two, Real.sin_pi_div_two]
  ext i j
  fin_cases i <;> fin_cases j <;> simp

/-- moving a rotation along a pulse -/
theorem conj_pulse (a b c : Fin d) (hab : a ≠ b) (hac : a ≠ c) (hbc : b ≠ c) {e : ℝ} (he : IsSign e) (theta phi : ℝ) :
    (twoLevel b c (rot (e * Real.pi) (-Real.pi / 2)))ᴴ * twoLevel a b (rot theta phi) * twoLevel b c (rot (e * Real.pi) (-Real.pi / 2)) =
      twoLevel a c (rot (e * theta) phi) := by
  have key : twoLevel a b (rot theta phi) * twoLevel b c (rot (e * Real.pi) (-Real.pi / 2)) =
      twoLevel b c (rot (e * Real.pi) (-Real.pi / 2)) * twoLevel a c (rot (e * theta) phi) := by
    rw [pulse_matrix he, rot_sign he]
    set M := rot theta phi
    have hba := hab.symm
    have hca := hac.symm
    have hcb := hbc.symm
    ext r s
    by_cases ra : r = a
    · subst ra
      rw [twoLevel_mul_fst _ hab, twoLevel_mul_other _ _ _ _ hab hac]
      by_cases h1 : s = r
      · subst h1
        rcases he with rfl | rfl <;> simp [twoLevel, hab, hac, hbc, hba, hca, hcb]
      by_cases h2 : s = b
      · subst h2
        rcases he with rfl | rfl <;> simp [twoLevel, hab, hac, hbc, hba, hca, hcb]
      by_cases h3 : s = c
      · subst h3
        rcases he with rfl | rfl <;> simp [twoLevel, hab, hac, hbc, hba, hca, hcb]
      have h1' : ¬ r = s := fun h => h1 h.symm
      have h2' : ¬ b = s := fun h => h2 h.symm
      have h3' : ¬ c = s := fun h => h3 h.symm
      simp [twoLevel, hab, hac, hbc, hba, hca, hcb, h1, h2, h3, h1', h2', h3']
    · by_cases rb : r = b
      · subst rb
        rw [twoLevel_mul_snd _ hab, twoLevel_mul_fst _ hbc]
        by_cases h1 : s = a
        · subst h1
          rcases he with rfl | rfl <;> simp [twoLevel, hab, hac, hbc, hba, hca, hcb]
        by_cases h2 : s = r
        · subst h2
          rcases he with rfl | rfl <;> simp [twoLevel, hab, hac, hbc, hba, hca, hcb]
        by_cases h3 : s = c
        · subst h3
          rcases he with rfl | rfl <;> simp [twoLevel, hab, hac, hbc, hba, hca, hcb]
        have h1' : ¬ a = s := fun h => h1 h.symm
        have h2' : ¬ r = s := fun h => h2 h.symm
        have h3' : ¬ c = s := fun h => h3 h.symm
        simp [twoLevel, hab, hac, hbc, hba, hca, hcb, h1, h2, h3, h1', h2', h3']
      · by_cases rc : r = c
        · subst rc
          rw [twoLevel_mul_other _ _ _ _ ra rb, twoLevel_mul_snd _ hbc]
          by_cases h1 : s = a
          · subst h1
            rcases he with rfl | rfl <;> simp [twoLevel, hab, hac, hbc, hba, hca, hcb]
          by_cases h2 : s = b
          · subst h2
            rcases he with rfl | rfl <;> simp [twoLevel, hab, hac, hbc, hba, hca, hcb]
          by_cases h3 : s = r
          · subst h3
            rcases he with rfl | rfl <;> simp [twoLevel, hab, hac, hbc, hba, hca, hcb]
          have h1' : ¬ a = s := fun h => h1 h.symm
          have h2' : ¬ b = s := fun h => h2 h.symm
          have h3' : ¬ r = s := fun h => h3 h.symm
          simp [twoLevel, hab, hac, hbc, hba, hca, hcb, h1, h2, h3, h1', h2', h3']
        · rw [twoLevel_mul_other _ _ _ _ ra rb, twoLevel_mul_other _ _ _ _ rb rc]
          simp only [twoLevel, if_neg ra, if_neg rb, if_neg rc]
  rw [Matrix.mul_assoc, key, ← Matrix.mul_assoc]
  have hu := twoLevel_unitary (d := d) (a := b) (b := c) (rot (e * Real.pi) (-Real.pi / 2)) hbc (rot_unitary _ _)
  rw [mem_unitaryGroup_iff', star_eq_conjTranspose] at hu
  rw [hu, Matrix.one_mul]

end Qudits
