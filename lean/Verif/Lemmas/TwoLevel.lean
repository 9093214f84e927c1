import Verif.Spec.TwoLevel
import Mathlib.LinearAlgebra.UnitaryGroup
import Mathlib.LinearAlgebra.Matrix.Notation
import Mathlib.Analysis.SpecialFunctions.Trigonometric.Basic
import Mathlib.Analysis.SpecialFunctions.Complex.Log

namespace Qudits.Spec
open Matrix Complex

variable {d : Nat} (a b : Fin d) (M N : Matrix (Fin 2) (Fin 2) ℂ)

section apply
variable {a b}

theorem twoLevel_mul_fst (hab : a ≠ b) (B : Matrix (Fin d) (Fin d) ℂ) (c : Fin d) :
    (twoLevel a b M * B) a c = M 0 0 * B a c + M 0 1 * B b c := by
  rw [Matrix.mul_apply, Finset.sum_eq_add a b hab]
  · simp [twoLevel, hab.symm]
  · intro k _ hk
    simp [twoLevel, hk.1, hk.2]
  · intro h; exact absurd (Finset.mem_univ _) h
  · intro h; exact absurd (Finset.mem_univ _) h

theorem twoLevel_mul_snd (hab : a ≠ b) (B : Matrix (Fin d) (Fin d) ℂ) (c : Fin d) :
    (twoLevel a b M * B) b c = M 1 0 * B a c + M 1 1 * B b c := by
  rw [Matrix.mul_apply, Finset.sum_eq_add a b hab]
  · simp [twoLevel, hab.symm]
  · intro k _ hk
    simp [twoLevel, hk.1, hk.2, hab.symm]
  · intro h; exact absurd (Finset.mem_univ _) h
  · intro h; exact absurd (Finset.mem_univ _) h

theorem twoLevel_mul_other (B : Matrix (Fin d) (Fin d) ℂ) (r c : Fin d) (ha : r ≠ a) (hb : r ≠ b) :
    (twoLevel a b M * B) r c = B r c := by
  rw [Matrix.mul_apply, Finset.sum_eq_single r]
  · simp [twoLevel, ha, hb]
  · intro k _ hk
    simp [twoLevel, ha, hb, Ne.symm hk]
  · intro h; exact absurd (Finset.mem_univ _) h

theorem twoLevel_mul (hab : a ≠ b) : twoLevel a b M * twoLevel a b N = twoLevel a b (M * N) := by
  ext r c
  by_cases ha : r = a
  · subst ha
    rw [twoLevel_mul_fst M hab]
    by_cases hc : c = r
    · subst hc; simp [twoLevel, hab.symm, Matrix.mul_apply]
    · by_cases hc' : c = b
      · subst hc'; simp [twoLevel, hab.symm, Matrix.mul_apply]
      · simp [twoLevel, hc, hc', hab.symm]
  · by_cases hb : r = b
    · subst hb
      rw [twoLevel_mul_snd M hab]
      by_cases hc : c = a
      · subst hc; simp [twoLevel, hab.symm, Matrix.mul_apply]
      · by_cases hc' : c = r
        · subst hc'; simp [twoLevel, hab.symm, Matrix.mul_apply]
        · simp [twoLevel, hc, hc', hab.symm]
    · rw [twoLevel_mul_other M _ _ _ ha hb]
      simp [twoLevel, ha, hb]

theorem twoLevel_one (hab : a ≠ b) : twoLevel a b 1 = 1 := by
  ext r c
  simp only [twoLevel, Matrix.one_apply]
  by_cases ha : r = a <;> by_cases hb : r = b <;> by_cases hc : c = a <;> by_cases hc' : c = b <;>
    simp_all [eq_comm]

theorem twoLevel_conjTranspose (hab : a ≠ b) : (twoLevel a b M)ᴴ = twoLevel a b Mᴴ := by
  ext r c
  simp only [twoLevel, Matrix.conjTranspose_apply]
  by_cases ha : r = a <;> by_cases hb : r = b <;> by_cases hc : c = a <;> by_cases hc' : c = b <;>
    simp_all [eq_comm]

theorem twoLevel_unitary (hab : a ≠ b) (h : M ∈ unitaryGroup (Fin 2) ℂ) :
    twoLevel a b M ∈ unitaryGroup (Fin d) ℂ := by
  rw [mem_unitaryGroup_iff] at h ⊢
  rw [star_eq_conjTranspose, twoLevel_conjTranspose M hab, twoLevel_mul M _ hab, ← star_eq_conjTranspose, h,
    twoLevel_one hab]

end apply

theorem cexp_I_mul (x : ℝ) : cexp (I * x) = Real.cos x + Real.sin x * I := by
  rw [mul_comm, Complex.exp_mul_I, ofReal_cos, ofReal_sin]

theorem cexp_neg_I_mul (x : ℝ) : cexp (-(I * x)) = Real.cos x - Real.sin x * I := by
  have := cexp_I_mul (-x)
  rw [Real.cos_neg, Real.sin_neg] at this
  push_cast at this ⊢
  rw [show -(I * (x : ℂ)) = I * -x by ring, this]; ring

theorem cexp_cancel (x : ℂ) : cexp x * cexp (-x) = 1 := by
  rw [← Complex.exp_add]; simp

theorem rot_add (t s phi : ℝ) : rot t phi * rot s phi = rot (t + s) phi := by
  have hc : (Real.cos ((t + s) / 2) : ℂ) =
      Real.cos (t / 2) * Real.cos (s / 2) - Real.sin (t / 2) * Real.sin (s / 2) := by
    rw [show (t + s) / 2 = t / 2 + s / 2 by ring, Real.cos_add]; push_cast; ring
  have hs : (Real.sin ((t + s) / 2) : ℂ) =
      Real.sin (t / 2) * Real.cos (s / 2) + Real.cos (t / 2) * Real.sin (s / 2) := by
    rw [show (t + s) / 2 = t / 2 + s / 2 by ring, Real.sin_add]; push_cast; ring
  have he := cexp_cancel (I * phi)
  have hI := I_mul_I
  unfold rot
  rw [Matrix.mul_fin_two, hc, hs]
  have e1 : -I * (Real.sin (t / 2) : ℂ) * cexp (-(I * phi)) * (-I * Real.sin (s / 2) * cexp (I * phi)) =
      (I * I) * (Real.sin (t / 2) * Real.sin (s / 2)) * (cexp (I * phi) * cexp (-(I * phi))) := by ring
  have e2 : -I * (Real.sin (t / 2) : ℂ) * cexp (I * phi) * (-I * Real.sin (s / 2) * cexp (-(I * phi))) =
      (I * I) * (Real.sin (t / 2) * Real.sin (s / 2)) * (cexp (I * phi) * cexp (-(I * phi))) := by ring
  rw [e1, e2, he, hI]
  congr 1
  ext i j
  fin_cases i <;> fin_cases j <;> simp <;> ring

theorem rot_zero (phi : ℝ) : rot 0 phi = 1 := by
  unfold rot
  ext i j
  fin_cases i <;> fin_cases j <;> simp

theorem rot_conjTranspose (t phi : ℝ) : (rot t phi)ᴴ = rot (-t) phi := by
  have h1 : (starRingEnd ℂ) (cexp (I * phi)) = cexp (-(I * phi)) := by
    rw [← Complex.exp_conj]; simp
  have h2 : (starRingEnd ℂ) (cexp (-(I * phi))) = cexp (I * phi) := by
    rw [← Complex.exp_conj]; simp
  unfold rot
  ext i j
  fin_cases i <;> fin_cases j <;> simp [neg_div, -ofReal_cos, -ofReal_sin, h1, h2]

theorem rot_unitary (t phi : ℝ) : rot t phi ∈ unitaryGroup (Fin 2) ℂ := by
  rw [mem_unitaryGroup_iff, star_eq_conjTranspose, rot_conjTranspose, rot_add, add_neg_cancel, rot_zero]

end Qudits.Spec
