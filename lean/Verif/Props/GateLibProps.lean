import Verif.Model.GateLib
import Verif.Spec.GateLibSpec
import Mathlib.Tactic.LinearCombination
/-
C101: the two-level gate library of the decision diagram package.
-/
namespace Qudits
open Spec DD Matrix

private theorem rows2 (a b c d : ℂ) : byRows 2 [a, b, c, d] = !![a, b; c, d] := by
  ext i j
  fin_cases i <;> fin_cases j <;> rfl

private theorem rows3 (a b c d e f g h i : ℂ) : byRows 3 [a, b, c, d, e, f, g, h, i] = !![a, b, c; d, e, f; g, h, i] := by
  ext i j
  fin_cases i <;> fin_cases j <;> rfl

private theorem sq22 : ((sqrt22 : ℝ) : ℂ) * (sqrt22 : ℝ) = 1 / 2 := by
  have h : (sqrt22 : ℝ) * sqrt22 = 1 / 2 := by
    unfold sqrt22
    have := Real.mul_self_sqrt (show (0 : ℝ) ≤ 2 by norm_num)
    linarith [this]
  rw [← Complex.ofReal_mul, h]
  norm_num

private theorem cexp (t : ℝ) : cval (Real.cos t) (Real.sin t) = Complex.exp (t * Complex.I) := by
  unfold cval
  rw [Complex.exp_mul_I, Complex.ofReal_cos, Complex.ofReal_sin]

private theorem half (t : ℝ) : ((t / 2 : ℝ) : ℂ) = (t : ℂ) / 2 := by push_cast; rfl

/-- C101: RXmat, RYmat and RZmat are the rotations about the three axes, for every angle. -/
theorem C101_rotations (t : ℝ) : byRows 2 (rxMat2 t) = rotation pauliX t ∧ byRows 2 (ryMat2 t) = rotation pauliY t ∧
    byRows 2 (rzMat2 t) = rotation pauliZ t := by
  refine ⟨?_, ?_, ?_⟩
  · unfold rxMat2
    rw [rows2]
    ext i j
    fin_cases i <;> fin_cases j <;> simp [rotation, pauliX, cval] <;> ring
  · unfold ryMat2
    rw [rows2]
    ext i j
    fin_cases i <;> fin_cases j <;> simp [rotation, pauliY, cval]
    · linear_combination -(Complex.sin (t / 2)) * Complex.I_mul_I
    · linear_combination (Complex.sin (t / 2)) * Complex.I_mul_I
  · unfold rzMat2
    rw [rows2]
    ext i j
    fin_cases i <;> fin_cases j <;> simp [rotation, pauliZ, cval] <;> ring

/-- C101: U3mat is, up to the phase that makes its first entry real, a rotation about z, then y, then z again. -/
theorem C101_u3 (lambda phi theta : ℝ) : byRows 2 (u3Mat lambda phi theta) =
    Complex.exp ((lambda + phi) / 2 * Complex.I) • (rotation pauliZ phi * rotation pauliY theta * rotation pauliZ lambda) := by
  have hz : ∀ t : ℝ, rotation pauliZ t = !![Complex.exp (-(t / 2) * Complex.I), 0; 0, Complex.exp (t / 2 * Complex.I)] := by
    intro t
    ext i j
    fin_cases i <;> fin_cases j <;> simp only [rotation, pauliZ, Complex.exp_mul_I, Complex.cos_neg, Complex.sin_neg] <;> simp <;> ring
  have hy : rotation pauliY theta = !![Complex.cos (theta / 2), -Complex.sin (theta / 2); Complex.sin (theta / 2), Complex.cos (theta / 2)] := by
    ext i j
    fin_cases i <;> fin_cases j <;> simp [rotation, pauliY]
    · linear_combination (Complex.sin (theta / 2)) * Complex.I_mul_I
    · linear_combination -(Complex.sin (theta / 2)) * Complex.I_mul_I
  have e1 : Complex.exp ((lambda + phi) / 2 * Complex.I) * Complex.exp (-(phi / 2) * Complex.I) * Complex.exp (-(lambda / 2) * Complex.I) = 1 := by
    rw [← Complex.exp_add, ← Complex.exp_add, ← Complex.exp_zero]; congr 1; ring
  have e2 : Complex.exp ((lambda + phi) / 2 * Complex.I) * Complex.exp (-(phi / 2) * Complex.I) * Complex.exp (lambda / 2 * Complex.I) =
      Complex.exp (lambda * Complex.I) := by
    rw [← Complex.exp_add, ← Complex.exp_add]; congr 1; ring
  have e3 : Complex.exp ((lambda + phi) / 2 * Complex.I) * Complex.exp (phi / 2 * Complex.I) * Complex.exp (-(lambda / 2) * Complex.I) =
      Complex.exp (phi * Complex.I) := by
    rw [← Complex.exp_add, ← Complex.exp_add]; congr 1; ring
  have e4 : Complex.exp ((lambda + phi) / 2 * Complex.I) * Complex.exp (phi / 2 * Complex.I) * Complex.exp (lambda / 2 * Complex.I) =
      Complex.exp ((lambda + phi) * Complex.I) := by
    rw [← Complex.exp_add, ← Complex.exp_add]; congr 1; ring
  rw [hz, hz, hy]
  unfold u3Mat
  rw [rows2]
  ext i j
  fin_cases i <;> fin_cases j <;> simp only [Matrix.smul_apply, Matrix.mul_apply, Fin.sum_univ_two, smul_eq_mul, cval, Fin.zero_eta, Fin.mk_one, Fin.isValue, of_apply,
    cons_val', cons_val_zero, cons_val_one, cons_val_fin_one, Complex.ofReal_mul, Complex.ofReal_neg, Complex.ofReal_cos, Complex.ofReal_sin, half,
    Complex.ofReal_zero, Complex.ofReal_add, zero_mul, mul_zero, add_zero, zero_add]
  · linear_combination -(Complex.cos (theta / 2)) * e1
  · rw [Complex.exp_mul_I (lambda : ℂ)] at e2
    linear_combination (Complex.sin (theta / 2)) * e2
  · rw [Complex.exp_mul_I (phi : ℂ)] at e3
    linear_combination -(Complex.sin (theta / 2)) * e3
  · rw [Complex.exp_mul_I ((lambda : ℂ) + phi)] at e4
    linear_combination -(Complex.cos (theta / 2)) * e4

/-- C101: U2mat and Phasemat are the special cases of U3mat. -/
theorem C101_special (lambda phi : ℝ) : byRows 2 (u2Mat lambda phi) = byRows 2 (u3Mat lambda phi (Real.pi / 2)) ∧
    byRows 2 (phaseMat2 lambda) = byRows 2 (u3Mat lambda 0 0) ∧ byRows 2 (phaseMat2 lambda) = !![1, 0; 0, Complex.exp (lambda * Complex.I)] := by
  have h4 : Real.pi / 2 / 2 = Real.pi / 4 := by ring
  refine ⟨?_, ?_, ?_⟩
  · unfold u2Mat u3Mat sqrt22
    rw [h4, Real.cos_pi_div_four, Real.sin_pi_div_four]
  · unfold phaseMat2 u3Mat
    rw [rows2, rows2]
    simp [cval]
  · unfold phaseMat2
    rw [rows2, cexp]

/-- C101: the constants are the Pauli matrices, roots of them, and their adjoints. -/
theorem C101_constants : byRows 2 xMat2 = pauliX ∧ byRows 2 yMat2 = pauliY ∧ byRows 2 zMat2 = pauliZ ∧ byRows 2 iMat2 = 1 ∧
    byRows 2 tMat2 ^ 2 = byRows 2 sMat2 ∧ byRows 2 sMat2 ^ 2 = pauliZ ∧ byRows 2 sxMat2 ^ 2 = pauliX ∧
    byRows 2 vMat2 = rotation pauliX (Real.pi / 2) ∧
    byRows 2 hMat2 * pauliX * byRows 2 hMat2 = pauliZ ∧ byRows 2 hMat2 * byRows 2 hMat2 = 1 ∧
    byRows 2 sDagMat2 = (byRows 2 sMat2)ᴴ ∧ byRows 2 tDagMat2 = (byRows 2 tMat2)ᴴ ∧ byRows 2 sxDagMat2 = (byRows 2 sxMat2)ᴴ ∧
    byRows 2 vDagMat2 = (byRows 2 vMat2)ᴴ := by
  have h := sq22
  have hI := Complex.I_mul_I
  refine ⟨?_, ?_, ?_, ?_, ?_, ?_, ?_, ?_, ?_, ?_, ?_, ?_, ?_, ?_⟩
  · unfold xMat2; rw [rows2]; rfl
  · unfold yMat2; rw [rows2]; simp [cval, pauliY]
  · unfold zMat2; rw [rows2]; simp [cval, pauliZ]
  · unfold iMat2; rw [rows2, Matrix.one_fin_two]
  · unfold tMat2 sMat2
    rw [rows2, rows2, pow_two, Matrix.mul_fin_two]
    simp [cval]
    linear_combination (2 * Complex.I) * h + (sqrt22 : ℂ) * sqrt22 * hI
  · unfold sMat2
    rw [rows2, pow_two, Matrix.mul_fin_two]
    simp [cval, pauliZ]
  · unfold sxMat2
    rw [rows2, pow_two, Matrix.mul_fin_two]
    ext i j
    fin_cases i <;> fin_cases j <;> simp [cval, pauliX]
    · linear_combination (1 / 2 : ℂ) * hI
    · linear_combination (-1 / 2 : ℂ) * hI
    · linear_combination (-1 / 2 : ℂ) * hI
    · linear_combination (1 / 2 : ℂ) * hI
  · have h4 : Real.pi / 2 / 2 = Real.pi / 4 := by ring
    rw [← (C101_rotations (Real.pi / 2)).1]
    unfold rxMat2 vMat2 sqrt22
    rw [h4, Real.cos_pi_div_four, Real.sin_pi_div_four]
  · unfold hMat2 pauliX pauliZ
    rw [rows2, Matrix.mul_fin_two, Matrix.mul_fin_two]
    ext i j
    fin_cases i <;> fin_cases j <;> simp [cval]
    · linear_combination 2 * h
    · linear_combination -2 * h
  · unfold hMat2
    rw [rows2, Matrix.mul_fin_two, Matrix.one_fin_two]
    ext i j
    fin_cases i <;> fin_cases j <;> simp [cval]
    · linear_combination 2 * h
    · linear_combination 2 * h
  all_goals
    simp only [sDagMat2, sMat2, tDagMat2, tMat2, sxDagMat2, sxMat2, vDagMat2, vMat2]
    rw [rows2, rows2]
    ext i j
    fin_cases i <;> fin_cases j <;> simp [cval, Matrix.conjTranspose_apply]

/-- C101: the embedded flip is the rotation by π about the axis of angle `phi` in the plane. -/
theorem C101_embX (phi : ℝ) : byRows 2 (embX2 phi) = rotation (Complex.cos phi • pauliX + Complex.sin phi • pauliY) Real.pi := by
  have : embX2 phi = [0, cval (-Real.sin phi) (-Real.cos phi), cval (Real.sin phi) (-Real.cos phi), 0] := rfl
  rw [this, rows2]
  ext i j
  fin_cases i <;> fin_cases j <;> simp [rotation, pauliX, pauliY, cval]
  · linear_combination -(Complex.sin phi) * Complex.I_mul_I
  · linear_combination (Complex.sin phi) * Complex.I_mul_I

private theorem rotation_unitary {P : Matrix (Fin 2) (Fin 2) ℂ} (h1 : Pᴴ = P) (h2 : P * P = 1) (t : ℝ) : rotation P t ∈ unitaryGroup (Fin 2) ℂ := by
  rw [mem_unitaryGroup_iff]
  have hc : star (Complex.cos (t / 2)) = Complex.cos (t / 2) := by
    rw [← half, ← Complex.ofReal_cos]; exact Complex.conj_ofReal _
  have hs : star (Complex.sin (t / 2)) = Complex.sin (t / 2) := by
    rw [← half, ← Complex.ofReal_sin]; exact Complex.conj_ofReal _
  have hI : star Complex.I = -Complex.I := Complex.conj_I
  unfold rotation
  rw [star_eq_conjTranspose, conjTranspose_sub, conjTranspose_smul, conjTranspose_smul, h1, conjTranspose_one, star_mul', hc, hs, hI]
  simp only [sub_mul, mul_sub, smul_mul_smul_comm, h2, Matrix.one_mul, Matrix.mul_one]
  rw [show Complex.I * Complex.sin (t / 2) * (-Complex.I * Complex.sin (t / 2)) = Complex.sin (t / 2) ^ 2 from by
    linear_combination (-(Complex.sin (t / 2)) ^ 2) * Complex.I_mul_I]
  rw [show Complex.cos (t / 2) * (-Complex.I * Complex.sin (t / 2)) = -(Complex.I * Complex.sin (t / 2) * Complex.cos (t / 2)) from by ring]
  rw [neg_smul, show ∀ a b c : Matrix (Fin 2) (Fin 2) ℂ, a - b - (-b - c) = a + c from fun a b c => by abel, ← add_smul,
    show Complex.cos (t / 2) * Complex.cos (t / 2) + Complex.sin (t / 2) ^ 2 = 1 from by linear_combination Complex.cos_sq_add_sin_sq (t / 2 : ℂ), one_smul]

private theorem pauli_props : (pauliXᴴ = pauliX ∧ pauliX * pauliX = 1) ∧ (pauliYᴴ = pauliY ∧ pauliY * pauliY = 1) ∧ (pauliZᴴ = pauliZ ∧ pauliZ * pauliZ = 1) := by
  refine ⟨⟨?_, ?_⟩, ⟨?_, ?_⟩, ?_, ?_⟩ <;> ext i j <;> fin_cases i <;> fin_cases j <;>
    simp [pauliX, pauliY, pauliZ, Matrix.conjTranspose_apply, Matrix.mul_apply, Fin.sum_univ_two]

/-- C101: all of them are unitary, for all angles. -/
theorem C101_unitary (lambda phi theta : ℝ) :
    (∀ l ∈ [rxMat2 theta, ryMat2 theta, rzMat2 theta, embX2 phi], byRows 2 l ∈ unitaryGroup (Fin 2) ℂ) ∧ byRows 2 (u3Mat lambda phi theta) ∈ unitaryGroup (Fin 2) ℂ ∧
      byRows 2 (u2Mat lambda phi) ∈ unitaryGroup (Fin 2) ℂ ∧ byRows 2 (phaseMat2 lambda) ∈ unitaryGroup (Fin 2) ℂ := by
  obtain ⟨hx, hy, hz⟩ := pauli_props
  have hu : ∀ lambda phi theta : ℝ, byRows 2 (u3Mat lambda phi theta) ∈ unitaryGroup (Fin 2) ℂ := by
    intro lambda phi theta
    rw [C101_u3]
    have hU := mul_mem (mul_mem (rotation_unitary hz.1 hz.2 phi) (rotation_unitary hy.1 hy.2 theta)) (rotation_unitary hz.1 hz.2 lambda)
    rw [mem_unitaryGroup_iff] at hU ⊢
    rw [star_smul, smul_mul_smul_comm, hU]
    have : Complex.exp ((lambda + phi) / 2 * Complex.I) * star (Complex.exp ((lambda + phi) / 2 * Complex.I)) = 1 := by
      have hc : star (Complex.exp ((lambda + phi) / 2 * Complex.I)) = Complex.exp (-((lambda + phi) / 2 * Complex.I)) := by
        change (starRingEnd ℂ) _ = _
        rw [← Complex.exp_conj]
        congr 1
        rw [show ((lambda : ℂ) + phi) / 2 = (((lambda + phi) / 2 : ℝ) : ℂ) from by push_cast; rfl, map_mul, Complex.conj_ofReal, Complex.conj_I, mul_neg]
      rw [hc, ← Complex.exp_add, add_neg_cancel, Complex.exp_zero]
    rw [this, one_smul]
  refine ⟨?_, hu _ _ _, ?_, ?_⟩
  · intro l hl
    obtain ⟨r1, r2, r3⟩ := C101_rotations theta
    simp only [List.mem_cons, List.not_mem_nil, or_false] at hl
    rcases hl with rfl | rfl | rfl | rfl
    · rw [r1]; exact rotation_unitary hx.1 hx.2 _
    · rw [r2]; exact rotation_unitary hy.1 hy.2 _
    · rw [r3]; exact rotation_unitary hz.1 hz.2 _
    · rw [C101_embX]
      refine rotation_unitary ?_ ?_ _
      · have c1 : star (Complex.cos phi) = Complex.cos phi := by rw [← Complex.ofReal_cos]; exact Complex.conj_ofReal _
        have c2 : star (Complex.sin phi) = Complex.sin phi := by rw [← Complex.ofReal_sin]; exact Complex.conj_ofReal _
        rw [conjTranspose_add, conjTranspose_smul, conjTranspose_smul, hx.1, hy.1, c1, c2]
      · have hxy : pauliX * pauliY + pauliY * pauliX = 0 := by
          ext i j
          fin_cases i <;> fin_cases j <;> simp [pauliX, pauliY, Matrix.mul_apply, Fin.sum_univ_two]
        have := Complex.cos_sq_add_sin_sq (phi : ℂ)
        calc (Complex.cos phi • pauliX + Complex.sin phi • pauliY) * (Complex.cos phi • pauliX + Complex.sin phi • pauliY)
            = (Complex.cos phi * Complex.cos phi) • (pauliX * pauliX) + (Complex.sin phi * Complex.sin phi) • (pauliY * pauliY) +
              (Complex.cos phi * Complex.sin phi) • (pauliX * pauliY + pauliY * pauliX) := by
              simp only [add_mul, mul_add, smul_mul_smul_comm, smul_add]
              rw [mul_comm (Complex.sin (phi : ℂ)) (Complex.cos phi)]
              abel
          _ = 1 := by
              rw [hx.2, hy.2, hxy, smul_zero, add_zero, ← add_smul, ← pow_two, ← pow_two, this, one_smul]
  · rw [(C101_special lambda phi).1]; exact hu _ _ _
  · rw [(C101_special lambda 0).2.1]; exact hu _ _ _

/-- C101: on three levels. -/
theorem C101_trits (lambda phi theta : ℝ) : byRows 3 (u301 lambda phi theta) = onFirstTwo (byRows 2 (u3Mat lambda phi theta)) ∧
    byRows 3 x01 = onFirstTwo pauliX ∧ byRows 3 z01 = onFirstTwo pauliZ ∧ byRows 3 pi02Dag = (byRows 3 pi02)ᴴ ∧ byRows 3 pi02 * byRows 3 pi02Dag = 1 := by
  refine ⟨?_, ?_, ?_, ?_, ?_⟩
  · unfold u301 u3Mat
    rw [rows3, rows2]
    rfl
  · unfold x01
    rw [rows3]
    rfl
  · unfold z01
    rw [rows3]
    ext i j
    fin_cases i <;> fin_cases j <;> simp [onFirstTwo, pauliZ, cval]
  · unfold pi02 pi02Dag
    rw [rows3, rows3]
    ext i j
    fin_cases i <;> fin_cases j <;> simp [cval, Matrix.conjTranspose_apply]
  · unfold pi02 pi02Dag
    rw [rows3, rows3]
    ext i j
    fin_cases i <;> fin_cases j <;> simp [cval, Matrix.mul_apply, Fin.sum_univ_three]

/-- C101: the projectors: for a level of the dimension, onto that level; the level `d` and all above are rejected, as the array is left. -/
theorem C101_projector (d i : Nat) : (∀ h : i < d, ∃ l, piMat d i = .ok l ∧ byRows d l = Matrix.single ⟨i, h⟩ ⟨i, h⟩ 1) ∧
    (d ≤ i → piMat d i = .error .outOfRange) := by
  constructor
  · intro h
    have hl : i + i * d < d * d := by nlinarith
    refine ⟨_, if_pos (by rwa [List.length_replicate]), ?_⟩
    ext a b
    unfold byRows
    simp only [of_apply, Matrix.single_apply, List.getD, List.getElem?_set, List.length_replicate, hl, if_true]
    have hab : i + i * d = d * a + b ↔ (⟨i, h⟩ = a ∧ ⟨i, h⟩ = b) := by
      constructor
      · intro e
        have h1 := congrArg (· % d) e
        have h2 := congrArg (· / d) e
        simp only [Nat.add_mul_mod_self_right, Nat.mul_add_mod, Nat.mod_eq_of_lt h, Nat.mod_eq_of_lt b.isLt] at h1
        have hd : 0 < d := by omega
        simp only [Nat.add_mul_div_right _ _ hd, Nat.mul_add_div hd, Nat.div_eq_of_lt h, Nat.div_eq_of_lt b.isLt, zero_add, add_zero] at h2
        exact ⟨Fin.ext h2, Fin.ext h1⟩
      · rintro ⟨rfl, rfl⟩
        simp only
        ring
    by_cases e : i + i * d = d * a + b
    · rw [if_pos e, if_pos (hab.1 e)]; rfl
    · rw [if_neg e, if_neg (fun q => e (hab.2 q))]
      rw [List.getElem?_replicate]
      split_ifs <;> rfl
  · intro h
    refine if_neg ?_
    rw [List.length_replicate]
    nlinarith

/-- two levels, an angle that is no multiple of π: the entry below the diagonal is not zero -/
example : (byRows 2 (ryMat2 (Real.pi / 2))) 1 0 = (Real.sqrt 2 / 2 : ℝ) := by
  have h4 : Real.pi / 2 / 2 = Real.pi / 4 := by ring
  unfold ryMat2
  rw [h4, Real.sin_pi_div_four, rows2]
  simp [cval]

end Qudits
