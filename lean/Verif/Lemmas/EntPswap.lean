import Verif.Lemmas.EntPerm
/- The rotation between the last level of one block and the first level of the next. -/
namespace Qudits.EntQR
open Matrix Complex Spec LocalQR

variable {P : Pair}

/-! ### the entangling part -/

section
variable (k0 k1 : Fin P.c) (l0 l1 : Fin P.t)

/-- Hadamard gates, a phase on the first line, a controlled exchange, Hadamard gates -/
noncomputable def kOp : Matrix (Fin (P.c * P.t)) (Fin (P.c * P.t)) ℂ :=
  onSecond P.c (twoLevel l0 l1 had) * (onFirst P.t (twoLevel k0 k1 had) * ((ctlAll fun k => if k = k1 then twoLevel l0 l1 (cexOp 0) else 1) *
    (onFirst P.t (twoLevel k0 k1 (zrot (Real.pi / 2))) * (onSecond P.c (twoLevel l0 l1 had) * onFirst P.t (twoLevel k0 k1 had)))))

/-- the phase of `kOp` -/
noncomputable def om : ℂ := cexp (-(I * ((Real.pi / 4 : ℝ) : ℂ)))

theorem om_sq : om * om = -I := by
  unfold om
  rw [← Complex.exp_add, show -(I * ((Real.pi / 4 : ℝ) : ℂ)) + -(I * ((Real.pi / 4 : ℝ) : ℂ)) = -(I * ((Real.pi / 2 : ℝ) : ℂ)) by push_cast; ring,
    cexp_neg_pi_half]

theorem om_conj : cexp (I * ((Real.pi / 4 : ℝ) : ℂ)) = I * om := by
  unfold om
  have h : cexp (I * ((Real.pi / 4 : ℝ) : ℂ)) = cexp (I * ((Real.pi / 2 : ℝ) : ℂ)) * cexp (-(I * ((Real.pi / 4 : ℝ) : ℂ))) := by
    rw [← Complex.exp_add]
    congr 1
    push_cast
    ring
  rw [h, cexp_pi_half]

theorem om_val : om = ((Real.sqrt 2 / 2 : ℝ) : ℂ) * (1 - I) := by
  unfold om
  rw [cexp_neg_I_mul, Real.cos_pi_div_four, Real.sin_pi_div_four]
  ring

theorem had_00 : had 0 0 = I * ((Real.sqrt 2 / 2 : ℝ) : ℂ) := by simp [had]
theorem had_01 : had 0 1 = I * ((Real.sqrt 2 / 2 : ℝ) : ℂ) := by simp [had]
theorem had_10 : had 1 0 = I * ((Real.sqrt 2 / 2 : ℝ) : ℂ) := by simp [had]
theorem had_11 : had 1 1 = -(I * ((Real.sqrt 2 / 2 : ℝ) : ℂ)) := by simp [had]
theorem zq_00 : zrot (Real.pi / 2) 0 0 = om := by
  simp only [zrot, om, Matrix.of_apply, Matrix.cons_val', Matrix.cons_val_zero, Matrix.cons_val_fin_one]
  rw [show Real.pi / 2 / 2 = Real.pi / 4 by ring]
theorem zq_01 : zrot (Real.pi / 2) 0 1 = 0 := by simp [zrot]
theorem zq_10 : zrot (Real.pi / 2) 1 0 = 0 := by simp [zrot]
theorem zq_11 : zrot (Real.pi / 2) 1 1 = I * om := by
  rw [← om_conj]
  simp only [zrot, Matrix.of_apply, Matrix.cons_val', Matrix.cons_val_one, Matrix.cons_val_fin_one]
  rw [show Real.pi / 2 / 2 = Real.pi / 4 by ring]
theorem zh_00 : zrot Real.pi 0 0 = -I := by
  simp only [zrot, Matrix.of_apply, Matrix.cons_val', Matrix.cons_val_zero, Matrix.cons_val_fin_one]
  exact cexp_neg_pi_half
theorem zh_01 : zrot Real.pi 0 1 = 0 := by simp [zrot]
theorem zh_10 : zrot Real.pi 1 0 = 0 := by simp [zrot]
theorem zh_11 : zrot Real.pi 1 1 = I := by
  simp only [zrot, Matrix.of_apply, Matrix.cons_val', Matrix.cons_val_one, Matrix.cons_val_fin_one]
  exact cexp_pi_half
theorem cx_00 : cexOp 0 0 0 = 0 := by simp [cexOp]
theorem cx_01 : cexOp 0 0 1 = -I := by simp [cexOp]
theorem cx_10 : cexOp 0 1 0 = -I := by simp [cexOp]
theorem cx_11 : cexOp 0 1 1 = 0 := by simp [cexOp]

variable (hk : k0 ≠ k1) (hl : l0 ≠ l1)
include hk hl

theorem k_00 : kOp k0 k1 l0 l1 *ᵥ ev (jn k0 l0) = om • ev (jn k0 l0) ∧ kOp k0 k1 l0 l1 *ᵥ ev (jn k0 l1) = om • ev (jn k1 l1) ∧
    kOp k0 k1 l0 l1 *ᵥ ev (jn k1 l0) = om • ev (jn k1 l0) ∧ kOp k0 k1 l0 l1 *ᵥ ev (jn k1 l1) = om • ev (jn k0 l1) := by
  have hs := sqrt_sq
  have hI : I ^ 2 = -1 := I_sq
  have d1 : (jn k1 l0 : Fin (P.c * P.t)) ≠ jn k1 l1 := fun h => hl (jn_inj.1 h).2
  have o0 : ∀ l, (jn k0 l : Fin (P.c * P.t)) ≠ jn k1 l0 := fun l h => hk (jn_inj.1 h).1
  have o1 : ∀ l, (jn k0 l : Fin (P.c * P.t)) ≠ jn k1 l1 := fun l h => hk (jn_inj.1 h).1
  unfold kOp
  rw [ctl_twoLevel _ k1 hl]
  generalize hs' : ((Real.sqrt 2 / 2 : ℝ) : ℂ) = s at hs
  refine ⟨?_, ?_, ?_, ?_⟩ <;>
  · simp only [← mulVec_mulVec, first_fst _ hk, first_snd _ hk, second_fst _ hl, second_snd _ hl, mulVec_add, mulVec_smul,
      twoLevel_fst _ d1, twoLevel_snd _ d1, twoLevel_oth _ (o0 _) (o1 _), had_00, had_01, had_10, had_11, zq_00, zq_01, zq_10, zq_11,
      cx_00, cx_01, cx_10, cx_11, hs', zero_smul, add_zero, zero_add]
    generalize ev (jn k0 l0 : Fin (P.c * P.t)) = a
    generalize ev (jn k0 l1 : Fin (P.c * P.t)) = b
    generalize ev (jn k1 l0 : Fin (P.c * P.t)) = c
    generalize ev (jn k1 l1 : Fin (P.c * P.t)) = d
    have h4 : s ^ 4 = 1 / 4 := by rw [show s ^ 4 = (s ^ 2) ^ 2 by ring, hs]; norm_num
    have h4' : I ^ 4 = 1 := I_pow_four
    have h6 : I ^ 6 = -1 := by rw [show I ^ 6 = I ^ 4 * I ^ 2 by ring, h4', hI]; ring
    match_scalars <;> ring_nf <;> simp only [h4, h4', h6] <;> ring

/-- a level above 1 of the second line -/
theorem k_l {l : Fin P.t} (h0 : l ≠ l0) (h1 : l ≠ l1) :
    kOp k0 k1 l0 l1 *ᵥ ev (jn k0 l) = (-((Real.sqrt 2 / 2 : ℝ) : ℂ)) • ev (jn k0 l) + (I * ((Real.sqrt 2 / 2 : ℝ) : ℂ)) • ev (jn k1 l) ∧
    kOp k0 k1 l0 l1 *ᵥ ev (jn k1 l) = (I * ((Real.sqrt 2 / 2 : ℝ) : ℂ)) • ev (jn k0 l) + (-((Real.sqrt 2 / 2 : ℝ) : ℂ)) • ev (jn k1 l) := by
  have hs := sqrt_sq
  have hI : I ^ 2 = -1 := I_sq
  have o0 : ∀ k, (jn k l : Fin (P.c * P.t)) ≠ jn k1 l0 := fun k h => h0 (jn_inj.1 h).2
  have o1 : ∀ k, (jn k l : Fin (P.c * P.t)) ≠ jn k1 l1 := fun k h => h1 (jn_inj.1 h).2
  unfold kOp
  rw [ctl_twoLevel _ k1 hl]
  generalize hs' : ((Real.sqrt 2 / 2 : ℝ) : ℂ) = s at hs
  refine ⟨?_, ?_⟩ <;>
  · simp only [← mulVec_mulVec, first_fst _ hk, first_snd _ hk, second_oth _ h0 h1, mulVec_add, mulVec_smul,
      twoLevel_oth _ (o0 _) (o1 _), had_00, had_01, had_10, had_11, zq_00, zq_01, zq_10, zq_11, om_val,
      hs', zero_smul, add_zero, zero_add]
    generalize ev (jn k0 l : Fin (P.c * P.t)) = a
    generalize ev (jn k1 l : Fin (P.c * P.t)) = b
    have h3 : s ^ 3 = s / 2 := by rw [show s ^ 3 = s * s ^ 2 by ring, hs]; ring
    have h4' : I ^ 4 = 1 := I_pow_four
    have hI3 : I ^ 3 = -I := I_pow_three
    match_scalars <;> ring_nf <;> simp only [h3, h4', hI3, hI] <;> ring

omit hk in
/-- a level above 1 of the first line -/
theorem k_k {k : Fin P.c} (h0 : k ≠ k0) (h1 : k ≠ k1) : kOp k0 k1 l0 l1 *ᵥ ev (jn k l0) = -ev (jn k l0) ∧
    kOp k0 k1 l0 l1 *ᵥ ev (jn k l1) = -ev (jn k l1) ∧
    ∀ l, l ≠ l0 → l ≠ l1 → kOp k0 k1 l0 l1 *ᵥ ev (jn k l) = ev (jn k l) := by
  have hs := sqrt_sq
  have hI : I ^ 2 = -1 := I_sq
  have o0 : ∀ l, (jn k l : Fin (P.c * P.t)) ≠ jn k1 l0 := fun l h => h1 (jn_inj.1 h).1
  have o1 : ∀ l, (jn k l : Fin (P.c * P.t)) ≠ jn k1 l1 := fun l h => h1 (jn_inj.1 h).1
  unfold kOp
  rw [ctl_twoLevel _ k1 hl]
  generalize hs' : ((Real.sqrt 2 / 2 : ℝ) : ℂ) = s at hs
  refine ⟨?_, ?_, ?_⟩
  · simp only [← mulVec_mulVec, first_oth _ h0 h1, second_fst _ hl, second_snd _ hl, mulVec_add, mulVec_smul,
      twoLevel_oth _ (o0 _) (o1 _), had_00, had_01, had_10, had_11, hs']
    generalize ev (jn k l0 : Fin (P.c * P.t)) = a
    generalize ev (jn k l1 : Fin (P.c * P.t)) = b
    match_scalars <;> ring_nf <;> simp only [hs, hI] <;> norm_num
  · simp only [← mulVec_mulVec, first_oth _ h0 h1, second_fst _ hl, second_snd _ hl, mulVec_add, mulVec_smul,
      twoLevel_oth _ (o0 _) (o1 _), had_00, had_01, had_10, had_11, hs']
    generalize ev (jn k l0 : Fin (P.c * P.t)) = a
    generalize ev (jn k l1 : Fin (P.c * P.t)) = b
    match_scalars <;> ring_nf <;> simp only [hs, hI] <;> norm_num
  · intro l hl0 hl1
    simp only [← mulVec_mulVec, first_oth _ h0 h1, second_oth _ hl0 hl1, twoLevel_oth _ (o0 _) (o1 _)]

/-- the rotation of the middle block -/
noncomputable def gOp (theta psi : ℝ) : Matrix (Fin (P.c * P.t)) (Fin (P.c * P.t)) ℂ :=
  kOp k0 k1 l0 l1 * (twoLevel (jn k1 l0) (jn k1 l1) (rot theta psi) * (onFirst P.t (twoLevel k0 k1 (zrot Real.pi)) * kOp k0 k1 l0 l1))

theorem g_in (theta psi : ℝ) :
    gOp k0 k1 l0 l1 theta psi *ᵥ ev (jn k0 l0) = (-1 : ℂ) • ev (jn k0 l0) ∧
    gOp k0 k1 l0 l1 theta psi *ᵥ ev (jn k1 l1) = (-1 : ℂ) • ev (jn k1 l1) ∧
    gOp k0 k1 l0 l1 theta psi *ᵥ ev (jn k1 l0) = rot theta psi 0 0 • ev (jn k1 l0) + rot theta psi 1 0 • ev (jn k0 l1) ∧
    gOp k0 k1 l0 l1 theta psi *ᵥ ev (jn k0 l1) = rot theta psi 0 1 • ev (jn k1 l0) + rot theta psi 1 1 • ev (jn k0 l1) := by
  have hI : I ^ 2 = -1 := I_sq
  have d1 : (jn k1 l0 : Fin (P.c * P.t)) ≠ jn k1 l1 := fun h => hl (jn_inj.1 h).2
  have o0 : ∀ l, (jn k0 l : Fin (P.c * P.t)) ≠ jn k1 l0 := fun l h => hk (jn_inj.1 h).1
  have o1 : ∀ l, (jn k0 l : Fin (P.c * P.t)) ≠ jn k1 l1 := fun l h => hk (jn_inj.1 h).1
  have ho : om ^ 2 = -I := by rw [pow_two, om_sq]
  obtain ⟨ka, kb, kc, kd⟩ := k_00 k0 k1 l0 l1 hk hl
  unfold gOp
  refine ⟨?_, ?_, ?_, ?_⟩ <;>
  · simp only [← mulVec_mulVec, ka, kb, kc, kd, first_fst _ hk, first_snd _ hk, mulVec_add, mulVec_smul,
      twoLevel_fst _ d1, twoLevel_snd _ d1, twoLevel_oth _ (o0 _) (o1 _), zh_00, zh_01, zh_10, zh_11, zero_smul, add_zero, zero_add]
    match_scalars <;> ring_nf <;> simp only [ho] <;> ring_nf <;> simp only [hI] <;> ring

theorem g_l (theta psi : ℝ) {l : Fin P.t} (h0 : l ≠ l0) (h1 : l ≠ l1) :
    gOp k0 k1 l0 l1 theta psi *ᵥ ev (jn k0 l) = (-I) • ev (jn k0 l) ∧ gOp k0 k1 l0 l1 theta psi *ᵥ ev (jn k1 l) = I • ev (jn k1 l) := by
  have hI : I ^ 2 = -1 := I_sq
  have hs := sqrt_sq
  have o0 : ∀ k, (jn k l : Fin (P.c * P.t)) ≠ jn k1 l0 := fun k h => h0 (jn_inj.1 h).2
  have o1 : ∀ k, (jn k l : Fin (P.c * P.t)) ≠ jn k1 l1 := fun k h => h1 (jn_inj.1 h).2
  obtain ⟨ka, kb⟩ := k_l k0 k1 l0 l1 hk hl h0 h1
  have hI3 : I ^ 3 = -I := I_pow_three
  unfold gOp
  generalize hs' : ((Real.sqrt 2 / 2 : ℝ) : ℂ) = s at hs ka kb
  refine ⟨?_, ?_⟩ <;>
  · simp only [← mulVec_mulVec, ka, kb, first_fst _ hk, first_snd _ hk, mulVec_add, mulVec_smul,
      twoLevel_oth _ (o0 _) (o1 _), zh_00, zh_01, zh_10, zh_11, zero_smul, add_zero, zero_add]
    match_scalars <;> ring_nf <;> simp only [hs, hI, hI3] <;> ring

omit hk in
theorem g_k (theta psi : ℝ) {k : Fin P.c} (h0 : k ≠ k0) (h1 : k ≠ k1) (l : Fin P.t) :
    gOp k0 k1 l0 l1 theta psi *ᵥ ev (jn k l) = ev (jn k l) := by
  have o0 : ∀ l, (jn k l : Fin (P.c * P.t)) ≠ jn k1 l0 := fun l h => h1 (jn_inj.1 h).1
  have o1 : ∀ l, (jn k l : Fin (P.c * P.t)) ≠ jn k1 l1 := fun l h => h1 (jn_inj.1 h).1
  obtain ⟨ka, kb, kc⟩ := k_k k0 k1 l0 l1 hl h0 h1
  unfold gOp
  by_cases e0 : l = l0
  · subst e0
    simp only [← mulVec_mulVec, ka, mulVec_neg, first_oth _ h0 h1, twoLevel_oth _ (o0 _) (o1 _), neg_neg]
  by_cases e1 : l = l1
  · subst e1
    simp only [← mulVec_mulVec, kb, mulVec_neg, first_oth _ h0 h1, twoLevel_oth _ (o0 _) (o1 _), neg_neg]
  simp only [← mulVec_mulVec, kc l e0 e1, first_oth _ h0 h1, twoLevel_oth _ (o0 _) (o1 _)]

/-- four rotations together have no further phases -/
theorem g_four (theta psi : ℝ) :
    gOp k0 k1 l0 l1 theta psi * (gOp k0 k1 l0 l1 theta psi * (gOp k0 k1 l0 l1 theta psi * gOp k0 k1 l0 l1 theta psi)) =
      twoLevel (jn k1 l0) (jn k0 l1) (rot (4 * theta) psi) := by
  have hne : (jn k1 l0 : Fin (P.c * P.t)) ≠ jn k0 l1 := fun h => hk (jn_inj.1 h).1.symm
  have hrot : rot (4 * theta) psi = rot theta psi * (rot theta psi * (rot theta psi * rot theta psi)) := by
    rw [rot_add, rot_add, rot_add]; congr 1; ring
  rw [hrot, ← twoLevel_mul _ _ hne, ← twoLevel_mul _ _ hne, ← twoLevel_mul _ _ hne]
  obtain ⟨ga, gb, gc, gd⟩ := g_in k0 k1 l0 l1 hk hl theta psi
  have hI : I ^ 2 = -1 := I_sq
  refine ext_ev fun x => ?_
  obtain ⟨k, l, rfl⟩ := jn_surj x
  have fixed : ∀ (s : ℂ), s ^ 4 = 1 → gOp k0 k1 l0 l1 theta psi *ᵥ ev (jn k l) = s • ev (jn k l) →
      (jn k l : Fin (P.c * P.t)) ≠ jn k1 l0 → (jn k l : Fin (P.c * P.t)) ≠ jn k0 l1 →
      (gOp k0 k1 l0 l1 theta psi * (gOp k0 k1 l0 l1 theta psi * (gOp k0 k1 l0 l1 theta psi * gOp k0 k1 l0 l1 theta psi))) *ᵥ ev (jn k l) =
      (twoLevel (jn k1 l0) (jn k0 l1) (rot theta psi) * (twoLevel (jn k1 l0) (jn k0 l1) (rot theta psi) *
        (twoLevel (jn k1 l0) (jn k0 l1) (rot theta psi) * twoLevel (jn k1 l0) (jn k0 l1) (rot theta psi)))) *ᵥ ev (jn k l) := by
    intro s hs hg n1 n2
    simp only [← mulVec_mulVec, hg, mulVec_smul, twoLevel_oth _ n1 n2, smul_smul]
    rw [show s * s * s * s = s ^ 4 by ring, hs, one_smul]
  by_cases e0 : k = k0
  · subst e0
    by_cases f0 : l = l0
    · subst f0
      exact fixed (-1) (by norm_num) ga (fun h => hk (jn_inj.1 h).1) (fun h => hl (jn_inj.1 h).2)
    by_cases f1 : l = l1
    · subst f1
      simp only [← mulVec_mulVec, gc, gd, mulVec_add, mulVec_smul, twoLevel_fst _ hne, twoLevel_snd _ hne]
    · refine fixed (-I) ?_ (g_l k k1 l0 l1 hk hl theta psi f0 f1).1 (fun h => f0 (jn_inj.1 h).2) (fun h => f1 (jn_inj.1 h).2)
      rw [neg_pow, I_pow_four]; norm_num
  by_cases e1 : k = k1
  · subst e1
    by_cases f0 : l = l0
    · subst f0
      simp only [← mulVec_mulVec, gc, gd, mulVec_add, mulVec_smul, twoLevel_fst _ hne, twoLevel_snd _ hne]
    by_cases f1 : l = l1
    · subst f1
      exact fixed (-1) (by norm_num) gb (fun h => hl (jn_inj.1 h).2.symm) (fun h => hk (jn_inj.1 h).1.symm)
    · exact fixed I I_pow_four (g_l k0 k l0 l1 hk hl theta psi f0 f1).2 (fun h => f0 (jn_inj.1 h).2) (fun h => f1 (jn_inj.1 h).2)
  · refine fixed 1 (by norm_num) ?_ (fun h => e1 (jn_inj.1 h).1) (fun h => e0 (jn_inj.1 h).1)
    rw [g_k k0 k1 l0 l1 hl theta psi e0 e1 l, one_smul]

end

/-- exchange of the two levels of a rotation -/
theorem twoLevel_swap {n : Nat} {a b : Fin n} (hab : a ≠ b) (M : Matrix (Fin 2) (Fin 2) ℂ) :
    twoLevel a b M = twoLevel b a !![M 1 1, M 1 0; M 0 1, M 0 0] := by
  ext r s
  simp only [twoLevel, Matrix.of_apply, Matrix.cons_val', Matrix.cons_val_zero, Matrix.cons_val_one, Matrix.cons_val_fin_one]
  by_cases ha : r = a
  · subst ha
    by_cases hs : s = r
    · subst hs; simp [hab]
    · by_cases hs' : s = b <;> simp [hab, hs, hs', hab.symm]
  · by_cases hb : r = b
    · subst hb
      by_cases hs : s = a
      · subst hs; simp [ha, hab]
      · by_cases hs' : s = r <;> simp [ha, hs, hs', hab.symm]
    · simp [ha, hb]

theorem rot_swapped (theta psi : ℝ) :
    !![rot theta psi 1 1, rot theta psi 1 0; rot theta psi 0 1, rot theta psi 0 0] = rot theta (-psi) := by
  unfold rot
  ext i j
  fin_cases i <;> fin_cases j <;> simp

theorem rot_sign (theta psi : ℝ) : (!![-1, 0; 0, 1] : Matrix (Fin 2) (Fin 2) ℂ) * rot (-theta) psi * !![-1, 0; 0, 1] = rot theta psi := by
  unfold rot
  ext i j
  fin_cases i <;> fin_cases j <;> simp [Matrix.mul_apply, Fin.sum_univ_two, neg_div]

/-- change of levels that turns the sign of one of them -/
theorem twoLevel_conj_neg {n : Nat} {a b a' b' : Fin n} (M : Matrix (Fin 2) (Fin 2) ℂ) (hab : a ≠ b) (hab' : a' ≠ b')
    (Q : Matrix (Fin n) (Fin n) ℂ) (hQ : Q ∈ unitaryGroup (Fin n) ℂ) (ha : Q *ᵥ ev a = -ev a') (hb : Q *ᵥ ev b = ev b') :
    Qᴴ * twoLevel a' b' M * Q = twoLevel a b (!![-1, 0; 0, 1] * M * !![-1, 0; 0, 1]) := by
  set D : Matrix (Fin n) (Fin n) ℂ := twoLevel a b !![-1, 0; 0, 1] with hD
  have hd : (!![-1, 0; 0, 1] : Matrix (Fin 2) (Fin 2) ℂ)ᴴ = !![-1, 0; 0, 1] := by
    ext i j; fin_cases i <;> fin_cases j <;> simp
  have hdd : (!![-1, 0; 0, 1] : Matrix (Fin 2) (Fin 2) ℂ) * !![-1, 0; 0, 1] = 1 := by
    ext i j; fin_cases i <;> fin_cases j <;> simp [Matrix.mul_apply, Fin.sum_univ_two]
  have hDH : Dᴴ = D := by rw [hD, twoLevel_conjTranspose _ hab, hd]
  have hDD : D * D = 1 := by rw [hD, twoLevel_mul _ _ hab, hdd, twoLevel_one hab]
  have hDu : D ∈ unitaryGroup (Fin n) ℂ := by rw [mem_unitaryGroup_iff, star_eq_conjTranspose, hDH, hDD]
  have h := twoLevel_conj M hab hab' (Q * D) (mul_mem hQ hDu) 1
    (by rw [← mulVec_mulVec, hD, twoLevel_fst _ hab]; simp [mulVec_neg, ha])
    (by rw [← mulVec_mulVec, hD, twoLevel_snd _ hab]; simp [hb])
  rw [← twoLevel_mul _ _ hab, ← twoLevel_mul _ _ hab, ← hD, ← h, conjTranspose_mul, hDH]
  calc _ = (D * D) * (Qᴴ * twoLevel a' b' M * Q) * (D * D) := by rw [hDD, one_mul, mul_one]
    _ = _ := by simp only [mul_assoc]

theorem pswapPhases_ok (hq : P.q0 ≠ P.q1) (k0 k1 : Fin P.c) (l0 l1 : Fin P.t) (hk0 : (k0 : Nat) = 0) (hk1 : (k1 : Nat) = 1)
    (hl0 : (l0 : Nat) = 0) (hl1 : (l1 : Nat) = 1) (m : Fin P.t) (hm : (m : Nat) + 1 = P.t) (theta phi : ℝ) :
    ∃ l F, pswapPhases P theta phi = .ok l ∧ F ∈ unitaryGroup (Fin (P.c * P.t)) ℂ ∧
      Block P l (Fᴴ * gOp k0 k1 l0 l1 (if P.t = 2 then -theta else theta) (-phi) * F) 4 ∧
      (P.t = 2 → F = 1) ∧ (P.t ≠ 2 → (∀ k, F *ᵥ ev (jn k m) = -ev (jn k l1)) ∧ ∀ k, F *ᵥ ev (jn k l0) = ev (jn k l0)) := by
  have hl : l0 < l1 := by rw [Fin.lt_def]; omega
  have hk : k0 < k1 := by rw [Fin.lt_def]; omega
  have z0 : (0 : Int) = ((l0 : Nat) : Int) := by rw [hl0]; rfl
  have z1 : (1 : Int) = ((l1 : Nat) : Int) := by rw [hl1]; rfl
  have y0 : (0 : Int) = ((k0 : Nat) : Int) := by rw [hk0]; rfl
  have y1 : (1 : Int) = ((k1 : Nat) : Int) := by rw [hk1]; rfl
  unfold pswapPhases
  set th := if P.t = 2 then -theta else theta with hth
  simp only []
  obtain ⟨h0, h01, h02⟩ := blkRh_first (P := P) k0 k1 hk
  obtain ⟨h1, h11, h12⟩ := blkRh_second hq l0 l1 hl
  obtain ⟨zq, zq1, zq2⟩ := blkRz_first (P := P) k0 k1 hk (Real.pi / 2)
  obtain ⟨zh, zh1, zh2⟩ := blkRz_first (P := P) k0 k1 hk Real.pi
  obtain ⟨ft, ft1, _, ft2⟩ := blkR_second hq l0 l1 hl (Real.pi / 2) (-phi - Real.pi / 2)
  obtain ⟨fb, fb1, _, fb2⟩ := blkR_second hq l0 l1 hl (-Real.pi / 2) (-phi - Real.pi / 2)
  obtain ⟨zm, zm1, zm2⟩ := blkRz_second hq l0 l1 hl (-th / 2)
  obtain ⟨zp, zp1, zp2⟩ := blkRz_second hq l0 l1 hl (th / 2)
  obtain ⟨x, x1, x2⟩ := blkCEx k1 l0 l1 hk1 hl0 hl1
  have v2 := (mkVirtRz_second hq l0 l1 hl.ne (-Real.pi)).block
  have vb2 := (mkVirtRz_second hq l0 l1 hl.ne Real.pi).block
  rw [hl0] at h11 ft1 fb1 zm1 zp1
  rw [hl1] at h11 ft1 fb1 zm1 zp1
  rw [hk0, hk1] at h01 zq1 zh1
  have hcore := core_block k1 l0 l1 hl.ne th (-phi) ft2 x2 v2 zm2 zp2 vb2 fb2
  have hK : Block P [h0, h1, zq, x, h0, h1] (kOp k0 k1 l0 l1) 1 := by
    have h := h02.append (h12.append (zq2.append (x2.append (h02.append h12))))
    unfold kOp
    simp only [mul_assoc] at h
    exact h
  have hG := hK.append (zh2.append (hcore.append hK))
  rw [mul_assoc, mul_assoc] at hG
  change Block P _ (gOp k0 k1 l0 l1 th (-phi)) 4 at hG
  have w0 : ((0 : Nat) : Int) = 0 := rfl
  have w1 : ((1 : Nat) : Int) = 1 := rfl
  rw [w0, w1] at h01 zq1 zh1 h11 ft1 fb1 zm1 zp1
  rw [h01, h11, zq1, zh1, ft1, fb1, zm1, zp1, x1]
  simp only [bind, Except.bind, pure, Except.pure]
  by_cases ht : P.t = 2
  · simp only [ht, ne_eq, not_true, if_false]
    refine ⟨_, 1, rfl, one_mem _, ?_, fun _ => rfl, fun h => h.elim⟩
    rw [conjTranspose_one, one_mul, mul_one]
    simp only [List.nil_append, List.append_nil, List.append_assoc, List.cons_append, hl0, w0] at hG ⊢
    rw [← ht]
    exact hG
  · have hlm : l1 < m := by rw [Fin.lt_def]; omega
    obtain ⟨f, f1, _, f2⟩ := blkR_second hq l1 m hlm Real.pi (Real.pi / 2)
    obtain ⟨f', f1', _, f2'⟩ := blkR_second hq l1 m hlm (-Real.pi) (Real.pi / 2)
    have em : ((P.t : Nat) : Int) - 1 = ((m : Nat) : Int) := by omega
    rw [hl1] at f1 f1'
    rw [w1] at f1 f1'
    have ht' : P.t ≠ 2 := ht
    rw [if_pos ht', em, f1]
    simp only []
    rw [if_pos ht', f1']
    rw [rot_unswap] at f2
    rw [rot_swap', show (!![0, 1; -1, 0] : Matrix (Fin 2) (Fin 2) ℂ) = (!![0, -1; 1, 0] : Matrix (Fin 2) (Fin 2) ℂ)ᴴ by
      rw [unswap_conj, conjTranspose_conjTranspose], ← twoLevel_conjTranspose _ hlm.ne, ← onSecond_conjTranspose] at f2'
    have hB := f2.append (hG.append f2')
    refine ⟨_, onSecond P.c (twoLevel l1 m !![0, -1; 1, 0]), rfl, ?_, ?_, fun h => absurd h ht, fun _ => ⟨?_, ?_⟩⟩
    · refine onSecond_unitary _ (twoLevel_unitary _ hlm.ne ?_)
      rw [← rot_unswap]; exact rot_unitary _ _
    · simp only [List.nil_append, List.append_nil, List.append_assoc, List.cons_append, hl0, w0] at hB ⊢
      exact hB
    · intro k
      rw [second_snd _ hlm.ne]; simp
    · intro k
      have e0 : l0 ≠ m := by rw [Ne, Fin.ext_iff]; rw [Fin.lt_def] at hlm; omega
      rw [second_oth _ hl.ne e0]

theorem pswapNoPhases_ok (hq : P.q0 ≠ P.q1) (k0 k1 : Fin P.c) (l0 m : Fin P.t) (hk0 : (k0 : Nat) = 0) (hk1 : (k1 : Nat) = 1)
    (hl0 : (l0 : Nat) = 0) (hm : (m : Nat) + 1 = P.t) (ht : 2 ≤ P.t) (theta phi : ℝ) :
    ∃ l, pswapNoPhases P theta phi = .ok l ∧ Block P l (twoLevel (jn k0 m) (jn k1 l0) (rot theta phi)) 16 := by
  set l1 : Fin P.t := ⟨1, by omega⟩ with hl1
  have hkk : k0 ≠ k1 := by rw [Ne, Fin.ext_iff]; omega
  have hll : l0 ≠ l1 := by rw [Ne, Fin.ext_iff, hl1]; simp; omega
  obtain ⟨l, F, e, hF, b, f1, f2⟩ := pswapPhases_ok hq k0 k1 l0 l1 hk0 hk1 hl0 rfl m hm (-theta / 4) phi
  have hne : (jn k1 l0 : Fin (P.c * P.t)) ≠ jn k0 l1 := fun h => hkk (jn_inj.1 h).1.symm
  have hne' : (jn k0 m : Fin (P.c * P.t)) ≠ jn k1 l0 := fun h => hkk (jn_inj.1 h).1
  have hFF : F * Fᴴ = 1 := by rw [← star_eq_conjTranspose]; exact mem_unitaryGroup_iff.1 hF
  refine ⟨l ++ l ++ l ++ l, ?_, ?_⟩
  · unfold pswapNoPhases
    rw [e]
    rfl
  have h := ((b.append b).append b).append b
  set th := if P.t = 2 then -(-theta / 4) else -theta / 4 with hth
  have key : Fᴴ * gOp k0 k1 l0 l1 th (-phi) * F *
      (Fᴴ * gOp k0 k1 l0 l1 th (-phi) * F * (Fᴴ * gOp k0 k1 l0 l1 th (-phi) * F * (Fᴴ * gOp k0 k1 l0 l1 th (-phi) * F))) =
      twoLevel (jn k0 m) (jn k1 l0) (rot theta phi) := by
    have step : ∀ X, F * (Fᴴ * X) = X := fun X => by rw [← mul_assoc, hFF, one_mul]
    have e4 := g_four k0 k1 l0 l1 hkk hll th (-phi)
    calc _ = Fᴴ * (gOp k0 k1 l0 l1 th (-phi) * (gOp k0 k1 l0 l1 th (-phi) * (gOp k0 k1 l0 l1 th (-phi) * gOp k0 k1 l0 l1 th (-phi)))) * F := by
          simp only [mul_assoc, step]
      _ = Fᴴ * twoLevel (jn k0 l1) (jn k1 l0) (rot (4 * th) phi) * F := by
          rw [e4, twoLevel_swap hne, rot_swapped, neg_neg]
      _ = _ := by
          by_cases h2 : P.t = 2
          · rw [f1 h2, conjTranspose_one, one_mul, mul_one]
            have em : m = l1 := Fin.ext (by rw [hl1]; simp; omega)
            rw [em, hth, if_pos h2]
            congr 2; ring
          · obtain ⟨g1, g2⟩ := f2 h2
            rw [twoLevel_conj_neg _ hne' hne.symm F hF (g1 k0) (g2 k1), hth, if_neg h2,
              show 4 * (-theta / 4) = -theta by ring, rot_sign]
  rw [key] at h
  exact h

theorem permutePswap_ok (hq : P.q0 ≠ P.q1) (ht : 2 ≤ P.t) (x x' : Fin P.c) (hx : (x' : Nat) = x + 1) (l0 m : Fin P.t)
    (hl0 : (l0 : Nat) = 0) (hm : (m : Nat) + 1 = P.t) (theta phi : ℝ) :
    ∃ l, permutePswap P (jn x m : Fin (P.c * P.t)) theta phi = .ok l ∧ Block P l (twoLevel (jn x m) (jn x' l0) (rot theta phi)) 16 := by
  have hc : 2 ≤ P.c := by have := x'.isLt; omega
  obtain ⟨l, e, b⟩ := pswapNoPhases_ok hq ⟨0, by omega⟩ ⟨1, by omega⟩ l0 m rfl rfl hl0 hm ht theta phi
  have hdiv : ((jn x m : Fin (P.c * P.t)) : Nat) / P.t = x := by
    rw [jn_val, mul_comm, Nat.mul_add_div (by omega), Nat.div_eq_of_lt m.isLt, add_zero]
  unfold permutePswap
  simp only []
  rw [hdiv, e]
  simp only [bind, Except.bind, pure, Except.pure]
  by_cases h0 : (x : Nat) = 0
  · rw [if_neg (by simpa using h0)]
    refine ⟨l, rfl, ?_⟩
    have ex : x = ⟨0, by omega⟩ := Fin.ext h0
    have ex' : x' = ⟨1, by omega⟩ := Fin.ext (by rw [hx, h0])
    rw [ex, ex']; exact b
  · rw [if_pos h0]
    obtain ⟨p0, p1, Q, e0, e1, hQ, b1, b2, m1, m2⟩ := move_first (P := P) ⟨0, by omega⟩ ⟨1, by omega⟩ x x' rfl rfl h0 hx
    rw [e0]
    simp only []
    rw [e1]
    refine ⟨_, rfl, ?_⟩
    refine Block.conj ?_ ?_ b1 b b2 hQ 1 ?_ ?_
    · intro h; have := (jn_inj.1 h).1; rw [Fin.ext_iff] at this; omega
    · intro h; have := (jn_inj.1 h).1; rw [Fin.ext_iff] at this; simp at this
    · rw [m1, one_smul]
    · rw [m2, one_smul]

theorem zPswap_ok (hq : P.q0 ≠ P.q1) (ht : 2 ≤ P.t) (x x' : Fin P.c) (hx : (x' : Nat) = x + 1) (l0 m : Fin P.t)
    (hl0 : (l0 : Nat) = 0) (hm : (m : Nat) + 1 = P.t) (phi : ℝ) :
    ∃ l, zPswap P (jn x m : Fin (P.c * P.t)) phi = .ok l ∧ Block P l (twoLevel (jn x m) (jn x' l0) (zrot phi)) 48 := by
  have hne : (jn x m : Fin (P.c * P.t)) ≠ jn x' l0 := by
    intro h; have := (jn_inj.1 h).1; rw [Fin.ext_iff] at this; omega
  obtain ⟨l1, e1, b1⟩ := permutePswap_ok hq ht x x' hx l0 m hl0 hm (Real.pi / 2) 0
  obtain ⟨l2, e2, b2⟩ := permutePswap_ok hq ht x x' hx l0 m hl0 hm phi (Real.pi / 2)
  obtain ⟨l3, e3, b3⟩ := permutePswap_ok hq ht x x' hx l0 m hl0 hm (-Real.pi / 2) 0
  have b := (b3.append b2).append b1
  rw [twoLevel_mul _ _ hne, twoLevel_mul _ _ hne, ← mul_assoc, rz_two] at b
  refine ⟨_, ?_, b⟩
  unfold zPswap
  rw [e1, e2, e3]
  rfl

end Qudits.EntQR
