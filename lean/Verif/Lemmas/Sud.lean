import Verif.Model.Variational
import Verif.Spec.VariationalSpec
import Verif.Lemmas.TwoLine
import Mathlib.LinearAlgebra.UnitaryGroup
import Mathlib.LinearAlgebra.Matrix.Determinant.Basic
import Mathlib.Tactic.FieldSimp

namespace Qudits
namespace Variational
open Complex Spec Matrix

/-! ### the generators -/

theorem zGen_ok {d a b : Nat} (ha : a < d) (hb : b < d) :
    ∃ A, zGen d a b = .ok A ∧ A.rows = d ∧ A.cols = d ∧
      ∀ r c, A.at' r c = (if r = a ∧ c = a then 1 else 0) + -1 * (if r = b ∧ c = b then 1 else 0) := by
  refine ⟨⟨d, d, fun r c => (outer (uvec d a) (uvec d a)).at' r c + -1 * (outer (uvec d b) (uvec d b)).at' r c⟩, ?_, rfl, rfl, ?_⟩
  · unfold zGen
    simp only [dirac_one ha, dirac_one hb, bind, Except.bind, Arr2.add]
    rw [if_pos (by simp [outer, Arr2.smul])]
    simp [outer, Arr2.smul]
  · intro r c
    simp only [outer_uvec ha ha, outer_uvec hb hb]

theorem yGen_ok {d m n : Nat} (hm : m < d) (hn : n < d) :
    ∃ A, yGen d m n = .ok A ∧ A.rows = d ∧ A.cols = d ∧
      ∀ r c, A.at' r c = -I * (if r = m ∧ c = n then 1 else 0) + I * (if r = n ∧ c = m then 1 else 0) := by
  refine ⟨⟨d, d, fun r c => -I * (outer (uvec d m) (uvec d n)).at' r c + I * (outer (uvec d n) (uvec d m)).at' r c⟩, ?_, rfl, rfl, ?_⟩
  · unfold yGen
    simp only [dirac_one hm, dirac_one hn, bind, Except.bind, Arr2.add]
    rw [if_pos (by simp [outer, Arr2.smul])]
    simp [outer, Arr2.smul]
  · intro r c
    simp only [outer_uvec hm hn, outer_uvec hn hm]

/-! ### their exponentials -/

/-- exponential of a matrix that is diagonal in an orthonormal basis -/
theorem exp_unitary_conj {N : Nat} (V : Matrix (Fin N) (Fin N) ℂ) (hV : V ∈ unitaryGroup (Fin N) ℂ) (w : Fin N → ℂ) :
    NormedSpace.exp (V * diagonal w * Vᴴ) = V * diagonal (fun i => cexp (w i)) * Vᴴ := by
  have h1 : V * Vᴴ = 1 := mem_unitaryGroup_iff.1 hV
  have h2 : Vᴴ * V = 1 := mem_unitaryGroup_iff'.1 hV
  have hinv : V⁻¹ = Vᴴ := Matrix.inv_eq_right_inv h1
  have hu : _root_.IsUnit V := ⟨⟨V, Vᴴ, h1, h2⟩, rfl⟩
  have hw : NormedSpace.exp w = fun i => cexp (w i) := by
    ext i
    rw [Pi.coe_exp, Complex.exp_eq_exp_ℂ]
  rw [← hinv, Matrix.exp_conj V _ hu, Matrix.exp_diagonal, hw]

theorem det_unitary_conj {N : Nat} (V D : Matrix (Fin N) (Fin N) ℂ) (hV : V ∈ unitaryGroup (Fin N) ℂ) :
    (V * D * Vᴴ).det = D.det := by
  have h1 : V * Vᴴ = 1 := mem_unitaryGroup_iff.1 hV
  rw [Matrix.det_mul, Matrix.det_mul, mul_comm V.det, mul_assoc, ← Matrix.det_mul, h1, Matrix.det_one, mul_one]

theorem phasePair_diag (d a b : Nat) (x : ℝ) :
    phasePair d a b x = diagonal fun i : Fin d =>
      cexp (if i.1 = a then I * x else if i.1 = b then -(I * x) else 0) := by
  ext r c
  rw [Matrix.diagonal_apply, phasePair]
  split_ifs <;> simp

theorem sum_pair {d a b : Nat} (ha : a < d) (hb : b < d) (hab : a ≠ b) (u v : ℂ) :
    ∑ i : Fin d, (if i.1 = a then u else if i.1 = b then v else 0) = u + v := by
  rw [Finset.sum_eq_add (⟨a, ha⟩ : Fin d) ⟨b, hb⟩ (fun h => hab (Fin.mk.inj h))]
  · rw [if_pos rfl, if_neg (Ne.symm hab), if_pos rfl]
  · intro c _ hc
    rw [if_neg (fun h => hc.1 (Fin.ext h)), if_neg (fun h => hc.2 (Fin.ext h))]
  · intro h; exact absurd (Finset.mem_univ _) h
  · intro h; exact absurd (Finset.mem_univ _) h

theorem phasePair_det {d a b : Nat} (ha : a < d) (hb : b < d) (hab : a ≠ b) (x : ℝ) : (phasePair d a b x).det = 1 := by
  rw [phasePair_diag, Matrix.det_diagonal, ← Complex.exp_sum, sum_pair ha hb hab, add_neg_cancel, Complex.exp_zero]

theorem phasePair_unitary (d a b : Nat) (x : ℝ) : phasePair d a b x ∈ unitaryGroup (Fin d) ℂ := by
  rw [mem_unitaryGroup_iff, star_eq_conjTranspose, phasePair_diag, Matrix.diagonal_conjTranspose, Matrix.diagonal_mul_diagonal,
    ← Matrix.diagonal_one]
  congr 1
  ext i
  simp only [Pi.star_apply]
  split_ifs
  · rw [Complex.star_def, ← Complex.exp_conj, ← Complex.exp_add]; simp
  · rw [Complex.star_def, ← Complex.exp_conj, ← Complex.exp_add]; simp
  · simp

theorem zexp {d a b : Nat} (hab : a ≠ b) (A : Arr2 ℂ) (hr : A.rows = d)
    (hA : ∀ r c, A.at' r c = (if r = a ∧ c = a then 1 else 0) + -1 * (if r = b ∧ c = b then 1 else 0)) (x : ℝ) :
    ((A.smul (I * (x : ℂ))).expm).toM d = phasePair d a b x := by
  rw [expm_toM (A.smul (I * (x : ℂ))) d hr, phasePair_diag]
  have : (A.smul (I * (x : ℂ))).toM d = diagonal fun i : Fin d => if i.1 = a then I * x else if i.1 = b then -(I * x) else 0 := by
    ext r c
    rw [Matrix.diagonal_apply]
    simp only [Arr2.toM, Arr2.smul, hA]
    by_cases hrc : r = c
    · subst hrc
      rw [if_pos rfl]
      by_cases h1 : r.1 = a
      · simp [h1, hab]
      · by_cases h2 : r.1 = b <;> simp [h1, h2]
        simp [Ne.symm hab]
    · rw [if_neg hrc, if_neg, if_neg]
      · simp
      · rintro ⟨h1, h2⟩; exact hrc (Fin.ext (h1.trans h2.symm))
      · rintro ⟨h1, h2⟩; exact hrc (Fin.ext (h1.trans h2.symm))
  rw [this, Matrix.exp_diagonal]
  congr 1
  ext i
  rw [Pi.coe_exp, Complex.exp_eq_exp_ℂ]

theorem planeTurn_two {d : Nat} (a b : Fin d) (hab : a ≠ b) (x : ℝ) :
    planeTurn d a b x = twoLevel a b !![(Real.cos x : ℂ), Real.sin x; -(Real.sin x : ℂ), Real.cos x] := by
  ext r c
  simp only [planeTurn, twoLevel, ← Fin.ext_iff]
  by_cases ha : r = a <;> by_cases hb : r = b <;> by_cases hc : c = a <;> by_cases hc' : c = b <;>
    simp_all [eq_comm]

theorem planeTurn_unitary {d a b : Nat} (ha : a < d) (hb : b < d) (hab : a ≠ b) (x : ℝ) :
    planeTurn d a b x ∈ unitaryGroup (Fin d) ℂ := by
  rw [show planeTurn d a b x = _ from planeTurn_two (⟨a, ha⟩ : Fin d) ⟨b, hb⟩ (fun h => hab (Fin.mk.inj h)) x]
  apply twoLevel_unitary _ (fun h => hab (Fin.mk.inj h))
  rw [mem_unitaryGroup_iff]
  have h := Real.cos_sq_add_sin_sq x
  have h' : (Real.cos x : ℂ) * Real.cos x + Real.sin x * Real.sin x = 1 := by
    rw [← Complex.ofReal_mul, ← Complex.ofReal_mul, ← Complex.ofReal_add, ← pow_two, ← pow_two, h, Complex.ofReal_one]
  ext i j
  fin_cases i <;> fin_cases j
  · simpa [Matrix.mul_apply, Fin.sum_univ_two, Complex.conj_ofReal, ← Complex.ofReal_cos, ← Complex.ofReal_sin] using h'
  · simp [Matrix.mul_apply, Fin.sum_univ_two, Complex.conj_ofReal, ← Complex.ofReal_cos, ← Complex.ofReal_sin, mul_comm]
  · simp [Matrix.mul_apply, Fin.sum_univ_two, Complex.conj_ofReal, ← Complex.ofReal_cos, ← Complex.ofReal_sin, mul_comm]
  · simpa [Matrix.mul_apply, Fin.sum_univ_two, Complex.conj_ofReal, ← Complex.ofReal_cos, ← Complex.ofReal_sin, add_comm] using h'

/-- orthonormal eigenvectors of the rotation in the plane -/
noncomputable def eig2 : Matrix (Fin 2) (Fin 2) ℂ :=
  !![((Real.sqrt 2 / 2 : ℝ) : ℂ), ((Real.sqrt 2 / 2 : ℝ) : ℂ); I * ((Real.sqrt 2 / 2 : ℝ) : ℂ), -I * ((Real.sqrt 2 / 2 : ℝ) : ℂ)]

theorem eig2_unitary : eig2 ∈ unitaryGroup (Fin 2) ℂ := by
  rw [mem_unitaryGroup_iff]
  have h := sq_half
  have hI : I * I = -1 := Complex.I_mul_I
  have e00 : eig2 0 0 = ((Real.sqrt 2 / 2 : ℝ) : ℂ) := rfl
  have e01 : eig2 0 1 = ((Real.sqrt 2 / 2 : ℝ) : ℂ) := rfl
  have e10 : eig2 1 0 = I * ((Real.sqrt 2 / 2 : ℝ) : ℂ) := rfl
  have e11 : eig2 1 1 = -I * ((Real.sqrt 2 / 2 : ℝ) : ℂ) := rfl
  ext i j
  rw [Matrix.mul_apply, Fin.sum_univ_two, star_eq_conjTranspose, Matrix.conjTranspose_apply, Matrix.conjTranspose_apply]
  fin_cases i <;> fin_cases j <;>
    simp only [Fin.zero_eta, Fin.mk_one, e00, e01, e10, e11, Matrix.one_apply, Complex.star_def,
      Complex.conj_ofReal, Complex.conj_I, map_mul, map_neg, Fin.isValue, if_true, if_false, zero_ne_one, one_ne_zero]
  · linear_combination 2 * h
  · ring
  · ring
  · linear_combination (-2 * ((Real.sqrt 2 / 2 : ℝ) : ℂ) ^ 2) * hI + 2 * h

theorem turn2 (x : ℝ) : eig2 * !![cexp (I * x), 0; 0, cexp (-(I * x))] * eig2ᴴ =
    !![(Real.cos x : ℂ), Real.sin x; -(Real.sin x : ℂ), Real.cos x] := by
  have h := sq_half
  have hI : I * I = -1 := Complex.I_mul_I
  have e00 : eig2 0 0 = ((Real.sqrt 2 / 2 : ℝ) : ℂ) := rfl
  have e01 : eig2 0 1 = ((Real.sqrt 2 / 2 : ℝ) : ℂ) := rfl
  have e10 : eig2 1 0 = I * ((Real.sqrt 2 / 2 : ℝ) : ℂ) := rfl
  have e11 : eig2 1 1 = -I * ((Real.sqrt 2 / 2 : ℝ) : ℂ) := rfl
  rw [cexp_I_mul, cexp_neg_I_mul]
  ext i j
  rw [Matrix.mul_apply, Fin.sum_univ_two, Matrix.conjTranspose_apply, Matrix.conjTranspose_apply, Matrix.mul_apply, Matrix.mul_apply,
    Fin.sum_univ_two, Fin.sum_univ_two]
  fin_cases i <;> fin_cases j <;>
    simp only [Fin.zero_eta, Fin.mk_one, e00, e01, e10, e11, Complex.star_def, Matrix.of_apply, Matrix.cons_val_zero, Matrix.cons_val_one,
      Complex.conj_ofReal, Complex.conj_I, map_mul, map_neg, Fin.isValue, Matrix.cons_val_fin_one, mul_zero, add_zero, zero_add]
  · linear_combination (2 * (Real.cos x : ℂ)) * h
  · linear_combination (-2 * (Real.sin x : ℂ) * ((Real.sqrt 2 / 2 : ℝ) : ℂ) ^ 2) * hI + 2 * (Real.sin x : ℂ) * h
  · linear_combination (2 * (Real.sin x : ℂ) * ((Real.sqrt 2 / 2 : ℝ) : ℂ) ^ 2) * hI - 2 * (Real.sin x : ℂ) * h
  · linear_combination (-2 * (Real.cos x : ℂ) * ((Real.sqrt 2 / 2 : ℝ) : ℂ) ^ 2) * hI + 2 * (Real.cos x : ℂ) * h

/-- the generator of the rotation in the basis of its eigenvectors -/
theorem yexp {d a b : Nat} (ha : a < d) (hb : b < d) (hab : a ≠ b) (A : Arr2 ℂ) (hr : A.rows = d)
    (hA : ∀ r c, A.at' r c = -I * (if r = a ∧ c = b then 1 else 0) + I * (if r = b ∧ c = a then 1 else 0)) (x : ℝ) :
    ((A.smul (I * (x : ℂ))).expm).toM d = planeTurn d a b x ∧ (planeTurn d a b x).det = 1 := by
  obtain ⟨a, rfl⟩ : ∃ a' : Fin d, a'.1 = a := ⟨⟨a, ha⟩, rfl⟩
  obtain ⟨b, rfl⟩ : ∃ b' : Fin d, b'.1 = b := ⟨⟨b, hb⟩, rfl⟩
  have hne : a ≠ b := fun h => hab (congrArg _ h)
  set V := twoLevel a b eig2 with hV
  have hVu : V ∈ unitaryGroup (Fin d) ℂ := twoLevel_unitary _ hne eig2_unitary
  set w : Fin d → ℂ := fun i => if i.1 = a.1 then I * x else if i.1 = b.1 then -(I * x) else 0 with hw
  have hdiag : (diagonal fun i => cexp (w i)) = twoLevel a b !![cexp (I * x), 0; 0, cexp (-(I * x))] := by
    ext r c
    simp only [hw, Matrix.diagonal_apply, twoLevel, ← Fin.ext_iff]
    by_cases ha : r = a <;> by_cases hb : r = b <;> by_cases hc : c = a <;> by_cases hc' : c = b <;>
      simp_all [eq_comm]
  have hturn : V * (diagonal fun i => cexp (w i)) * Vᴴ = planeTurn d a b x := by
    rw [hdiag, hV, twoLevel_conjTranspose _ hne, twoLevel_mul _ _ hne, twoLevel_mul _ _ hne, turn2, planeTurn_two a b hne]
  constructor
  · rw [expm_toM (A.smul (I * (x : ℂ))) d hr, ← hturn, ← exp_unitary_conj V hVu w]
    congr 1
    ext r c
    have h := sq_half
    have hI : I * I = -1 := Complex.I_mul_I
    have va : ∀ r, V r a = if r = a then ((Real.sqrt 2 / 2 : ℝ) : ℂ) else if r = b then I * ((Real.sqrt 2 / 2 : ℝ) : ℂ) else 0 := by
      intro r
      simp only [hV, twoLevel]
      by_cases h1 : r = a
      · simp [h1, eig2]
      · by_cases h2 : r = b
        · simp [h1, h2, eig2]
        · simp [h1, h2]
    have vb : ∀ r, V r b = if r = a then ((Real.sqrt 2 / 2 : ℝ) : ℂ) else if r = b then -I * ((Real.sqrt 2 / 2 : ℝ) : ℂ) else 0 := by
      intro r
      simp only [hV, twoLevel]
      by_cases h1 : r = a
      · simp [h1, eig2, hne.symm]
      · by_cases h2 : r = b
        · simp [h2, eig2, hne.symm]
        · simp [h1, h2]
    rw [Matrix.mul_apply, Finset.sum_eq_add a b hne]
    · rw [Matrix.mul_diagonal, Matrix.mul_diagonal, Matrix.conjTranspose_apply, Matrix.conjTranspose_apply, va, vb, va, vb]
      simp only [Arr2.toM, Arr2.smul, hA, hw, ← Fin.ext_iff, if_true, if_neg hne.symm]
      by_cases h1 : r = a
      · have h1' : ¬ r = b := fun e => hne (h1.symm.trans e)
        by_cases h3 : c = a
        · have h3' : ¬ c = b := fun e => hne (h3.symm.trans e)
          simp only [h1, h1', h3, h3', hne, if_true, if_false, and_false, false_and, Complex.star_def, Complex.conj_ofReal]
          ring
        · by_cases h4 : c = b
          · simp only [h1, hne, h4, hne.symm, if_true, if_false, and_false, and_self, Complex.star_def, Complex.conj_ofReal, map_mul,
              Complex.conj_I, map_neg]
            linear_combination (-(x : ℂ) + 2 * x * ((Real.sqrt 2 / 2 : ℝ) : ℂ) ^ 2) * hI - 2 * x * h
          · simp only [h3, h4, if_false, and_false, star_zero, mul_zero, add_zero]
      · by_cases h2 : r = b
        · by_cases h3 : c = a
          · simp only [h2, hne, h3, hne.symm, if_true, if_false, and_false, and_self, Complex.star_def, Complex.conj_ofReal, map_mul,
              Complex.conj_I, map_neg]
            linear_combination ((x : ℂ) - 2 * x * ((Real.sqrt 2 / 2 : ℝ) : ℂ) ^ 2) * hI + 2 * x * h
          · by_cases h4 : c = b
            · simp only [h2, h4, hne.symm, if_true, if_false, and_false, false_and, Complex.star_def, Complex.conj_ofReal, map_mul,
                Complex.conj_I, map_neg]
              ring
            · simp only [h3, h4, if_false, and_false, star_zero, mul_zero, add_zero]
        · simp only [h1, h2, if_false, false_and, zero_mul, mul_zero, add_zero]
    · intro k _ hk
      rw [Matrix.mul_diagonal]
      simp only [hw, ← Fin.ext_iff, hk.1, hk.2, if_false, mul_zero, zero_mul]
    · intro h; exact absurd (Finset.mem_univ _) h
    · intro h; exact absurd (Finset.mem_univ _) h
  · rw [← hturn, det_unitary_conj _ _ hVu, Matrix.det_diagonal, ← Complex.exp_sum, hw, sum_pair a.2 b.2 hab, add_neg_cancel,
      Complex.exp_zero]

/-! ### the loops -/

theorem identity_toM (d : Nat) : (Arr2.identity d : Arr2 ℂ).toM d = 1 := by
  ext i j
  simp only [Arr2.toM, Arr2.identity, Matrix.one_apply, Fin.ext_iff]

theorem timesExp_ok {d : Nat} (c gen : Arr2 ℂ) (x : ℝ) (h1 : c.rows = d) (h2 : c.cols = d) (h3 : gen.rows = d) :
    ∃ A, timesExp c x gen = .ok A ∧ A.rows = d ∧ A.cols = d ∧
      A.toM d = c.toM d * ((gen.smul (I * (x : ℂ))).expm).toM d :=
  matmul_ok c _ d h1 h2 h3 h3

/-- a loop of multiplications from the right -/
theorem foldlM_prod {β : Type} {d : Nat} (f : Arr2 ℂ → β → Except PyErr (Arr2 ℂ)) (F : β → Matrix (Fin d) (Fin d) ℂ) (l : List β)
    (hf : ∀ b ∈ l, ∀ c : Arr2 ℂ, c.rows = d → c.cols = d →
      ∃ A, f c b = .ok A ∧ A.rows = d ∧ A.cols = d ∧ A.toM d = c.toM d * F b)
    (c : Arr2 ℂ) (h1 : c.rows = d) (h2 : c.cols = d) :
    ∃ A, l.foldlM f c = .ok A ∧ A.rows = d ∧ A.cols = d ∧ A.toM d = c.toM d * (l.map F).prod := by
  induction l generalizing c with
  | nil => exact ⟨c, rfl, h1, h2, by simp⟩
  | cons b l ih =>
    obtain ⟨A, e1, e2, e3, e4⟩ := hf b (List.mem_cons_self ..) c h1 h2
    obtain ⟨B, g1, g2, g3, g4⟩ := ih (fun b' hb' => hf b' (List.mem_cons_of_mem _ hb')) A e2 e3
    refine ⟨B, ?_, g2, g3, ?_⟩
    · rw [List.foldlM_cons, e1]; exact g1
    · rw [g4, e4, List.map_cons, List.prod_cons, Matrix.mul_assoc]

theorem paramAt_ok {p : List ℝ} {i : Nat} (h : i < p.length) : paramAt p i = .ok (p.getD i 0) := by
  unfold paramAt
  rw [List.getD_eq_getElem?_getD, List.getElem?_eq_getElem h]; rfl

theorem reindex_lt {d r c : Nat} (hr : r < d) (hc : c < d) (h : r ≠ d - 1 ∨ c ≠ d - 1) : reindex r c d < d ^ 2 - 1 := by
  unfold reindex
  obtain ⟨k, rfl⟩ : ∃ k, d = k + 1 := ⟨d - 1, by omega⟩
  have h1 : (k + 1) ^ 2 = k * (k + 1) + k + 1 := by ring
  rw [h1]
  rcases Nat.lt_or_ge r k with hrk | hrk
  · have : (r + 1) * (k + 1) ≤ k * (k + 1) := Nat.mul_le_mul_right _ hrk
    rw [Nat.succ_mul] at this
    omega
  · have : r = k := by omega
    subst this
    omega

theorem sudPair_ok (p : List ℝ) {d m n : Nat} (hp : d ^ 2 - 1 ≤ p.length) (c : Arr2 ℂ) (h1 : c.rows = d) (h2 : c.cols = d)
    (hmn : m < n) (hn : n < d) :
    ∃ A, sudPair p d m c n = .ok A ∧ A.rows = d ∧ A.cols = d ∧
      A.toM d = c.toM d * (phasePair d m n (p.getD (n * d + m) 0) * planeTurn d m n (p.getD (m * d + n) 0)) := by
  obtain ⟨Z, z1, z2, z3, z4⟩ := zGen_ok (d := d) (a := m) (b := n) (by omega) (by omega)
  obtain ⟨Y, y1, y2, y3, y4⟩ := yGen_ok (d := d) (m := m) (n := n) (by omega) (by omega)
  obtain ⟨B, b1, b2, b3, b4⟩ := timesExp_ok c Z (p.getD (n * d + m) 0) h1 h2 z2
  obtain ⟨D, d1, d2, d3, d4⟩ := timesExp_ok B Y (p.getD (m * d + n) 0) b2 b3 y2
  refine ⟨D, ?_, d2, d3, ?_⟩
  · unfold sudPair
    have l1 : n * d + m < p.length := lt_of_lt_of_le (reindex_lt (d := d) (r := n) (c := m) (by omega) (by omega) (by omega)) hp
    have l2 : m * d + n < p.length := lt_of_lt_of_le (reindex_lt (d := d) (r := m) (c := n) (by omega) (by omega) (by omega)) hp
    simp only [z1, y1, reindex, paramAt_ok l1, paramAt_ok l2, bind, Except.bind, b1, d1]
  · have e1 := zexp (show m ≠ n by omega) Z z2 z4 (p.getD (n * d + m) 0)
    have e2 := (yexp (show m < d by omega) hn (show m ≠ n by omega) Y y2 y4 (p.getD (m * d + n) 0)).1
    rw [d4, b4, e1, e2, Matrix.mul_assoc]

theorem genericSud_ok (p : List ℝ) (d : Nat) (hp : d ^ 2 - 1 ≤ p.length) :
    ∃ A, genericSud p d = .ok A ∧ A.rows = d ∧ A.cols = d ∧
      A.toM d = sudMatrix d fun r c => p.getD (r * d + c) 0 := by
  obtain ⟨A, e1, e2, e3, e4⟩ := foldlM_prod (d := d) (sudDiag p d)
    (fun l => phasePair d l (d - 1) (p.getD (l * d + l) 0)) (List.range (d - 1))
    (by
      intro l hl c h1 h2
      have hl := List.mem_range.1 hl
      obtain ⟨Z, z1, z2, z3, z4⟩ := zGen_ok (d := d) (a := l) (b := d - 1) (by omega) (by omega)
      obtain ⟨B, b1, b2, b3, b4⟩ := timesExp_ok c Z (p.getD (reindex l l d) 0) h1 h2 z2
      refine ⟨B, ?_, b2, b3, ?_⟩
      · unfold sudDiag
        have := reindex_lt (d := d) (r := l) (c := l) (by omega) (by omega) (by omega)
        simp only [z1, paramAt_ok (show reindex l l d < p.length by omega), bind, Except.bind, b1]
      · rw [b4, zexp (by omega) Z z2 z4]; rfl)
    (Arr2.identity d) rfl rfl
  obtain ⟨B, g1, g2, g3, g4⟩ := foldlM_prod (d := d)
    (fun c m => (List.range' (m + 1) (d - (m + 1))).foldlM (sudPair p d m) c)
    (fun m => ((List.range' (m + 1) (d - (m + 1))).map fun n =>
      phasePair d m n (p.getD (n * d + m) 0) * planeTurn d m n (p.getD (m * d + n) 0)).prod) (List.range (d - 1))
    (by
      intro m hm c h1 h2
      have hm := List.mem_range.1 hm
      refine foldlM_prod (d := d) (sudPair p d m) _ _ ?_ c h1 h2
      intro n hn c h1 h2
      have hn := List.mem_range'_1.1 hn
      exact sudPair_ok p hp c h1 h2 (by omega) (by omega))
    A e2 e3
  refine ⟨B, ?_, g2, g3, ?_⟩
  · unfold genericSud
    rw [e1]
    exact g1
  · rw [g4, e4, identity_toM, Matrix.one_mul, sudMatrix, levelPairs]
    congr 1
    rw [List.map_flatMap]
    generalize List.range (d - 1) = L
    induction L with
    | nil => rfl
    | cons m L ih =>
      rw [List.map_cons, List.prod_cons, ih, List.flatMap_cons, List.prod_append, List.map_map]
      rfl

theorem mem_levelPairs {d : Nat} {q : Nat × Nat} (h : q ∈ levelPairs d) : q.1 < q.2 ∧ q.2 < d := by
  unfold levelPairs at h
  obtain ⟨m, hm, h⟩ := List.mem_flatMap.1 h
  obtain ⟨n, hn, rfl⟩ := List.mem_map.1 h
  have := List.mem_range'_1.1 hn
  have := List.mem_range.1 hm
  simp only
  omega

theorem planeTurn_det {d a b : Nat} (ha : a < d) (hb : b < d) (hab : a ≠ b) (x : ℝ) : (planeTurn d a b x).det = 1 := by
  obtain ⟨Y, _, y2, _, y4⟩ := yGen_ok ha hb
  exact (yexp ha hb hab Y y2 y4 x).2

theorem sudMatrix_mem (d : Nat) (p : Nat → Nat → ℝ) : sudMatrix d p ∈ specialUnitaryGroup (Fin d) ℂ := by
  refine Submonoid.mul_mem _ (Submonoid.list_prod_mem _ ?_) (Submonoid.list_prod_mem _ ?_)
  · intro A hA
    obtain ⟨l, hl, rfl⟩ := List.mem_map.1 hA
    have := List.mem_range.1 hl
    exact mem_specialUnitaryGroup_iff.2 ⟨phasePair_unitary .., phasePair_det (by omega) (by omega) (by omega) _⟩
  · intro A hA
    obtain ⟨q, hq, rfl⟩ := List.mem_map.1 hA
    obtain ⟨h1, h2⟩ := mem_levelPairs hq
    exact Submonoid.mul_mem _
      (mem_specialUnitaryGroup_iff.2 ⟨phasePair_unitary .., phasePair_det (by omega) (by omega) (by omega) _⟩)
      (mem_specialUnitaryGroup_iff.2 ⟨planeTurn_unitary (by omega) (by omega) (by omega) _,
        planeTurn_det (by omega) (by omega) (by omega) _⟩)

end Variational
end Qudits
