import Verif.Model.GateArrays
import Verif.Lemmas.TwoLevel
import Verif.Lemmas.Angles
import Verif.Lemmas.Dirac
import Mathlib.Logic.Equiv.Fin.Basic
import Mathlib.Data.Matrix.Block

namespace Qudits
open Complex Spec

/-! ### the little numpy -/

theorem accumulate_ok {α : Type} [AddCommMonoid α] (n : Nat) (m : Arr2 α) (f : Nat → Except PyErr (Arr2 α))
    (g : Nat → Arr2 α) (hf : ∀ i < n, f i = .ok (g i))
    (hs : ∀ i < n, (g i).rows = m.rows ∧ (g i).cols = m.cols) :
    ∃ A, Arr2.accumulate n m f = .ok A ∧ A.rows = m.rows ∧ A.cols = m.cols ∧
      ∀ r c, A.at' r c = m.at' r c + ∑ i ∈ Finset.range n, (g i).at' r c := by
  induction n with
  | zero => exact ⟨m, rfl, rfl, rfl, by simp⟩
  | succ n ih =>
    obtain ⟨A, hA, h1, h2, h3⟩ := ih (fun i hi => hf i (by omega)) (fun i hi => hs i (by omega))
    unfold Arr2.accumulate at hA ⊢
    rw [List.range_succ, List.foldlM_append, hA]
    have hadd : A.add (g n) = .ok ⟨A.rows, A.cols, fun r c => A.at' r c + (g n).at' r c⟩ := by
      unfold Arr2.add
      rw [if_pos]
      rw [h1, h2, (hs n (by omega)).1, (hs n (by omega)).2]; exact ⟨rfl, rfl⟩
    refine ⟨⟨A.rows, A.cols, fun r c => A.at' r c + (g n).at' r c⟩, ?_, h1, h2, ?_⟩
    · simp only [List.foldlM_cons, List.foldlM_nil, bind, Except.bind, hf n (by omega), hadd, pure, Except.pure]
    · intro r c
      rw [Finset.sum_range_succ, ← add_assoc, ← h3]

/-- the unit vector -/
def uvec (d i : Nat) : List Int := (List.replicate d 0).set i 1

theorem basisVec_ok {d i : Nat} (h : i < d) : basisVec d i = .ok (uvec d i) := by
  simp [basisVec, h, uvec]

@[simp] theorem uvec_length (d i : Nat) : (uvec d i).length = d := by simp [uvec]

theorem uvec_getD {d i : Nat} (h : i < d) (r : Nat) : (uvec d i).getD r 0 = if r = i then 1 else 0 := by
  unfold uvec
  rw [List.getD_eq_getElem?_getD, List.getElem?_set]
  by_cases hr : i = r
  · subst hr; simp [h]
  · rw [if_neg hr, if_neg (Ne.symm hr)]
    by_cases hrd : r < d
    · simp [hrd]
    · simp [hrd]

theorem outer_uvec {d e i j : Nat} (hi : i < d) (hj : j < e) (r c : Nat) :
    (outer (uvec d i) (uvec e j)).at' r c = if r = i ∧ c = j then 1 else 0 := by
  simp only [outer, uvec_getD hi, uvec_getD hj]
  by_cases h1 : r = i <;> by_cases h2 : c = j <;> simp [h1, h2]

theorem dirac_one {d i : Nat} (h : i < d) : fromDiracToBasis [i] [d] = .ok (uvec d i) := by
  simp [fromDiracToBasis, basisVecs, basisVec_ok h, bind, Except.bind, pure, Except.pure]

theorem dirac_unit {dims vec : List Nat} (hv : Levels dims vec) (hne : vec ≠ []) :
    fromDiracToBasis vec dims = .ok (uvec dims.prod (index dims vec)) := by
  cases hv with
  | nil => exact absurd rfl hne
  | @cons l d ls ds hl ht =>
    obtain ⟨v, hv, hu⟩ := isUnit_basis d l hl
    obtain ⟨vs, h1, _, h3⟩ := basisVecs_ok ht
    have h := h3 v d l hu
    have : vs.foldl kronVec v = uvec (d :: ds).prod (index (d :: ds) (l :: ls)) := by
      apply List.ext_getElem?
      intro i
      by_cases hi : i < d * ds.prod
      · rw [h.2.2 i hi]
        have := uvec_getD (d := (d :: ds).prod) (i := index (d :: ds) (l :: ls))
          (by simpa [index] using h.2.1) i
        rw [List.getD_eq_getElem?_getD, List.getElem?_eq_getElem (by simpa using hi)] at this
        rw [List.getElem?_eq_getElem (by simpa using hi)]
        simp only [Option.getD_some] at this
        rw [this]
        simp only [index]
        congr
      · rw [List.getElem?_eq_none (by rw [h.1]; omega), List.getElem?_eq_none (by simpa using hi)]
    simp only [fromDiracToBasis, basisVecs, hv, h1, bind, Except.bind, pure, Except.pure, this]

theorem kron_at {α : Type} [Mul α] (a b : Arr2 α) (i j r c : Nat) (hr : r < b.rows) (hc : c < b.cols) :
    (a.kron b).at' (i * b.rows + r) (j * b.cols + c) = a.at' i j * b.at' r c := by
  have e1 : (i * b.rows + r) / b.rows = i := by
    rw [Nat.mul_comm, Nat.mul_add_div (by omega), Nat.div_eq_of_lt hr, Nat.add_zero]
  have e2 : (i * b.rows + r) % b.rows = r := by
    rw [Nat.mul_comm, Nat.mul_add_mod, Nat.mod_eq_of_lt hr]
  have e3 : (j * b.cols + c) / b.cols = j := by
    rw [Nat.mul_comm, Nat.mul_add_div (by omega), Nat.div_eq_of_lt hc, Nat.add_zero]
  have e4 : (j * b.cols + c) % b.cols = c := by
    rw [Nat.mul_comm, Nat.mul_add_mod, Nat.mod_eq_of_lt hc]
  simp only [Arr2.kron, e1, e2, e3, e4]

theorem matmul_ok {α : Type} [NonUnitalNonAssocSemiring α] (a b : Arr2 α) (d : Nat) (ha : a.rows = d)
    (ha' : a.cols = d) (hb : b.rows = d) (hb' : b.cols = d) :
    ∃ A, a.matmul b = .ok A ∧ A.rows = d ∧ A.cols = d ∧ A.toM d = a.toM d * b.toM d := by
  refine ⟨⟨a.rows, b.cols, fun r c => ∑ k ∈ Finset.range a.cols, a.at' r k * b.at' k c⟩,
    by unfold Arr2.matmul; rw [if_pos (by rw [ha', hb])], ha, hb', ?_⟩
  ext i j
  simp only [Arr2.toM, Matrix.mul_apply, ha']
  rw [Finset.sum_range]

/-! ### X, Z, H, S -/

theorem xArray_ok (d : Nat) : ∃ A, xArray d = .ok A ∧ A.rows = d ∧ A.cols = d ∧
    ∀ r c, c < d → A.at' r c = if r = (c + 1) % d then 1 else 0 := by
  obtain ⟨A, hA, h1, h2, h3⟩ := accumulate_ok d (Arr2.zeros d d : Arr2 ℂ)
    (fun i => do
      let array1 ← basisVec d ((i + 1) % d)
      let array2 ← basisVec d i
      pure (outer array1 array2))
    (fun i => outer (uvec d ((i + 1) % d)) (uvec d i))
    (fun i hi => by
      simp only [basisVec_ok (Nat.mod_lt (i + 1) (show 0 < d by omega)), basisVec_ok hi, bind, Except.bind,
        pure, Except.pure])
    (fun i hi => by simp [outer, Arr2.zeros])
  refine ⟨A, hA, h1, h2, ?_⟩
  intro r c hc
  rw [h3, Finset.sum_eq_single c]
  · rw [outer_uvec (Nat.mod_lt _ (by omega)) hc]; simp [Arr2.zeros]
  · intro i hi hne
    rw [outer_uvec (Nat.mod_lt _ (by omega)) (Finset.mem_range.1 hi), if_neg]
    rintro ⟨_, h⟩; exact hne h.symm
  · intro h; exact absurd (Finset.mem_range.2 hc) h

theorem diag_acc_ok (d : Nat) (w : Nat → ℂ) :
    ∃ A, Arr2.accumulate d (Arr2.zeros d d) (fun i => do
        let array ← basisVec d i
        pure ((outer array array).smul (w i))) = .ok A ∧ A.rows = d ∧ A.cols = d ∧
      ∀ r c, c < d → A.at' r c = if r = c then w c else 0 := by
  obtain ⟨A, hA, h1, h2, h3⟩ := accumulate_ok d (Arr2.zeros d d : Arr2 ℂ)
    (fun i => do
      let array ← basisVec d i
      pure ((outer array array).smul (w i)))
    (fun i => (outer (uvec d i) (uvec d i)).smul (w i))
    (fun i hi => by simp only [basisVec_ok hi, bind, Except.bind, pure, Except.pure])
    (fun i hi => by simp [outer, Arr2.zeros, Arr2.smul])
  refine ⟨A, hA, h1, h2, ?_⟩
  intro r c hc
  rw [h3, Finset.sum_eq_single c]
  · simp only [Arr2.smul, outer_uvec hc hc]; simp [Arr2.zeros]
  · intro i hi hne
    simp only [Arr2.smul, outer_uvec (Finset.mem_range.1 hi) (Finset.mem_range.1 hi)]
    rw [if_neg, mul_zero]
    rintro ⟨_, h⟩; exact hne h.symm
  · intro h; exact absurd (Finset.mem_range.2 hc) h

theorem cexp_pyMod_two (x : ℝ) : cexp ((pyMod x 2 : ℝ) * (Real.pi : ℂ) * I) = cexp (x * Real.pi * I) := by
  obtain ⟨k, hk⟩ := pyMod_eq x 2
  rw [hk, Complex.exp_eq_exp_iff_exists_int]
  exact ⟨-k, by push_cast; ring⟩

/-- the root of unity `exp(2 pi i / d)` -/
noncomputable def omg (d : Nat) : ℂ := cexp (2 * Real.pi * I / d)

theorem omg_pow (d k : Nat) : omg d ^ k = cexp (2 * Real.pi * I / d * k) := by
  rw [omg, ← Complex.exp_nat_mul]; congr 1; ring

theorem omg_pow_d (d : Nat) (h : d ≠ 0) : omg d ^ d = 1 := by
  rw [omg_pow, div_mul_cancel₀ _ (by exact_mod_cast h)]
  exact Complex.exp_two_pi_mul_I

theorem zArray_ok (d : Nat) : ∃ A, zArray d = .ok A ∧ A.rows = d ∧ A.cols = d ∧
    ∀ r c, c < d → A.at' r c = if r = c then omg d ^ c else 0 := by
  obtain ⟨A, hA, h1, h2, h3⟩ := diag_acc_ok d (fun i => cexp ((pyMod (2 * i / d) 2 : ℝ) * (Real.pi : ℂ) * I))
  refine ⟨A, hA, h1, h2, ?_⟩
  intro r c hc
  rw [h3 r c hc, cexp_pyMod_two, omg_pow]
  congr 2
  push_cast; ring

theorem hArray_ok (d : Nat) : ∃ A, hArray d = .ok A ∧ A.rows = d ∧ A.cols = d ∧
    ∀ r c, r < d → c < d → A.at' r c = ((1 / Real.sqrt d : ℝ) : ℂ) * omg d ^ (r * c) := by
  set w : Nat → ℂ := fun k => cexp ((pyMod (2 / d * ((k / d : Nat) * (k % d : Nat))) 2 : ℝ) * (Real.pi : ℂ) * I)
    with hw
  obtain ⟨A, hA, h1, h2, h3⟩ := accumulate_ok (d * d) (Arr2.zeros d d : Arr2 ℂ)
    (fun k => do
      let e0 := k / d
      let e1 := k % d
      let omega : ℂ := cexp ((pyMod (2 / d * (e0 * e1)) 2 : ℝ) * (Real.pi : ℂ) * I)
      let array0 ← basisVec d e0
      let array1 ← basisVec d e1
      pure ((outer array0 array1).smul omega))
    (fun k => (outer (uvec d (k / d)) (uvec d (k % d))).smul (w k))
    (fun k hk => by
      have hd : 0 < d := Nat.pos_of_ne_zero (by rintro rfl; simp at hk)
      simp only [basisVec_ok (Nat.div_lt_of_lt_mul hk), basisVec_ok (Nat.mod_lt k hd), bind, Except.bind,
        pure, Except.pure, hw])
    (fun i hi => by simp [outer, Arr2.zeros, Arr2.smul])
  refine ⟨A.smul ((1 / Real.sqrt d : ℝ) : ℂ), ?_, h1, h2, ?_⟩
  · unfold hArray
    rw [hA]; rfl
  intro r c hr hc
  simp only [Arr2.smul]
  congr 1
  have hd : 0 < d := by omega
  have q1 : (r * d + c) / d = r := by
    rw [Nat.mul_comm, Nat.mul_add_div hd, Nat.div_eq_of_lt hc, Nat.add_zero]
  have q2 : (r * d + c) % d = c := by
    rw [Nat.mul_comm, Nat.mul_add_mod, Nat.mod_eq_of_lt hc]
  rw [h3, Finset.sum_eq_single (r * d + c)]
  · simp only [Arr2.smul, q1, q2, outer_uvec hr hc, hw, cexp_pyMod_two, omg_pow]
    simp only [and_self, if_true, mul_one, Arr2.zeros, zero_add]
    congr 1
    push_cast; ring
  · intro k hk hne
    have hk := Finset.mem_range.1 hk
    simp only [Arr2.smul, outer_uvec (Nat.div_lt_of_lt_mul hk) (Nat.mod_lt k hd)]
    rw [if_neg, mul_zero]
    rintro ⟨ha, hb⟩
    apply hne
    rw [ha, hb, Nat.div_add_mod']
  · intro h
    refine absurd (Finset.mem_range.2 ?_) h
    calc r * d + c < r * d + d := by omega
      _ = (r + 1) * d := by ring
      _ ≤ d * d := Nat.mul_le_mul_right _ hr

theorem sArray_ok (d : Nat) (hd2 : d ≠ 2) : ∃ A, sArray d = .ok A ∧ A.rows = d ∧ A.cols = d ∧
    ∀ r c, c < d → A.at' r c = if r = c then
      (omg d) ^ ((pyMod ((c * (c + 1) : ℝ) / 2) d : ℝ) : ℂ) else 0 := by
  obtain ⟨A, hA, h1, h2, h3⟩ := diag_acc_ok d (fun i => omg d ^ ((pyMod ((i * (i + 1) : ℝ) / 2) d : ℝ) : ℂ))
  refine ⟨A, ?_, h1, h2, h3⟩
  unfold sArray
  rw [if_neg hd2]
  exact hA

theorem norm_omg (d : Nat) : ‖omg d‖ = 1 := by
  rw [omg, show (2 * Real.pi * I / d : ℂ) = ((2 * Real.pi / d : ℝ) : ℂ) * I by push_cast; ring]
  exact Complex.norm_exp_ofReal_mul_I _

/-! ### unitarity patterns -/

theorem diag_unitary {d : Nat} (A : Arr2 ℂ) (w : Nat → ℂ) (hw : ∀ i < d, ‖w i‖ = 1)
    (h : ∀ r c, r < d → c < d → A.at' r c = if r = c then w c else 0) :
    A.toM d ∈ Matrix.unitaryGroup (Fin d) ℂ := by
  have : A.toM d = Matrix.diagonal fun i : Fin d => w i := by
    ext i j
    rw [Matrix.diagonal_apply, Arr2.toM, h _ _ i.2 j.2]
    by_cases hij : i = j
    · subst hij; simp
    · rw [if_neg hij, if_neg (fun e => hij (Fin.ext e))]
  rw [this, Matrix.mem_unitaryGroup_iff, Matrix.star_eq_conjTranspose, Matrix.diagonal_conjTranspose,
    Matrix.diagonal_mul_diagonal]
  rw [← Matrix.diagonal_one]
  congr 1
  funext i
  rw [Pi.star_apply, ← starRingEnd_apply, Complex.mul_conj, Complex.normSq_eq_norm_sq, hw i i.2]
  simp

theorem perm_unitary {d : Nat} (M : Matrix (Fin d) (Fin d) ℂ) (σ : Fin d → Fin d) (hσ : Function.Injective σ)
    (h : ∀ r c, M r c = if r = σ c then 1 else 0) : M ∈ Matrix.unitaryGroup (Fin d) ℂ := by
  rw [Matrix.mem_unitaryGroup_iff', Matrix.star_eq_conjTranspose]
  ext i j
  rw [Matrix.mul_apply, Finset.sum_eq_single (σ i)]
  · rw [Matrix.conjTranspose_apply, h, h, Matrix.one_apply, if_pos rfl, star_one, one_mul]
    by_cases hij : i = j
    · subst hij; simp
    · rw [if_neg hij, if_neg (fun e => hij (hσ e))]
  · intro k _ hk
    rw [Matrix.conjTranspose_apply, h, if_neg hk, star_zero, zero_mul]
  · intro h; exact absurd (Finset.mem_univ _) h

/-- block form with the first factor selecting the block -/
theorem block_unitary {d0 d1 : Nat} (A : Arr2 ℂ) (U : Fin d0 → Matrix (Fin d1) (Fin d1) ℂ)
    (hU : ∀ i, U i ∈ Matrix.unitaryGroup (Fin d1) ℂ)
    (h : ∀ (i j : Fin d0) (r c : Fin d1), A.at' (i * d1 + r) (j * d1 + c) = if i = j then U i r c else 0) :
    A.toM (d0 * d1) ∈ Matrix.unitaryGroup (Fin (d0 * d1)) ℂ := by
  have e : (A.toM (d0 * d1)).submatrix (finProdFinEquiv (m := d0) (n := d1)) finProdFinEquiv =
      (Matrix.blockDiagonal U).submatrix (Equiv.prodComm _ _) (Equiv.prodComm _ _) := by
    ext ⟨i, r⟩ ⟨j, c⟩
    simp only [Matrix.submatrix_apply, Arr2.toM, finProdFinEquiv_apply_val, Equiv.prodComm_apply, Prod.swap,
      Matrix.blockDiagonal_apply]
    rw [show (r : Nat) + d1 * i = i * d1 + r by ring, show (c : Nat) + d1 * j = j * d1 + c by ring, h]
  have hb : Matrix.blockDiagonal U * (Matrix.blockDiagonal U).conjTranspose = 1 := by
    rw [Matrix.blockDiagonal_conjTranspose, ← Matrix.blockDiagonal_mul, ← Matrix.blockDiagonal_one]
    congr 1
    funext i
    have := hU i
    rw [Matrix.mem_unitaryGroup_iff, Matrix.star_eq_conjTranspose] at this
    exact this
  have h2 := congrArg (fun M => M.submatrix (finProdFinEquiv (m := d0) (n := d1)).symm finProdFinEquiv.symm) e
  simp only [Matrix.submatrix_submatrix, Equiv.self_comp_symm, Matrix.submatrix_id_id] at h2
  rw [Matrix.mem_unitaryGroup_iff, Matrix.star_eq_conjTranspose, h2, Matrix.conjTranspose_submatrix]
  change (Matrix.blockDiagonal U).submatrix ((finProdFinEquiv.symm).trans (Equiv.prodComm _ _)) ((finProdFinEquiv.symm).trans (Equiv.prodComm _ _)) *
    ((Matrix.blockDiagonal U).conjTranspose).submatrix ((finProdFinEquiv.symm).trans (Equiv.prodComm _ _)) ((finProdFinEquiv.symm).trans (Equiv.prodComm _ _)) = 1
  rw [Matrix.submatrix_mul_equiv, hb, Matrix.submatrix_one_equiv]

/-- block form with the second factor selecting the block -/
theorem block_unitary' {d0 d1 : Nat} (A : Arr2 ℂ) (U : Fin d0 → Matrix (Fin d1) (Fin d1) ℂ)
    (hU : ∀ i, U i ∈ Matrix.unitaryGroup (Fin d1) ℂ)
    (h : ∀ (i j : Fin d0) (r c : Fin d1), A.at' (r * d0 + i) (c * d0 + j) = if i = j then U i r c else 0) :
    A.toM (d1 * d0) ∈ Matrix.unitaryGroup (Fin (d1 * d0)) ℂ := by
  have e : (A.toM (d1 * d0)).submatrix (finProdFinEquiv (m := d1) (n := d0)) finProdFinEquiv =
      Matrix.blockDiagonal U := by
    ext ⟨r, i⟩ ⟨c, j⟩
    simp only [Matrix.submatrix_apply, Arr2.toM, finProdFinEquiv_apply_val, Matrix.blockDiagonal_apply]
    rw [show (i : Nat) + d0 * r = r * d0 + i by ring, show (j : Nat) + d0 * c = c * d0 + j by ring, h]
  have hb : Matrix.blockDiagonal U * (Matrix.blockDiagonal U).conjTranspose = 1 := by
    rw [Matrix.blockDiagonal_conjTranspose, ← Matrix.blockDiagonal_mul, ← Matrix.blockDiagonal_one]
    congr 1
    funext i
    have := hU i
    rw [Matrix.mem_unitaryGroup_iff, Matrix.star_eq_conjTranspose] at this
    exact this
  have h2 := congrArg (fun M => M.submatrix (finProdFinEquiv (m := d1) (n := d0)).symm finProdFinEquiv.symm) e
  simp only [Matrix.submatrix_submatrix, Equiv.self_comp_symm, Matrix.submatrix_id_id] at h2
  rw [Matrix.mem_unitaryGroup_iff, Matrix.star_eq_conjTranspose, h2, Matrix.conjTranspose_submatrix,
    Matrix.submatrix_mul_equiv, hb, Matrix.submatrix_one_equiv]

end Qudits
