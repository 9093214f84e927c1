import Verif.Lemmas.Fidelity
import Mathlib.Data.Fin.VecNotation
import Mathlib.Tactic.NormNum

/-
Property C59: the fidelity measures the optimiser relies on.
-/
namespace Qudits
open Variational Matrix

namespace Variational

/-- overlap of two matrices as a sum over all entries -/
theorem overlap_sum {N : Nat} (A B : Matrix (Fin N) (Fin N) ℂ) :
    (Aᴴ * B).trace = ∑ q : Fin N × Fin N, star (A q.1 q.2) * B q.1 q.2 := by
  rw [Fintype.sum_prod_type, Finset.sum_comm]
  simp [Matrix.trace, Matrix.mul_apply, Matrix.conjTranspose_apply]

theorem self_overlap {N : Nat} (A : Matrix (Fin N) (Fin N) ℂ) :
    (A * Aᴴ).trace = ((∑ q : Fin N × Fin N, ‖A q.1 q.2‖ ^ 2 : ℝ) : ℂ) := by
  rw [Fintype.sum_prod_type]
  simp only [Matrix.trace, Matrix.diag_apply, Matrix.mul_apply, Matrix.conjTranspose_apply, Complex.ofReal_sum]
  refine Finset.sum_congr rfl fun i _ => Finset.sum_congr rfl fun j _ => ?_
  rw [Complex.ofReal_pow]
  exact Complex.mul_conj' _

theorem conjT_toM (a : Arr2 ℂ) (N : Nat) : a.conjT.toM N = (a.toM N)ᴴ := rfl

theorem fun_ne_zero {N : Nat} (A : Matrix (Fin N) (Fin N) ℂ) (h : A ≠ 0) : (fun q : Fin N × Fin N => A q.1 q.2) ≠ 0 := by
  intro e
  apply h
  ext i j
  exact congrFun e (i, j)

theorem fun_smul {N : Nat} (A B : Matrix (Fin N) (Fin N) ℂ) :
    (∃ c : ℂ, c ≠ 0 ∧ (fun q : Fin N × Fin N => B q.1 q.2) = c • fun q : Fin N × Fin N => A q.1 q.2) ↔ ∃ c : ℂ, c ≠ 0 ∧ B = c • A := by
  constructor
  · rintro ⟨c, hc, h⟩
    exact ⟨c, hc, by ext i j; exact congrFun h (i, j)⟩
  · rintro ⟨c, hc, h⟩
    exact ⟨c, hc, by funext q; rw [h]; rfl⟩

end Variational

/-- C59: for any two non-zero square arrays of the same size the operator fidelity is a number between 0 and 1, and it is 1 exactly
when one array is a multiple of the other. -/
theorem C59_operator (N : Nat) (a b : Arr2 ℂ) (ar : a.rows = N) (ac : a.cols = N) (br : b.rows = N) (bc : b.cols = N)
    (ha : a.toM N ≠ 0) (hb : b.toM N ≠ 0) :
    ∃ f, fidelityOnOperator a b = .ok f ∧ 0 ≤ f ∧ f ≤ 1 ∧ (f = 1 ↔ ∃ c : ℂ, c ≠ 0 ∧ b.toM N = c • a.toM N) := by
  obtain ⟨m, m1, m2, m3, m4⟩ := matmul_ok a.conjT b N ac ar br bc
  obtain ⟨aa, p1, p2, p3, p4⟩ := matmul_ok a a.conjT N ar ac ac ar
  obtain ⟨bb, q1, q2, q3, q4⟩ := matmul_ok b b.conjT N br bc bc br
  have hs : sizeCheck a b = true := by simp [sizeCheck, ar, ac, br, bc]
  obtain ⟨c1, c2, c3⟩ := cauchy _ _ (fun_ne_zero _ ha) (fun_ne_zero _ hb)
  rw [fun_smul] at c2
  have hden : Real.sqrt ((trace aa) * (trace bb)).re =
      Real.sqrt (∑ q : Fin N × Fin N, ‖a.toM N q.1 q.2‖ ^ 2) * Real.sqrt (∑ q : Fin N × Fin N, ‖b.toM N q.1 q.2‖ ^ 2) := by
    rw [trace_eq aa N p2 p3, trace_eq bb N q2 q3, p4, q4, conjT_toM, conjT_toM, self_overlap, self_overlap, ← Complex.ofReal_mul,
      Complex.ofReal_re, Real.sqrt_mul (Finset.sum_nonneg fun _ _ => by positivity)]
  refine ⟨‖trace m‖ / Real.sqrt ((trace aa) * (trace bb)).re, ?_, ?_, ?_, ?_⟩
  · simp only [fidelityOnOperator, hs, if_true, m1, p1, q1, bind, Except.bind, pure, Except.pure]
  · positivity
  · rw [hden, trace_eq m N m2 m3, m4, conjT_toM, overlap_sum, div_le_one c3]
    exact c1
  · rw [hden, trace_eq m N m2 m3, m4, conjT_toM, overlap_sum, div_eq_one_iff_eq (ne_of_gt c3)]
    exact c2

/-- C59: for two unitary arrays of the same size the fidelity the optimiser uses is between 0 and 1, and it is 1 exactly when the
arrays are equal up to a global phase. -/
theorem C59_unitary (N : Nat) (hN : 0 < N) (a b : Arr2 ℂ) (ar : a.rows = N) (ac : a.cols = N) (br : b.rows = N) (bc : b.cols = N)
    (ha : a.toM N ∈ unitaryGroup (Fin N) ℂ) (hb : b.toM N ∈ unitaryGroup (Fin N) ℂ) :
    ∃ f, fidelityOnUnitaries a b = .ok f ∧ 0 ≤ f ∧ f ≤ 1 ∧ (f = 1 ↔ ∃ c : ℂ, ‖c‖ = 1 ∧ b.toM N = c • a.toM N) := by
  obtain ⟨m, m1, m2, m3, m4⟩ := matmul_ok a.conjT b N ac ar br bc
  have hs : sizeCheck a b = true := by simp [sizeCheck, ar, ac, br, bc]
  have : Nonempty (Fin N) := ⟨⟨0, hN⟩⟩
  have hne : ∀ M : Matrix (Fin N) (Fin N) ℂ, M ∈ unitaryGroup (Fin N) ℂ → M ≠ 0 := by
    rintro M hM rfl
    rw [mem_unitaryGroup_iff, zero_mul] at hM
    exact zero_ne_one hM
  have hsum : ∀ M : Matrix (Fin N) (Fin N) ℂ, M ∈ unitaryGroup (Fin N) ℂ → ∑ q : Fin N × Fin N, ‖M q.1 q.2‖ ^ 2 = N := by
    intro M hM
    have h1 := self_overlap M
    rw [mem_unitaryGroup_iff, star_eq_conjTranspose] at hM
    rw [hM, trace_one, Fintype.card_fin] at h1
    exact_mod_cast h1.symm
  obtain ⟨c1, c2, c3⟩ := cauchy _ _ (fun_ne_zero _ (hne _ ha)) (fun_ne_zero _ (hne _ hb))
  rw [fun_smul] at c2
  rw [hsum _ ha, hsum _ hb, Real.mul_self_sqrt (Nat.cast_nonneg N)] at c1 c2
  have hN' : (0 : ℝ) < N := by exact_mod_cast hN
  refine ⟨‖trace m‖ / N, ?_, by positivity, ?_, ?_⟩
  · simp only [fidelityOnUnitaries, hs, if_true, m1, bind, Except.bind, pure, Except.pure, ar]
  · rw [trace_eq m N m2 m3, m4, conjT_toM, overlap_sum, div_le_one hN']
    exact c1
  · rw [trace_eq m N m2 m3, m4, conjT_toM, overlap_sum, div_eq_one_iff_eq (ne_of_gt hN'), c2]
    constructor
    · rintro ⟨c, hc, h⟩
      refine ⟨c, ?_, h⟩
      have e : ((‖c‖ ^ 2 : ℝ) : ℂ) • (1 : Matrix (Fin N) (Fin N) ℂ) = 1 := by
        have hb' := hb
        rw [mem_unitaryGroup_iff, star_eq_conjTranspose, h, conjTranspose_smul, smul_mul_smul_comm] at hb'
        rw [mem_unitaryGroup_iff, star_eq_conjTranspose] at ha
        rw [ha] at hb'
        refine Eq.trans ?_ hb'
        congr 1
        rw [Complex.ofReal_pow]
        exact (Complex.mul_conj' c).symm
      have e0 := congrFun (congrFun e ⟨0, hN⟩) ⟨0, hN⟩
      simp only [Matrix.smul_apply, one_apply_eq, smul_eq_mul, mul_one] at e0
      have e1 : ‖c‖ ^ 2 = 1 := by exact_mod_cast e0
      nlinarith [norm_nonneg c]
    · rintro ⟨c, hc, h⟩
      exact ⟨c, by intro h0; rw [h0] at hc; simp at hc, h⟩

/-- C59: arrays that are not square or have different sizes are refused by both. -/
theorem C59_refused (a b : Arr2 ℂ) (h : ¬ (a.rows = b.rows ∧ a.cols = b.cols ∧ a.rows = a.cols)) :
    fidelityOnUnitaries a b = .error .valueError ∧ fidelityOnOperator a b = .error .valueError := by
  have hs : sizeCheck a b = false := by
    simp only [sizeCheck, decide_eq_false_iff_not]
    rintro ⟨⟨h1, h2⟩, h3⟩
    exact h ⟨h1, h2, h3⟩
  simp [fidelityOnUnitaries, fidelityOnOperator, hs]

/-- C59: for two normalised vectors of the same length the state fidelity is between 0 and 1, and it is 1 exactly when the vectors are
equal up to a global phase. Vectors of different lengths are refused. -/
theorem C59_states (a b : List ℂ) :
    (a.length ≠ b.length → naiveStateFidelity a b = .error .valueError) ∧
    (a.length = b.length → (a.map fun z => ‖z‖ ^ 2).sum = 1 → (b.map fun z => ‖z‖ ^ 2).sum = 1 →
      ∃ f, naiveStateFidelity a b = .ok f ∧ 0 ≤ f ∧ f ≤ 1 ∧ (f = 1 ↔ ∃ c : ℂ, ‖c‖ = 1 ∧ b = a.map (c * ·))) := by
  refine ⟨fun h => by unfold naiveStateFidelity; rw [if_pos h], ?_⟩
  intro hl h1 h2
  set n := a.length with hn
  have hsum : ∀ l : List ℂ, ∀ g : ℂ → ℝ, (l.map g).sum = ∑ i : Fin l.length, g l[i] := by
    intro l g
    rw [← List.sum_ofFn]
    congr 1
    apply List.ext_getElem (by simp)
    intro i _ _
    simp
  set x : Fin n → ℂ := fun i => a[i] with hx
  set y : Fin n → ℂ := fun i => b[i.1]'(hl ▸ i.2) with hy
  have hx1 : ∑ i, ‖x i‖ ^ 2 = 1 := by rw [hsum] at h1; exact h1
  have hy1 : ∑ i, ‖y i‖ ^ 2 = 1 := by
    rw [hsum] at h2
    rw [← h2]
    exact (Fintype.sum_equiv (finCongr hl) _ _ fun i => rfl)
  have hne : ∀ z : Fin n → ℂ, ∑ i, ‖z i‖ ^ 2 = 1 → z ≠ 0 := by
    rintro z hz rfl
    simp at hz
  obtain ⟨c1, c2, c3⟩ := cauchy x y (hne x hx1) (hne y hy1)
  rw [hx1, hy1, Real.sqrt_one, mul_one] at c1 c2
  have hz : ((a.zip b).map fun p => star p.1 * p.2).sum = ∑ i, star (x i) * y i := by
    rw [← List.sum_ofFn]
    congr 1
    apply List.ext_getElem (by simp [hl, ← hn])
    intro i _ _
    simp [hx, hy]
  refine ⟨‖∑ i, star (x i) * y i‖ ^ 2, ?_, by positivity, ?_, ?_⟩
  · unfold naiveStateFidelity
    rw [if_neg (not_not.2 hl), hz]
  · exact pow_le_one₀ (norm_nonneg _) c1
  · rw [show ‖∑ i, star (x i) * y i‖ ^ 2 = 1 ↔ ‖∑ i, star (x i) * y i‖ = 1 by
      constructor
      · intro h; nlinarith [norm_nonneg (∑ i, star (x i) * y i)]
      · intro h; rw [h]; norm_num, c2]
    constructor
    · rintro ⟨c, hc, h⟩
      refine ⟨c, ?_, ?_⟩
      · have : ∑ i, ‖y i‖ ^ 2 = ‖c‖ ^ 2 * ∑ i, ‖x i‖ ^ 2 := by
          rw [h, Finset.mul_sum]
          simp [mul_pow]
        rw [hx1, hy1, mul_one] at this
        nlinarith [norm_nonneg c]
      · apply List.ext_getElem (by simp [← hl, hn])
        intro i _ hi
        have := congrFun h ⟨i, by simpa using hi⟩
        simpa [hx, hy] using this
    · rintro ⟨c, hc, h⟩
      refine ⟨c, by intro h0; rw [h0] at hc; simp at hc, ?_⟩
      funext i
      simp [hy, hx, h]

/-- the fidelity of two Pauli gates is 0, that of a gate and a multiple of it by a phase is 1 -/
example : ∃ f, fidelityOnUnitaries (Arr2.identity 3) ((Arr2.identity 3).smul Complex.I) = .ok f ∧ f = 1 := by
  have h1 : (Arr2.identity 3 : Arr2 ℂ).toM 3 = 1 := by
    ext i j; simp [Arr2.toM, Arr2.identity, Matrix.one_apply, Fin.ext_iff]
  have h2 : ((Arr2.identity 3 : Arr2 ℂ).smul Complex.I).toM 3 = Complex.I • (1 : Matrix (Fin 3) (Fin 3) ℂ) := by
    rw [← h1]; rfl
  obtain ⟨f, hf, _, _, h⟩ := C59_unitary 3 (by decide) (Arr2.identity 3) ((Arr2.identity 3).smul Complex.I) rfl rfl rfl rfl
    (by rw [h1]; exact one_mem _)
    (by
      rw [h2, mem_unitaryGroup_iff, star_eq_conjTranspose, conjTranspose_smul, smul_mul_smul_comm]
      simp)
  exact ⟨f, hf, h.2 ⟨Complex.I, by simp, by rw [h1, h2]⟩⟩

example : ∃ f, naiveStateFidelity [1, 0] [Complex.I, 0] = .ok f ∧ f = 1 := by
  obtain ⟨f, hf, _, _, h⟩ := (C59_states [1, 0] [Complex.I, 0]).2 rfl (by simp) (by simp)
  exact ⟨f, hf, h.2 ⟨Complex.I, by simp, by simp⟩⟩

end Qudits
