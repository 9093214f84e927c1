import Verif.Model.DensityFidelity
import Verif.Props.FidelityProps
import Mathlib.LinearAlgebra.Matrix.Hermitian
import Mathlib.Tactic.Linarith

/-
Property C91: fidelity of density operators, normalised random states.
-/
namespace Qudits
open Variational Matrix

namespace Variational

theorem npSqrt_ofReal (x : ℝ) (hx : 0 ≤ x) : npSqrt (x : ℂ) = ((Real.sqrt x : ℝ) : ℂ) := by
  unfold npSqrt
  rw [Real.sqrt_eq_rpow, Complex.ofReal_cpow hx]
  norm_num

theorem herm_self {N : Nat} (A : Matrix (Fin N) (Fin N) ℂ) (h : A.IsHermitian) :
    (A * A).trace = ((∑ q : Fin N × Fin N, ‖A q.1 q.2‖ ^ 2 : ℝ) : ℂ) := by
  rw [← self_overlap, h.eq]

/-- the value for Hermitian arrays -/
theorem density_value (N : Nat) (a b : Arr2 ℂ) (ar : a.rows = N) (ac : a.cols = N) (br : b.rows = N) (bc : b.cols = N)
    (ha : (a.toM N).IsHermitian) (hb : (b.toM N).IsHermitian) (na : a.toM N ≠ 0) (nb : b.toM N ≠ 0) :
    fidelityOnDensity a b = .ok (some ((‖(a.toM N * b.toM N).trace‖ /
      (Real.sqrt (∑ q : Fin N × Fin N, ‖a.toM N q.1 q.2‖ ^ 2) * Real.sqrt (∑ q : Fin N × Fin N, ‖b.toM N q.1 q.2‖ ^ 2)) : ℝ) : ℂ)) := by
  obtain ⟨m, m1, m2, m3, m4⟩ := matmul_ok a b N ar ac br bc
  obtain ⟨aa, p1, p2, p3, p4⟩ := matmul_ok a a N ar ac ar ac
  obtain ⟨bb, q1, q2, q3, q4⟩ := matmul_ok b b N br bc br bc
  have hs : sizeCheck a b = true := by simp [sizeCheck, ar, ac, br, bc]
  obtain ⟨_, _, c3⟩ := cauchy _ _ (fun_ne_zero _ na) (fun_ne_zero _ nb)
  have hden : npSqrt (trace aa * trace bb) =
      ((Real.sqrt (∑ q : Fin N × Fin N, ‖a.toM N q.1 q.2‖ ^ 2) * Real.sqrt (∑ q : Fin N × Fin N, ‖b.toM N q.1 q.2‖ ^ 2) : ℝ) : ℂ) := by
    rw [trace_eq aa N p2 p3, trace_eq bb N q2 q3, p4, q4, herm_self _ ha, herm_self _ hb, ← Complex.ofReal_mul, npSqrt_ofReal,
      Real.sqrt_mul (Finset.sum_nonneg fun _ _ => by positivity)]
    exact mul_nonneg (Finset.sum_nonneg fun _ _ => by positivity) (Finset.sum_nonneg fun _ _ => by positivity)
  simp only [fidelityOnDensity, hs, if_true, m1, p1, q1, bind, Except.bind, pure, Except.pure, npDiv, hden]
  rw [if_neg (by exact_mod_cast ne_of_gt c3), trace_eq m N m2 m3, m4, ← Complex.ofReal_div]

end Variational

/-- C91: for any two non-zero Hermitian arrays of the same size the fidelity is a real number between 0 and 1; it is 1 exactly when
one array is a real multiple of the other, so for two arrays of trace 1 exactly when they are equal. -/
theorem C91_density (N : Nat) (a b : Arr2 ℂ) (ar : a.rows = N) (ac : a.cols = N) (br : b.rows = N) (bc : b.cols = N)
    (ha : (a.toM N).IsHermitian) (hb : (b.toM N).IsHermitian) (na : a.toM N ≠ 0) (nb : b.toM N ≠ 0) :
    ∃ f : ℝ, fidelityOnDensity a b = .ok (some (f : ℂ)) ∧ fidelityOnDensity b a = .ok (some (f : ℂ)) ∧ 0 ≤ f ∧ f ≤ 1 ∧
      (f = 1 ↔ ∃ c : ℝ, c ≠ 0 ∧ b.toM N = (c : ℂ) • a.toM N) ∧
      ((a.toM N).trace = 1 → (b.toM N).trace = 1 → (f = 1 ↔ a.toM N = b.toM N)) := by
  obtain ⟨c1, c2, c3⟩ := cauchy _ _ (fun_ne_zero _ na) (fun_ne_zero _ nb)
  rw [fun_smul] at c2
  have e : (a.toM N * b.toM N).trace = ∑ q : Fin N × Fin N, star (a.toM N q.1 q.2) * b.toM N q.1 q.2 := by
    rw [← overlap_sum, ha.eq]
  rw [← e] at c1 c2
  have real : (∃ c : ℂ, c ≠ 0 ∧ b.toM N = c • a.toM N) ↔ ∃ c : ℝ, c ≠ 0 ∧ b.toM N = (c : ℂ) • a.toM N := by
    constructor
    · rintro ⟨c, hc, h⟩
      have hs : star c • a.toM N = c • a.toM N := by
        have := hb.eq
        rw [h, conjTranspose_smul, ha.eq] at this
        exact this
      have hc' : star c = c := by
        by_contra hne
        apply na
        have : (star c - c) • a.toM N = 0 := by rw [sub_smul, hs, sub_self]
        exact (smul_eq_zero.1 this).resolve_left (sub_ne_zero.2 hne)
      have hre : ((c.re : ℝ) : ℂ) = c := Complex.conj_eq_iff_re.1 hc'
      refine ⟨c.re, ?_, by rw [hre]; exact h⟩
      intro h0
      apply hc
      rw [← hre, h0]; rfl
    · rintro ⟨c, hc, h⟩
      exact ⟨c, by exact_mod_cast hc, h⟩
  have one : ‖(a.toM N * b.toM N).trace‖ /
      (Real.sqrt (∑ q : Fin N × Fin N, ‖a.toM N q.1 q.2‖ ^ 2) * Real.sqrt (∑ q : Fin N × Fin N, ‖b.toM N q.1 q.2‖ ^ 2)) = 1 ↔
      ∃ c : ℝ, c ≠ 0 ∧ b.toM N = (c : ℂ) • a.toM N := by
    rw [div_eq_one_iff_eq (ne_of_gt c3), c2, real]
  refine ⟨_, density_value N a b ar ac br bc ha hb na nb, ?_, by positivity, (div_le_one c3).2 c1, one, ?_⟩
  · rw [density_value N b a br bc ar ac hb ha nb na, trace_mul_comm, mul_comm (Real.sqrt _)]
  · intro ta tb
    rw [one]
    constructor
    · rintro ⟨c, hc, h⟩
      have : ((c : ℝ) : ℂ) = 1 := by
        rw [h, trace_smul, ta, smul_eq_mul, mul_one] at tb
        exact tb
      rw [h, this, one_smul]
    · intro h
      exact ⟨1, one_ne_zero, by rw [h]; simp⟩

/-- C91: the fidelity of two pure states is the squared absolute value of their overlap. -/
theorem C91_pure (N : Nat) (a b : Arr2 ℂ) (ar : a.rows = N) (ac : a.cols = N) (br : b.rows = N) (bc : b.cols = N) (x y : Fin N → ℂ)
    (ha : ∀ i j : Fin N, a.at' i j = x i * star (x j)) (hb : ∀ i j : Fin N, b.at' i j = y i * star (y j))
    (hx : ∑ i, ‖x i‖ ^ 2 = 1) (hy : ∑ i, ‖y i‖ ^ 2 = 1) :
    fidelityOnDensity a b = .ok (some ((‖∑ i, star (x i) * y i‖ ^ 2 : ℝ) : ℂ)) := by
  have key : ∀ (c : Arr2 ℂ) (z : Fin N → ℂ), (∀ i j : Fin N, c.at' i j = z i * star (z j)) → ∑ i, ‖z i‖ ^ 2 = 1 →
      (c.toM N).IsHermitian ∧ c.toM N ≠ 0 ∧ ∑ q : Fin N × Fin N, ‖c.toM N q.1 q.2‖ ^ 2 = 1 := by
    intro c z hc hz
    have hs : ∑ q : Fin N × Fin N, ‖c.toM N q.1 q.2‖ ^ 2 = 1 := by
      rw [Fintype.sum_prod_type]
      have : ∀ i j : Fin N, ‖c.toM N i j‖ ^ 2 = ‖z i‖ ^ 2 * ‖z j‖ ^ 2 := by
        intro i j
        rw [show c.toM N i j = z i * star (z j) from hc i j, norm_mul, norm_star, mul_pow]
      simp only [this, ← Finset.mul_sum, hz, mul_one]
    refine ⟨?_, ?_, hs⟩
    · ext i j
      rw [conjTranspose_apply, show c.toM N i j = z i * star (z j) from hc i j, show c.toM N j i = z j * star (z i) from hc j i,
        star_mul, star_star]
    · intro h0
      rw [h0] at hs
      simp at hs
  obtain ⟨a1, a2, a3⟩ := key a x ha hx
  obtain ⟨b1, b2, b3⟩ := key b y hb hy
  rw [density_value N a b ar ac br bc a1 b1 a2 b2, a3, b3, Real.sqrt_one, mul_one, div_one]
  have : (a.toM N * b.toM N).trace = (∑ i, star (x i) * y i) * star (∑ i, star (x i) * y i) := by
    simp only [Matrix.trace, diag_apply, mul_apply]
    rw [Finset.sum_comm, star_sum, Finset.sum_mul]
    refine Finset.sum_congr rfl fun i _ => ?_
    rw [Finset.mul_sum]
    refine Finset.sum_congr rfl fun j _ => ?_
    rw [show a.toM N j i = x j * star (x i) from ha j i, show b.toM N i j = y i * star (y j) from hb i j, star_mul, star_star]
    ring
  rw [this, norm_mul, norm_star, pow_two]

/-- C91: arrays that are not square or have different sizes are refused. -/
theorem C91_refused (a b : Arr2 ℂ) (h : ¬ (a.rows = b.rows ∧ a.cols = b.cols ∧ a.rows = a.cols)) :
    fidelityOnDensity a b = .error .valueError := by
  have hs : sizeCheck a b = false := by
    simp only [sizeCheck, decide_eq_false_iff_not]
    rintro ⟨⟨h1, h2⟩, h3⟩
    exact h ⟨h1, h2, h3⟩
  simp [fidelityOnDensity, hs]

/-- C91: a random state has one entry per basis state and norm 1 and passes the check for normalised states, whatever numbers are
drawn, unless all of them are zero; without dimensions it is refused. -/
theorem C91_random (dims : List Nat) (hd : dims ≠ []) (re im : Nat → ℝ)
    (hnz : ∃ k < dims.prod, re k ≠ 0 ∨ im k ≠ 0) :
    ∃ v, RetrieveState.randomState dims re im = .ok (some v) ∧ v.length = dims.prod ∧ (v.map fun z => ‖z‖ ^ 2).sum = 1 ∧
      RetrieveState.verifyNormalized v ∧
      ∃ c : ℝ, 0 < c ∧ ∀ k < dims.prod, v[k]? = some (((c * re k : ℝ) : ℂ) + ((c * im k : ℝ) : ℂ) * Complex.I) := by
  obtain ⟨d, ds, rfl⟩ := List.exists_cons_of_ne_nil hd
  have hlen : ds.foldl (· * ·) d = (d :: ds).prod := by
    rw [List.prod_cons]
    have : ∀ (l : List Nat) (e : Nat), l.foldl (· * ·) e = e * l.prod := by
      intro l
      induction l with
      | nil => intro e; simp
      | cons x l ih => intro e; rw [List.foldl_cons, ih, List.prod_cons, Nat.mul_assoc]
    exact this ds d
  set n := (d :: ds).prod with hn
  set nums : List ℂ := (List.range n).map fun k => (re k : ℂ) + Complex.I * (im k : ℂ) with hnums
  set s := (nums.map fun z => ‖z‖ ^ 2).sum with hs
  have spos : 0 < s := by
    obtain ⟨k, hk, hne⟩ := hnz
    have hmem : (re k : ℂ) + Complex.I * (im k : ℂ) ∈ nums := List.mem_map.2 ⟨k, List.mem_range.2 hk, rfl⟩
    have h1 : 0 < ‖(re k : ℂ) + Complex.I * (im k : ℂ)‖ ^ 2 := by
      apply pow_pos
      rw [norm_pos_iff]
      intro h0
      have r := congrArg Complex.re h0
      have i := congrArg Complex.im h0
      simp at r i
      rcases hne with h | h
      · exact h r
      · exact h i
    refine lt_of_lt_of_le h1 (List.single_le_sum ?_ _ (List.mem_map.2 ⟨_, hmem, rfl⟩))
    intro x hx
    obtain ⟨z, _, rfl⟩ := List.mem_map.1 hx
    positivity
  have rpos : 0 < Real.sqrt s := Real.sqrt_pos.2 spos
  have hsum : ((nums.map fun z => z / ((Real.sqrt s : ℝ) : ℂ)).map fun z => ‖z‖ ^ 2).sum = 1 := by
    rw [List.map_map]
    have : ((fun z : ℂ => ‖z‖ ^ 2) ∘ fun z => z / ((Real.sqrt s : ℝ) : ℂ)) = fun z => ‖z‖ ^ 2 * s⁻¹ := by
      funext z
      simp only [Function.comp_apply, norm_div, div_pow, Complex.norm_real, Real.norm_eq_abs, sq_abs]
      rw [Real.sq_sqrt spos.le, div_eq_mul_inv]
    rw [this, List.sum_map_mul_right, ← hs, mul_inv_cancel₀ (ne_of_gt spos)]
  refine ⟨nums.map fun z => z / ((Real.sqrt s : ℝ) : ℂ), ?_, by simp [hnums], hsum, ?_, (Real.sqrt s)⁻¹, inv_pos.2 rpos, ?_⟩
  · unfold RetrieveState.randomState
    simp only [hlen]
    rw [← hnums, ← hs, if_neg (fun h => ne_of_gt rpos h.1)]
  · unfold RetrieveState.verifyNormalized RetrieveState.isclose
    rw [hsum]
    norm_num
  · intro k hk
    rw [List.getElem?_map, hnums, List.getElem?_map, List.getElem?_range hk]
    simp only [Option.map_some, Option.some.injEq]
    push_cast
    rw [div_eq_inv_mul]
    ring

/-- C91: without dimensions there is no random state. -/
theorem C91_random_refused (re im : Nat → ℝ) : RetrieveState.randomState [] re im = .error .typeError := rfl

/-- C91, the tolerance: the check accepts exactly the vectors whose squared norm differs from 1 by at most 1.1e-5. -/
theorem C91_accepted (v : List ℂ) :
    RetrieveState.verifyNormalized v ↔ |(v.map fun z => ‖z‖ ^ 2).sum - 1| ≤ 0.000011 := by
  unfold RetrieveState.verifyNormalized RetrieveState.isclose
  norm_num

/-- C91, violated part: the tolerance 1e-6 written in the function is not the one it applies: a vector whose squared norm is
1.00001 is accepted as normalised. -/
theorem C91_tolerance_violated :
    ∃ v : List ℂ, |(v.map fun z => ‖z‖ ^ 2).sum - 1| > 1e-6 ∧ RetrieveState.verifyNormalized v := by
  have h : ‖((Real.sqrt 1.00001 : ℝ) : ℂ)‖ ^ 2 = 1.00001 := by
    rw [Complex.norm_real, Real.norm_eq_abs, sq_abs, Real.sq_sqrt (by norm_num)]
  refine ⟨[((Real.sqrt 1.00001 : ℝ) : ℂ), 0], ?_, ?_⟩
  · simp only [List.map_cons, List.map_nil, List.sum_cons, List.sum_nil, h, norm_zero]
    norm_num [abs_of_pos]
  · rw [C91_accepted]
    simp only [List.map_cons, List.map_nil, List.sum_cons, List.sum_nil, h, norm_zero]
    norm_num [abs_of_pos]

/-- C91: Hermitian arrays are needed: for a matrix unit off the diagonal the result is not a number. -/
theorem C91_hermitian_needed :
    ∃ a : Arr2 ℂ, a.rows = 2 ∧ a.cols = 2 ∧ a.toM 2 ≠ 0 ∧ fidelityOnDensity a a = .ok none := by
  refine ⟨⟨2, 2, fun r c => if r = 0 ∧ c = 1 then 1 else 0⟩, rfl, rfl, ?_, ?_⟩
  · intro h
    have := congrFun (congrFun h 0) 1
    simp [Arr2.toM] at this
  · simp [fidelityOnDensity, sizeCheck, Arr2.matmul, bind, Except.bind, pure, Except.pure, npDiv, npSqrt, Variational.trace]
    simp [Finset.sum_range_succ]

/-- two different mixed states of a qubit with a fidelity strictly between the bounds -/
example : ∃ f : ℝ, fidelityOnDensity ⟨2, 2, fun r c => if r = c then 1 / 2 else 0⟩ ⟨2, 2, fun r c => if r = 0 ∧ c = 0 then 1 else 0⟩ =
    .ok (some (f : ℂ)) ∧ f ≠ 1 := by
  obtain ⟨f, h1, _, _, _, _, h⟩ := C91_density 2 ⟨2, 2, fun r c => if r = c then 1 / 2 else 0⟩
    ⟨2, 2, fun r c => if r = 0 ∧ c = 0 then 1 else 0⟩ rfl rfl rfl rfl
    (by ext i j; fin_cases i <;> fin_cases j <;> simp [Arr2.toM])
    (by ext i j; fin_cases i <;> fin_cases j <;> simp [Arr2.toM])
    (by intro h; have := congrFun (congrFun h 0) 0; simp [Arr2.toM] at this)
    (by intro h; have := congrFun (congrFun h 0) 0; simp [Arr2.toM] at this)
  refine ⟨f, h1, fun h' => ?_⟩
  have := (h (by simp [Arr2.toM, Matrix.trace]) (by simp [Arr2.toM, Matrix.trace])).1 h'
  have := congrFun (congrFun this 1) 1
  simp [Arr2.toM] at this

example : ∃ v, RetrieveState.randomState [2, 3] (fun k => k) (fun _ => -1) = .ok (some v) ∧ v.length = 6 := by
  obtain ⟨v, h, h2, _⟩ := C91_random [2, 3] (by simp) (fun k => k) (fun _ => -1) ⟨0, by simp, by simp⟩
  exact ⟨v, h, h2⟩

end Qudits
