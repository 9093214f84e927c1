import Verif.Lemmas.TwoLine
import Verif.Spec.UnitaryArr
import Mathlib.RingTheory.RootsOfUnity.Complex
import Mathlib.Tactic.NormNum.Prime

/-
Property C06 (unitarity of every gate array) and C51 (the S gate accepts exactly the prime dimensions).
-/
namespace Qudits
open Complex Spec Matrix

/-! ### C06 -/

theorem C06_x (d : Nat) : ∃ A, xArray d = .ok A ∧ UnitaryArr A d := by
  obtain ⟨A, hA, h1, h2, h3⟩ := xArray_ok d
  refine ⟨A, hA, h1, h2, ?_⟩
  apply perm_unitary _ (fun c => ⟨(c + 1) % d, Nat.mod_lt _ (by have := c.2; omega)⟩)
  · intro a b hab
    have hab := Fin.mk.inj hab
    have ha := a.2
    have hb := b.2
    apply Fin.ext
    have : (a : Nat) + 1 ≡ b + 1 [MOD d] := hab
    have := Nat.ModEq.add_right_cancel' 1 this
    rw [Nat.ModEq, Nat.mod_eq_of_lt ha, Nat.mod_eq_of_lt hb] at this
    exact this
  · intro r c
    rw [Arr2.toM, h3 _ _ c.2]
    simp only [Fin.ext_iff]

theorem C06_z (d : Nat) : ∃ A, zArray d = .ok A ∧ UnitaryArr A d := by
  obtain ⟨A, hA, h1, h2, h3⟩ := zArray_ok d
  exact ⟨A, hA, h1, h2, diag_unitary A (fun c => omg d ^ c) (fun i _ => by rw [norm_pow, norm_omg, one_pow])
    (fun r c _ hc => h3 r c hc)⟩

theorem omg_primitive (d : Nat) (hd : d ≠ 0) : IsPrimitiveRoot (omg d) d :=
  Complex.isPrimitiveRoot_exp d hd

theorem omg_conj (d : Nat) : star (omg d) * omg d = 1 := by
  rw [mul_comm]
  change omg d * (starRingEnd ℂ) (omg d) = 1
  rw [Complex.mul_conj, Complex.normSq_eq_norm_sq, norm_omg]; simp

theorem omg_sum (d i j : Nat) (hi : i < d) (hj : j < d) :
    ∑ k ∈ Finset.range d, omg d ^ (i * k) * star (omg d ^ (j * k)) = if i = j then (d : ℂ) else 0 := by
  have hd : d ≠ 0 := by omega
  have hz : ∀ k, omg d ^ (i * k) * star (omg d ^ (j * k)) = (omg d ^ i * star (omg d ^ j)) ^ k := by
    intro k
    rw [mul_pow, ← star_pow, ← pow_mul, ← pow_mul]
  simp only [hz]
  have hstar : star (omg d ^ j) * omg d ^ j = 1 := by
    rw [star_pow, ← mul_pow, omg_conj, one_pow]
  by_cases hij : i = j
  · subst hij
    rw [if_pos rfl, mul_comm, hstar]
    simp
  · rw [if_neg hij]
    set z := omg d ^ i * star (omg d ^ j) with hzd
    have hz1 : z ≠ 1 := by
      intro h
      apply hij
      apply (omg_primitive d hd).pow_inj hi hj
      calc omg d ^ i = z * omg d ^ j := by rw [hzd, mul_assoc, hstar, mul_one]
        _ = omg d ^ j := by rw [h, one_mul]
    have hzd1 : z ^ d = 1 := by
      rw [hzd, mul_pow, ← star_pow, ← pow_mul, ← pow_mul, mul_comm i, mul_comm j, pow_mul, pow_mul, omg_pow_d d hd]
      simp
    have := mul_geom_sum z d
    rw [hzd1, sub_self] at this
    exact (mul_eq_zero.1 this).resolve_left (sub_ne_zero.2 hz1)

theorem C06_h (d : Nat) : ∃ A, hArray d = .ok A ∧ UnitaryArr A d := by
  obtain ⟨A, hA, h1, h2, h3⟩ := hArray_ok d
  refine ⟨A, hA, h1, h2, ?_⟩
  rw [mem_unitaryGroup_iff, star_eq_conjTranspose]
  ext i j
  rw [Matrix.mul_apply]
  have hd : 0 < d := by have := i.2; omega
  have hs : ((1 / Real.sqrt d : ℝ) : ℂ) * ((1 / Real.sqrt d : ℝ) : ℂ) = 1 / (d : ℂ) := by
    rw [← ofReal_mul]
    have : 1 / Real.sqrt d * (1 / Real.sqrt d) = 1 / (d : ℝ) := by
      rw [div_mul_div_comm, one_mul, Real.mul_self_sqrt (Nat.cast_nonneg d)]
    rw [this]; push_cast; rfl
  have key : ∀ k : Fin d, A.toM d i k * (A.toM d)ᴴ k j =
      (1 / (d : ℂ)) * (omg d ^ ((i : Nat) * k) * star (omg d ^ ((j : Nat) * k))) := by
    intro k
    rw [Matrix.conjTranspose_apply]
    simp only [Arr2.toM]
    rw [h3 _ _ i.2 k.2, h3 _ _ j.2 k.2, star_mul', ← hs]
    have : star ((1 / Real.sqrt d : ℝ) : ℂ) = ((1 / Real.sqrt d : ℝ) : ℂ) := Complex.conj_ofReal _
    rw [this]; ring
  rw [Finset.sum_congr rfl (fun k _ => key k), ← Finset.mul_sum]
  have := Finset.sum_range (fun k => omg d ^ ((i : Nat) * k) * star (omg d ^ ((j : Nat) * k))) (n := d)
  rw [← this, omg_sum d i j i.2 j.2, Matrix.one_apply]
  simp only [Fin.ext_iff]
  split_ifs
  · field_simp
    exact div_self (by exact_mod_cast hd.ne')
  · simp

theorem isPrime_iff (n : Nat) : isPrime n = true ↔ n.Prime := by
  unfold isPrime
  by_cases h2 : n < 2
  · rw [if_pos h2]
    simp only [Bool.false_eq_true, false_iff]
    intro h; exact absurd h.two_le (by omega)
  rw [if_neg h2]
  by_cases h2' : n = 2
  · rw [if_pos h2', h2']; simp [Nat.prime_two]
  rw [if_neg h2']
  by_cases he : n % 2 = 0
  · rw [if_pos he]
    simp only [Bool.false_eq_true, false_iff]
    intro h
    rcases h.eq_two_or_odd with h | h <;> omega
  rw [if_neg he, List.all_eq_true, Nat.prime_def_le_sqrt]
  constructor
  · intro h
    refine ⟨by omega, ?_⟩
    intro m hm hms hdvd
    have hodd : m % 2 = 1 := by
      by_contra hc
      have : 2 ∣ m := by omega
      have := this.trans hdvd
      omega
    have := h ((m - 3) / 2) (List.mem_range.2 (by omega))
    rw [show 3 + 2 * ((m - 3) / 2) = m by omega, Nat.mod_eq_zero_of_dvd hdvd] at this
    simp at this
  · rintro ⟨_, h⟩ k hk
    rw [List.mem_range] at hk
    have := h (3 + 2 * k) (by omega) (by omega)
    simp only [bne_iff_ne, ne_eq]
    intro hc
    exact this (Nat.dvd_of_mod_eq_zero hc)

/-- C51: a circuit accepts an S gate on a line exactly when the line's dimension is prime; otherwise the
constructor raises. -/
theorem C51_s_prime (d : Nat) : sInit d = .ok () ↔ d.Prime := by
  unfold sInit
  by_cases h : isPrime d = true
  · rw [if_pos h]; exact ⟨fun _ => (isPrime_iff d).1 h, fun _ => rfl⟩
  · rw [if_neg h]
    refine ⟨fun h' => by simp at h', fun h' => absurd ((isPrime_iff d).2 h') h⟩

theorem C51_s_rejects (d : Nat) (h : ¬ d.Prime) : sInit d = .error .valueError := by
  unfold sInit
  rw [if_neg (fun h' => h ((isPrime_iff d).1 h'))]

example : sInit 9 = .error .valueError := C51_s_rejects 9 (by norm_num)

theorem C06_s (d : Nat) (hacc : sInit d = .ok ()) : ∃ A, sArray d = .ok A ∧ UnitaryArr A d := by
  by_cases hd : d = 2
  · subst hd
    refine ⟨_, by unfold sArray; rw [if_pos rfl], rfl, rfl, ?_⟩
    apply diag_unitary _ (fun c => if c = 0 then 1 else I)
    · intro i _; split_ifs <;> simp
    · intro r c hr hc
      interval_cases r <;> interval_cases c <;> simp
  · obtain ⟨A, hA, h1, h2, h3⟩ := sArray_ok d hd
    refine ⟨A, hA, h1, h2, diag_unitary A
      (fun c => (omg d) ^ ((pyMod ((c * (c + 1) : ℝ) / 2) d : ℝ) : ℂ)) (fun i _ => ?_) (fun r c _ hc => h3 r c hc)⟩
    rw [Complex.norm_cpow_real, norm_omg, Real.one_rpow]

theorem C06_r (d : Nat) (p : List PVal) (g : TwoLevel) (hacc : rInit d (.list p) = .ok g) :
    ∃ A, rArray d g = .ok A ∧ UnitaryArr A d := by
  obtain ⟨_, _, _, _, x, y, _, _, _, _, _, hg, _⟩ := rInit_ok hacc
  obtain ⟨A, hA, h1, h2, h3⟩ := rArray_ok hg
  exact ⟨A, hA, h1, h2, by rw [h3]; exact twoLevel_unitary _ (ne_of_lt hg.lt) (rot_unitary _ _)⟩

/-- Parameters that are not a Python list are silently dropped by the constructor; the matrix of such a
rotation cannot be computed. -/
theorem C06_r_not_a_list (d : Nat) (hd : 0 < d) (p : Params) (hp : ∀ l, p ≠ .list l) :
    ∃ g, rInit d p = .ok g ∧ rArray d g = .error .assertionError := by
  refine ⟨{}, ?_, ?_⟩
  · cases p with
    | list l => exact absurd rfl (hp l)
    | none => rfl
    | other => rfl
  · unfold rArray
    simp only [bind, Except.bind, Int.toNat_zero]
    rw [set_ok _ _ _ _ (by simpa [Arr2.identity] using hd) (by simpa [Arr2.identity] using hd)]
    simp only []
    rw [set_ok _ _ _ _ (by simpa [Arr2.identity] using hd) (by simpa [Arr2.identity] using hd)]
    simp [gellMann]

theorem C06_rz (d : Nat) (p : List PVal) (g : TwoLevel) (hacc : rzInit d (.list p) = .ok g) :
    ∃ A, rzArray d g = .ok A ∧ UnitaryArr A d := by
  obtain ⟨_, _, _, x, y, _, _, _, _, hg, _⟩ := rzInit_ok hacc
  obtain ⟨A, hA, h1, h2, h3⟩ := rzArray_ok hg
  exact ⟨A, hA, h1, h2, by
    rw [h3]
    exact twoLevel_unitary _ (ne_of_lt hg.lt) (mul_mem (mul_mem (rot_unitary _ _) (rot_unitary _ _)) (rot_unitary _ _))⟩

theorem C06_rh (d : Nat) (p : List PVal) (g : TwoLevel) (hacc : levelsInit d (.list p) = .ok g) :
    ∃ A, rhArray d g = .ok A ∧ UnitaryArr A d := by
  obtain ⟨_, _, x, y, _, _, _, hg, _⟩ := levelsInit_ok hacc
  obtain ⟨A, hA, h1, h2, h3⟩ := rhArray_ok hg
  exact ⟨A, hA, h1, h2, by
    rw [h3]
    exact twoLevel_unitary _ (ne_of_lt hg.lt) (mul_mem (rot_unitary _ _) (rot_unitary _ _))⟩

theorem swap_unitary (u v : ℂ) (hu : u * star u = 1) (hv : v * star v = 1) :
    (!![0, u; v, 0] : Matrix (Fin 2) (Fin 2) ℂ) ∈ unitaryGroup (Fin 2) ℂ := by
  rw [mem_unitaryGroup_iff, star_eq_conjTranspose]
  ext i j
  rw [Matrix.mul_apply, Fin.sum_univ_two]
  fin_cases i <;> fin_cases j <;> simp [Matrix.conjTranspose_apply]
  · exact hu
  · exact hv

theorem C06_noise_x (d : Nat) (p : List PVal) (g : TwoLevel) (hacc : levelsInit d (.list p) = .ok g) :
    ∃ A, noiseXArray d g = .ok A ∧ UnitaryArr A d := by
  obtain ⟨_, _, x, y, _, _, _, hg, _⟩ := levelsInit_ok hacc
  obtain ⟨A, hA, h1, h2, h3⟩ := noiseX_ok hg
  exact ⟨A, hA, h1, h2, by
    rw [h3]; exact twoLevel_unitary _ (ne_of_lt hg.lt) (swap_unitary 1 1 (by simp) (by simp))⟩

theorem C06_noise_y (d : Nat) (p : List PVal) (g : TwoLevel) (hacc : levelsInit d (.list p) = .ok g) :
    ∃ A, noiseYArray d g = .ok A ∧ UnitaryArr A d := by
  obtain ⟨_, _, x, y, _, _, _, hg, _⟩ := levelsInit_ok hacc
  obtain ⟨A, hA, h1, h2, h3⟩ := noiseY_ok hg
  exact ⟨A, hA, h1, h2, by
    rw [h3]; exact twoLevel_unitary _ (ne_of_lt hg.lt) (swap_unitary (-I) I (by simp) (by simp))⟩

theorem norm_cexp_I (x : ℝ) : ‖cexp (-I * x)‖ = 1 := by
  rw [show -I * (x : ℂ) = ((-x : ℝ) : ℂ) * I by push_cast; ring]
  exact Complex.norm_exp_ofReal_mul_I _

theorem C06_virtrz (d : Nat) (hd : 0 < d) (p : Params) :
    ∃ A, virtRzArray d (virtRzInit d p) = .ok A ∧ UnitaryArr A d := by
  obtain ⟨a, ha⟩ := virtRzInit_lev d hd p
  obtain ⟨A, hA, h1, h2, h3⟩ := virtRzArray_ok _ a ha
  refine ⟨A, hA, h1, h2, diag_unitary A (fun c => if c = a then cexp (-I * (virtRzInit d p).phi) else 1)
    (fun i _ => ?_) (fun r c _ _ => h3 r c)⟩
  split_ifs
  · exact norm_cexp_I _
  · simp

theorem C06_csum (q0 q1 : Int) (c t : Nat) : ∃ A, csumArray q0 q1 c t = .ok A ∧ UnitaryArr A (c * t) := by
  obtain ⟨A, hA, h1, h2, h3⟩ := csumArray_ok q0 q1 c t
  refine ⟨A, hA, h1, h2, ?_⟩
  set U : Fin c → Matrix (Fin t) (Fin t) ℂ := fun i r s => if (r : Nat) = (s + i) % t then 1 else 0 with hU
  have hUu : ∀ i, U i ∈ unitaryGroup (Fin t) ℂ := by
    intro i
    apply perm_unitary _ (fun s => ⟨(s + i) % t, Nat.mod_lt _ (by have := s.2; omega)⟩)
    · intro a b hab
      have hab := Fin.mk.inj hab
      apply Fin.ext
      have : (a : Nat) + i ≡ b + i [MOD t] := hab
      have := Nat.ModEq.add_right_cancel' (i : Nat) this
      rw [Nat.ModEq, Nat.mod_eq_of_lt a.2, Nat.mod_eq_of_lt b.2] at this
      exact this
    · intro r s; simp only [hU, Fin.ext_iff]
  by_cases hq : q0 < q1
  · simp only [if_pos hq] at h3
    refine block_unitary A U hUu ?_
    intro i j r s
    rw [h3 i j r s i.2 j.2 r.2 s.2]
    simp only [hU, Fin.ext_iff]
    by_cases hij : (i : Nat) = j <;> simp [hij]
  · simp only [if_neg hq] at h3
    rw [Nat.mul_comm]
    refine block_unitary' A U hUu ?_
    intro i j r s
    rw [h3 i j r s i.2 j.2 r.2 s.2]
    simp only [hU, Fin.ext_iff]
    by_cases hij : (i : Nat) = j <;> simp [hij]

theorem cexOp_unitary (phi : ℝ) : cexOp phi ∈ unitaryGroup (Fin 2) ℂ := by
  have h1 : (starRingEnd ℂ) (cexp (I * phi)) = cexp (-(I * phi)) := by rw [← Complex.exp_conj]; simp
  have h2 : (starRingEnd ℂ) (cexp (-(I * phi))) = cexp (I * phi) := by rw [← Complex.exp_conj]; simp
  have hc := cexp_cancel (I * phi)
  apply swap_unitary
  · change (-I * cexp (-(I * phi))) * (starRingEnd ℂ) (-I * cexp (-(I * phi))) = 1
    rw [map_mul, h2, map_neg, conj_I]
    linear_combination hc - (cexp (I * phi) * cexp (-(I * phi))) * I_mul_I
  · change (-I * cexp (I * phi)) * (starRingEnd ℂ) (-I * cexp (I * phi)) = 1
    rw [map_mul, h1, map_neg, conj_I]
    linear_combination hc - (cexp (I * phi) * cexp (-(I * phi))) * I_mul_I

/-- The parameter check of CEx has no upper bound for the levels, so accepted parameters may still make
`to_matrix` raise; whenever it returns an array for levels that exist, the array is unitary. -/
theorem C06_cex (q0 q1 : Int) (d0 d1 : Nat) (p : Params) (g : CExParams) (hacc : cexInit p = .ok g)
    (hlev : g.levB < d1) : ∃ A, cexArray q0 q1 d0 d1 g = .ok A ∧ UnitaryArr A (d0 * d1) := by
  have hab : 0 ≤ g.levA ∧ g.levA < g.levB := by
    cases p with
    | none => cases hacc; decide
    | other => cases hacc; decide
    | list l =>
      unfold cexInit at hacc
      obtain ⟨a, _, h⟩ := bind_ok hacc
      obtain ⟨b, _, h⟩ := bind_ok h
      obtain ⟨c, _, h⟩ := bind_ok h
      obtain ⟨f, _, h⟩ := bind_ok h
      split_ifs at h with hh
      cases h
      exact ⟨hh.1, hh.2.1⟩
  set a : Fin d1 := ⟨g.levA.toNat, by omega⟩ with ha
  set b : Fin d1 := ⟨g.levB.toNat, by omega⟩ with hb
  have hlt : a < b := by rw [Fin.lt_def]; simp only [ha, hb]; omega
  obtain ⟨A, hA, h1, h2, h3⟩ := cexArray_ok q0 q1 d0 d1 g a b hlt (by simp only [ha]; omega) (by simp only [hb]; omega)
  refine ⟨A, hA, h1, h2, ?_⟩
  set U : Fin d0 → Matrix (Fin d1) (Fin d1) ℂ := fun i =>
    if ((i : Nat) : Int) = g.ctrl then twoLevel a b (cexOp g.phi) else 1 with hU
  have hUu : ∀ i, U i ∈ unitaryGroup (Fin d1) ℂ := by
    intro i
    simp only [hU]
    split_ifs
    · exact twoLevel_unitary _ (ne_of_lt hlt) (cexOp_unitary _)
    · exact one_mem _
  by_cases hq : q0 < q1
  · simp only [if_pos hq] at h3
    refine block_unitary A U hUu ?_
    intro i j r s
    rw [h3 i j r s i.2 j.2]
    simp only [hU, Fin.ext_iff]
    split_ifs <;> rfl
  · simp only [if_neg hq] at h3
    rw [Nat.mul_comm]
    refine block_unitary' A U hUu ?_
    intro i j r s
    rw [h3 i j r s i.2 j.2]
    simp only [hU, Fin.ext_iff]
    split_ifs <;> rfl

theorem C06_ls (d0 d1 : Nat) (theta t : ℝ) (_hacc : angleInit theta = .ok t) :
    ∃ A, lsArray d0 d1 t = .ok A ∧ UnitaryArr A (d0 * d1) := by
  obtain ⟨A, hA, h1, h2, h3⟩ := lsArray_ok d0 d1 t
  refine ⟨A, hA, h1, h2, diag_unitary A _ (fun c _ => ?_) h3⟩
  split_ifs
  · exact norm_cexp_I _
  · simp

theorem C06_ms (d0 d1 : Nat) (h0 : 2 ≤ d0) (h1 : 2 ≤ d1) (theta t : ℝ) (_hacc : angleInit theta = .ok t) :
    ∃ A, msArray d0 d1 t = .ok A ∧ UnitaryArr A (d0 * d1) := by
  obtain ⟨A, hA, e1, e2, e3⟩ := msArray_ok d0 d1 h0 h1 t
  exact ⟨A, hA, e1, e2, e3⟩

/-- accepted parameters exist: a rotation between levels 2 and 0 of a qutrit -/
example : ∃ g, rInit 3 (.list [.int 2, .int 0, .flt 1, .flt (1 / 2)]) = .ok g :=
  ⟨_, rInit_explicit 2 0 1 (1 / 2) (by decide)⟩
example : sInit 7 = .ok () := (C51_s_prime 7).2 (by norm_num)
example : ∃ g, cexInit (.list [.int 0, .int 2, .int 1, .flt 1]) = .ok g ∧ g.levB < ((3 : Nat) : Int) :=
  ⟨⟨0, 2, 1, 1⟩, by
    have : (1 : ℝ) ≤ 2 * Real.pi := by linarith [Real.two_le_pi]
    simp [cexInit, needInt, needFlt, bind, Except.bind, pure, Except.pure, this], by decide⟩
example : ∃ t, angleInit 1 = .ok t :=
  ⟨1, by
    have : (1 : ℝ) ≤ 2 * Real.pi := by linarith [Real.two_le_pi]
    simp [angleInit, this]⟩

end Qudits
