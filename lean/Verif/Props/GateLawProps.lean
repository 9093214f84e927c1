import Verif.Props.GateArrayProps

/-
Properties C07 (Weyl operators), C08 (two-level rotations), C09 (CSum, CEx), C10 (light shift),
C11 (permutation gate), C28 (angle normalisation).
-/
namespace Qudits
open Complex Spec Matrix

/-! ### C07 -/

/-- `X` sends level `i` to level `i+1 mod d`. -/
theorem C07_x_action (d : Nat) : ∃ A, xArray d = .ok A ∧ A.rows = d ∧ A.cols = d ∧
    ∀ i : Fin d, A.toM d *ᵥ Pi.single i 1 =
      Pi.single (⟨(i + 1) % d, Nat.mod_lt _ (by have := i.2; omega)⟩ : Fin d) 1 := by
  obtain ⟨A, hA, h1, h2, h3⟩ := xArray_ok d
  refine ⟨A, hA, h1, h2, ?_⟩
  intro i
  rw [Matrix.mulVec_single_one]
  ext r
  simp only [Matrix.col_apply, Arr2.toM, h3 _ _ i.2, Pi.single_apply, Fin.ext_iff]

/-- `Z` multiplies level `i` by `exp(2 pi i / d) ^ i`. -/
theorem C07_z_action (d : Nat) : ∃ A, zArray d = .ok A ∧ A.rows = d ∧ A.cols = d ∧
    ∀ i : Fin d, A.toM d *ᵥ Pi.single i 1 = cexp (2 * Real.pi * I / d) ^ (i : Nat) • Pi.single i 1 := by
  obtain ⟨A, hA, h1, h2, h3⟩ := zArray_ok d
  refine ⟨A, hA, h1, h2, ?_⟩
  intro i
  rw [Matrix.mulVec_single_one]
  ext r
  simp only [Matrix.col_apply, Arr2.toM, h3 _ _ i.2, Pi.smul_apply, Pi.single_apply, Fin.ext_iff, smul_eq_mul]
  split_ifs
  · rw [mul_one]; rfl
  · simp

theorem xpow_entry {d : Nat} (A : Arr2 ℂ) (h3 : ∀ r c, c < d → A.at' r c = if r = (c + 1) % d then 1 else 0)
    (k : Nat) (r c : Fin d) : (A.toM d ^ k) r c = if (r : Nat) = (c + k) % d then 1 else 0 := by
  induction k generalizing c with
  | zero => rw [pow_zero, Matrix.one_apply, Nat.add_zero, Nat.mod_eq_of_lt c.2]; simp only [Fin.ext_iff]
  | succ k ih =>
    rw [pow_succ, Matrix.mul_apply]
    have hd : 0 < d := by have := c.2; omega
    rw [Finset.sum_eq_single (⟨(c + 1) % d, Nat.mod_lt _ hd⟩ : Fin d)]
    · rw [ih, Arr2.toM, h3 _ _ c.2, if_pos rfl, mul_one]
      simp only [Nat.mod_add_mod]
      rw [show (c : Nat) + 1 + k = c + (k + 1) by ring]
    · intro b _ hb
      rw [Arr2.toM, h3 _ _ c.2, if_neg (fun h => hb (Fin.ext h)), mul_zero]
    · simp

theorem C07_x_order (d : Nat) : ∃ A, xArray d = .ok A ∧ A.rows = d ∧ A.cols = d ∧ A.toM d ^ d = 1 := by
  obtain ⟨A, hA, h1, h2, h3⟩ := xArray_ok d
  refine ⟨A, hA, h1, h2, ?_⟩
  ext r c
  rw [xpow_entry A h3, Nat.add_mod_right, Nat.mod_eq_of_lt c.2, Matrix.one_apply]
  simp only [Fin.ext_iff]

theorem z_diag {d : Nat} (A : Arr2 ℂ) (h3 : ∀ r c, c < d → A.at' r c = if r = c then omg d ^ c else 0) :
    A.toM d = diagonal (fun i : Fin d => omg d ^ (i : Nat)) := by
  ext r c
  rw [Arr2.toM, h3 _ _ c.2, diagonal_apply]
  simp only [Fin.ext_iff]
  split_ifs with h
  · rw [h]
  · rfl

theorem C07_z_order (d : Nat) : ∃ A, zArray d = .ok A ∧ A.rows = d ∧ A.cols = d ∧ A.toM d ^ d = 1 := by
  obtain ⟨A, hA, h1, h2, h3⟩ := zArray_ok d
  refine ⟨A, hA, h1, h2, ?_⟩
  rw [z_diag A h3, diagonal_pow]
  rw [← diagonal_one]
  congr 1
  ext i
  rw [Pi.pow_apply, ← pow_mul, mul_comm, pow_mul, omg_pow_d d (by have := i.2; omega), one_pow]

/-- Weyl commutation relation. -/
theorem C07_weyl (d : Nat) (X Z : Arr2 ℂ) (hX : xArray d = .ok X) (hZ : zArray d = .ok Z) :
    Z.toM d * X.toM d = cexp (2 * Real.pi * I / d) • (X.toM d * Z.toM d) := by
  obtain ⟨X', hX', _, _, x3⟩ := xArray_ok d
  obtain ⟨Z', hZ', _, _, z3⟩ := zArray_ok d
  rw [hX] at hX'; cases hX'
  rw [hZ] at hZ'; cases hZ'
  ext r c
  have hd : d ≠ 0 := by have := c.2; omega
  rw [z_diag Z z3, diagonal_mul, Matrix.smul_apply, mul_diagonal, Arr2.toM, x3 _ _ c.2]
  split_ifs with h
  · rw [h, mul_one, one_mul, smul_eq_mul]
    change _ = omg d * _
    rw [← pow_succ']
    conv_rhs => rw [← Nat.div_add_mod ((c : Nat) + 1) d]
    rw [pow_add, pow_mul, omg_pow_d d hd, one_pow, one_mul]
  · simp

/-- The Fourier gate turns the shift into the clock operator. -/
theorem C07_fourier (d : Nat) (X Z H : Arr2 ℂ) (hX : xArray d = .ok X) (hZ : zArray d = .ok Z)
    (hH : hArray d = .ok H) : H.toM d * X.toM d * (H.toM d)ᴴ = Z.toM d := by
  obtain ⟨X', hX', _, _, x3⟩ := xArray_ok d
  obtain ⟨Z', hZ', _, _, z3⟩ := zArray_ok d
  obtain ⟨H', hH', _, _, h3⟩ := hArray_ok d
  obtain ⟨H'', hH'', _, _, hu⟩ := C06_h d
  rw [hX] at hX'; cases hX'
  rw [hZ] at hZ'; cases hZ'
  rw [hH] at hH' hH''; cases hH'; cases hH''
  have key : H.toM d * X.toM d = Z.toM d * H.toM d := by
    ext r c
    have hd : 0 < d := by have := c.2; omega
    rw [z_diag Z z3, diagonal_mul, Matrix.mul_apply]
    rw [Finset.sum_eq_single (⟨(c + 1) % d, Nat.mod_lt _ hd⟩ : Fin d)]
    · simp only [Arr2.toM]
      rw [x3 _ _ c.2, if_pos rfl, mul_one, h3 _ _ r.2 (Nat.mod_lt _ hd), h3 _ _ r.2 c.2]
      have : omg d ^ ((r : Nat) * ((c + 1) % d)) = omg d ^ (r : Nat) * omg d ^ ((r : Nat) * c) := by
        rw [← pow_add, show (r : Nat) + r * c = r * (c + 1) by ring]
        conv_rhs => rw [← Nat.div_add_mod ((c : Nat) + 1) d]
        rw [mul_add, pow_add, show (r : Nat) * (d * ((c + 1) / d)) = d * (r * ((c + 1) / d)) by ring, pow_mul (omg d) d,
          omg_pow_d d hd.ne', one_pow, one_mul]
      rw [this]; ring
    · intro b _ hb
      simp only [Arr2.toM]
      rw [x3 _ _ c.2, if_neg (fun h => hb (Fin.ext h)), mul_zero]
    · simp
  rw [key, mul_assoc]
  rw [mem_unitaryGroup_iff, star_eq_conjTranspose] at hu
  rw [hu, mul_one]

/-- the arrays of C07 exist, also for a qutrit -/
example : ∃ X Z H, xArray 3 = .ok X ∧ zArray 3 = .ok Z ∧ hArray 3 = .ok H := by
  obtain ⟨X, hX, _⟩ := xArray_ok 3
  obtain ⟨Z, hZ, _⟩ := zArray_ok 3
  obtain ⟨H, hH, _⟩ := hArray_ok 3
  exact ⟨X, Z, H, hX, hZ, hH⟩

/-! ### C08 -/

/-- Building `R` from a parameter list and asking for its matrix. -/
noncomputable def rMatrix (d : Nat) (a b : Int) (theta phi : ℝ) : Except PyErr (Arr2 ℂ) := do
  rArray d (← rInit d (.list [.int a, .int b, .flt theta, .flt phi]))

/-- Building `Rz` from a parameter list and asking for its matrix. -/
noncomputable def rzMatrix (d : Nat) (a b : Int) (phi : ℝ) : Except PyErr (Arr2 ℂ) := do
  rzArray d (← rzInit d (.list [.int a, .int b, .flt phi]))

/-- Building `Rh` from a parameter list and asking for its matrix. -/
noncomputable def rhMatrix (d : Nat) (a b : Int) : Except PyErr (Arr2 ℂ) := do
  rhArray d (← levelsInit d (.list [.int a, .int b]))

theorem min_ne_max {d : Nat} {a b : Fin d} (h : a ≠ b) : min a b ≠ max a b := by
  rcases lt_or_gt_of_ne h with h | h
  · rw [min_eq_left h.le, max_eq_right h.le]; exact ne_of_lt h
  · rw [min_eq_right h.le, max_eq_left h.le]; exact ne_of_lt h

theorem good_explicit {d : Nat} (a b : Fin d) (hab : a ≠ b) (t f : ℝ) :
    GoodLevels d ⟨(levelsSetter ((a : Nat) : Int) ((b : Nat) : Int)).1,
      (levelsSetter ((a : Nat) : Int) ((b : Nat) : Int)).2, t, f⟩ (min a b) (max a b) := by
  have hne : (a : Nat) ≠ b := fun h => hab (Fin.ext h)
  by_cases h : a < b
  · have h' : ((a : Nat) : Int) < ((b : Nat) : Int) := by exact_mod_cast h
    rw [levelsSetter_sorted h', min_eq_left h.le, max_eq_right h.le]
    exact ⟨rfl, rfl, h⟩
  · have h2 : b < a := lt_of_le_of_ne (not_lt.1 h) (Ne.symm hab)
    have h' : ¬ ((a : Nat) : Int) < ((b : Nat) : Int) := by
      intro hc; exact h (by exact_mod_cast hc)
    rw [min_eq_right h2.le, max_eq_left h2.le]
    have : levelsSetter ((a : Nat) : Int) ((b : Nat) : Int) = (((b : Nat) : Int), ((a : Nat) : Int)) := by
      unfold levelsSetter; rw [if_neg h']
    rw [this]
    exact ⟨rfl, rfl, h2⟩

/-- R in closed form: the rotation matrix for the given, unnormalised angles on the two levels (smaller level
first), identity elsewhere. -/
theorem C08_r_closed (d : Nat) (a b : Fin d) (hab : a ≠ b) (theta phi : ℝ) :
    ∃ A, rMatrix d (a : Nat) (b : Nat) theta phi = .ok A ∧ A.rows = d ∧ A.cols = d ∧
      A.toM d = twoLevel (min a b) (max a b) (rot theta phi) := by
  have hne : ((a : Nat) : Int) ≠ ((b : Nat) : Int) := fun h => hab (Fin.ext (by exact_mod_cast h))
  have hi := rInit_explicit (d := d) (a : Nat) (b : Nat) theta phi
    (by have := a.2; have := b.2; refine ⟨?_, ?_, ?_, ?_, hne⟩ <;> omega)
  obtain ⟨A, hA, h1, h2, h3⟩ := rArray_ok (good_explicit a b hab (regulateTheta theta) phi)
  refine ⟨A, ?_, h1, h2, ?_⟩
  · unfold rMatrix; rw [hi]; exact hA
  · rw [h3, rot_regulate]

/-- Rejected parameters: equal levels, negative levels or levels beyond the dimension. -/
theorem C08_r_rejects (d : Nat) (a b : Int) (theta phi : ℝ) (h : a = b ∨ a < 0 ∨ b < 0 ∨ a ≥ d ∨ b ≥ d) :
    rMatrix d a b theta phi = .error .assertionError := by
  unfold rMatrix
  have : rInit d (.list [.int a, .int b, .flt theta, .flt phi]) = .error .assertionError := by
    have hc : checkLevels d a b = .error .assertionError := by
      unfold checkLevels
      rw [if_neg]
      rintro ⟨h1, h2, h3, h4, h5⟩
      omega
    simp [rInit, needInt, needFlt, hc, bind, Except.bind, pure, Except.pure]
  rw [this]; rfl

theorem C08_r_other_levels (d : Nat) (a b : Fin d) (theta phi : ℝ) (A : Arr2 ℂ)
    (hA : rMatrix d (a : Nat) (b : Nat) theta phi = .ok A) (c : Fin d) (hca : c ≠ a) (hcb : c ≠ b) :
    A.toM d *ᵥ Pi.single c 1 = Pi.single c 1 := by
  have hab : a ≠ b := by
    intro h
    rw [C08_r_rejects d _ _ _ _ (Or.inl (by rw [h]))] at hA
    cases hA
  obtain ⟨A', hA', _, _, h3⟩ := C08_r_closed d a b hab theta phi
  rw [hA] at hA'; cases hA'
  rw [Matrix.mulVec_single_one, h3]
  have hm : c ≠ min a b := by rcases min_choice a b with h | h <;> rw [h] <;> assumption
  have hM : c ≠ max a b := by rcases max_choice a b with h | h <;> rw [h] <;> assumption
  ext r
  simp only [Matrix.col_apply, twoLevel, Pi.single_apply, if_neg hm, if_neg hM]
  by_cases hr1 : r = min a b
  · rw [if_pos hr1, if_neg (by rw [hr1]; exact fun h => hm h.symm)]
  · rw [if_neg hr1]
    by_cases hr2 : r = max a b
    · rw [if_pos hr2, if_neg (by rw [hr2]; exact fun h => hM h.symm)]
    · rw [if_neg hr2]

/-- Rotations about the same axis add their angles. -/
theorem C08_r_add (d : Nat) (a b : Fin d) (t1 t2 phi : ℝ) (A B C : Arr2 ℂ)
    (hA : rMatrix d (a : Nat) (b : Nat) t1 phi = .ok A) (hB : rMatrix d (a : Nat) (b : Nat) t2 phi = .ok B)
    (hC : rMatrix d (a : Nat) (b : Nat) (t1 + t2) phi = .ok C) : B.toM d * A.toM d = C.toM d := by
  have hab : a ≠ b := by
    intro h
    rw [C08_r_rejects d _ _ _ _ (Or.inl (by rw [h]))] at hA
    cases hA
  obtain ⟨A', hA', _, _, a3⟩ := C08_r_closed d a b hab t1 phi
  obtain ⟨B', hB', _, _, b3⟩ := C08_r_closed d a b hab t2 phi
  obtain ⟨C', hC', _, _, c3⟩ := C08_r_closed d a b hab (t1 + t2) phi
  rw [hA] at hA'; cases hA'
  rw [hB] at hB'; cases hB'
  rw [hC] at hC'; cases hC'
  have hm : min a b ≠ max a b := min_ne_max hab
  rw [a3, b3, c3, twoLevel_mul _ _ hm, rot_add, add_comm]

/-- The rotation by the negated angle is the inverse. -/
theorem C08_r_inverse (d : Nat) (a b : Fin d) (t phi : ℝ) (A B : Arr2 ℂ)
    (hA : rMatrix d (a : Nat) (b : Nat) t phi = .ok A) (hB : rMatrix d (a : Nat) (b : Nat) (-t) phi = .ok B) :
    B.toM d * A.toM d = 1 ∧ A.toM d * B.toM d = 1 := by
  have hab : a ≠ b := by
    intro h
    rw [C08_r_rejects d _ _ _ _ (Or.inl (by rw [h]))] at hA
    cases hA
  obtain ⟨A', hA', _, _, a3⟩ := C08_r_closed d a b hab t phi
  obtain ⟨B', hB', _, _, b3⟩ := C08_r_closed d a b hab (-t) phi
  rw [hA] at hA'; cases hA'
  rw [hB] at hB'; cases hB'
  have hm : min a b ≠ max a b := min_ne_max hab
  rw [a3, b3, twoLevel_mul _ _ hm, twoLevel_mul _ _ hm, rot_add, rot_add]
  simp [rot_zero, twoLevel_one hm]

theorem twoLevel_diag {d : Nat} (x y : Fin d) (h : x ≠ y) (u v : ℂ) :
    twoLevel x y !![u, 0; 0, v] = diagonal fun i => if i = x then u else if i = y then v else 1 := by
  ext r c
  simp only [twoLevel, diagonal_apply]
  by_cases hrc : r = c
  · subst hrc
    by_cases h1 : r = x
    · simp [h1]
    · by_cases h2 : r = y
      · simp [h2, h1, Ne.symm h]
      · simp [h1, h2]
  · rw [if_neg (c := r = c) hrc, if_neg (c := r = c) hrc]
    split_ifs <;> simp_all

/-- Rz is diagonal with phases `exp(-i phi/2)` on the smaller and `exp(i phi/2)` on the larger level. -/
theorem C08_rz_closed (d : Nat) (a b : Fin d) (hab : a ≠ b) (phi : ℝ) :
    ∃ A, rzMatrix d (a : Nat) (b : Nat) phi = .ok A ∧ A.rows = d ∧ A.cols = d ∧
      A.toM d = diagonal fun i => if i = min a b then cexp (-(I * (phi / 2))) else
        if i = max a b then cexp (I * (phi / 2)) else 1 := by
  have hne : ((a : Nat) : Int) ≠ ((b : Nat) : Int) := fun h => hab (Fin.ext (by exact_mod_cast h))
  have ha := a.2
  have hb := b.2
  have hi : rzInit d (.list [.int (a : Nat), .int (b : Nat), .flt phi]) =
      .ok ⟨(levelsSetter ((a : Nat) : Int) ((b : Nat) : Int)).1,
        (levelsSetter ((a : Nat) : Int) ((b : Nat) : Int)).2, 0, regulateTheta phi⟩ := by
    have hc : checkLevels d (a : Nat) (b : Nat) = .ok () := by
      unfold checkLevels
      rw [if_pos]
      refine ⟨?_, ?_, ?_, ?_, hne⟩ <;> omega
    simp [rzInit, needInt, needFlt, hc, bind, Except.bind, pure, Except.pure]
  obtain ⟨A, hA, h1, h2, h3⟩ := rzArray_ok (good_explicit a b hab 0 (regulateTheta phi))
  refine ⟨A, ?_, h1, h2, ?_⟩
  · unfold rzMatrix; rw [hi]; exact hA
  · rw [h3, rz_two]
    have e1 := cexp_half_regulate phi
    have e2 : cexp (-(I * ((regulateTheta phi / 2 : ℝ) : ℂ))) = cexp (-(I * ((phi / 2 : ℝ) : ℂ))) := by
      rw [Complex.exp_neg, Complex.exp_neg, e1]
    rw [e1, e2]
    rw [twoLevel_diag _ _ (min_ne_max hab)]
    push_cast
    rfl

/-- Rh is `i` times the Hadamard matrix on its two levels. -/
theorem C08_rh_closed (d : Nat) (a b : Fin d) (hab : a ≠ b) :
    ∃ A, rhMatrix d (a : Nat) (b : Nat) = .ok A ∧ A.rows = d ∧ A.cols = d ∧
      A.toM d = twoLevel (min a b) (max a b)
        (I • !![((1 / Real.sqrt 2 : ℝ) : ℂ), ((1 / Real.sqrt 2 : ℝ) : ℂ);
                ((1 / Real.sqrt 2 : ℝ) : ℂ), -((1 / Real.sqrt 2 : ℝ) : ℂ)]) := by
  have hne : ((a : Nat) : Int) ≠ ((b : Nat) : Int) := fun h => hab (Fin.ext (by exact_mod_cast h))
  have ha := a.2
  have hb := b.2
  have hi : levelsInit d (.list [.int (a : Nat), .int (b : Nat)]) =
      .ok ⟨(levelsSetter ((a : Nat) : Int) ((b : Nat) : Int)).1,
        (levelsSetter ((a : Nat) : Int) ((b : Nat) : Int)).2, 0, 0⟩ := by
    have hc : checkLevels d (a : Nat) (b : Nat) = .ok () := by
      unfold checkLevels
      rw [if_pos]
      refine ⟨?_, ?_, ?_, ?_, hne⟩ <;> omega
    simp [levelsInit, needInt, hc, bind, Except.bind, pure, Except.pure]
  obtain ⟨A, hA, h1, h2, h3⟩ := rhArray_ok (good_explicit a b hab 0 0)
  refine ⟨A, ?_, h1, h2, ?_⟩
  · unfold rhMatrix; rw [hi]; exact hA
  · rw [h3, rh_two]
    congr 1
    have hs : (1 / Real.sqrt 2 : ℝ) = Real.sqrt 2 / 2 := by
      rw [div_eq_div_iff (by positivity) (by norm_num)]
      rw [Real.mul_self_sqrt (by norm_num)]; norm_num
    rw [hs]
    ext i j
    fin_cases i <;> fin_cases j <;> simp

/-- VirtRz multiplies the named level by `exp(-i phi)` and leaves every other level alone. -/
theorem C08_virtrz_closed (d : Nat) (a : Fin d) (phi : ℝ) :
    ∃ A, virtRzArray d (virtRzInit d (.list [.int (a : Nat), .flt phi])) = .ok A ∧ A.rows = d ∧ A.cols = d ∧
      A.toM d = diagonal fun i => if i = a then cexp (-I * phi) else 1 := by
  have hg : virtRzInit d (.list [.int (a : Nat), .flt phi]) = { levA := ((a : Nat) : Int), phi := regulateTheta phi } := by
    simp only [virtRzInit]
    rw [if_pos]
    have := a.2; omega
  rw [hg]
  obtain ⟨A, hA, h1, h2, h3⟩ := virtRzArray_ok
    ({ levA := ((a : Nat) : Int), phi := regulateTheta phi } : TwoLevel) a rfl
  refine ⟨A, hA, h1, h2, ?_⟩
  ext r c
  rw [Arr2.toM, h3, diagonal_apply]
  simp only [Fin.ext_iff]
  rw [cexp_regulate]
  by_cases hrc : (r : Nat) = c <;> simp [hrc]

example : ∃ A, rMatrix 4 ((3 : Fin 4) : Nat) ((1 : Fin 4) : Nat) 7 (1 / 3) = .ok A := by
  obtain ⟨A, hA, _⟩ := C08_r_closed 4 3 1 (by decide) 7 (1 / 3)
  exact ⟨A, hA⟩

/-! ### C28 -/

/-- `pi_mod` subtracts full turns and lands in `[-pi, pi]`. -/
theorem C28_pi_mod (a : ℝ) : (∃ k : ℤ, piMod a = a + k * (2 * Real.pi)) ∧ -Real.pi ≤ piMod a ∧ piMod a ≤ Real.pi :=
  ⟨piMod_period a, piMod_range a⟩

/-- `regulate_theta` changes the angle by a multiple of `4 pi`; its result keeps away from zero, so the
physical pulse is never shorter than `0.2 pi`, and stays below `4.2 pi`. -/
theorem C28_regulate_theta (a : ℝ) : (∃ k : ℤ, regulateTheta a = a + k * (4 * Real.pi)) ∧
    0.2 * Real.pi ≤ |regulateTheta a| ∧ |regulateTheta a| < 4.2 * Real.pi :=
  ⟨regulate_period a, regulate_min a⟩

/-- Normalising the angles does not change the rotation: phi by `pi_mod`, theta by `regulate_theta`. -/
theorem C28_rotation_unchanged (theta phi : ℝ) :
    rot (regulateTheta theta) (piMod phi) = rot theta phi := by
  rw [rot_regulate]
  obtain ⟨k, hk⟩ := piMod_period phi
  have h1 : cexp (I * (piMod phi : ℝ)) = cexp (I * phi) := by
    rw [hk, Complex.exp_eq_exp_iff_exists_int]
    exact ⟨k, by push_cast; ring⟩
  have h2 : cexp (-(I * (piMod phi : ℝ))) = cexp (-(I * phi)) := by
    rw [Complex.exp_neg, Complex.exp_neg, h1]
  unfold rot
  rw [h1, h2]

/-! ### C11 -/

theorem getD_getElem {α : Type} {l : List α} {i : Nat} {x : α} (h : i < l.length) : l.getD i x = l[i] := by
  rw [List.getD_eq_getElem?_getD, List.getElem?_eq_getElem h, Option.getD_some]

/-- For accepted data that name every level exactly once the matrix is the permutation matrix. -/
theorem C11_perm_partial (d : Nat) (p q : List Int) (hacc : permInit d p = .ok q) (hlen : p.length = d)
    (hnd : p.Nodup) :
    (permArray d q).rows = d ∧ (permArray d q).cols = d ∧
      ∃ s : Equiv.Perm (Fin d), (∀ j : Fin d, p[(j : Nat)]? = some (((s j : Fin d) : Nat) : Int)) ∧
        ∀ j : Fin d, (permArray d q).toM d *ᵥ Pi.single j 1 = Pi.single (s j) 1 := by
  unfold permInit at hacc
  split_ifs at hacc with h
  cases hacc
  rw [List.all_eq_true] at h
  have hmem : ∀ j : Fin d, p.getD j 0 ∈ p := by
    intro j
    rw [getD_getElem (by rw [hlen]; exact j.2)]
    exact List.getElem_mem _
  have hb : ∀ j : Fin d, 0 ≤ p.getD j 0 ∧ p.getD j 0 < d := by
    intro j
    have := h _ (hmem j)
    simp only [Bool.and_eq_true, decide_eq_true_eq] at this
    exact ⟨this.1.1, this.2⟩
  set f : Fin d → Fin d := fun j => ⟨(p.getD j 0).toNat, by have := hb j; omega⟩ with hf
  have hinj : Function.Injective f := by
    intro i j hij
    have hij := Fin.mk.inj hij
    have hi := hb i
    have hj := hb j
    have : p.getD i 0 = p.getD j 0 := by omega
    rw [getD_getElem (by rw [hlen]; exact i.2), getD_getElem (by rw [hlen]; exact j.2)] at this
    exact Fin.ext ((List.Nodup.getElem_inj_iff hnd).1 this)
  refine ⟨rfl, hlen, Equiv.ofBijective f (Finite.injective_iff_bijective.1 hinj), ?_, ?_⟩
  · intro j
    have hj : (j : Nat) < p.length := by rw [hlen]; exact j.2
    have h0 := hb j
    simp only [Equiv.ofBijective_apply, hf]
    rw [getD_getElem hj] at h0 ⊢
    rw [List.getElem?_eq_getElem hj, Int.toNat_of_nonneg h0.1]
  · intro j
    rw [Matrix.mulVec_single_one]
    ext r
    have h0 := hb j
    simp only [Matrix.col_apply, Arr2.toM, permArray, Pi.single_apply, Equiv.ofBijective_apply, hf, Fin.ext_iff]
    refine if_congr ?_ rfl rfl
    omega

example : permInit 3 [2, 0, 1] = .ok [2, 0, 1] ∧ ([2, 0, 1] : List Int).Nodup := by decide

/-- The full claim fails: the constructor accepts `[0, 0]` on a qubit and returns a matrix that is not
unitary. -/
theorem C11_perm_duplicate_violated : permInit 2 [0, 0] = .ok [0, 0] ∧
    (permArray 2 [0, 0]).toM 2 ∉ unitaryGroup (Fin 2) ℂ := by
  refine ⟨rfl, ?_⟩
  intro h
  rw [mem_unitaryGroup_iff] at h
  have := congrFun (congrFun h 1) 1
  rw [Matrix.mul_apply, Fin.sum_univ_two] at this
  simp [permArray, Arr2.toM] at this

/-- It also accepts a list shorter than the dimension, giving an array that is not square. -/
theorem C11_perm_short_violated : permInit 3 [1, 0] = .ok [1, 0] ∧
    (permArray 3 [1, 0]).rows = 3 ∧ (permArray 3 [1, 0]).cols = 2 := ⟨rfl, rfl, rfl⟩

/-- Data outside the levels of the line are rejected. -/
theorem C11_perm_rejects (d : Nat) (p : List Int) (x : Int) (hx : x ∈ p) (h : x < 0 ∨ x ≥ d) :
    permInit d p = .error .assertionError := by
  unfold permInit
  rw [if_neg]
  rw [List.all_eq_true]
  intro hall
  have := hall x hx
  simp only [Bool.and_eq_true, decide_eq_true_eq] at this
  omega

end Qudits
