import Verif.Model.Misim
import Verif.Lemmas.TwoLine
import Mathlib.Tactic.IntervalCases
/- The gate tables of the C++ package are the arrays of the Python gates. -/
namespace Qudits.DD
open Spec Complex Classical

/-- the entries of `mat`, row by row, are those of `A` -/
def Same (d : Nat) (mat : List ℂ) (A : Arr2 ℂ) : Prop :=
  mat.length = d * d ∧ A.rows = d ∧ A.cols = d ∧ ∀ i j, i < d → j < d → mat.getD (d * i + j) 0 = A.at' i j

theorem flat_inj {d i j i' j' : Nat} (hj : j < d) (hj' : j' < d) : d * i + j = d * i' + j' ↔ i = i' ∧ j = j' := by
  constructor
  · intro h
    have h1 : (d * i + j) / d = (d * i' + j') / d := by rw [h]
    have h2 : (d * i + j) % d = (d * i' + j') % d := by rw [h]
    have hd : 0 < d := by omega
    rw [Nat.mul_add_div hd, Nat.mul_add_div hd, Nat.div_eq_of_lt hj, Nat.div_eq_of_lt hj'] at h1
    rw [Nat.mul_add_mod, Nat.mul_add_mod, Nat.mod_eq_of_lt hj, Nat.mod_eq_of_lt hj'] at h2
    exact ⟨by omega, h2⟩
  · rintro ⟨rfl, rfl⟩; rfl

theorem flat_lt {d i j : Nat} (hi : i < d) (hj : j < d) : d * i + j < d * d := by
  calc d * i + j < d * i + d := by omega
    _ = d * (i + 1) := by ring
    _ ≤ d * d := Nat.mul_le_mul_left _ hi

theorem identTable_length (d : Nat) : (identTable d).length = d * d := by simp [identTable]

theorem identTable_getD {d i j : Nat} (hi : i < d) (hj : j < d) :
    (identTable d).getD (d * i + j) 0 = if i = j then 1 else 0 := by
  unfold identTable
  rw [List.getD, List.getElem?_map, List.getElem?_range (flat_lt hi hj)]
  have hd : 0 < d := by omega
  rw [Option.map_some, Option.getD_some, Nat.mul_add_div hd, Nat.div_eq_of_lt hj, Nat.mul_add_mod, Nat.mod_eq_of_lt hj]
  rfl

theorem getD_set (m : List ℂ) (k k' : Nat) (v : ℂ) (hk : k < m.length) :
    (m.set k v).getD k' 0 = if k = k' then v else m.getD k' 0 := by
  rw [List.getD, List.getElem?_set]
  by_cases h : k = k'
  · subst h
    simp [hk]
  · simp [h]

theorem setAt_ok {m : List ℂ} {k : Nat} {v : ℂ} (hk : k < m.length) : setAt k v m = .ok (m.set k v) := by
  unfold setAt; rw [if_pos hk]

theorem diag_fold (d : Nat) (w : Nat → ℂ) : ∀ k, k ≤ d →
    ((List.range k).foldl (fun m (l : Nat) => m.set (l + l * d) (w l)) (identTable d)).length = d * d ∧
    ∀ i j, i < d → j < d → ((List.range k).foldl (fun m (l : Nat) => m.set (l + l * d) (w l)) (identTable d)).getD (d * i + j) 0 =
      if i = j then (if i < k then w i else 1) else 0
  | 0, _ => ⟨identTable_length d, fun i j hi hj => by
      rw [List.range_zero, List.foldl_nil, identTable_getD hi hj]; simp⟩
  | k + 1, hk => by
    obtain ⟨h1, h2⟩ := diag_fold d w k (by omega)
    rw [List.range_succ, List.foldl_append, List.foldl_cons, List.foldl_nil]
    refine ⟨by rw [List.length_set]; exact h1, fun i j hi hj => ?_⟩
    have hkd : k < d := by omega
    rw [show k + k * d = d * k + k by ring, getD_set _ _ _ _ (by rw [h1]; exact flat_lt hkd hkd), h2 i j hi hj]
    by_cases h : d * k + k = d * i + j
    · obtain ⟨rfl, rfl⟩ := (flat_inj hkd hj).1 h
      simp
    · rw [if_neg h]
      by_cases hij : i = j
      · subst hij
        rw [if_pos rfl, if_pos rfl]
        have : i ≠ k := fun e => h (by rw [e])
        by_cases hik : i < k
        · rw [if_pos hik, if_pos (by omega)]
        · rw [if_neg hik, if_neg (by omega)]
      · rw [if_neg hij, if_neg hij]

theorem cval_exp (t : ℝ) : cval (Real.cos t) (Real.sin t) = cexp (t * I) := by
  unfold cval
  rw [Complex.exp_mul_I]
  push_cast
  rfl

theorem cval_exp_neg (t : ℝ) : cval (Real.cos t) (-Real.sin t) = cexp (-I * t) := by
  rw [← Real.sin_neg, ← Real.cos_neg, cval_exp]
  congr 1
  push_cast
  ring

theorem omg_two : omg 2 = -1 := by
  unfold omg
  rw [show (2 * Real.pi * I / ((2 : Nat) : ℂ) : ℂ) = Real.pi * I by push_cast; ring]
  exact Complex.exp_pi_mul_I

/-! ### tables -/

theorem xTable_ok : ∀ d, 2 ≤ d → d ≤ 7 → ∃ l, xTable d = some l ∧ l.length = d * d ∧
    ∀ i < d, ∀ j < d, l.getD (d * i + j) 0 = if i = (j + 1) % d then 1 else 0 := by
  intro d h2 h7
  interval_cases d <;> exact ⟨_, rfl, by decide, by decide⟩

theorem hTable_ok : ∀ d, 2 ≤ d → d ≤ 7 → ∃ l, hTable d = some l ∧ l.length = d * d ∧
    ∀ i < d, ∀ j < d, l.getD (d * i + j) 0 % d = i * j % d := by
  intro d h2 h7
  interval_cases d <;> exact ⟨_, rfl, by decide, by decide⟩

theorem getD_map {β : Type} (f : β → ℂ) (z : β) (l : List β) (k : Nat) (hk : k < l.length) : (l.map f).getD k 0 = f (l.getD k z) := by
  rw [List.getD, List.getElem?_map, List.getD, List.getElem?_eq_getElem hk]
  rfl

theorem xMat_ok {d : Nat} (h2 : 2 ≤ d) (h7 : d ≤ 7) : ∃ m A, xMat d = some m ∧ xArray d = .ok A ∧ Same d m A := by
  obtain ⟨l, hl, hlen, he⟩ := xTable_ok d h2 h7
  obtain ⟨A, hA, hr, hc, ha⟩ := xArray_ok d
  refine ⟨_, A, by unfold xMat; rw [hl]; rfl, hA, by rw [List.length_map, hlen], hr, hc, ?_⟩
  intro i j hi hj
  rw [getD_map _ 0 _ _ (by rw [hlen]; exact flat_lt hi hj), he i hi j hj, ha i j hj]
  split <;> simp

theorem omg_pow_mod (d k : Nat) (hd : d ≠ 0) : omg d ^ (k % d) = omg d ^ k := by
  conv_rhs => rw [← Nat.div_add_mod k d, pow_add, pow_mul, omg_pow_d d hd, one_pow, one_mul]

theorem hMat_ok {d : Nat} (h2 : 2 ≤ d) (h7 : d ≤ 7) : ∃ m A, hMat d = some m ∧ hArray d = .ok A ∧ Same d m A := by
  obtain ⟨l, hl, hlen, he⟩ := hTable_ok d h2 h7
  obtain ⟨A, hA, hr, hc, ha⟩ := hArray_ok d
  refine ⟨_, A, by unfold hMat; rw [hl]; rfl, hA, by rw [List.length_map, hlen], hr, hc, ?_⟩
  intro i j hi hj
  rw [getD_map _ 0 _ _ (by rw [hlen]; exact flat_lt hi hj), ha i j hi hj, cval_exp, Real.sqrt_div_self']
  congr 1
  rw [← omg_pow_mod d (i * j) (by omega), ← he i hi j hj, omg_pow_mod d _ (by omega), omg_pow]
  congr 1
  push_cast
  ring

theorem zMat_ok {d : Nat} (h2 : 2 ≤ d) : ∃ A, zArray d = .ok A ∧ Same d (zMat d) A := by
  obtain ⟨A, hA, hr, hc, ha⟩ := zArray_ok d
  refine ⟨A, hA, ?_⟩
  unfold zMat
  by_cases hd : d = 2
  · subst hd
    rw [if_pos rfl]
    refine ⟨rfl, hr, hc, ?_⟩
    intro i j hi hj
    rw [ha i j hj, omg_two]
    rcases (by omega : i = 0 ∨ i = 1) with rfl | rfl <;> rcases (by omega : j = 0 ∨ j = 1) with rfl | rfl <;> simp
  · rw [if_neg hd]
    obtain ⟨h1, he⟩ := diag_fold d (fun l => cval (Real.cos (pyMod (2 * l / d) 2 * Real.pi)) (Real.sin (pyMod (2 * l / d) 2 * Real.pi)))
      d (le_refl d)
    refine ⟨h1, hr, hc, ?_⟩
    intro i j hi hj
    rw [he i j hi hj, ha i j hj, if_pos hi]
    by_cases hij : i = j
    · subst hij
      rw [if_pos rfl, if_pos rfl, cval_exp, omg_pow]
      have := cexp_pyMod_two (2 * i / d)
      push_cast at this ⊢
      rw [this]
      congr 1
      ring
    · rw [if_neg hij, if_neg hij]

theorem omg_cpow {d : Nat} (h2 : 2 ≤ d) (z : ℂ) : omg d ^ z = cexp (2 * Real.pi * I / d * z) := by
  have hd : (0 : ℝ) < d := by exact_mod_cast (by omega : 0 < d)
  have hd2 : (2 : ℝ) ≤ d := by exact_mod_cast h2
  have him : (2 * Real.pi * I / d : ℂ).im = 2 * Real.pi / d := by
    rw [show (2 * Real.pi * I / d : ℂ) = ((2 * Real.pi / d : ℝ) : ℂ) * I by push_cast; ring]
    rw [Complex.mul_I_im, Complex.ofReal_re]
  rw [Complex.cpow_def_of_ne_zero (by unfold omg; exact Complex.exp_ne_zero _)]
  unfold omg
  rw [Complex.log_exp]
  · rw [him]
    have := Real.pi_pos
    have : 0 < 2 * Real.pi / d := by positivity
    linarith
  · rw [him, div_le_iff₀ hd]
    have := Real.pi_pos
    nlinarith

theorem sMat_ok {d : Nat} (h2 : 2 ≤ d) : ∃ A, sArray d = .ok A ∧ Same d (sMat d) A := by
  by_cases hd : d = 2
  · subst hd
    refine ⟨_, by unfold sArray; rw [if_pos rfl], ?_⟩
    unfold sMat
    rw [if_pos rfl]
    refine ⟨rfl, rfl, rfl, ?_⟩
    intro i j hi hj
    rcases (by omega : i = 0 ∨ i = 1) with rfl | rfl <;> rcases (by omega : j = 0 ∨ j = 1) with rfl | rfl <;> simp
  · obtain ⟨A, hA, hr, hc, ha⟩ := sArray_ok d hd
    refine ⟨A, hA, ?_⟩
    unfold sMat
    rw [if_neg hd]
    obtain ⟨h1, he⟩ := diag_fold d (fun l => cval (Real.cos (pyMod (2 / d * l * (l + 1) / 2) 2 * Real.pi))
      (Real.sin (pyMod (2 / d * l * (l + 1) / 2) 2 * Real.pi))) d (le_refl d)
    refine ⟨h1, hr, hc, ?_⟩
    intro i j hi hj
    rw [he i j hi hj, ha i j hj, if_pos hi]
    by_cases hij : i = j
    · subst hij
      rw [if_pos rfl, if_pos rfl, cval_exp, omg_cpow h2]
      have h3 := cexp_pyMod_two (2 / d * i * (i + 1) / 2)
      push_cast at h3 ⊢
      rw [h3]
      obtain ⟨k, hk⟩ := pyMod_eq ((i * (i + 1) : ℝ) / 2) d
      rw [hk, Complex.exp_eq_exp_iff_exists_int]
      have hd0 : (d : ℂ) ≠ 0 := by exact_mod_cast (by omega : d ≠ 0)
      refine ⟨k, ?_⟩
      push_cast
      field_simp
      ring
    · rw [if_neg hij, if_neg hij]

theorem twoLevels_ok {d : Nat} {a b : Fin d} (hab : a < b) (aa ab ba bb : ℂ) : ∃ m, twoLevels d a b aa ab ba bb = .ok m ∧
    m.length = d * d ∧ ∀ i j (hi : i < d) (hj : j < d), m.getD (d * i + j) 0 = twoLevel a b !![aa, ab; ba, bb] ⟨i, hi⟩ ⟨j, hj⟩ := by
  have ha := a.isLt
  have hb := b.isLt
  have hlt : (a : Nat) < b := hab
  have hI := identTable_length d
  unfold twoLevels
  rw [if_neg (by omega), setAt_ok (by rw [hI]; exact flat_lt ha ha)]
  simp only [bind, Except.bind]
  rw [setAt_ok (by rw [List.length_set, hI]; exact flat_lt ha hb)]
  dsimp only
  rw [setAt_ok (by rw [List.length_set, List.length_set, hI]; exact flat_lt hb ha)]
  dsimp only
  rw [setAt_ok (by rw [List.length_set, List.length_set, List.length_set, hI]; exact flat_lt hb hb)]
  refine ⟨_, rfl, by rw [List.length_set, List.length_set, List.length_set, List.length_set, hI], ?_⟩
  intro i j hi hj
  rw [getD_set _ _ _ _ (by rw [List.length_set, List.length_set, List.length_set, hI]; exact flat_lt hb hb),
    getD_set _ _ _ _ (by rw [List.length_set, List.length_set, hI]; exact flat_lt hb ha),
    getD_set _ _ _ _ (by rw [List.length_set, hI]; exact flat_lt ha hb),
    getD_set _ _ _ _ (by rw [hI]; exact flat_lt ha ha), identTable_getD hi hj]
  simp only [flat_inj hb hj, flat_inj ha hj, twoLevel, Fin.ext_iff, Matrix.of_apply, Matrix.cons_val', Matrix.cons_val_zero,
    Matrix.cons_val_one, Matrix.cons_val_fin_one]
  split_ifs <;> first | rfl | (exfalso; omega)

theorem two_only {a b : Fin 2} (hab : a < b) : a = 0 ∧ b = 1 := by
  have : (a : Nat) < b := hab
  constructor <;> (apply Fin.ext; simp; omega)

/-- the matrix written down for two levels -/
theorem small_ok {d : Nat} (hd : d = 2) {a b : Fin d} (hab : a < b) (aa ab ba bb : ℂ) :
    ([aa, ab, ba, bb] : List ℂ).length = d * d ∧
    ∀ i j (hi : i < d) (hj : j < d), ([aa, ab, ba, bb] : List ℂ).getD (d * i + j) 0 = twoLevel a b !![aa, ab; ba, bb] ⟨i, hi⟩ ⟨j, hj⟩ := by
  subst hd
  obtain ⟨rfl, rfl⟩ := two_only hab
  refine ⟨rfl, ?_⟩
  intro i j hi hj
  rcases (by omega : i = 0 ∨ i = 1) with rfl | rfl <;> rcases (by omega : j = 0 ∨ j = 1) with rfl | rfl <;>
    simp [twoLevel]

theorem same_of {d : Nat} {m : List ℂ} {A : Arr2 ℂ} {a b : Fin d} {M : Matrix (Fin 2) (Fin 2) ℂ} (hm : m.length = d * d)
    (he : ∀ i j (hi : i < d) (hj : j < d), m.getD (d * i + j) 0 = twoLevel a b M ⟨i, hi⟩ ⟨j, hj⟩)
    (hr : A.rows = d) (hc : A.cols = d) (hA : A.toM d = twoLevel a b M) : Same d m A := by
  refine ⟨hm, hr, hc, fun i j hi hj => ?_⟩
  rw [he i j hi hj, ← hA]
  rfl

theorem rot_eq (t f : ℝ) : rot t f = !![cval (Real.cos (t / 2)) 0, cval (-Real.sin (t / 2) * Real.sin f) (-Real.sin (t / 2) * Real.cos f);
    cval (Real.sin (t / 2) * Real.sin f) (-Real.sin (t / 2) * Real.cos f), cval (Real.cos (t / 2)) 0] := by
  unfold rot cval
  rw [cexp_neg_I_mul, cexp_I_mul]
  congr 1
  push_cast
  ext i j
  fin_cases i <;> fin_cases j <;> simp
  · linear_combination (Complex.sin (t / 2) * Complex.sin f) * I_mul_I
  · linear_combination (-Complex.sin (t / 2) * Complex.sin f) * I_mul_I

theorem good_levels {d : Nat} {a b : Fin d} (hab : a < b) (t f : ℝ) : GoodLevels d ⟨(a : Nat), (b : Nat), t, f⟩ a b := ⟨rfl, rfl, hab⟩

theorem rxy_ok {d : Nat} {a b : Fin d} (hab : a < b) (t f : ℝ) : ∃ m g A, rxyMat d t f a b = .ok m ∧
    rInit d (.list [.int (a : Nat), .int (b : Nat), .flt t, .flt f]) = .ok g ∧ rArray d g = .ok A ∧ Same d m A := by
  obtain ⟨r, A, h1, h2, h3, h4, h5⟩ := nested_r (good_levels hab t f) t f
  rw [rot_eq] at h5
  unfold rxyMat
  dsimp only
  by_cases hd : d = 2
  · rw [if_pos hd]
    obtain ⟨k1, k2⟩ := small_ok hd hab (cval (Real.cos (t / 2)) 0) (cval (-Real.sin (t / 2) * Real.sin f) (-Real.sin (t / 2) * Real.cos f))
      (cval (Real.sin (t / 2) * Real.sin f) (-Real.sin (t / 2) * Real.cos f)) (cval (Real.cos (t / 2)) 0)
    exact ⟨_, r, A, rfl, h1, h2, same_of k1 k2 h3 h4 h5⟩
  · rw [if_neg hd]
    obtain ⟨m, k0, k1, k2⟩ := twoLevels_ok hab (cval (Real.cos (t / 2)) 0) (cval (-Real.sin (t / 2) * Real.sin f) (-Real.sin (t / 2) * Real.cos f))
      (cval (Real.sin (t / 2) * Real.sin f) (-Real.sin (t / 2) * Real.cos f)) (cval (Real.cos (t / 2)) 0)
    exact ⟨m, r, A, k0, h1, h2, same_of k1 k2 h3 h4 h5⟩

theorem rz_ok {d : Nat} {a b : Fin d} (hab : a < b) (f : ℝ) : ∃ m g A, rzMat d f a b = .ok m ∧
    rzInit d (.list [.int (a : Nat), .int (b : Nat), .flt f]) = .ok g ∧ rzArray d g = .ok A ∧ Same d m A := by
  have hlt : (a : Nat) < b := hab
  have ha := a.isLt
  have hb := b.isLt
  have hinit : rzInit d (.list [.int (a : Nat), .int (b : Nat), .flt f]) = .ok ⟨(a : Nat), (b : Nat), 0, regulateTheta f⟩ := by
    have hl : levelsSetter ((a : Nat) : Int) ((b : Nat) : Int) = (((a : Nat) : Int), ((b : Nat) : Int)) := levelsSetter_sorted (by omega)
    simp only [rzInit, needInt, needFlt, checkLevels, bind, Except.bind, pure, Except.pure, List.getElem?_cons_zero,
      List.getElem?_cons_succ, hl]
    rw [if_pos (by omega)]
  obtain ⟨A, h2, h3, h4, h5⟩ := rzArray_ok (good_levels hab 0 (regulateTheta f))
  have h6 : A.toM d = twoLevel a b !![cval (Real.cos (f / 2)) (-Real.sin (f / 2)), 0; 0, cval (Real.cos (f / 2)) (Real.sin (f / 2))] := by
    rw [h5, rot_regulate, rz_two, cval_exp, cval_exp_neg, neg_mul, mul_comm (((f / 2 : ℝ) : ℂ)) I]
  unfold rzMat
  dsimp only
  by_cases hd : d = 2
  · rw [if_pos hd]
    obtain ⟨k1, k2⟩ := small_ok hd hab (cval (Real.cos (f / 2)) (-Real.sin (f / 2))) 0 0 (cval (Real.cos (f / 2)) (Real.sin (f / 2)))
    exact ⟨_, _, A, rfl, hinit, h2, same_of k1 k2 h3 h4 h6⟩
  · have hI := identTable_length d
    rw [if_neg hd, if_neg (by omega), setAt_ok (by rw [hI]; exact flat_lt ha ha)]
    simp only [bind, Except.bind]
    rw [setAt_ok (by rw [List.length_set, hI]; exact flat_lt hb hb)]
    refine ⟨_, _, A, rfl, hinit, h2, same_of (by rw [List.length_set, List.length_set, hI]) ?_ h3 h4 h6⟩
    intro i j hi hj
    rw [getD_set _ _ _ _ (by rw [List.length_set, hI]; exact flat_lt hb hb),
      getD_set _ _ _ _ (by rw [hI]; exact flat_lt ha ha), identTable_getD hi hj]
    simp only [flat_inj hb hj, flat_inj ha hj, twoLevel, Fin.ext_iff, Matrix.of_apply, Matrix.cons_val', Matrix.cons_val_zero,
      Matrix.cons_val_one, Matrix.cons_val_fin_one]
    split_ifs <;> first | rfl | (exfalso; omega)

theorem rh_ok {d : Nat} {a b : Fin d} (hab : a < b) : ∃ m g A, rhMat d a b = .ok m ∧
    levelsInit d (.list [.int (a : Nat), .int (b : Nat)]) = .ok g ∧ rhArray d g = .ok A ∧ Same d m A := by
  have hlt : (a : Nat) < b := hab
  have ha := a.isLt
  have hb := b.isLt
  have hinit : levelsInit d (.list [.int (a : Nat), .int (b : Nat)]) = .ok ⟨(a : Nat), (b : Nat), 0, 0⟩ := by
    have hl : levelsSetter ((a : Nat) : Int) ((b : Nat) : Int) = (((a : Nat) : Int), ((b : Nat) : Int)) := levelsSetter_sorted (by omega)
    simp only [levelsInit, needInt, checkLevels, bind, Except.bind, pure, Except.pure, List.getElem?_cons_zero,
      List.getElem?_cons_succ, hl]
    rw [if_pos (by omega)]
  obtain ⟨A, h2, h3, h4, h5⟩ := rhArray_ok (good_levels hab 0 0)
  have h6 : A.toM d = twoLevel a b !![cval 0 (Real.sqrt 2 / 2), cval 0 (Real.sqrt 2 / 2); cval 0 (Real.sqrt 2 / 2), cval 0 (-(Real.sqrt 2 / 2))] := by
    rw [h5, rh_two]
    congr 1
    unfold cval
    ext i j
    fin_cases i <;> fin_cases j <;> simp <;> ring
  unfold rhMat
  dsimp only
  by_cases hd : d = 2
  · rw [if_pos hd]
    obtain ⟨k1, k2⟩ := small_ok hd hab (cval 0 (Real.sqrt 2 / 2)) (cval 0 (Real.sqrt 2 / 2)) (cval 0 (Real.sqrt 2 / 2)) (cval 0 (-(Real.sqrt 2 / 2)))
    exact ⟨_, _, A, rfl, hinit, h2, same_of k1 k2 h3 h4 h6⟩
  · rw [if_neg hd]
    obtain ⟨m, k0, k1, k2⟩ := twoLevels_ok hab (cval 0 (Real.sqrt 2 / 2)) (cval 0 (Real.sqrt 2 / 2)) (cval 0 (Real.sqrt 2 / 2)) (cval 0 (-(Real.sqrt 2 / 2)))
    exact ⟨m, _, A, k0, hinit, h2, same_of k1 k2 h3 h4 h6⟩

theorem cexp_regulate (f : ℝ) : cexp (-I * ((regulateTheta f : ℝ) : ℂ)) = cexp (-I * (f : ℂ)) := by
  have h1 := cos_half_regulate f
  have h2 := sin_half_regulate f
  have e : ∀ t : ℝ, cexp (-I * (t : ℂ)) = (((Real.cos (t / 2) : ℝ) : ℂ) - ((Real.sin (t / 2) : ℝ) : ℂ) * I) ^ 2 := by
    intro t
    have : cexp (-I * (t : ℂ)) = cexp (-(I * ((t / 2 : ℝ) : ℂ))) ^ 2 := by
      rw [← Complex.exp_nat_mul]
      congr 1
      push_cast
      ring
    rw [this, cexp_neg_I_mul]
  rw [e, e, h1, h2]

theorem virtrz_ok {d : Nat} (a : Fin d) (f : ℝ) : ∃ m A, virtRzMat d f a = .ok m ∧
    virtRzArray d (virtRzInit d (.list [.int (a : Nat), .flt f])) = .ok A ∧ Same d m A := by
  have ha := a.isLt
  have hinit : virtRzInit d (.list [.int (a : Nat), .flt f]) = { levA := (a : Nat), phi := regulateTheta f } := by
    unfold virtRzInit
    dsimp only
    rw [if_pos (by omega)]
  obtain ⟨A, h1, h2, h3, h4⟩ := virtRzArray_ok ({ levA := (a : Nat), phi := regulateTheta f } : TwoLevel) a rfl
  unfold virtRzMat
  have hI := identTable_length d
  rw [hinit, show (a : Nat) + a * d = d * a + a by ring, setAt_ok (by rw [hI]; exact flat_lt ha ha)]
  refine ⟨_, A, rfl, h1, by rw [List.length_set, hI], h2, h3, ?_⟩
  intro i j hi hj
  rw [getD_set _ _ _ _ (by rw [hI]; exact flat_lt ha ha), identTable_getD hi hj, h4, cval_exp_neg]
  simp only [flat_inj ha hj, cexp_regulate]
  split_ifs <;> first | rfl | (exfalso; omega)

theorem embX_ok {d : Nat} {a b : Fin d} (hab : a < b) (f : ℝ) : ∃ m, embXMat d f a b = .ok m ∧ m.length = d * d ∧
    ∀ i j (hi : i < d) (hj : j < d), m.getD (d * i + j) 0 = twoLevel a b (cexOp f) ⟨i, hi⟩ ⟨j, hj⟩ := by
  have hop : cexOp f = !![0, cval (-Real.sin f) (-Real.cos f); cval (Real.sin f) (-Real.cos f), 0] := by
    unfold cexOp cval
    rw [cexp_neg_I_mul, cexp_I_mul]
    ext i j
    fin_cases i <;> fin_cases j <;> simp
    · linear_combination (Complex.sin f) * I_mul_I
    · linear_combination (-Complex.sin f) * I_mul_I
  rw [hop]
  unfold embXMat
  dsimp only
  by_cases hd : d = 2
  · rw [if_pos hd]
    obtain ⟨k1, k2⟩ := small_ok hd hab 0 (cval (-Real.sin f) (-Real.cos f)) (cval (Real.sin f) (-Real.cos f)) 0
    exact ⟨_, rfl, k1, k2⟩
  · rw [if_neg hd]
    exact twoLevels_ok hab 0 (cval (-Real.sin f) (-Real.cos f)) (cval (Real.sin f) (-Real.cos f)) 0

end Qudits.DD
