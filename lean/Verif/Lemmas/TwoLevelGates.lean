import Verif.Lemmas.GateArrays

namespace Qudits
open Complex Spec

theorem checkLevels_ok {d : Nat} {a b : Int} (h : checkLevels d a b = .ok ()) :
    0 ≤ a ∧ a < d ∧ 0 ≤ b ∧ b < d ∧ a ≠ b := by
  unfold checkLevels at h
  split_ifs at h with h'
  exact h'

theorem levelsSetter_lt {a b : Int} (h : a ≠ b) : (levelsSetter a b).1 < (levelsSetter a b).2 ∧
    (levelsSetter a b).1 = min a b ∧ (levelsSetter a b).2 = max a b := by
  unfold levelsSetter
  split_ifs <;> simp <;> omega

/-- the levels of a two-level gate are sorted and exist -/
structure GoodLevels (d : Nat) (g : TwoLevel) (a b : Fin d) : Prop where
  a_eq : g.levA = (a : Nat)
  b_eq : g.levB = (b : Nat)
  lt : a < b

theorem goodLevels_of {d : Nat} {g : TwoLevel} (h0 : 0 ≤ g.levA) (h1 : g.levA < g.levB) (h2 : g.levB < d) :
    ∃ a b : Fin d, GoodLevels d g a b :=
  ⟨⟨g.levA.toNat, by omega⟩, ⟨g.levB.toNat, by omega⟩, by simp; omega, by simp; omega, by
    rw [Fin.lt_def]; simp; omega⟩

theorem set_ok {α : Type} (m : Arr2 α) (i j : Nat) (v : α) (hi : i < m.rows) (hj : j < m.cols) :
    m.set i j v = .ok ⟨m.rows, m.cols, fun r c => if r = i ∧ c = j then v else m.at' r c⟩ := by
  unfold Arr2.set; rw [if_pos ⟨hi, hj⟩]

theorem gell_s {d : Nat} {g : TwoLevel} {a b : Fin d} (h : GoodLevels d g a b) :
    ∃ A, gellMann d g.levA g.levB "s" = .ok A ∧ A.rows = d ∧ A.cols = d ∧
      ∀ r c : Fin d, A.at' r c = if r = a ∧ c = b then 1 else if r = b ∧ c = a then 1 else 0 := by
  have hlt := h.lt
  have hc : 0 ≤ g.levA ∧ g.levA < g.levB := by rw [h.a_eq, h.b_eq]; rw [Fin.lt_def] at hlt; omega
  have ea : g.levA.toNat = a := by rw [h.a_eq]; simp
  have eb : g.levB.toNat = b := by rw [h.b_eq]; simp
  unfold gellMann
  rw [if_pos hc, if_pos rfl, ea, eb]
  rw [set_ok _ _ _ _ (by simp [Arr2.zeros]) (by simp [Arr2.zeros])]
  simp only [bind, Except.bind]
  rw [set_ok _ _ _ _ (by simp [Arr2.zeros]) (by simp [Arr2.zeros])]
  refine ⟨_, rfl, rfl, rfl, ?_⟩
  intro r c
  simp only [Arr2.zeros, Fin.ext_iff]
  split_ifs <;> rfl

theorem gell_a {d : Nat} {g : TwoLevel} {a b : Fin d} (h : GoodLevels d g a b) :
    ∃ A, gellMann d g.levA g.levB "a" = .ok A ∧ A.rows = d ∧ A.cols = d ∧
      ∀ r c : Fin d, A.at' r c = if r = a ∧ c = b then -I else if r = b ∧ c = a then I else 0 := by
  have hlt := h.lt
  rw [Fin.lt_def] at hlt
  have hc : 0 ≤ g.levA ∧ g.levA < g.levB := by rw [h.a_eq, h.b_eq]; omega
  have ea : g.levA.toNat = a := by rw [h.a_eq]; simp
  have eb : g.levB.toNat = b := by rw [h.b_eq]; simp
  unfold gellMann
  rw [if_pos hc, if_neg (by decide), if_pos rfl, ea, eb]
  rw [set_ok _ _ _ _ (by simp [Arr2.zeros]) (by simp [Arr2.zeros])]
  simp only [bind, Except.bind]
  rw [set_ok _ _ _ _ (by simp [Arr2.zeros]) (by simp [Arr2.zeros])]
  refine ⟨_, rfl, rfl, rfl, ?_⟩
  intro r c
  simp only [Arr2.zeros, Fin.ext_iff]
  have hne : ¬ ((b : Nat) = a ∧ (a : Nat) = b) := by omega
  rw [if_neg hne]
  split_ifs <;> first | (exfalso; omega) | simp

theorem rArray_ok {d : Nat} {g : TwoLevel} {a b : Fin d} (h : GoodLevels d g a b) :
    ∃ A, rArray d g = .ok A ∧ A.rows = d ∧ A.cols = d ∧ A.toM d = twoLevel a b (rot g.theta g.phi) := by
  have hlt := h.lt
  rw [Fin.lt_def] at hlt
  have ea : g.levA.toNat = a := by rw [h.a_eq]; simp
  have eb : g.levB.toNat = b := by rw [h.b_eq]; simp
  obtain ⟨GA, hGA, ga1, ga2, ga3⟩ := gell_a h
  obtain ⟨GS, hGS, gs1, gs2, gs3⟩ := gell_s h
  unfold rArray
  rw [ea, eb]
  simp only [bind, Except.bind]
  rw [set_ok _ _ _ _ (by simp [Arr2.identity]) (by simp [Arr2.identity])]
  simp only []
  rw [set_ok _ _ _ _ (by simp [Arr2.identity]) (by simp [Arr2.identity]), hGA, hGS]
  simp only []
  unfold Arr2.add
  rw [if_pos (by simp [Arr2.smul, ga1, ga2, gs1, gs2])]
  simp only []
  rw [if_pos (by simp [Arr2.smul, Arr2.identity, ga1, ga2])]
  refine ⟨_, rfl, rfl, rfl, ?_⟩
  ext r c
  have hba : ¬ (b : Nat) = a := by omega
  simp only [Arr2.toM, Arr2.smul, ga3, gs3, Arr2.identity, twoLevel, rot, Matrix.of_apply, Matrix.cons_val',
    Matrix.cons_val_zero, Matrix.cons_val_one, cexp_I_mul, cexp_neg_I_mul]
  have hII := I_mul_I
  by_cases hra : r = a
  · subst hra
    have hrb : r ≠ b := fun e => by subst e; exact hba rfl
    by_cases hca : c = r
    · subst hca; simp [hrb, Fin.ext_iff.not.1 hrb]
    · by_cases hcb : c = b
      · subst hcb
        simp [hba, hca, Fin.ext_iff.not.1 hrb]
        left; ring
      · have h1 := Fin.ext_iff.not.1 hca
        have h2 := Fin.ext_iff.not.1 hcb
        simp [hca, hcb, h1, h2, Ne.symm h1, hrb]
  · have hra' := Fin.ext_iff.not.1 hra
    by_cases hrb : r = b
    · subst hrb
      by_cases hca : c = a
      · subst hca
        simp [hba, hra, Ne.symm hba]
        left; ring
      · by_cases hcb : c = r
        · subst hcb
          simp [hba, hca]
        · have h1 := Fin.ext_iff.not.1 hca
          have h2 := Fin.ext_iff.not.1 hcb
          simp [hca, hcb, h1, h2, Ne.symm h2, hra]
    · have hrb' := Fin.ext_iff.not.1 hrb
      simp [hra, hrb, hra', hrb', Fin.ext_iff]

/-- reading of an accepted parameter list -/
theorem needInt_ok {p : List PVal} {k : Nat} {n : Int} (h : needInt p k = .ok n) : p[k]? = some (.int n) := by
  unfold needInt at h
  split at h
  · cases h
  · next e => cases h; exact e
  · cases h

theorem needFlt_ok {p : List PVal} {k : Nat} {x : ℝ} (h : needFlt p k = .ok x) : p[k]? = some (.flt x) := by
  unfold needFlt at h
  split at h
  · cases h
  · next e => cases h; exact e
  · cases h

theorem bind_ok {α β : Type} {m : Except PyErr α} {f : α → Except PyErr β} {b : β} (h : m >>= f = .ok b) :
    ∃ a, m = .ok a ∧ f a = .ok b := by
  cases m with
  | error e => cases h
  | ok a => exact ⟨a, rfl, h⟩

/-- both levels of the accepted parameters -/
theorem good_of_check {d : Nat} {a b : Int} (h : 0 ≤ a ∧ a < d ∧ 0 ≤ b ∧ b < d ∧ a ≠ b) (t f : ℝ) :
    ∃ x y : Fin d, GoodLevels d ⟨(levelsSetter a b).1, (levelsSetter a b).2, t, f⟩ x y ∧
      ((x : Nat) : Int) = min a b ∧ ((y : Nat) : Int) = max a b := by
  obtain ⟨h0, h1, h2, h3, h4⟩ := h
  obtain ⟨e1, e2, e3⟩ := levelsSetter_lt h4
  obtain ⟨x, y, hg⟩ := goodLevels_of (d := d) (g := ⟨(levelsSetter a b).1, (levelsSetter a b).2, t, f⟩)
    (by simp only [e2]; omega) e1 (by simp only [e3]; omega)
  exact ⟨x, y, hg, by rw [← e2, ← hg.a_eq], by rw [← e3, ← hg.b_eq]⟩

theorem rInit_ok {d : Nat} {p : List PVal} {g : TwoLevel} (h : rInit d (.list p) = .ok g) :
    ∃ (a b : Int) (t f : ℝ) (x y : Fin d), p[0]? = some (.int a) ∧ p[1]? = some (.int b) ∧
      p[2]? = some (.flt t) ∧ p[3]? = some (.flt f) ∧ a ≠ b ∧
      GoodLevels d g x y ∧ ((x : Nat) : Int) = min a b ∧ ((y : Nat) : Int) = max a b ∧
      g.theta = regulateTheta t ∧ g.phi = f := by
  unfold rInit at h
  obtain ⟨a, ha, h⟩ := bind_ok h
  obtain ⟨b, hb, h⟩ := bind_ok h
  obtain ⟨t, ht, h⟩ := bind_ok h
  obtain ⟨f, hf, h⟩ := bind_ok h
  obtain ⟨⟨⟩, hc, h⟩ := bind_ok h
  have hc := checkLevels_ok hc
  obtain ⟨x, y, hg, hx, hy⟩ := good_of_check hc (regulateTheta t) f
  cases h
  exact ⟨a, b, t, f, x, y, needInt_ok ha, needInt_ok hb, needFlt_ok ht, needFlt_ok hf, hc.2.2.2.2, hg, hx, hy, rfl, rfl⟩

theorem levelsInit_ok {d : Nat} {p : List PVal} {g : TwoLevel} (h : levelsInit d (.list p) = .ok g) :
    ∃ (a b : Int) (x y : Fin d), p[0]? = some (.int a) ∧ p[1]? = some (.int b) ∧ a ≠ b ∧
      GoodLevels d g x y ∧ ((x : Nat) : Int) = min a b ∧ ((y : Nat) : Int) = max a b := by
  unfold levelsInit at h
  obtain ⟨a, ha, h⟩ := bind_ok h
  obtain ⟨b, hb, h⟩ := bind_ok h
  obtain ⟨⟨⟩, hc, h⟩ := bind_ok h
  have hc := checkLevels_ok hc
  obtain ⟨x, y, hg, hx, hy⟩ := good_of_check hc 0 0
  cases h
  exact ⟨a, b, x, y, needInt_ok ha, needInt_ok hb, hc.2.2.2.2, hg, hx, hy⟩

theorem rzInit_ok {d : Nat} {p : List PVal} {g : TwoLevel} (h : rzInit d (.list p) = .ok g) :
    ∃ (a b : Int) (f : ℝ) (x y : Fin d), p[0]? = some (.int a) ∧ p[1]? = some (.int b) ∧
      p[2]? = some (.flt f) ∧ a ≠ b ∧
      GoodLevels d g x y ∧ ((x : Nat) : Int) = min a b ∧ ((y : Nat) : Int) = max a b ∧
      g.phi = regulateTheta f := by
  unfold rzInit at h
  obtain ⟨a, ha, h⟩ := bind_ok h
  obtain ⟨b, hb, h⟩ := bind_ok h
  obtain ⟨f, hf, h⟩ := bind_ok h
  obtain ⟨⟨⟩, hc, h⟩ := bind_ok h
  have hc := checkLevels_ok hc
  obtain ⟨x, y, hg, hx, hy⟩ := good_of_check hc 0 (regulateTheta f)
  cases h
  exact ⟨a, b, f, x, y, needInt_ok ha, needInt_ok hb, needFlt_ok hf, hc.2.2.2.2, hg, hx, hy, rfl⟩

theorem rot_regulate (t f : ℝ) : rot (regulateTheta t) f = rot t f := by
  unfold rot
  rw [cos_half_regulate, sin_half_regulate]

/-- construction from explicit parameters -/
theorem rInit_explicit {d : Nat} (a b : Int) (t f : ℝ) (h : 0 ≤ a ∧ a < d ∧ 0 ≤ b ∧ b < d ∧ a ≠ b) :
    rInit d (.list [.int a, .int b, .flt t, .flt f]) =
      .ok ⟨(levelsSetter a b).1, (levelsSetter a b).2, regulateTheta t, f⟩ := by
  simp [rInit, needInt, needFlt, checkLevels, h, bind, Except.bind, pure, Except.pure]

theorem levelsSetter_sorted {a b : Int} (h : a < b) : levelsSetter a b = (a, b) := by
  simp [levelsSetter, h]

/-- nested rotation gate on already sorted levels -/
theorem nested_r {d : Nat} {g : TwoLevel} {a b : Fin d} (h : GoodLevels d g a b) (t f : ℝ) :
    ∃ r A, rInit d (.list [.int g.levA, .int g.levB, .flt t, .flt f]) = .ok r ∧ rArray d r = .ok A ∧
      A.rows = d ∧ A.cols = d ∧ A.toM d = twoLevel a b (rot t f) := by
  have hlt := h.lt
  rw [Fin.lt_def] at hlt
  have hl : g.levA < g.levB := by rw [h.a_eq, h.b_eq]; omega
  have := rInit_explicit (d := d) g.levA g.levB t f (by
    rw [h.a_eq, h.b_eq]; have := a.2; have := b.2; omega)
  rw [levelsSetter_sorted hl] at this
  have hg : GoodLevels d ⟨g.levA, g.levB, regulateTheta t, f⟩ a b := ⟨h.a_eq, h.b_eq, h.lt⟩
  obtain ⟨A, hA, h1, h2, h3⟩ := rArray_ok hg
  exact ⟨_, A, this, hA, h1, h2, by rw [h3, rot_regulate]⟩

theorem rzArray_ok {d : Nat} {g : TwoLevel} {a b : Fin d} (h : GoodLevels d g a b) :
    ∃ A, rzArray d g = .ok A ∧ A.rows = d ∧ A.cols = d ∧
      A.toM d = twoLevel a b (rot (Real.pi / 2) 0 * rot g.phi (Real.pi / 2) * rot (-Real.pi / 2) 0) := by
  have hab : a ≠ b := ne_of_lt h.lt
  obtain ⟨r1, A1, e1, f1, x1, y1, z1⟩ := nested_r h (-Real.pi / 2) 0
  obtain ⟨r2, A2, e2, f2, x2, y2, z2⟩ := nested_r h g.phi (Real.pi / 2)
  obtain ⟨r3, A3, e3, f3, x3, y3, z3⟩ := nested_r h (Real.pi / 2) 0
  obtain ⟨B, hB, xB, yB, zB⟩ := matmul_ok A3 A2 d x3 y3 x2 y2
  obtain ⟨C, hC, xC, yC, zC⟩ := matmul_ok B A1 d xB yB x1 y1
  refine ⟨C, ?_, xC, yC, ?_⟩
  · unfold rzArray
    simp only [e1, f1, e2, f2, e3, f3, hB, hC, bind, Except.bind]
  · rw [zC, zB, z1, z2, z3, twoLevel_mul _ _ hab, twoLevel_mul _ _ hab]

theorem rhArray_ok {d : Nat} {g : TwoLevel} {a b : Fin d} (h : GoodLevels d g a b) :
    ∃ A, rhArray d g = .ok A ∧ A.rows = d ∧ A.cols = d ∧
      A.toM d = twoLevel a b (rot (-Real.pi) 0 * rot (Real.pi / 2) (Real.pi / 2)) := by
  have hab : a ≠ b := ne_of_lt h.lt
  obtain ⟨r1, A1, e1, f1, x1, y1, z1⟩ := nested_r h (-Real.pi) 0
  obtain ⟨r2, A2, e2, f2, x2, y2, z2⟩ := nested_r h (Real.pi / 2) (Real.pi / 2)
  obtain ⟨B, hB, xB, yB, zB⟩ := matmul_ok A1 A2 d x1 y1 x2 y2
  refine ⟨B, ?_, xB, yB, ?_⟩
  · unfold rhArray
    simp only [e1, f1, e2, f2, hB, bind, Except.bind]
  · rw [zB, z1, z2, twoLevel_mul _ _ hab]

theorem cexp_pi_half : cexp (I * ((Real.pi / 2 : ℝ) : ℂ)) = I := by
  rw [cexp_I_mul]; simp

theorem cexp_neg_pi_half : cexp (-(I * ((Real.pi / 2 : ℝ) : ℂ))) = -I := by
  rw [cexp_neg_I_mul]; simp

theorem rot_y (t : ℝ) : rot t (Real.pi / 2) =
    !![(Real.cos (t / 2) : ℂ), -(Real.sin (t / 2) : ℂ); (Real.sin (t / 2) : ℂ), (Real.cos (t / 2) : ℂ)] := by
  unfold rot
  rw [cexp_pi_half, cexp_neg_pi_half]
  have hII := I_mul_I
  have e1 : -I * (Real.sin (t / 2) : ℂ) * -I = -(Real.sin (t / 2) : ℂ) := by
    linear_combination (Real.sin (t / 2) : ℂ) * hII
  have e2 : -I * (Real.sin (t / 2) : ℂ) * I = (Real.sin (t / 2) : ℂ) := by
    linear_combination -(Real.sin (t / 2) : ℂ) * hII
  rw [e1, e2]

theorem rot_x (t : ℝ) : rot t 0 =
    !![(Real.cos (t / 2) : ℂ), -I * (Real.sin (t / 2) : ℂ); -I * (Real.sin (t / 2) : ℂ), (Real.cos (t / 2) : ℂ)] := by
  unfold rot
  simp

theorem sq_half : ((Real.sqrt 2 / 2 : ℝ) : ℂ) * ((Real.sqrt 2 / 2 : ℝ) : ℂ) = 1 / 2 := by
  rw [← ofReal_mul]
  have : Real.sqrt 2 / 2 * (Real.sqrt 2 / 2) = 1 / 2 := by
    have := Real.mul_self_sqrt (show (0 : ℝ) ≤ 2 by norm_num)
    nlinarith
  rw [this]; push_cast; rfl

theorem rz_two (f : ℝ) : rot (Real.pi / 2) 0 * rot f (Real.pi / 2) * rot (-Real.pi / 2) 0 =
    !![cexp (-(I * ((f / 2 : ℝ) : ℂ))), 0; 0, cexp (I * ((f / 2 : ℝ) : ℂ))] := by
  rw [rot_y, rot_x, rot_x, cexp_I_mul, cexp_neg_I_mul]
  have h1 : Real.cos (Real.pi / 2 / 2) = Real.sqrt 2 / 2 := by
    rw [show Real.pi / 2 / 2 = Real.pi / 4 by ring, Real.cos_pi_div_four]
  have h2 : Real.sin (Real.pi / 2 / 2) = Real.sqrt 2 / 2 := by
    rw [show Real.pi / 2 / 2 = Real.pi / 4 by ring, Real.sin_pi_div_four]
  have h3 : Real.cos (-Real.pi / 2 / 2) = Real.sqrt 2 / 2 := by
    rw [show -Real.pi / 2 / 2 = -(Real.pi / 4) by ring, Real.cos_neg, Real.cos_pi_div_four]
  have h4 : Real.sin (-Real.pi / 2 / 2) = -(Real.sqrt 2 / 2) := by
    rw [show -Real.pi / 2 / 2 = -(Real.pi / 4) by ring, Real.sin_neg, Real.sin_pi_div_four]
  rw [h1, h2, h3, h4, Matrix.mul_fin_two, Matrix.mul_fin_two]
  have hs := sq_half
  have hII := I_mul_I
  have hn : ((-(Real.sqrt 2 / 2) : ℝ) : ℂ) = -((Real.sqrt 2 / 2 : ℝ) : ℂ) := by push_cast; ring
  rw [hn]
  generalize ((Real.sqrt 2 / 2 : ℝ) : ℂ) = s at hs ⊢
  generalize (Real.cos (f / 2) : ℂ) = c
  generalize (Real.sin (f / 2) : ℂ) = n
  congr 1
  ext i j
  fin_cases i <;> fin_cases j
  · simp
    linear_combination (c - 2 * n * I - c * I * I) * hs - c / 2 * hII
  · simp
    linear_combination -(s * s * n) * hII
  · simp
    linear_combination (s * s * n) * hII
  · simp
    linear_combination (c + 2 * n * I - c * I * I) * hs - c / 2 * hII

theorem rh_two : rot (-Real.pi) 0 * rot (Real.pi / 2) (Real.pi / 2) =
    (I * ((Real.sqrt 2 / 2 : ℝ) : ℂ)) • !![1, 1; 1, -1] := by
  rw [rot_y, rot_x]
  have h1 : Real.cos (Real.pi / 2 / 2) = Real.sqrt 2 / 2 := by
    rw [show Real.pi / 2 / 2 = Real.pi / 4 by ring, Real.cos_pi_div_four]
  have h2 : Real.sin (Real.pi / 2 / 2) = Real.sqrt 2 / 2 := by
    rw [show Real.pi / 2 / 2 = Real.pi / 4 by ring, Real.sin_pi_div_four]
  have h3 : Real.cos (-Real.pi / 2) = 0 := by rw [neg_div, Real.cos_neg, Real.cos_pi_div_two]
  have h4 : Real.sin (-Real.pi / 2) = -1 := by rw [neg_div, Real.sin_neg, Real.sin_pi_div_two]
  rw [h1, h2, h3, h4, Matrix.mul_fin_two]
  generalize ((Real.sqrt 2 / 2 : ℝ) : ℂ) = s
  ext i j
  fin_cases i <;> fin_cases j <;> simp

/-- filling the four entries of two levels -/
theorem four_set {d : Nat} {a b : Fin d} (hab : a < b) (v00 v01 v10 v11 : ℂ) :
    ∃ A, (do
      let m ← (Arr2.identity d : Arr2 ℂ).set a a v00
      let m ← m.set b b v11
      let m ← m.set a b v01
      m.set b a v10) = .ok A ∧ A.rows = d ∧ A.cols = d ∧ A.toM d = twoLevel a b !![v00, v01; v10, v11] := by
  rw [set_ok _ _ _ _ (by simp [Arr2.identity]) (by simp [Arr2.identity])]
  simp only [bind, Except.bind]
  rw [set_ok _ _ _ _ (by simp [Arr2.identity]) (by simp [Arr2.identity])]
  simp only []
  rw [set_ok _ _ _ _ (by simp [Arr2.identity]) (by simp [Arr2.identity])]
  simp only []
  rw [set_ok _ _ _ _ (by simp [Arr2.identity]) (by simp [Arr2.identity])]
  refine ⟨_, rfl, rfl, rfl, ?_⟩
  ext r c
  simp only [Arr2.toM, Arr2.identity, twoLevel, Fin.ext_iff, Matrix.of_apply, Matrix.cons_val',
    Matrix.cons_val_zero, Matrix.cons_val_one, Matrix.cons_val_fin_one]
  rw [Fin.lt_def] at hab
  split_ifs <;> first | rfl | (exfalso; omega)

theorem noiseX_ok {d : Nat} {g : TwoLevel} {a b : Fin d} (h : GoodLevels d g a b) :
    ∃ A, noiseXArray d g = .ok A ∧ A.rows = d ∧ A.cols = d ∧ A.toM d = twoLevel a b !![0, 1; 1, 0] := by
  have ea : g.levA.toNat = a := by rw [h.a_eq]; simp
  have eb : g.levB.toNat = b := by rw [h.b_eq]; simp
  unfold noiseXArray
  rw [ea, eb]
  exact four_set h.lt 0 1 1 0

theorem noiseY_ok {d : Nat} {g : TwoLevel} {a b : Fin d} (h : GoodLevels d g a b) :
    ∃ A, noiseYArray d g = .ok A ∧ A.rows = d ∧ A.cols = d ∧ A.toM d = twoLevel a b !![0, -I; I, 0] := by
  have ea : g.levA.toNat = a := by rw [h.a_eq]; simp
  have eb : g.levB.toNat = b := by rw [h.b_eq]; simp
  unfold noiseYArray
  rw [ea, eb]
  exact four_set h.lt 0 (-I) I 0

theorem virtRzArray_ok {d : Nat} (g : TwoLevel) (a : Fin d) (h : g.levA = (a : Nat)) :
    ∃ A, virtRzArray d g = .ok A ∧ A.rows = d ∧ A.cols = d ∧
      ∀ r c, A.at' r c = if r = c then (if c = a then cexp (-I * g.phi) else 1) else 0 := by
  have ea : g.levA.toNat = a := by rw [h]; simp
  unfold virtRzArray
  rw [ea]
  simp only []
  rw [set_ok _ _ _ _ (by simp [Arr2.identity]) (by simp [Arr2.identity])]
  refine ⟨_, rfl, rfl, rfl, ?_⟩
  intro r c
  simp only [Arr2.identity]
  by_cases h1 : r = c
  · subst h1; by_cases h2 : r = a <;> simp [h2]
  · rw [if_neg h1, if_neg h1]; rw [if_neg]; rintro ⟨e1, e2⟩; exact h1 (e1.trans e2.symm)

theorem virtRzInit_lev (d : Nat) (hd : 0 < d) (p : Params) : ∃ a : Fin d, (virtRzInit d p).levA = (a : Nat) := by
  unfold virtRzInit
  split
  · split_ifs with h
    · next a _ => exact ⟨⟨a.toNat, by have := h.2; omega⟩, (Int.toNat_of_nonneg h.1).symm⟩
    · exact ⟨⟨0, hd⟩, rfl⟩
  · exact ⟨⟨0, hd⟩, rfl⟩

end Qudits
