import Verif.Lemmas.TwoLevelGates
import Verif.Lemmas.RegisterEmbed
import Mathlib.Analysis.SpecialFunctions.Exponential

namespace Qudits
open Complex Spec

/-! ### controlled sums of Kronecker products -/

theorem ctl_acc {c t : Nat} (low : Bool) (f : Nat → Except PyErr (Arr2 ℂ)) (P : Nat → Arr2 ℂ)
    (hf : ∀ k < c, f k = .ok (if low then (outer (uvec c k) (uvec c k)).kron (P k)
      else (P k).kron (outer (uvec c k) (uvec c k))))
    (hP : ∀ k < c, (P k).rows = t ∧ (P k).cols = t) :
    ∃ A, Arr2.accumulate c (Arr2.zeros (c * t) (c * t)) f = .ok A ∧ A.rows = c * t ∧ A.cols = c * t ∧
      ∀ i j r s, i < c → j < c → r < t → s < t →
        (if low then A.at' (i * t + r) (j * t + s) else A.at' (r * c + i) (s * c + j)) =
          if i = j then (P i).at' r s else 0 := by
  obtain ⟨A, hA, h1, h2, h3⟩ := accumulate_ok c (Arr2.zeros (c * t) (c * t) : Arr2 ℂ) f
    (fun k => if low then (outer (uvec c k) (uvec c k)).kron (P k) else (P k).kron (outer (uvec c k) (uvec c k)))
    hf (fun k hk => by
      obtain ⟨e1, e2⟩ := hP k hk
      cases low <;> simp [Arr2.kron, Arr2.zeros, outer, e1, e2, Nat.mul_comm])
  refine ⟨A, hA, h1, h2, ?_⟩
  intro i j r s hi hj hr hs
  cases low
  · simp only [Bool.false_eq_true, if_false] at h3 ⊢
    rw [h3]
    have key : ∀ k < c, ((P k).kron (outer (uvec c k) (uvec c k))).at' (r * c + i) (s * c + j) =
        if i = k ∧ j = k then (P k).at' r s else 0 := by
      intro k hk
      have := kron_at (P k) (outer (uvec c k) (uvec c k)) r s i j (by simpa [outer] using hi)
        (by simpa [outer] using hj)
      simp only [outer, uvec_length] at this
      rw [show (outer (uvec c k) (uvec c k)) = ⟨_, _, _⟩ from rfl]
      simp only [uvec_length]
      rw [this]
      have e := outer_uvec hk hk i j
      simp only [outer] at e
      rw [e]
      split_ifs <;> simp
    rw [Finset.sum_congr rfl (fun k hk => key k (Finset.mem_range.1 hk)), Finset.sum_eq_single i]
    · by_cases hij : i = j
      · subst hij; simp [Arr2.zeros]
      · rw [if_neg hij, if_neg (fun h => hij h.2.symm)]; simp [Arr2.zeros]
    · intro k _ hk; rw [if_neg (fun h => hk h.1.symm)]
    · intro h; exact absurd (Finset.mem_range.2 hi) h
  · simp only [if_true] at h3 ⊢
    rw [h3]
    have key : ∀ k < c, ((outer (uvec c k) (uvec c k)).kron (P k)).at' (i * t + r) (j * t + s) =
        if i = k ∧ j = k then (P k).at' r s else 0 := by
      intro k hk
      have := kron_at (outer (uvec c k) (uvec c k)) (P k) i j r s (by rw [(hP k hk).1]; exact hr)
        (by rw [(hP k hk).2]; exact hs)
      rw [(hP k hk).1, (hP k hk).2] at this
      rw [this, outer_uvec hk hk]
      split_ifs <;> simp
    rw [Finset.sum_congr rfl (fun k hk => key k (Finset.mem_range.1 hk)), Finset.sum_eq_single i]
    · by_cases hij : i = j
      · subst hij; simp [Arr2.zeros]
      · rw [if_neg hij, if_neg (fun h => hij h.2.symm)]; simp [Arr2.zeros]
    · intro k _ hk; rw [if_neg (fun h => hk h.1.symm)]
    · intro h; exact absurd (Finset.mem_range.2 hi) h

theorem xPow_ok (d : Nat) (X : Arr2 ℂ) (hr : X.rows = d) (hc : X.cols = d)
    (hX : ∀ r c, c < d → X.at' r c = if r = (c + 1) % d then 1 else 0) (k : Nat) :
    ∃ P, X.matrixPower k = .ok P ∧ P.rows = d ∧ P.cols = d ∧
      ∀ r c, r < d → c < d → P.at' r c = if r = (c + k) % d then 1 else 0 := by
  induction k with
  | zero =>
    refine ⟨_, rfl, by simp [Arr2.identity, hr], by simp [Arr2.identity, hr], ?_⟩
    intro r c _ h
    rw [Nat.add_zero, Nat.mod_eq_of_lt h]; rfl
  | succ k ih =>
    obtain ⟨P, hP, p1, p2, p3⟩ := ih
    refine ⟨⟨P.rows, X.cols, fun r c => ∑ m ∈ Finset.range P.cols, P.at' r m * X.at' m c⟩, ?_, p1, hc, ?_⟩
    · unfold Arr2.matrixPower
      rw [hP]
      simp only [bind, Except.bind, Arr2.matmul]
      rw [if_pos (by rw [p2, hr])]
    · intro r c hrd hcd
      have hd : 0 < d := by omega
      simp only [p2]
      rw [Finset.sum_eq_single ((c + 1) % d)]
      · rw [hX _ _ hcd, if_pos rfl, mul_one, p3 _ _ hrd (Nat.mod_lt _ hd)]
        rw [Nat.mod_add_mod, show c + 1 + k = c + (k + 1) by ring]
      · intro m _ hm
        rw [hX _ _ hcd, if_neg hm, mul_zero]
      · intro h; exact absurd (Finset.mem_range.2 (Nat.mod_lt _ hd)) h

theorem csumArray_ok (q0 q1 : Int) (c t : Nat) :
    ∃ A, csumArray q0 q1 c t = .ok A ∧ A.rows = c * t ∧ A.cols = c * t ∧
      ∀ i j r s, i < c → j < c → r < t → s < t →
        (if q0 < q1 then A.at' (i * t + r) (j * t + s) else A.at' (r * c + i) (s * c + j)) =
          if i = j ∧ r = (s + i) % t then 1 else 0 := by
  obtain ⟨X, hX, x1, x2, x3⟩ := xArray_ok t
  have hp := xPow_ok t X x1 x2 x3
  choose P hP p1 p2 p3 using hp
  obtain ⟨A, hA, h1, h2, h3⟩ := ctl_acc (c := c) (t := t) (decide (q0 < q1)) (fun i => do
      let basis ← fromDiracToBasis [i] [c]
      let mapmat := outer basis basis
      let xMatI ← X.matrixPower i
      pure (if q0 < q1 then mapmat.kron xMatI else xMatI.kron mapmat)) P
    (fun k hk => by
      simp only [dirac_one hk, hP, bind, Except.bind, pure, Except.pure, decide_eq_true_eq])
    (fun k _ => ⟨p1 k, p2 k⟩)
  refine ⟨A, ?_, h1, h2, ?_⟩
  · unfold csumArray
    rw [hX]
    exact hA
  · intro i j r s hi hj hr hs
    have := h3 i j r s hi hj hr hs
    simp only [decide_eq_true_eq] at this
    rw [this, p3 i r s hr hs]
    by_cases hij : i = j <;> simp [hij]

/-- what CEx does to the second line when the first is at the control level -/
noncomputable def cexOp (phi : ℝ) : Matrix (Fin 2) (Fin 2) ℂ :=
  !![0, -I * cexp (-(I * phi)); -I * cexp (I * phi), 0]

theorem cexArray_ok (q0 q1 : Int) (d0 d1 : Nat) (g : CExParams) (a b : Fin d1) (hab : a < b)
    (ha : g.levA = (a : Nat)) (hb : g.levB = (b : Nat)) :
    ∃ A, cexArray q0 q1 d0 d1 g = .ok A ∧ A.rows = d0 * d1 ∧ A.cols = d0 * d1 ∧
      ∀ (i j : Nat) (r s : Fin d1), i < d0 → j < d0 →
        (if q0 < q1 then A.at' (i * d1 + r) (j * d1 + s) else A.at' (r * d0 + i) (s * d0 + j)) =
          if i = j then (if (i : Int) = g.ctrl then twoLevel a b (cexOp g.phi) r s else
            (1 : Matrix (Fin d1) (Fin d1) ℂ) r s) else 0 := by
  have ea : g.levA.toNat = a := by rw [ha]; simp
  have eb : g.levB.toNat = b := by rw [hb]; simp
  have e1 : (-I * (Real.cos g.phi : ℝ) - (Real.sin g.phi : ℝ) : ℂ) = -I * cexp (-(I * g.phi)) := by
    rw [cexp_neg_I_mul]; linear_combination -(Real.sin g.phi : ℂ) * I_mul_I
  have e2 : (-I * (Real.cos g.phi : ℝ) + (Real.sin g.phi : ℝ) : ℂ) = -I * cexp (I * g.phi) := by
    rw [cexp_I_mul]; linear_combination (Real.sin g.phi : ℂ) * I_mul_I
  -- the operator block
  have hop : ∃ B, cexOpArray d1 g = .ok B ∧ B.rows = d1 ∧ B.cols = d1 ∧
      B.toM d1 = twoLevel a b (cexOp g.phi) := by
    unfold cexOpArray
    rw [ea, eb]
    simp only []
    rw [e1, e2, set_ok _ _ _ _ (by simp [Arr2.identity]) (by simp [Arr2.identity])]
    simp only [bind, Except.bind]
    rw [set_ok _ _ _ _ (by simp [Arr2.identity]) (by simp [Arr2.identity])]
    simp only []
    rw [set_ok _ _ _ _ (by simp [Arr2.identity]) (by simp [Arr2.identity])]
    simp only []
    rw [set_ok _ _ _ _ (by simp [Arr2.identity]) (by simp [Arr2.identity])]
    refine ⟨_, rfl, rfl, rfl, ?_⟩
    ext r c
    simp only [Arr2.toM, Arr2.identity, twoLevel, cexOp, Fin.ext_iff, Matrix.of_apply, Matrix.cons_val',
      Matrix.cons_val_zero, Matrix.cons_val_one, Matrix.cons_val_fin_one]
    rw [Fin.lt_def] at hab
    split_ifs <;> first | rfl | (exfalso; omega)
  obtain ⟨B, hB, b1, b2, b3⟩ := hop
  obtain ⟨A, hA, h1, h2, h3⟩ := ctl_acc (c := d0) (t := d1) (decide (q0 < q1)) (fun i => do
      let v ← fromDiracToBasis [i] [d0]
      let mapmat := outer v v
      let op ← if (i : Int) = g.ctrl then cexOpArray d1 g else pure (Arr2.identity d1)
      pure (if q0 < q1 then mapmat.kron op else op.kron mapmat))
    (fun i => if (i : Int) = g.ctrl then B else Arr2.identity d1)
    (fun k hk => by
      simp only [dirac_one hk]
      by_cases hk' : (k : Int) = g.ctrl
      · simp only [if_pos hk', hB]
        simp [bind, Except.bind, pure, Except.pure]
      · simp only [if_neg hk']
        simp [bind, Except.bind, pure, Except.pure])
    (fun k _ => by split_ifs <;> simp [b1, b2, Arr2.identity])
  refine ⟨A, hA, h1, h2, ?_⟩
  intro i j r s hi hj
  have := h3 i j r s hi hj r.2 s.2
  simp only [decide_eq_true_eq] at this
  rw [this]
  by_cases hij : i = j
  · rw [if_pos hij, if_pos hij]
    by_cases hk' : (i : Int) = g.ctrl
    · rw [if_pos hk', if_pos hk']
      exact congrFun (congrFun b3 r) s
    · rw [if_neg hk', if_neg hk']
      simp only [Arr2.identity, Matrix.one_apply, Fin.ext_iff]
  · rw [if_neg hij, if_neg hij]

/-! ### light shift and Moelmer-Soerensen -/

theorem expm_diag {N : Nat} (A : Arr2 ℂ) (hA : A.rows = N) (w : Nat → ℂ)
    (h : ∀ r c, r < N → c < N → A.at' r c = if r = c then w c else 0) :
    A.expm.rows = N ∧ A.expm.cols = N ∧
      ∀ r c, r < N → c < N → A.expm.at' r c = if r = c then cexp (w c) else 0 := by
  subst hA
  refine ⟨rfl, rfl, ?_⟩
  intro r c hr hc
  have hd : A.toM A.rows = Matrix.diagonal fun i : Fin A.rows => w i := by
    ext i j
    rw [Matrix.diagonal_apply, Arr2.toM, h _ _ i.2 j.2]
    by_cases hij : i = j
    · subst hij; simp
    · rw [if_neg hij, if_neg (fun e => hij (Fin.ext e))]
  simp only [Arr2.expm]
  rw [dif_pos ⟨hr, hc⟩, hd, Matrix.exp_diagonal, Matrix.diagonal_apply]
  simp only [Fin.mk.injEq]
  by_cases hrc : r = c
  · subst hrc
    rw [if_pos rfl, if_pos rfl, Pi.coe_exp, Complex.exp_eq_exp_ℂ]
  · rw [if_neg hrc, if_neg hrc]

theorem lsArray_ok (d0 d1 : Nat) (theta : ℝ) :
    ∃ A, lsArray d0 d1 theta = .ok A ∧ A.rows = d0 * d1 ∧ A.cols = d0 * d1 ∧
      ∀ r c, r < d0 * d1 → c < d0 * d1 → A.at' r c =
        if r = c then cexp (if c / d1 = c % d1 then -I * theta else 0) else 0 := by
  have hlev : ∀ i < min d0 d1, Levels [d0, d1] [i, i] := by
    intro i hi
    rw [lt_min_iff] at hi
    exact .cons hi.1 (.cons hi.2 .nil)
  have hidx : ∀ i, index [d0, d1] [i, i] = i * d1 + i := by intro i; simp [index]
  obtain ⟨M, hM, h1, h2, h3⟩ := accumulate_ok (min d0 d1) (Arr2.zeros (d0 * d1) (d0 * d1) : Arr2 ℂ)
    (fun i => do
      let v ← fromDiracToBasis [i, i] [d0, d1]
      pure (outer v v))
    (fun i => outer (uvec (d0 * d1) (i * d1 + i)) (uvec (d0 * d1) (i * d1 + i)))
    (fun i hi => by
      have := dirac_unit (hlev i hi) (by simp)
      simp only [List.prod_cons, List.prod_nil, Nat.mul_one, hidx] at this
      simp only [this, bind, Except.bind, pure, Except.pure])
    (fun i hi => by simp [outer, Arr2.zeros])
  have hlt : ∀ i < min d0 d1, i * d1 + i < d0 * d1 := by
    intro i hi
    have := index_lt (hlev i hi)
    rw [hidx] at this
    simpa using this
  have hM' : ∀ r c, r < d0 * d1 → c < d0 * d1 →
      M.at' r c = if r = c then (if c / d1 = c % d1 then 1 else 0) else 0 := by
    intro r c hr hc
    have hd : 0 < d1 := Nat.pos_of_ne_zero (by rintro rfl; simp at hc)
    rw [h3]
    simp only [Arr2.zeros, zero_add]
    rw [Finset.sum_congr rfl (fun i hi => outer_uvec (hlt i (Finset.mem_range.1 hi))
      (hlt i (Finset.mem_range.1 hi)) r c)]
    by_cases hrc : r = c
    · subst hrc
      simp only [and_self, if_true]
      by_cases hq : r / d1 = r % d1
      · rw [if_pos hq, Finset.sum_eq_single (r % d1)]
        · rw [if_pos]
          conv_lhs => rw [← Nat.div_add_mod' r d1, hq]
        · intro k hk hne
          rw [if_neg]
          intro e
          apply hne
          have hk := lt_min_iff.1 (Finset.mem_range.1 hk)
          rw [e, Nat.mul_comm, Nat.mul_add_mod, Nat.mod_eq_of_lt hk.2]
        · intro h
          refine absurd (Finset.mem_range.2 (lt_min_iff.2 ⟨?_, Nat.mod_lt _ hd⟩)) h
          rw [← hq]; exact Nat.div_lt_of_lt_mul (by rw [Nat.mul_comm]; exact hc)
      · rw [if_neg hq]
        apply Finset.sum_eq_zero
        intro k hk
        rw [if_neg]
        intro e
        have hk := lt_min_iff.1 (Finset.mem_range.1 hk)
        apply hq
        rw [e, Nat.mul_comm, Nat.mul_add_mod, Nat.mul_add_div hd, Nat.mod_eq_of_lt hk.2, Nat.div_eq_of_lt hk.2,
          Nat.add_zero]
    · rw [if_neg hrc]
      apply Finset.sum_eq_zero
      intro k _
      rw [if_neg]
      rintro ⟨e1, e2⟩; exact hrc (e1.trans e2.symm)
  obtain ⟨e1, e2, e3⟩ := expm_diag (N := d0 * d1) (M.smul (-I * (theta : ℝ))) h1
    (fun c => if c / d1 = c % d1 then -I * theta else 0) (by
      intro r c hr hc
      simp only [Arr2.smul, hM' r c hr hc]
      split_ifs <;> simp)
  refine ⟨(M.smul (-I * (theta : ℝ))).expm, ?_, e1, e2, e3⟩
  unfold lsArray
  rw [hM]; rfl

theorem expm_toM (R : Arr2 ℂ) (N : Nat) (h : R.rows = N) :
    R.expm.toM N = NormedSpace.exp (R.toM N) := by
  subst h
  ext i j
  simp only [Arr2.toM, Arr2.expm]
  rw [dif_pos ⟨i.2, j.2⟩]

theorem exp_skew_unitary {N : Nat} (M : Matrix (Fin N) (Fin N) ℂ) (h : M.conjTranspose = -M) :
    NormedSpace.exp M ∈ Matrix.unitaryGroup (Fin N) ℂ := by
  rw [Matrix.mem_unitaryGroup_iff, Matrix.star_eq_conjTranspose, ← Matrix.exp_conjTranspose, h,
    ← Matrix.exp_add_of_commute _ _ (Commute.neg_right (Commute.refl M)), add_neg_cancel, NormedSpace.exp_zero]

theorem conjT_kron_herm {a b : Arr2 ℂ} {n m : Nat} (hb : b.rows = m)
    (hb' : b.cols = m) (h1 : ∀ r c, r < n → c < n → star (a.at' c r) = a.at' r c)
    (h2 : ∀ r c, r < m → c < m → star (b.at' c r) = b.at' r c) :
    ∀ r c, r < n * m → c < n * m → star ((a.kron b).at' c r) = (a.kron b).at' r c := by
  intro r c hr hc
  have hm : 0 < m := Nat.pos_of_ne_zero (by rintro rfl; simp at hr)
  simp only [Arr2.kron, hb, hb', star_mul']
  rw [h1 _ _ (Nat.div_lt_of_lt_mul (by rw [Nat.mul_comm]; exact hr))
    (Nat.div_lt_of_lt_mul (by rw [Nat.mul_comm]; exact hc)), h2 _ _ (Nat.mod_lt _ hm) (Nat.mod_lt _ hm)]

theorem gell01 (d : Nat) (hd : 2 ≤ d) : ∃ A, gellMann d 0 1 "s" = .ok A ∧ A.rows = d ∧ A.cols = d ∧
    ∀ r c, r < d → c < d → star (A.at' c r) = A.at' r c := by
  obtain ⟨A, hA, h1, h2, h3⟩ := gell_s (d := d) (g := { levA := 0, levB := 1 }) (a := ⟨0, by omega⟩)
    (b := ⟨1, by omega⟩) ⟨rfl, rfl, by rw [Fin.lt_def]; simp⟩
  refine ⟨A, hA, h1, h2, ?_⟩
  intro r c hr hc
  rw [h3 ⟨c, hc⟩ ⟨r, hr⟩, h3 ⟨r, hr⟩ ⟨c, hc⟩]
  simp only [Fin.mk.injEq]
  split_ifs <;> first | (exfalso; omega) | simp

theorem msArray_ok (d0 d1 : Nat) (h0 : 2 ≤ d0) (h1 : 2 ≤ d1) (theta : ℝ) :
    ∃ A, msArray d0 d1 theta = .ok A ∧ A.rows = d0 * d1 ∧ A.cols = d0 * d1 ∧
      A.toM (d0 * d1) ∈ Matrix.unitaryGroup (Fin (d0 * d1)) ℂ := by
  obtain ⟨S1, hS1, a1, a2, a3⟩ := gell01 d1 h1
  obtain ⟨S0, hS0, b1, b2, b3⟩ := gell01 d0 h0
  set K1 := (Arr2.identity d0 : Arr2 ℂ).kron S1 with hK1
  set K0 := S0.kron (Arr2.identity d1 : Arr2 ℂ) with hK0
  have hid : ∀ d r c : Nat, r < d → c < d →
      star ((Arr2.identity d : Arr2 ℂ).at' c r) = (Arr2.identity d : Arr2 ℂ).at' r c := by
    intro d r c _ _
    simp only [Arr2.identity]
    split_ifs <;> first | (exfalso; omega) | simp
  have k1 := conjT_kron_herm (a := Arr2.identity d0) (b := S1) a1 a2 (hid d0) a3
  have k0 := conjT_kron_herm (a := S0) (b := Arr2.identity d1) rfl rfl b3 (hid d1)
  set P : Arr2 ℂ := ⟨K1.rows, K1.cols, fun r c => K1.at' r c + K0.at' r c⟩ with hP
  have hadd : K1.add K0 = .ok P := by
    unfold Arr2.add
    rw [if_pos]
    simp [hK1, hK0, Arr2.kron, Arr2.identity, a1, a2, b1, b2]
  have pr : P.rows = d0 * d1 := by simp [hP, hK1, Arr2.kron, Arr2.identity, a1]
  have pc : P.cols = d0 * d1 := by simp [hP, hK1, Arr2.kron, Arr2.identity, a2]
  have pherm : (P.toM (d0 * d1)).conjTranspose = P.toM (d0 * d1) := by
    ext i j
    simp only [Matrix.conjTranspose_apply, Arr2.toM, hP, star_add]
    rw [k1 i j i.2 j.2, k0 i j i.2 j.2]
  obtain ⟨Q, hQ, q1, q2, q3⟩ := matmul_ok (P.smul (-I * (theta : ℝ))) P (d0 * d1) pr pc pr pc
  have hsm : ∀ (x : ℂ) (M : Arr2 ℂ) (N : Nat), (M.smul x).toM N = x • M.toM N := fun x M N => rfl
  refine ⟨(Q.smul (1 / 4)).expm, ?_, q1, q1, ?_⟩
  · unfold msArray
    simp only [hS1, hS0, bind, Except.bind, ← hK1, ← hK0, hadd, hQ, pure, Except.pure]
  · have e : ((Q.smul (1 / 4)).expm).toM (d0 * d1) = NormedSpace.exp ((Q.smul (1 / 4)).toM (d0 * d1)) :=
      expm_toM _ _ q1
    rw [e]
    apply exp_skew_unitary
    rw [hsm, q3, hsm]
    simp only [Matrix.conjTranspose_smul, Matrix.conjTranspose_mul, pherm, Matrix.smul_mul]
    rw [smul_smul, smul_smul, ← neg_smul]
    congr 1
    simp

/-! ### two-line arrays on a register -/

variable {n : Nat}

theorem sort_pair (a b : Fin n) (h : a < b) : ({a, b} : Finset (Fin n)).sort = [a, b] := by
  refine (List.Perm.eq_of_pairwise (le := (· ≤ ·)) (fun _ _ _ _ h1 h2 => le_antisymm h1 h2) ?_ ?_ ?_)
  · exact Finset.pairwise_sort _ _
  · simp [le_of_lt h]
  · rw [List.perm_ext_iff_of_nodup (Finset.sort_nodup _ _) (by simp [ne_of_lt h])]
    intro c; simp

theorem subIdx_pair (d : Fin n → Nat) (a b : Fin n) (h : a < b) (x : Reg d) :
    subIdx d {a, b} (restr {a, b} x) = x a * d b + x b := by
  rw [subIdx_restr, sort_pair a b h]
  simp [index]

/-- full-register array of a gate on two lines -/
theorem pair_register (d : Fin n → Nat) (g : Gate) (a b : Fin n) (hab : a ≠ b) (arr : Arr2 ℂ)
    (hdims : g.dims = List.ofFn d) (hT : g.target = .many [((a : Nat) : Int), ((b : Nat) : Int)])
    (hctl : g.controls = none) (hdag : g.dagger = false)
    (hr : arr.rows = d a * d b) (hc : arr.cols = d a * d b) :
    ∃ A, g.toMatrix arr 2 = .ok A ∧ A.rows = ∏ i, d i ∧ A.cols = ∏ i, d i ∧
      ∀ x y, A.at' (idx d x) (idx d y) =
        if ∀ i, i ≠ a → i ≠ b → x i = y i then
          (if a < b then arr.at' (x a * d b + x b) (y a * d b + y b)
           else arr.at' (x b * d a + x a) (y b * d a + y a)) else 0 := by
  have hprod : ∏ i ∈ [a, b].toFinset, d i = d a * d b := by simp [hab]
  obtain ⟨A, hA, h1, h2, h3⟩ := embed_full d g [a, b] arr hdims (by rw [hT]; rfl) hctl (by simp [hab]) (by simp)
    (by rw [hr, hprod]) (by rw [hc, hprod])
  refine ⟨A, hA, h1, h2, ?_⟩
  intro x y
  rw [h3, hdag]
  simp only [embed, onLines, Bool.false_eq_true, if_false]
  have hS : [a, b].toFinset = {a, b} := by simp
  have e : (∀ i, i ∉ [a, b].toFinset → x i = y i) ↔ ∀ i, i ≠ a → i ≠ b → x i = y i := by
    simp only [hS, Finset.mem_insert, Finset.mem_singleton, not_or, and_imp]
  by_cases hx : ∀ i, i ≠ a → i ≠ b → x i = y i
  · rw [if_pos (e.2 hx), if_pos hx]
    by_cases hlt : a < b
    · rw [if_pos hlt, hS, subIdx_pair d a b hlt, subIdx_pair d a b hlt]
    · rw [if_neg hlt]
      have hba : b < a := lt_of_le_of_ne (not_lt.1 hlt) (Ne.symm hab)
      have hS' : [a, b].toFinset = {b, a} := by rw [hS, Finset.pair_comm]
      rw [hS', subIdx_pair d b a hba, subIdx_pair d b a hba]
  · rw [if_neg (fun h => hx (e.1 h)), if_neg hx]

end Qudits
