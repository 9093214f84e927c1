import Verif.Lemmas.Block
namespace Qudits
open LGraph Spec Matrix LocalQR QRAlg

variable {d : Nat}

/-- What the loops need of the function that puts out gates: for the rotation between rows `a` and `a + 1` it puts out gates `x` with
`Q x`, at most `L` of them, and their product is the image of the rotation under `C`. -/
def EmitOk (sp : PathFinder) (d : Nat) (g : LGraph) (emit : Emit) (C : Matrix (Fin d) (Fin d) ℂ →* Matrix (Fin d) (Fin d) ℂ)
    (Q : PInstr → Prop) (L : Nat) : Prop :=
  ∀ (a b : Fin d), (b : Nat) = a + 1 → ∀ (theta phi : ℝ) (nz : Nat),
    ∃ k out, costCalculator sp d ⟨nm a, nm b, ⟨nm a, nm b, regulateTheta theta, phi⟩⟩ g nz = .ok k ∧
      emit ⟨nm a, nm b, ⟨nm a, nm b, regulateTheta theta, phi⟩⟩ b theta phi k.pulses k.placement = .ok out ∧
      circuitOp (PhasePass.lineOp d) out = C (twoLevel a b (rot theta phi)) ∧ (∀ x ∈ out, Q x) ∧ out.length ≤ L ∧
      0 ≤ k.total ∧ 0 ≤ 2 * k.piCost + k.gateCost

/-- A state reached from `U` after at most `n` rotations. -/
structure Reached (C : Matrix (Fin d) (Fin d) ℂ →* Matrix (Fin d) (Fin d) ℂ) (Q : PInstr → Prop) (L : Nat)
    (U : Matrix (Fin d) (Fin d) ℂ) (pre : List PInstr) (n : Nat) (T : Matrix (Fin d) (Fin d) ℂ) (st : QrState) : Prop where
  rows : st.u.rows = d
  cols : st.u.cols = d
  unitary : T ∈ unitaryGroup (Fin d) ℂ
  mat : st.u.toM d = T * U
  gates : ∃ D, st.decomp = pre ++ D ∧ (∀ x ∈ D, Q x) ∧ D.length ≤ L * n ∧ circuitOp (PhasePass.lineOp d) D = C T
  alg : 0 ≤ st.alg
  tot : 0 ≤ st.tot

/-- columns before `c` are clear below the diagonal -/
def ColsClear (eps : ℝ) (c : Nat) (W : Matrix (Fin d) (Fin d) ℂ) : Prop :=
  ∀ c' : Fin d, (c' : Nat) < c → ∑ r ∈ below c', ‖W r c'‖ ^ 2 ≤ ((d - 1 - (c' : Nat) : Nat) : ℝ) * eps ^ 2

/-- column `c` is clear from row `R` on -/
def RowsClear (eps : ℝ) (c R : Nat) (W : Matrix (Fin d) (Fin d) ℂ) : Prop :=
  ∀ r c' : Fin d, (c' : Nat) = c → R ≤ (r : Nat) → ‖W r c'‖ ≤ eps

variable {C : Matrix (Fin d) (Fin d) ℂ →* Matrix (Fin d) (Fin d) ℂ} {Q : PInstr → Prop} {L : Nat} {g : LGraph} {sp : PathFinder}
  {emit : Emit} {U : Matrix (Fin d) (Fin d) ℂ} {pre : List PInstr} {n : Nat} {T : Matrix (Fin d) (Fin d) ℂ} {eps : ℝ} {st : QrState}

theorem Reached.more (h : Reached C Q L U pre n T st) {m : Nat} (hm : n ≤ m) : Reached C Q L U pre m T st := by
  refine ⟨h.rows, h.cols, h.unitary, h.mat, ?_, h.alg, h.tot⟩
  obtain ⟨D, h1, h2, h3, h4⟩ := h.gates
  exact ⟨D, h1, h2, h3.trans (Nat.mul_le_mul_left _ hm), h4⟩

/-- an entry above the threshold is rotated away -/
theorem qrStep_big (he : EmitOk sp d g emit C Q L) (hrow : st.u.rows = d) (hcol : st.u.cols = d) (c r a : Fin d) (ha : (r : Nat) = a + 1)
    (theta phi : ℝ) (hbig : ‖st.u.toM d r c‖ > eps) (hth : theta = 2 * arctan2 ‖st.u.toM d r c‖ ‖st.u.toM d a c‖)
    (hphi : phi = -(Real.pi / 2 + Complex.arg (st.u.toM d a c) - Complex.arg (st.u.toM d r c))) :
    ∃ B out k1 k2, qrStep sp d eps emit g c st r = .ok ⟨B, st.decomp ++ out, st.alg + k1, st.tot + k2⟩ ∧ B.rows = d ∧ B.cols = d ∧
      B.toM d = twoLevel a r (rot theta phi) * st.u.toM d ∧ circuitOp (PhasePass.lineOp d) out = C (twoLevel a r (rot theta phi)) ∧
      (∀ x ∈ out, Q x) ∧ out.length ≤ L ∧ 0 ≤ k1 ∧ 0 ≤ k2 := by
  have hget : ∀ i : Fin d, st.u.get i c = .ok (st.u.toM d i c) := by
    intro i
    unfold Arr2.get
    rw [if_pos ⟨by rw [hrow]; exact i.isLt, by rw [hcol]; exact c.isLt⟩]
    rfl
  have har : a ≠ r := by rintro rfl; omega
  have hlt : a < r := by rw [Fin.lt_def]; omega
  unfold qrStep
  rw [hget r, show (r : Nat) - 1 = a by omega, hget a]
  simp only [bind, Except.bind, pure, Except.pure]
  rw [if_pos hbig, ← hth, ← hphi]
  have hnew := newRot_ok a r har theta phi
  rw [min_eq_left hlt.le, max_eq_right hlt.le] at hnew
  rw [show (((r : Nat) : Int) - 1) = ((a : Nat) : Int) by omega, hnew]
  simp only []
  obtain ⟨A, hA1, hA2, hA3, hA4⟩ := rArray_ok (d := d) (g := ⟨nm a, nm r, regulateTheta theta, phi⟩) (a := a) (b := r) ⟨rfl, rfl, hlt⟩
  have hA4 : A.toM d = twoLevel a r (rot theta phi) := by rw [hA4]; congr 1; exact rot_regulate theta phi
  rw [show rArray d ⟨((a : Nat) : Int), ((r : Nat) : Int), regulateTheta theta, phi⟩ = .ok A from hA1]
  simp only []
  obtain ⟨B, hB1, hB2, hB3, hB4⟩ := matmul_ok A st.u d hA2 hA3 hrow hcol
  rw [hB1]
  simp only []
  obtain ⟨k, out, e1, e2, e3, e4, e5, e6, e7⟩ := he a r ha theta phi (countNonzero B)
  rw [show costCalculator sp d ⟨((a : Nat) : Int), ((r : Nat) : Int), ⟨((a : Nat) : Int), ((r : Nat) : Int), regulateTheta theta, phi⟩⟩ g
    (countNonzero B) = .ok k from e1]
  simp only []
  rw [show emit ⟨((a : Nat) : Int), ((r : Nat) : Int), ⟨((a : Nat) : Int), ((r : Nat) : Int), regulateTheta theta, phi⟩⟩ (r : Nat) theta phi
    k.pulses k.placement = .ok out from e2]
  exact ⟨B, out, _, _, rfl, hB2, hB3, by rw [hB4, hA4], e3, e4, e5, e6, e7⟩

theorem qrStep_ok (he : EmitOk sp d g emit C Q L) (heps : 0 ≤ eps) (h : Reached C Q L U pre n T st) (c r : Fin d) (hcr : c < r)
    (hc : ColsClear eps c (T * U)) (hr : RowsClear eps c (r + 1) (T * U)) :
    ∃ T' st', qrStep sp d eps emit g c st r = .ok st' ∧ Reached C Q L U pre (n + 1) T' st' ∧ ColsClear eps c (T' * U) ∧
      RowsClear eps c r (T' * U) := by
  by_cases hbig : ‖st.u.toM d r c‖ > eps
  · rw [Fin.lt_def] at hcr
    obtain ⟨a, ha⟩ : ∃ a : Fin d, (r : Nat) = a + 1 := ⟨⟨r - 1, by omega⟩, by simp; omega⟩
    have har : a ≠ r := by rintro rfl; omega
    obtain ⟨B, out, k1, k2, hq, hB2, hB3, hB4, e3, e4, e5, e6, e7⟩ := qrStep_big he h.rows h.cols c r a ha _ _ hbig rfl rfl
    rw [hq]
    rw [h.mat] at hB4 e3 hbig
    set x := (T * U) r c with hxd
    set y := (T * U) a c with hyd
    set theta := 2 * arctan2 ‖x‖ ‖y‖ with hth
    set phi := -(Real.pi / 2 + Complex.arg y - Complex.arg x) with hphi
    obtain ⟨D, g1, g2, g3, g4⟩ := h.gates
    set R := twoLevel a r (rot theta phi) with hR
    have hRu : R ∈ unitaryGroup (Fin d) ℂ := twoLevel_unitary _ har (rot_unitary theta phi)
    refine ⟨R * T, _, rfl, ⟨hB2, hB3, mul_mem hRu h.unitary, ?_, ?_, add_nonneg h.alg e6, add_nonneg h.tot e7⟩, ?_, ?_⟩
    · show B.toM d = _
      rw [hB4, ← mul_assoc]
    · refine ⟨D ++ out, ?_, ?_, ?_, ?_⟩
      · show st.decomp ++ out = _
        rw [g1, List.append_assoc]
      · intro x hx
        rcases List.mem_append.1 hx with hx | hx
        · exact g2 x hx
        · exact e4 x hx
      · rw [List.length_append, Nat.mul_add, Nat.mul_one]
        exact Nat.add_le_add g3 e5
      · rw [circuitOp_append, g4, e3, map_mul]
    · intro c' hc'
      rw [mul_assoc, mass_twoLevel a r har _ (rot_unitary theta phi) (T * U) (below c') ((mem_below _ _).2 (by rw [Fin.lt_def]; omega))
        ((mem_below _ _).2 (by rw [Fin.lt_def]; omega))]
      exact hc c' hc'
    · intro r' c' hc' hr'
      have : c' = c := Fin.ext hc'
      subst this
      rw [mul_assoc]
      by_cases hrr : r' = r
      · subst hrr
        rw [hR, twoLevel_mul_snd _ har]
        have hx0 : x ≠ 0 := by
          intro h0
          rw [h0, norm_zero] at hbig
          exact absurd hbig (not_lt.2 heps)
        have := clears x y hx0 theta phi rfl rfl
        rw [hxd, hyd] at this
        rw [this, norm_zero]
        exact heps
      · have h1 : (r' : Nat) ≠ r := fun e => hrr (Fin.ext e)
        rw [hR, twoLevel_mul_other _ _ _ _ (by rintro rfl; omega) hrr]
        exact hr r' c' rfl (by omega)
  · have hx : st.u.get r c = .ok (st.u.toM d r c) := by
      unfold Arr2.get
      rw [if_pos ⟨by rw [h.rows]; exact r.isLt, by rw [h.cols]; exact c.isLt⟩]
      rfl
    unfold qrStep
    rw [hx]
    simp only [bind, Except.bind, pure, Except.pure]
    rw [if_neg hbig]
    rw [h.mat] at hbig
    refine ⟨T, st, rfl, h.more (Nat.le_succ n), hc, ?_⟩
    intro r' c' hc' hr'
    have : c' = c := Fin.ext hc'
    subst this
    by_cases hrr : r' = r
    · subst hrr; exact not_lt.1 hbig
    · have h1 : (r' : Nat) ≠ r := fun e => hrr (Fin.ext e)
      exact hr r' c' rfl (by omega)

theorem qrRows_ok (he : EmitOk sp d g emit C Q L) (heps : 0 ≤ eps) (c : Fin d) : ∀ (m n : Nat) (T : Matrix (Fin d) (Fin d) ℂ) (st : QrState),
    (c : Nat) + 1 + m ≤ d → Reached C Q L U pre n T st → ColsClear eps c (T * U) → RowsClear eps c (c + 1 + m) (T * U) →
    ∃ T' st', (List.range' (c + 1) m).reverse.foldlM (qrStep sp d eps emit g c) st = .ok st' ∧ Reached C Q L U pre (n + m) T' st' ∧
      ColsClear eps c (T' * U) ∧ RowsClear eps c (c + 1) (T' * U) := by
  intro m
  induction m with
  | zero => intro n T st _ h1 h2 h3; exact ⟨T, st, rfl, h1, h2, h3⟩
  | succ m ih =>
    intro n T st hm h1 h2 h3
    rw [List.range'_concat, List.reverse_append, List.reverse_singleton, List.singleton_append, List.foldlM_cons]
    obtain ⟨T', st', e1, e2, e3, e4⟩ := qrStep_ok he heps h1 c ⟨c + 1 + m, by omega⟩ (by rw [Fin.lt_def]; simp; omega) h2 h3
    have e1 : qrStep sp d eps emit g c st (c + 1 + m) = .ok st' := e1
    obtain ⟨T2, st2, f1, f2, f3, f4⟩ := ih (n + 1) T' st' (by omega) e2 e3 e4
    refine ⟨T2, st2, ?_, by rw [show n + (m + 1) = n + 1 + m by omega]; exact f2, f3, f4⟩
    rw [show (c : Nat) + 1 + 1 * m = c + 1 + m by omega, e1]
    exact f1

theorem rowsOf_eq (n c : Nat) (h : c < n) : rowsOf n c = (List.range' (c + 1) (n - 1 - c)).reverse := by
  unfold rowsOf
  have e : (List.range n).reverse = (List.range' (c + 1) (n - 1 - c)).reverse ++ (c :: (List.range c).reverse) := by
    have h1 : List.range n = List.range c ++ [c] ++ List.range' (c + 1) (n - 1 - c) := by
      rw [List.range_eq_range', List.range_eq_range', show n = c + 1 + (n - 1 - c) by omega, ← List.range'_append_1, List.range'_concat]
      simp
    rw [h1]
    simp
  have hi : ((List.range n).reverse).idxOf c = (List.range' (c + 1) (n - 1 - c)).reverse.length := by
    rw [e, List.idxOf_append, if_neg (by simp), List.idxOf_cons_self, zero_add]
  rw [hi, e, List.take_left]

theorem qrCols_ok (he : EmitOk sp d g emit C Q L) (heps : 0 ≤ eps) : ∀ (m c n : Nat) (T : Matrix (Fin d) (Fin d) ℂ) (st : QrState),
    c + m = d → Reached C Q L U pre n T st → ColsClear eps c (T * U) →
    ∃ T' st', (List.range' c m).foldlM (qrColumn sp d eps emit g d) st = .ok st' ∧
      Reached C Q L U pre (n + ∑ i ∈ Finset.range m, i) T' st' ∧ ColsClear eps d (T' * U) := by
  intro m
  induction m with
  | zero => intro c n T st hc h1 h2; exact ⟨T, st, rfl, h1, fun c' _ => h2 c' (by have := c'.isLt; omega)⟩
  | succ m ih =>
    intro c n T st hc h1 h2
    rw [List.range'_succ, List.foldlM_cons]
    obtain ⟨T', st', e1, e2, e3, e4⟩ := qrRows_ok he heps (⟨c, by omega⟩ : Fin d) (d - 1 - c) n T st (by simp; omega) h1 h2 (by
      intro r c' _ hr
      have := r.isLt
      simp at hr
      omega)
    have hcol : qrColumn sp d eps emit g d st c = .ok st' := by
      unfold qrColumn
      rw [rowsOf_eq d c (by omega)]
      exact e1
    rw [hcol]
    obtain ⟨T2, st2, f1, f2, f3⟩ := ih (c + 1) (n + (d - 1 - c)) T' st' (by omega) e2 (by
      intro c' hc'
      by_cases hcc : (c' : Nat) < c
      · exact e3 c' hcc
      · have hcc : (c' : Nat) = c := by omega
        rw [← card_below, ← nsmul_eq_mul, ← Finset.sum_const]
        refine Finset.sum_le_sum fun r hr => ?_
        have := e4 r c' hcc (by have := (mem_below _ _).1 hr; rw [Fin.lt_def] at this; simp; omega)
        exact pow_le_pow_left₀ (norm_nonneg _) this 2)
    refine ⟨T2, st2, f1, ?_, f3⟩
    rw [Finset.sum_range_succ, show m = d - 1 - c by omega] at *
    rw [show n + (∑ i ∈ Finset.range (d - 1 - c), i + (d - 1 - c)) = n + (d - 1 - c) + ∑ i ∈ Finset.range (d - 1 - c), i by omega]
    exact f2

/-- bound on the mass below the diagonal -/
theorem mass_below (W : Matrix (Fin d) (Fin d) ℂ) (h : ColsClear eps d W) :
    ∑ c, ∑ r ∈ below c, ‖W r c‖ ^ 2 ≤ ((d * (d - 1) / 2 : Nat) : ℝ) * eps ^ 2 := by
  calc ∑ c, ∑ r ∈ below c, ‖W r c‖ ^ 2 ≤ ∑ c : Fin d, ((d - 1 - (c : Nat) : Nat) : ℝ) * eps ^ 2 :=
        Finset.sum_le_sum fun c _ => h c c.isLt
    _ = ((d * (d - 1) / 2 : Nat) : ℝ) * eps ^ 2 := by
      rw [← Finset.sum_mul, ← Nat.cast_sum, ← Finset.sum_range_id, Fin.sum_univ_eq_sum_range (fun i => d - 1 - i),
        Finset.sum_range_reflect (fun i => i) d]

end Qudits
