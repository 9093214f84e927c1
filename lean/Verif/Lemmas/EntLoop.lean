import Verif.Lemmas.EntPswap
import Verif.Lemmas.QrExec
import Verif.Lemmas.QrPass
/- The elimination loop of the decomposition on two lines. -/
namespace Qudits.EntQR
open Matrix Complex Spec LocalQR QRAlg

variable {P : Pair}

/-- two lines in circuit order, each with two levels or more -/
structure Ordered (P : Pair) : Prop where
  lines : P.q0 < P.q1
  c : 2 ≤ P.c
  t : 2 ≤ P.t

/-- neighbouring levels of the pair: in one block, or the last of one block and the first of the next -/
theorem neighbours (ht : 2 ≤ P.t) (a r : Fin (P.c * P.t)) (har : (r : Nat) = a + 1) :
    ((r : Nat) % P.t ≠ 0 ∧ ∃ (x : Fin P.c) (y y' : Fin P.t), (y' : Nat) = y + 1 ∧ a = jn x y ∧ r = jn x y') ∨
    ((r : Nat) % P.t = 0 ∧ ∃ (x x' : Fin P.c) (l0 m : Fin P.t), (x' : Nat) = x + 1 ∧ (l0 : Nat) = 0 ∧ (m : Nat) + 1 = P.t ∧
      a = jn x m ∧ r = jn x' l0) := by
  obtain ⟨x, y, rfl⟩ := jn_surj a
  obtain ⟨x', y', rfl⟩ := jn_surj r
  rw [jn_val, jn_val] at har
  have hy := y.isLt
  have hy' := y'.isLt
  have hmod : ((jn x' y' : Fin (P.c * P.t)) : Nat) % P.t = y' := by
    rw [jn_val, Nat.mul_add_mod_self_right, Nat.mod_eq_of_lt hy']
  rw [hmod]
  have e1 : ((x : Nat) * P.t + y + 1) % P.t = y' := by rw [← har, Nat.mul_add_mod_self_right, Nat.mod_eq_of_lt hy']
  have e2 : ((x : Nat) * P.t + y + 1) / P.t = x' := by
    rw [← har, mul_comm, Nat.mul_add_div (by omega), Nat.div_eq_of_lt hy', add_zero]
  by_cases hlast : (y : Nat) + 1 = P.t
  · right
    have e3 : (x : Nat) * P.t + y + 1 = (x + 1) * P.t := by rw [add_mul, one_mul]; omega
    rw [e3, Nat.mul_mod_left] at e1
    rw [e3, Nat.mul_div_cancel _ (by omega)] at e2
    exact ⟨e1.symm, x, x', y', y, e2.symm, e1.symm, hlast, rfl, rfl⟩
  · left
    rw [add_assoc, Nat.mul_add_mod_self_right, Nat.mod_eq_of_lt (by omega)] at e1
    rw [add_assoc, mul_comm, Nat.mul_add_div (by omega), Nat.div_eq_of_lt (by omega), add_zero] at e2
    refine ⟨by omega, x, y, y', e1.symm, rfl, ?_⟩
    rw [Fin.ext e2]

theorem rot_shift (theta : ℝ) {phi psi : ℝ} (h : ∃ k : ℤ, psi = phi + k * (2 * Real.pi)) : rot theta psi = rot theta phi := by
  have e := PhasePass.cexp_shift h
  have e' : cexp (I * psi) = cexp (I * phi) := by
    obtain ⟨k, rfl⟩ := h
    rw [Complex.exp_eq_exp_iff_exists_int]
    exact ⟨k, by push_cast; ring⟩
  unfold rot
  rw [show -(I * (psi : ℂ)) = -I * psi by ring, show -(I * (phi : ℂ)) = -I * phi by ring, e, e']

/-- A state reached from `U` after at most `n` rotations. -/
structure Reached (P : Pair) (U : Matrix (Fin (P.c * P.t)) (Fin (P.c * P.t)) ℂ) (n : Nat) (T : Matrix (Fin (P.c * P.t)) (Fin (P.c * P.t)) ℂ)
    (st : EState) : Prop where
  rows : st.u.rows = P.c * P.t
  cols : st.u.cols = P.c * P.t
  unitary : T ∈ unitaryGroup (Fin (P.c * P.t)) ℂ
  mat : st.u.toM (P.c * P.t) = T * U
  gates : Block P st.decomp T (2 * st.crots + 4 * st.pswaps)
  bound : 4 * st.crots + st.pswaps ≤ 4 * n

variable {U T : Matrix (Fin (P.c * P.t)) (Fin (P.c * P.t)) ℂ} {n : Nat} {eps : ℝ} {st : EState}

/-- appending a block to a state -/
theorem Reached.block (ho : Ordered P) (h : Reached P U n T st) {l : List EGate} {R : Matrix (Fin (P.c * P.t)) (Fin (P.c * P.t)) ℂ} {cr ps k : Nat}
    (hb : Block P l R (2 * cr + 4 * ps)) (hR : R ∈ unitaryGroup (Fin (P.c * P.t)) ℂ) (hk : 4 * cr + ps ≤ 4 * k) :
    ∃ v, applySeq P st.u l = .ok v ∧ Reached P U (n + k) (R * T) ⟨v, st.decomp ++ l, st.crots + cr, st.pswaps + ps⟩ := by
  have ht := ho.t
  obtain ⟨v, e1, e2, e3, e4⟩ := applySeq_ok ho.lines ⟨0, by omega⟩ ⟨1, by omega⟩ rfl rfl l st.u hb.good h.rows h.cols
  refine ⟨v, e1, e2, e3, mul_mem hR h.unitary, ?_, ?_, ?_⟩
  · show v.toM _ = _
    rw [e4, hb.op, h.mat, mul_assoc]
  · have := h.gates.append hb
    rw [show 2 * st.crots + 4 * st.pswaps + (2 * cr + 4 * ps) = 2 * (st.crots + cr) + 4 * (st.pswaps + ps) by ring] at this
    exact this
  · have := h.bound
    show 4 * (st.crots + cr) + (st.pswaps + ps) ≤ _
    omega

theorem get_ok (h1 : st.u.rows = P.c * P.t) (h2 : st.u.cols = P.c * P.t) (i c : Fin (P.c * P.t)) :
    st.u.get i c = .ok (st.u.toM (P.c * P.t) i c) := by
  unfold Arr2.get
  rw [if_pos ⟨by rw [h1]; exact i.isLt, by rw [h2]; exact c.isLt⟩]
  rfl

theorem step_big (ho : Ordered P) (h : Reached P U n T st) (c r a : Fin (P.c * P.t)) (ha : (r : Nat) = a + 1) (hbig : ‖(T * U) r c‖ > eps)
    (theta phi : ℝ) (hth : theta = 2 * arctan2 ‖(T * U) r c‖ ‖(T * U) a c‖)
    (hphi : phi = -(Real.pi / 2 + Complex.arg ((T * U) a c) - Complex.arg ((T * U) r c))) :
    ∃ st', step P eps c st r = .ok st' ∧ Reached P U (n + 1) (twoLevel a r (rot theta phi) * T) st' := by
  have ht := ho.t
  have har : a ≠ r := by rintro rfl; omega
  have hu : twoLevel a r (rot theta phi) ∈ unitaryGroup (Fin (P.c * P.t)) ℂ := twoLevel_unitary _ har (rot_unitary _ _)
  have hshift : ∀ th : ℝ, rot th (piMod phi) = rot th phi := fun th => rot_shift th (piMod_period phi)
  unfold step
  rw [get_ok h.rows h.cols r c, show (r : Nat) - 1 = a by omega, get_ok h.rows h.cols a c, h.mat]
  simp only [bind, Except.bind, pure, Except.pure]
  rw [if_pos hbig, ← hth, ← hphi]
  rcases neighbours ho.t a r ha with ⟨hm, x, y, y', hy, ea, er⟩ | ⟨hm, x, x', l0, m, hx, hl0, hmm, ea, er⟩
  · rw [if_neg (fun hh => hm hh.2)]
    obtain ⟨l, e, b⟩ := permuteCrot_ok ho.lines.ne ho.c x y y' hy theta (piMod phi)
    rw [← ea, ← er, hshift] at b
    rw [← ea] at e
    rw [e]
    simp only []
    obtain ⟨v, f1, f2⟩ := h.block ho (cr := 1) (ps := 0) (k := 1) b hu (by omega)
    rw [f1]
    exact ⟨_, rfl, f2⟩
  · have ha0 : (a : Nat) ≠ 0 := by
      intro h0
      rw [ha, h0, zero_add, Nat.mod_eq_of_lt (by omega)] at hm
      omega
    rw [if_pos ⟨ha0, hm⟩]
    obtain ⟨l, e, b⟩ := permutePswap_ok ho.lines.ne ho.t x x' hx l0 m hl0 hmm theta (piMod phi)
    rw [← ea, ← er, hshift] at b
    rw [← ea] at e
    rw [e]
    simp only []
    obtain ⟨v, f1, f2⟩ := h.block ho (cr := 0) (ps := 4) (k := 1) b hu (by omega)
    rw [f1]
    exact ⟨_, rfl, f2⟩

theorem Reached.more (h : Reached P U n T st) {m : Nat} (hm : n ≤ m) : Reached P U m T st :=
  ⟨h.rows, h.cols, h.unitary, h.mat, h.gates, by have := h.bound; omega⟩

theorem step_ok (ho : Ordered P) (heps : 0 ≤ eps) (h : Reached P U n T st) (c r : Fin (P.c * P.t)) (hcr : c < r)
    (hc : ColsClear eps c (T * U)) (hr : RowsClear eps c (r + 1) (T * U)) :
    ∃ T' st', step P eps c st r = .ok st' ∧ Reached P U (n + 1) T' st' ∧ ColsClear eps c (T' * U) ∧ RowsClear eps c r (T' * U) := by
  by_cases hbig : ‖(T * U) r c‖ > eps
  · rw [Fin.lt_def] at hcr
    obtain ⟨a, ha⟩ : ∃ a : Fin (P.c * P.t), (r : Nat) = a + 1 := ⟨⟨r - 1, by omega⟩, by simp; omega⟩
    have har : a ≠ r := by rintro rfl; omega
    obtain ⟨st', e1, e2⟩ := step_big ho h c r a ha hbig _ _ rfl rfl
    set x := (T * U) r c with hxd
    set y := (T * U) a c with hyd
    set theta := 2 * arctan2 ‖x‖ ‖y‖ with hth
    set phi := -(Real.pi / 2 + Complex.arg y - Complex.arg x) with hphi
    refine ⟨_, st', e1, e2, ?_, ?_⟩
    · intro c' hc'
      rw [mul_assoc, mass_twoLevel a r har _ (rot_unitary theta phi) (T * U) (below c') ((mem_below _ _).2 (by rw [Fin.lt_def]; omega))
        ((mem_below _ _).2 (by rw [Fin.lt_def]; omega))]
      exact hc c' hc'
    · intro r' c' hc' hr'
      have : c' = c := Fin.ext hc'
      subst this
      rw [mul_assoc]
      by_cases hrr : r' = r
      · subst hrr
        rw [twoLevel_mul_snd _ har]
        have hx0 : x ≠ 0 := by
          intro h0
          rw [h0, norm_zero] at hbig
          exact absurd hbig (not_lt.2 heps)
        have := clears x y hx0 theta phi rfl rfl
        rw [hxd, hyd] at this
        rw [this, norm_zero]
        exact heps
      · have h1 : (r' : Nat) ≠ r := fun e => hrr (Fin.ext e)
        rw [twoLevel_mul_other _ _ _ _ (by rintro rfl; omega) hrr]
        exact hr r' c' rfl (by omega)
  · unfold step
    rw [get_ok h.rows h.cols r c, h.mat]
    simp only [bind, Except.bind, pure, Except.pure]
    rw [if_neg hbig]
    refine ⟨T, st, rfl, h.more (Nat.le_succ n), hc, ?_⟩
    intro r' c' hc' hr'
    have : c' = c := Fin.ext hc'
    subst this
    by_cases hrr : r' = r
    · subst hrr; exact not_lt.1 hbig
    · have h1 : (r' : Nat) ≠ r := fun e => hrr (Fin.ext e)
      exact hr r' c' rfl (by omega)

theorem rows_ok (ho : Ordered P) (heps : 0 ≤ eps) (c : Fin (P.c * P.t)) :
    ∀ (m n : Nat) (T : Matrix (Fin (P.c * P.t)) (Fin (P.c * P.t)) ℂ) (st : EState),
    (c : Nat) + 1 + m ≤ P.c * P.t → Reached P U n T st → ColsClear eps c (T * U) → RowsClear eps c (c + 1 + m) (T * U) →
    ∃ T' st', (List.range' (c + 1) m).reverse.foldlM (step P eps c) st = .ok st' ∧ Reached P U (n + m) T' st' ∧
      ColsClear eps c (T' * U) ∧ RowsClear eps c (c + 1) (T' * U) := by
  intro m
  induction m with
  | zero => intro n T st _ h1 h2 h3; exact ⟨T, st, rfl, h1, h2, h3⟩
  | succ m ih =>
    intro n T st hm h1 h2 h3
    rw [List.range'_concat, List.reverse_append, List.reverse_singleton, List.singleton_append, List.foldlM_cons]
    obtain ⟨T', st', e1, e2, e3, e4⟩ := step_ok ho heps h1 c ⟨c + 1 + m, by omega⟩ (by rw [Fin.lt_def]; simp; omega) h2 h3
    have e1 : step P eps c st (c + 1 + m) = .ok st' := e1
    obtain ⟨T2, st2, f1, f2, f3, f4⟩ := ih (n + 1) T' st' (by omega) e2 e3 e4
    refine ⟨T2, st2, ?_, by rw [show n + (m + 1) = n + 1 + m by omega]; exact f2, f3, f4⟩
    rw [show (c : Nat) + 1 + 1 * m = c + 1 + m by omega, e1]
    exact f1

theorem cols_ok (ho : Ordered P) (heps : 0 ≤ eps) :
    ∀ (m c n : Nat) (T : Matrix (Fin (P.c * P.t)) (Fin (P.c * P.t)) ℂ) (st : EState),
    c + m = P.c * P.t → Reached P U n T st → ColsClear eps c (T * U) →
    ∃ T' st', (List.range' c m).foldlM (column P eps (P.c * P.t)) st = .ok st' ∧
      Reached P U (n + ∑ i ∈ Finset.range m, i) T' st' ∧ ColsClear eps (P.c * P.t) (T' * U) := by
  intro m
  induction m with
  | zero => intro c n T st hc h1 h2; exact ⟨T, st, rfl, h1, fun c' _ => h2 c' (by have := c'.isLt; omega)⟩
  | succ m ih =>
    intro c n T st hc h1 h2
    rw [List.range'_succ, List.foldlM_cons]
    obtain ⟨T', st', e1, e2, e3, e4⟩ := rows_ok ho heps (⟨c, by omega⟩ : Fin (P.c * P.t)) (P.c * P.t - 1 - c) n T st (by simp; omega) h1 h2 (by
      intro r c' _ hr
      have := r.isLt
      simp at hr
      omega)
    have hcol : column P eps (P.c * P.t) st c = .ok st' := by
      unfold column
      rw [rowsOf_eq (P.c * P.t) c (by omega)]
      exact e1
    rw [hcol]
    obtain ⟨T2, st2, f1, f2, f3⟩ := ih (c + 1) (n + (P.c * P.t - 1 - c)) T' st' (by omega) e2 (by
      intro c' hc'
      by_cases hcc : (c' : Nat) < c
      · exact e3 c' hcc
      · have hcc : (c' : Nat) = c := by omega
        rw [← card_below, ← nsmul_eq_mul, ← Finset.sum_const]
        refine Finset.sum_le_sum fun r hr => ?_
        have := e4 r c' hcc (by have := (mem_below _ _).1 hr; rw [Fin.lt_def] at this; simp; omega)
        exact pow_le_pow_left₀ (norm_nonneg _) this 2)
    refine ⟨T2, st2, f1, ?_, f3⟩
    have hm : m = P.c * P.t - 1 - c := by omega
    rw [Finset.sum_range_succ]
    rw [← hm] at f2
    rw [show n + (∑ i ∈ Finset.range m, i + m) = n + m + ∑ i ∈ Finset.range m, i by omega]
    exact f2

end Qudits.EntQR
