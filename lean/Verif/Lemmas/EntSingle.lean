import Verif.Lemmas.EntPhases
/- Gates that need a single rotation, and the adjoint of a list of gates. -/
namespace Qudits.EntQR
open Matrix Complex Spec LocalQR QRAlg

variable {P : Pair}

theorem foldlM_const {α β : Type} (f : β → α → Except PyErr β) (s : β) : ∀ l : List α, (∀ x ∈ l, f s x = .ok s) → l.foldlM f s = .ok s := by
  intro l
  induction l with
  | nil => intro _; rfl
  | cons x l ih =>
    intro h
    rw [List.foldlM_cons, h x (by simp)]
    exact ih fun y hy => h y (by simp [hy])

variable {eps : ℝ} {st : EState}

theorem step_zero (heps : 0 ≤ eps) (h1 : st.u.rows = P.c * P.t) (h2 : st.u.cols = P.c * P.t) (r c : Fin (P.c * P.t))
    (h : st.u.toM (P.c * P.t) r c = 0) : step P eps c st r = .ok st := by
  unfold step
  rw [get_ok h1 h2 r c, h]
  simp only [bind, Except.bind, pure, Except.pure, norm_zero]
  rw [if_neg (not_lt.2 heps)]

theorem column_zero (heps : 0 ≤ eps) (h1 : st.u.rows = P.c * P.t) (h2 : st.u.cols = P.c * P.t) (c : Fin (P.c * P.t))
    (h : ∀ r : Fin (P.c * P.t), c < r → st.u.toM (P.c * P.t) r c = 0) : column P eps (P.c * P.t) st c = .ok st := by
  unfold column
  refine foldlM_const _ _ _ fun r hr => ?_
  rw [rowsOf_eq _ _ c.isLt, List.mem_reverse, List.mem_range'_1] at hr
  exact step_zero heps h1 h2 ⟨r, by omega⟩ c (h ⟨r, by omega⟩ (by rw [Fin.lt_def]; simp; omega))

/-- the exchange of two levels, up to a sign -/
theorem swap_entry {n : Nat} (a r i j : Fin n) (hi : i ≠ j) (hj : j ≠ a) (hj' : j ≠ r) (M : Matrix (Fin 2) (Fin 2) ℂ) :
    twoLevel a r M i j = 0 := by
  simp only [twoLevel, hj, hj', if_false]
  split_ifs <;> first | rfl | exact absurd ‹_› hi

/-- The decomposition of a gate that exchanges two neighbouring levels of one block: one controlled rotation. -/
theorem execute_single (ho : Ordered P) {del : ℝ} (heps : 0 ≤ eps) (heps1 : eps < 1) (hdel : 0 ≤ del) (rnd : ℝ → ℝ) (hrnd : rnd 0 = 0)
    (a r : Fin (P.c * P.t)) (har : (r : Nat) = a + 1) (hm : (r : Nat) % P.t ≠ 0) (u : Arr2 ℂ) (hr : u.rows = P.c * P.t) (hc : u.cols = P.c * P.t)
    (hu : u.toM (P.c * P.t) = twoLevel a r !![0, -1; 1, 0]) :
    ∃ st theta phi, execute P eps del rnd u = .ok st ∧ rot theta phi = !![0, 1; -1, 0] ∧ permuteCrot P a theta phi = .ok st.decomp := by
  have hne : a ≠ r := by rintro rfl; omega
  obtain ⟨x, y, y', hy, ea, er⟩ : ∃ (x : Fin P.c) (y y' : Fin P.t), (y' : Nat) = y + 1 ∧ a = jn x y ∧ r = jn x y' := by
    rcases neighbours ho.t a r har with ⟨_, h⟩ | ⟨h, _⟩
    · exact h
    · exact absurd h hm
  have e1 : u.toM (P.c * P.t) r a = 1 := by rw [hu]; simp [twoLevel, hne.symm]
  have e2 : u.toM (P.c * P.t) a a = 0 := by rw [hu]; simp [twoLevel]
  have hth : 2 * arctan2 ‖(1 : ℂ)‖ ‖(0 : ℂ)‖ = Real.pi := by
    unfold arctan2
    rw [norm_one, norm_zero, show (⟨0, 1⟩ : ℂ) = I from rfl, Complex.arg_I]
    ring
  have hrot : rot (2 * arctan2 ‖(1 : ℂ)‖ ‖(0 : ℂ)‖) (piMod (-(Real.pi / 2 + Complex.arg 0 - Complex.arg 1))) = !![0, 1; -1, 0] := by
    rw [rot_shift _ (piMod_period _), hth, Complex.arg_zero, Complex.arg_one, ← rot_swap]
    congr 1; ring
  obtain ⟨l, hl, bl⟩ := permuteCrot_ok ho.lines.ne ho.c x y y' hy (2 * arctan2 ‖(1 : ℂ)‖ ‖(0 : ℂ)‖)
    (piMod (-(Real.pi / 2 + Complex.arg 0 - Complex.arg 1)))
  rw [← ea, ← er, hrot] at bl
  rw [← ea] at hl
  have ht := ho.t
  obtain ⟨v, f1, f2, f3, f4⟩ := applySeq_ok ho.lines ⟨0, by omega⟩ ⟨1, by omega⟩ rfl rfl l u bl.good hr hc
  have hv : v.toM (P.c * P.t) = 1 := by
    rw [f4, bl.op, hu, twoLevel_mul _ _ hne, ← twoLevel_one hne]
    congr 1
    ext i j
    fin_cases i <;> fin_cases j <;> simp [Matrix.mul_apply, Fin.sum_univ_two]
  set st0 : EState := ⟨u, [], 0, 0⟩ with hst0
  set st1 : EState := ⟨v, l, 1, 0⟩ with hst1
  have hstep : step P eps a st0 r = .ok st1 := by
    unfold step
    rw [get_ok (st := st0) hr hc r a, show (r : Nat) - 1 = a by omega, get_ok (st := st0) hr hc a a, show st0.u.toM (P.c * P.t) r a = 1 from e1,
      show st0.u.toM (P.c * P.t) a a = 0 from e2]
    simp only [bind, Except.bind, pure, Except.pure]
    rw [if_pos (by rw [norm_one]; exact heps1), if_neg (fun h => hm h.2), hl]
    simp only []
    rw [f1]
    rfl
  have hcol : column P eps (P.c * P.t) st0 a = .ok st1 := by
    unfold column
    rw [rowsOf_eq _ _ a.isLt]
    obtain ⟨k, hk⟩ : ∃ k, (P.c * P.t) - 1 - (a : Nat) = k + 1 := ⟨(P.c * P.t) - 1 - a - 1, by have := r.isLt; omega⟩
    rw [hk, List.range'_succ, List.reverse_cons, List.foldlM_append]
    have : (List.range' ((a : Nat) + 1 + 1) k).reverse.foldlM (step P eps a) st0 = .ok st0 := by
      refine foldlM_const _ _ _ fun r' hr' => ?_
      rw [List.mem_reverse, List.mem_range'_1] at hr'
      refine step_zero heps hr hc ⟨r', by omega⟩ a ?_
      show u.toM (P.c * P.t) _ _ = 0
      rw [hu]
      have h1 : (⟨r', by omega⟩ : Fin (P.c * P.t)) ≠ a := by rw [Ne, Fin.ext_iff]; simp; omega
      have h2 : (⟨r', by omega⟩ : Fin (P.c * P.t)) ≠ r := by rw [Ne, Fin.ext_iff]; simp; omega
      simp [twoLevel, h1, h2]
    rw [this]
    simp only [bind, Except.bind]
    rw [List.foldlM_cons, ← har, hstep]
    rfl
  have hbefore : (List.range' 0 (a : Nat)).foldlM (column P eps (P.c * P.t)) st0 = .ok st0 := by
    refine foldlM_const _ _ _ fun c hc' => ?_
    rw [List.mem_range'_1] at hc'
    refine column_zero heps hr hc ⟨c, by omega⟩ fun r' hr' => ?_
    show u.toM (P.c * P.t) _ _ = 0
    rw [Fin.lt_def] at hr'
    simp only [] at hr'
    rw [hu]
    refine swap_entry _ _ _ _ ?_ ?_ ?_ _
    · rw [Ne, Fin.ext_iff]; simp; omega
    · rw [Ne, Fin.ext_iff]; simp; omega
    · rw [Ne, Fin.ext_iff]; simp; omega
  have hafter : (List.range' ((a : Nat) + 1) ((P.c * P.t) - 1 - a)).foldlM (column P eps (P.c * P.t)) st1 = .ok st1 := by
    refine foldlM_const _ _ _ fun c hc' => ?_
    rw [List.mem_range'_1] at hc'
    refine column_zero heps f2 f3 ⟨c, by omega⟩ fun r' hr' => ?_
    show v.toM (P.c * P.t) _ _ = 0
    rw [hv, Matrix.one_apply_ne hr'.ne']
  have hall : (List.range (P.c * P.t)).foldlM (column P eps (P.c * P.t)) st0 = .ok st1 := by
    rw [List.range_eq_range', show (P.c * P.t) = a + (1 + ((P.c * P.t) - 1 - a)) by have := a.isLt; omega, ← List.range'_append_1, List.foldlM_append,
      ← show (P.c * P.t) = a + (1 + ((P.c * P.t) - 1 - a)) by have := a.isLt; omega, hbefore]
    simp only [bind, Except.bind]
    rw [zero_add, ← List.range'_append_1, List.foldlM_append]
    simp only [List.range'_one, List.foldlM_cons, List.foldlM_nil, bind, Except.bind, pure, Except.pure]
    rw [hcol]
    exact hafter
  obtain ⟨eq, q1, q2⟩ := equations_ok (P.c * P.t)
  have hsolve : solvePhases (P.c * P.t) eq (fun _ => 0) = .ok fun _ => 0 := by
    have hE : (fun i j => eq.at' i j : Matrix (Fin (P.c * P.t)) (Fin ((P.c * P.t) - 1)) ℝ) = inc (P.c * P.t) := by
      funext i j; exact q2 i j
    unfold solvePhases
    simp only []
    rw [hE, if_neg (normal_det (P.c * P.t))]
    congr 1
    rw [show (fun _ => 0 : Fin (P.c * P.t) → ℝ) = 0 from rfl, mulVec_zero, mulVec_zero]
    rfl
  refine ⟨st1, _, _, ?_, hrot, hl⟩
  unfold execute
  simp only []
  rw [hall]
  simp only [bind, Except.bind]
  have hargs : diagArgs rnd (P.c * P.t) st1.u = .ok fun _ => 0 := by
    unfold diagArgs
    rw [if_pos ⟨f2.ge, f3.ge⟩]
    congr 1
    funext i
    have : st1.u.at' i i = 1 := by
      have := congrFun (congrFun hv i) i
      rw [Matrix.one_apply_eq] at this
      exact this
    rw [this, Complex.arg_one, hrnd]
  rw [hargs]
  simp only []
  rw [q1]
  simp only []
  rw [hsolve]
  refine foldlM_const _ _ _ fun i _ => ?_
  unfold phaseStep
  rw [if_neg]
  · rfl
  · rw [zero_mul, abs_zero]; exact not_lt.2 hdel

/-! ### adjoints of lists -/

theorem circuitOp_revDag (l : List EGate) (hp : ∀ g ∈ l, g.dagger = false) (hg : ∀ g ∈ l, Good P g) :
    circuitOp (pairOp P) (revDag l) = (circuitOp (pairOp P) l)ᴴ := by
  induction l with
  | nil => simp [revDag, circuitOp_nil]
  | cons x l ih =>
    have e : revDag (x :: l) = revDag l ++ [x.dag] := by simp [revDag]
    rw [e, circuitOp_append, ih (fun g h => hp g (by simp [h])) (fun g h => hg g (by simp [h])), circuitOp_cons, circuitOp_cons, circuitOp_nil,
      one_mul, conjTranspose_mul, pairOp_dag x (hp x (by simp)) (hg x (by simp))]

theorem revDag_append (l m : List EGate) : revDag (l ++ m) = revDag m ++ revDag l := by
  simp [revDag]

theorem dag_dag (g : EGate) : g.dag.dag = g.dag := by cases g <;> rfl

theorem mkR_plain {line : Int} {dim : Nat} {a b : Int} {theta phi : ℝ} {g : EGate} (h : mkR line dim a b theta phi = .ok g) : g.dagger = false := by
  unfold mkR at h
  cases hn : newRot dim a b theta phi with
  | error e => rw [hn] at h; cases h
  | ok w => rw [hn] at h; cases h; rfl

theorem mkRz_plain {line : Int} {dim : Nat} {a b : Int} {phi : ℝ} {g : EGate} (h : mkRz line dim a b phi = .ok g) : g.dagger = false := by
  unfold mkRz at h
  cases hn : rzInit dim (.list [.int a, .int b, .flt phi]) with
  | error e => rw [hn] at h; cases h
  | ok w => rw [hn] at h; cases h; rfl

theorem mkCEx_plain {g : EGate} (h : mkCEx P = .ok g) : g.dagger = false := by
  unfold mkCEx at h
  cases hn : cexInit .none with
  | error e => rw [hn] at h; cases h
  | ok w => rw [hn] at h; cases h; rfl

theorem crot_plain {theta phi : ℝ} {l : List EGate} (h : crot P theta phi = .ok l) : ∀ g ∈ l, g.dagger = false := by
  unfold crot at h
  obtain ⟨fb, hfb, h⟩ := bind_ok h
  obtain ⟨tm, htm, h⟩ := bind_ok h
  obtain ⟨tp, htp, h⟩ := bind_ok h
  obtain ⟨ft, hft, h⟩ := bind_ok h
  obtain ⟨cx, hcx, h⟩ := bind_ok h
  cases h
  intro g hg
  simp only [List.mem_cons, List.not_mem_nil, or_false] at hg
  rcases hg with rfl | rfl | rfl | rfl | rfl | rfl | rfl | rfl
  · exact mkR_plain hft
  · exact mkCEx_plain hcx
  · rfl
  · exact mkRz_plain htm
  · exact mkCEx_plain hcx
  · exact mkRz_plain htp
  · rfl
  · exact mkR_plain hfb

end Qudits.EntQR
