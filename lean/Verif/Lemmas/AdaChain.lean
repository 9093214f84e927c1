import Verif.Lemmas.AdaSearch
import Verif.Lemmas.AdaRoute
import Verif.Props.GateArrayProps
/- Branches of the search and what the gates on them do. -/
namespace Qudits.Adaptive
open LGraph LocalQR Spec Matrix Qudits.Tree QRAlg Complex

variable {d : Nat} {off : ℝ} {limit : ℝ × ℝ}

theorem thetaCost_min (t : ℝ) : 8e-5 ≤ thetaCost (regulateTheta t) := by
  have hp := Real.pi_pos
  have h1 := (regulate_min t).1
  have h2 : 0.2 ≤ |regulateTheta t / Real.pi| := by
    rw [abs_div, abs_of_pos hp, le_div_iff₀ hp]; exact h1
  unfold thetaCost
  have h3 := abs_nonneg (pyMod (|regulateTheta t / Real.pi| + 0.25) 0.5 - 0.25)
  nlinarith

/-- the child `c'` of `c` -/
structure Follows (d : Nat) (I : Core → Prop) (Φ : Core → Matrix (Fin d) (Fin d) ℂ) (Q : RGate → Prop) (c c' : Core) : Prop where
  inv : I c'
  limit : c'.data.limit = c.data.limit
  dearer : c.dcost + 8e-5 ≤ c'.dcost
  within : c'.dcost < c'.data.limit.2 + 1e-12
  op : ∀ q, circuitOp (PhasePass.lineOp d) ((c'.data.pulses ++ c'.data.rot.toList).map (rotInstr q d)) * Φ c = Φ c'
  gates : ∀ r ∈ c'.data.pulses ++ c'.data.rot.toList, Q r

/-- at most `n` more rotations can be paid for -/
def Depth (n : Nat) (c : Core) : Prop := c.data.limit.2 + 1e-12 - c.dcost < (n + 1) * 8e-5

variable {I : Core → Prop} {Φ : Core → Matrix (Fin d) (Fin d) ℂ} {Q : RGate → Prop}

theorem depth_step (n : Nat) (c c' : Core) (h : Follows d I Φ Q c c') (hd : Depth n c) : ∃ m, n = m + 1 ∧ Depth m c' := by
  have h1 := h.dearer
  have h2 := h.within
  unfold Depth at *
  rw [h.limit] at h2 ⊢
  cases n with
  | zero => push_cast at hd; exfalso; linarith
  | succ m => exact ⟨m, rfl, by push_cast at hd; linarith⟩

theorem depth_fuel (fuel : Nat) (hf : 0 < fuel) (c : Core) (h0 : c.dcost = 0) (h : ∀ n, Depth n c → fuel ≤ n) :
    (fuel : ℝ) * 8e-5 ≤ c.data.limit.2 + 1e-12 := by
  by_contra hc
  obtain ⟨n, rfl⟩ : ∃ n, fuel = n + 1 := ⟨fuel - 1, by omega⟩
  have := h n (by unfold Depth; rw [h0, sub_zero]; push_cast at hc; exact not_le.1 hc)
  omega

theorem chain_follows : ∀ (p : List (TNode NodeData (Option LGraph))) (c0 : Core) (l : TNode NodeData (Option LGraph)), I c0 →
    (p.map core).IsChain (Follows d I Φ Q) → (p.map core).head? = some c0 → p.getLast? = some l →
    (∀ q, circuitOp (PhasePass.lineOp d) (nodeGates q d p) * Φ c0 = Φ (core l)) ∧ I (core l) ∧
      (∀ q, ∀ x ∈ nodeGates q d p, ∃ r, x = rotInstr q d r ∧ Q r) ∧ l.data.limit = c0.data.limit ∧
      (core l = c0 ∨ l.dcost < c0.data.limit.2 + 1e-12) := by
  intro p
  induction p with
  | nil => intro c0 l _ _ h; simp at h
  | cons x xs ih =>
    intro c0 l hI hc hh hl
    simp only [List.map_cons, List.head?_cons, Option.some.injEq] at hh
    cases xs with
    | nil =>
      simp only [List.getLast?_singleton, Option.some.injEq] at hl
      subst hl
      refine ⟨?_, by rw [hh]; exact hI, by simp [nodeGates], congrArg (fun c => c.data.limit) hh, Or.inl hh⟩
      intro q
      simp [nodeGates, circuitOp_nil, hh]
    | cons y ys =>
      simp only [List.map_cons, List.isChain_cons_cons] at hc
      have hf : Follows d I Φ Q c0 (core y) := hh ▸ hc.1
      obtain ⟨i1, i2, i3, i4, i5⟩ := ih (core y) l hf.inv (by simpa using hc.2) (by simp) (by simpa using hl)
      have hng : ∀ q, nodeGates q d (x :: y :: ys) = (y.data.pulses ++ y.data.rot.toList).map (rotInstr q d) ++ nodeGates q d (y :: ys) := by
        intro q; simp [nodeGates]
      refine ⟨?_, i2, ?_, i4.trans hf.limit, Or.inr ?_⟩
      · intro q
        rw [hng, circuitOp_append, mul_assoc]
        have := hf.op q
        change circuitOp _ ((y.data.pulses ++ y.data.rot.toList).map (rotInstr q d)) * Φ c0 = _ at this
        rw [this, i1]
      · intro q g hg
        rw [hng] at hg
        rcases List.mem_append.1 hg with hg | hg
        · obtain ⟨r, hr, rfl⟩ := List.mem_map.1 hg
          exact ⟨r, rfl, hf.gates r hr⟩
        · exact i3 q g hg
      · have hw := hf.within
        rw [hf.limit] at hw i5
        rcases i5 with h | h
        · have : l.dcost = (core y).dcost := congrArg Core.dcost h
          rw [this]; exact hw
        · exact h

/-- a matrix of the right size -/
structure Square (d : Nat) (u : Arr2 ℂ) : Prop where
  rows : u.rows = d
  cols : u.cols = d
  unitary : u.toM d ∈ unitaryGroup (Fin d) ℂ

theorem Square.get {u : Arr2 ℂ} (h : Square d u) (i j : Fin d) : u.get i j = .ok (u.toM d i j) := by
  unfold Arr2.get
  rw [if_pos ⟨by rw [h.rows]; exact i.isLt, by rw [h.cols]; exact j.isLt⟩]
  rfl

/-- the rotation of the search, as array and applied -/
theorem rotate_ok {u : Arr2 ℂ} (h : Square d u) (a b : Fin d) (hab : a < b) (theta phi : ℝ) :
    ∃ A B, newRot d (a : Nat) (b : Nat) theta phi = .ok ⟨nm a, nm b, ⟨nm a, nm b, regulateTheta theta, phi⟩⟩ ∧
      rArray d ⟨nm a, nm b, regulateTheta theta, phi⟩ = .ok A ∧ A.matmul u = .ok B ∧ Square d B ∧
      B.toM d = twoLevel a b (rot theta phi) * u.toM d := by
  have hnew := newRot_ok a b hab.ne theta phi
  rw [min_eq_left hab.le, max_eq_right hab.le] at hnew
  obtain ⟨A, hA1, hA2, hA3, hA4⟩ := rArray_ok (d := d) (g := ⟨nm a, nm b, regulateTheta theta, phi⟩) (a := a) (b := b) ⟨rfl, rfl, hab⟩
  have hA4 : A.toM d = twoLevel a b (rot theta phi) := by rw [hA4]; congr 1; exact rot_regulate theta phi
  obtain ⟨B, hB1, hB2, hB3, hB4⟩ := matmul_ok A u d hA2 hA3 h.rows h.cols
  refine ⟨A, B, hnew, hA1, hB1, ⟨hB2, hB3, ?_⟩, by rw [hB4, hA4]⟩
  rw [hB4, hA4]
  exact mul_mem (twoLevel_unitary _ hab.ne (rot_unitary theta phi)) h.unitary

/-! ### the logical search -/

/-- what holds at every node -/
def LogInv (d : Nat) (u : Arr2 ℂ) (c : Core) : Prop := Square d c.data.u ∧ (c.graph = none ∨ c.data.u = u)

/-- a rotation between levels of the line -/
def OnLine (d : Nat) (r : RGate) : Prop := 0 ≤ r.par.levA ∧ r.par.levA < r.par.levB ∧ r.par.levB < d

theorem affordable_lt {a b : ℝ} (h : Affordable a b) : b < a + 1e-12 := by
  rcases h with h | h
  · linarith [show (0 : ℝ) < 1e-12 by norm_num]
  · rw [abs_lt] at h; linarith

theorem logTriples_mem {n : Nat} {t : Nat × Nat × Nat} (h : t ∈ logTriples n) : t.1 ≤ t.2.1 ∧ t.2.1 < t.2.2 ∧ t.2.2 < n := by
  unfold logTriples at h
  simp only [List.mem_flatMap, List.mem_range, List.mem_range', List.mem_map] at h
  obtain ⟨c, hc, r, ⟨i, hi, rfl⟩, r2, ⟨j, hj, rfl⟩, rfl⟩ := h
  simp only
  omega

theorem phyTriples_mem {n : Nat} {t : Nat × Nat × Nat} (h : t ∈ phyTriples n) : t.1 ≤ t.2.1 ∧ t.2.1 < t.2.2 ∧ t.2.2 < n := by
  unfold phyTriples at h
  simp only [List.mem_filter, List.mem_flatMap, List.mem_range, List.mem_map] at h
  obtain ⟨⟨c, hc, r, hr, r2, hr2, rfl⟩, h⟩ := h
  simp only [Bool.not_eq_true', Bool.or_eq_false_iff, decide_eq_false_iff_not] at h
  simp only
  omega

theorem logStep_ok (d : Nat) (u : Arr2 ℂ) : StepOk logTriples (logStep d) (LogInv d u) (Follows d (LogInv d u) (fun c => c.data.u.toM d) (OnLine d)) := by
  classical
  rintro r news k ⟨c, a, b⟩ ht ⟨hI, _⟩
  have hI : Square d r.data.u := hI
  rw [hI.rows] at ht
  obtain ⟨h1, h2, h3⟩ := logTriples_mem ht
  simp only at h1 h2 h3
  obtain ⟨fc, hfc⟩ : ∃ f : Fin d, (f : Nat) = c := ⟨⟨c, by omega⟩, rfl⟩
  obtain ⟨fa, hfa⟩ : ∃ f : Fin d, (f : Nat) = a := ⟨⟨a, by omega⟩, rfl⟩
  obtain ⟨fb, hfb⟩ : ∃ f : Fin d, (f : Nat) = b := ⟨⟨b, by omega⟩, rfl⟩
  subst hfc hfa hfb
  have hab : fa < fb := h2
  unfold logStep
  have htop : (withChildren r news).top = { r with size := news.length } := rfl
  simp only [htop, bind, Except.bind, pure, Except.pure, hI.get]
  split_ifs with hx
  · obtain ⟨A, B, e1, e2, e3, e4, e5⟩ := rotate_ok hI fa fb hab (2 * arctan2 ‖r.data.u.toM d fb fc‖ ‖r.data.u.toM d fa fc‖)
      (-(Real.pi / 2 + Complex.arg (r.data.u.toM d fa fc) - Complex.arg (r.data.u.toM d fb fc)))
    rw [e1]
    simp only [e2, e3]
    split_ifs with ha
    · right
      refine ⟨⟨some _, B, r.data.limit, []⟩, none, 0, _, by rw [nodeAdd_withChildren], ⟨⟨e4, Or.inl rfl⟩, rfl, ?_, affordable_lt ha, ?_, ?_⟩, ⟨e4, Or.inl rfl⟩⟩
      · show r.dcost + 8e-5 ≤ _ + r.dcost
        have := thetaCost_min (2 * arctan2 ‖r.data.u.toM d fb fc‖ ‖r.data.u.toM d fa fc‖)
        linarith
      · intro q
        show circuitOp _ [_] * r.data.u.toM d = B.toM d
        rw [circuitOp_cons, circuitOp_nil, one_mul, e5, lineOp_rot q _ fa fb hab.ne (by rw [min_eq_left hab.le]; rfl)
          (by rw [max_eq_right hab.le]; rfl), if_pos hab]
        show twoLevel fa fb (rot (regulateTheta _) _) * _ = _
        rw [rot_regulate]
      · intro x hx
        simp at hx
        subst hx
        have := fb.isLt
        refine ⟨?_, ?_, ?_⟩ <;> simp only [nm] <;> omega
    · exact Or.inl rfl
  · exact Or.inl rfl

/-! ### the end of a branch -/

/-- the phase gates undo the diagonal -/
theorem isDiag_near {u : Arr2 ℂ} (h : Square d u) {del : ℝ} (hoff : 0 ≤ off) (hdel : 0 ≤ del) (hd : IsDiag off u) :
    NearOne (qrError d off del) (phasesFrom 0 (fun j => |arg (u.toM d j j)| > del) (fun j => arg (u.toM d j j)) * u.toM d) := by
  refine nearOne_phases (eps := off) hdel (u.toM d) h.unitary _ (mass_below _ ?_)
  intro c _
  calc ∑ r ∈ below c, ‖u.toM d r c‖ ^ 2 ≤ ∑ r ∈ below c, off ^ 2 := by
        refine Finset.sum_le_sum fun r hr => ?_
        have hrc : c < r := (mem_below _ _).1 hr
        have hne : (r : Nat) ≠ c := fun e => absurd (Fin.ext e) hrc.ne'
        have := hd.1 r (by rw [h.rows]; exact r.isLt) c (by rw [h.cols]; exact c.isLt) hne
        exact pow_le_pow_left₀ (norm_nonneg _) this 2
    _ = _ := by rw [Finset.sum_const, card_below, nsmul_eq_mul]

end Qudits.Adaptive
