import Verif.Lemmas.AdaMain
/- A search finds something if the entries it meets are not tiny: it can do what the QR decomposition does. -/
namespace Qudits.Adaptive
open LGraph LocalQR Spec Matrix Qudits.Tree QRAlg Complex

variable {d : Nat} {off : ℝ} {lim : ℝ × ℝ} {g g0 : LGraph} {lp : Equiv.Perm (Fin d)} {sp : PathFinder}
  {triples : Nat → List (Nat × Nat × Nat)} {step : Step} {J : Core → Prop} {U : Matrix (Fin d) (Fin d) ℂ} {emit : Emit}
  {C : Matrix (Fin d) (Fin d) ℂ →* Matrix (Fin d) (Fin d) ℂ} {Q : PInstr → Prop} {L : Nat}

/-- the node `c` has the matrix of the state `st` and has not cost more -/
structure Good (d : Nat) (U : Matrix (Fin d) (Fin d) ℂ) (lim : ℝ × ℝ) (J : Core → Prop) (st : QrState) (c : Core) : Prop where
  sq : Square d st.u
  sq' : Square d c.data.u
  mat : c.data.u.toM d = st.u.toM d
  cleared : Cleared U (st.u.toM d)
  cost : c.dcost ≤ st.tot
  limit : c.data.limit = lim
  inv : J c

/-- the rule can do what a step of the QR decomposition does -/
def CanTurn (d : Nat) (sp : PathFinder) (g : LGraph) (step : Step) (J : Core → Prop) : Prop :=
  ∀ (c : Core) (col a r : Fin d) (k : Costs) (nz : Nat), (r : Nat) = a + 1 → Square d c.data.u → J c → ‖c.data.u.toM d r col‖ > 1e-8 →
    (‖c.data.u.toM d a col‖ > 1e-18 ∨ ‖c.data.u.toM d a col‖ = 0) →
    costCalculator sp d ⟨nm a, nm r, ⟨nm a, nm r, regulateTheta (2 * arctan2 ‖c.data.u.toM d r col‖ ‖c.data.u.toM d a col‖),
      -(Real.pi / 2 + arg (c.data.u.toM d a col) - arg (c.data.u.toM d r col))⟩⟩ g nz = .ok k →
    c.dcost + (2 * k.piCost + k.gateCost) ≤ c.data.limit.2 →
    ∃ c', Adds step c ((col : Nat), (a : Nat), (r : Nat)) c' ∧ Square d c'.data.u ∧ c'.data.u.toM d =
      twoLevel a r (rot (2 * arctan2 ‖c.data.u.toM d r col‖ ‖c.data.u.toM d a col‖)
        (-(Real.pi / 2 + arg (c.data.u.toM d a col) - arg (c.data.u.toM d r col)))) * c.data.u.toM d ∧
      c'.dcost ≤ c.dcost + (2 * k.piCost + k.gateCost) ∧ c'.data.limit = c.data.limit ∧ J c'

/-- the search succeeds from every node that goes with the state -/
def Succeeds (d : Nat) (off : ℝ) (triples : Nat → List (Nat × Nat × Nat)) (step : Step) (U : Matrix (Fin d) (Fin d) ℂ) (lim : ℝ × ℝ)
    (J : Core → Prop) (st : QrState) : Prop := ∀ c, Good d U lim J st c → Leads off triples step c

/-- the decomposition goes from `st` to `st'`, success comes back -/
def Back (d : Nat) (off : ℝ) (triples : Nat → List (Nat × Nat × Nat)) (step : Step) (U : Matrix (Fin d) (Fin d) ℂ) (lim : ℝ × ℝ)
    (J : Core → Prop) (st st' : QrState) : Prop :=
  Square d st.u → Square d st'.u ∧ st.tot ≤ st'.tot ∧
    (st'.tot ≤ lim.2 → Succeeds d off triples step U lim J st' → Succeeds d off triples step U lim J st)

theorem Back.refl (st : QrState) : Back d off triples step U lim J st st := fun h => ⟨h, le_rfl, fun _ h => h⟩

theorem Back.trans {a b c : QrState} (h : Back d off triples step U lim J a b) (k : Back d off triples step U lim J b c) :
    Back d off triples step U lim J a c := by
  intro ha
  obtain ⟨h1, h2, h3⟩ := h ha
  obtain ⟨k1, k2, k3⟩ := k h1
  exact ⟨k1, h2.trans k2, fun hl hs => h3 (k2.trans hl) (k3 hl hs)⟩

theorem fold_back {α : Type} (f : QrState → α → Except PyErr QrState) (l : List α)
    (hf : ∀ x ∈ l, ∀ st st', f st x = .ok st' → Back d off triples step U lim J st st') (st st' : QrState) (h : l.foldlM f st = .ok st') :
    Back d off triples step U lim J st st' := by
  induction l generalizing st with
  | nil =>
    simp only [List.foldlM_nil, pure, Except.pure, Except.ok.injEq] at h
    subst h
    exact Back.refl _
  | cons x xs ih =>
    rw [List.foldlM_cons] at h
    cases e : f st x with
    | error y => rw [e] at h; cases h
    | ok s =>
      rw [e] at h
      exact (hf x (by simp) st s e).trans (ih (fun y hy => hf y (by simp [hy])) s h)

theorem qrStep_back (he : EmitOk sp d g emit C Q L) (ht : ∀ c a r : Nat, c ≤ a → a < r → r < d → (c, a, r) ∈ triples d) (hn : NoTinyEntries U)
    (hcan : CanTurn d sp g step J) (col r : Fin d) (hcr : col < r) (st st' : QrState) (h : qrStep sp d 1e-8 emit g col st r = .ok st') :
    Back d off triples step U lim J st st' := by
  intro hsq
  rw [Fin.lt_def] at hcr
  obtain ⟨a, ha⟩ : ∃ a : Fin d, (r : Nat) = a + 1 := ⟨⟨r - 1, by omega⟩, by simp; omega⟩
  have hlt : a < r := by rw [Fin.lt_def]; omega
  unfold qrStep at h
  rw [hsq.get r col, show (r : Nat) - 1 = a by omega, hsq.get a col] at h
  simp only [bind, Except.bind, pure, Except.pure] at h
  by_cases hbig : ‖st.u.toM d r col‖ > 1e-8
  · rw [if_pos hbig] at h
    generalize hth : 2 * arctan2 ‖st.u.toM d r col‖ ‖st.u.toM d a col‖ = theta at h
    generalize hph : -(Real.pi / 2 + Complex.arg (st.u.toM d a col) - Complex.arg (st.u.toM d r col)) = phi at h
    obtain ⟨A, B, e1, e2, e3, e4, e5⟩ := rotate_ok hsq a r hlt theta phi
    rw [show (((r : Nat) : Int) - 1) = ((a : Nat) : Int) by omega, e1] at h
    simp only [e2, e3] at h
    obtain ⟨k, out, c1, c2, _, _, _, _, c7⟩ := he a r ha theta phi (countNonzero B)
    rw [c1] at h
    simp only [c2] at h
    simp only [Except.ok.injEq] at h
    subst h
    refine ⟨e4, by simp only; linarith, fun hl hs c hg => ?_⟩
    simp only at hl
    have hm := hg.mat
    have hy : ‖c.data.u.toM d a col‖ > 1e-18 ∨ ‖c.data.u.toM d a col‖ = 0 := by
      rw [hm]
      rcases hn _ hg.cleared a col with h | h
      · right; rw [h, norm_zero]
      · left; exact h
    obtain ⟨c', f1, f2, f3, f4, f5, f6⟩ := hcan c col a r k (countNonzero B) ha hg.sq' hg.inv (by rw [hm]; exact hbig) hy
      (by rw [hm, hth, hph]; exact c1) (by rw [hg.limit]; have := hg.cost; linarith)
    rw [hm, hth, hph] at f3
    refine Leads.step c _ c' ?_ f1 (hs c' ⟨e4, f2, by rw [f3, e5], ?_, ?_, by rw [f5, hg.limit], f6⟩)
    · rw [hg.sq'.rows]
      exact ht _ _ _ (by omega) (by omega) r.isLt
    · show Cleared U (B.toM d)
      rw [e5, ← hth, ← hph]
      exact Cleared.turn _ hg.cleared col a r ha (by rw [Fin.le_def]; omega) hbig
    · have := hg.cost
      show c'.dcost ≤ st.tot + (2 * k.piCost + k.gateCost)
      linarith
  · rw [if_neg hbig] at h
    simp only [Except.ok.injEq] at h
    subst h
    exact Back.refl _ hsq

theorem qrColumn_back (he : EmitOk sp d g emit C Q L) (ht : ∀ c a r : Nat, c ≤ a → a < r → r < d → (c, a, r) ∈ triples d) (hn : NoTinyEntries U)
    (hcan : CanTurn d sp g step J) (col : Nat) (hcol : col < d) (st st' : QrState) (h : qrColumn sp d 1e-8 emit g d st col = .ok st') :
    Back d off triples step U lim J st st' := by
  unfold qrColumn at h
  rw [rowsOf_eq d col hcol] at h
  refine fold_back _ _ (fun r hr s s' hs => ?_) st st' h
  rw [List.mem_reverse, List.mem_range'_1] at hr
  exact qrStep_back he ht hn hcan ⟨col, hcol⟩ ⟨r, by omega⟩ (by rw [Fin.lt_def]; simp only; omega) s s' hs

theorem qrCols_back (he : EmitOk sp d g emit C Q L) (ht : ∀ c a r : Nat, c ≤ a → a < r → r < d → (c, a, r) ∈ triples d) (hn : NoTinyEntries U)
    (hcan : CanTurn d sp g step J) (st st' : QrState) (h : (List.range' 0 d).foldlM (qrColumn sp d 1e-8 emit g d) st = .ok st') :
    Back d off triples step U lim J st st' := by
  refine fold_back _ _ (fun c hc s s' hs => ?_) st st' h
  rw [List.mem_range'_1] at hc
  exact qrColumn_back he ht hn hcan c (by omega) s s' hs

/-- the matrix the decomposition ends with is diagonal for the search -/
theorem clear_isDiag {u : Arr2 ℂ} (hu : Square d u) (hd0 : 0 < d) (hd : d ≤ 10000) (hc : ColsClear 1e-8 d (u.toM d)) : IsDiag 1e-4 u := by
  have hB := mass_below _ hc
  have hN : ((d * (d - 1) / 2 : Nat) : ℝ) ≤ 5e7 := by
    have h1 : d * (d - 1) / 2 ≤ 50000000 := by
      have h2 : d * (d - 1) ≤ 10000 * 9999 := Nat.mul_le_mul hd (by omega)
      omega
    calc ((d * (d - 1) / 2 : Nat) : ℝ) ≤ ((50000000 : Nat) : ℝ) := by exact_mod_cast h1
      _ = 5e7 := by norm_num
  obtain ⟨h1, h2⟩ := near_diagonal _ hu.unitary (1e-8) (hB.trans (by nlinarith))
  have hat : ∀ i j : Fin d, u.at' i j = u.toM d i j := fun _ _ => rfl
  refine ⟨fun i hi j hj hij => ?_, 0, by rw [hu.rows]; exact hd0, by rw [hu.cols]; exact hd0, ?_⟩
  · rw [hu.rows] at hi
    rw [hu.cols] at hj
    have := h1 ⟨i, hi⟩ ⟨j, hj⟩ (fun e => hij (Fin.mk.inj e))
    have h3 : ‖u.toM d ⟨i, hi⟩ ⟨j, hj⟩‖ ≤ 1e-4 := by
      refine le_of_sq_le_sq ?_ (by norm_num)
      calc _ ≤ (1e-8 : ℝ) := this
        _ = _ := by norm_num
    exact h3
  · have := (h2 ⟨0, hd0⟩).1
    have h3 : ‖u.toM d ⟨0, hd0⟩ ⟨0, hd0⟩‖ > 1e-4 := by
      refine lt_of_lt_of_le ?_ this
      norm_num
    exact h3

end Qudits.Adaptive
