import Verif.Lemmas.AdaLeads
/- The QR decomposition that the adaptive passes run first, and the passes. -/
namespace Qudits.Adaptive
open LGraph LocalQR Spec Matrix Qudits.Tree QRAlg Complex

variable {d : Nat} {off del : ℝ} {lim : ℝ × ℝ} {g g0 : LGraph} {lp : Equiv.Perm (Fin d)} {sp : PathFinder}

theorem setPhase_names (g h : LGraph) (n : Int) (x : ℝ) (e : g.setPhase n x = .ok h) : Spec.names h = Spec.names g := by
  have hm : n ∈ Spec.names g := by
    by_contra hc
    unfold setPhase LGraph.node at e
    cases ha : PyDict.get? g.nodes n with
    | none => rw [ha] at e; cases e
    | some a => exact hc ((PyDict.get?_isSome_iff g.nodes n).1 (by rw [ha]; rfl))
  obtain ⟨h', e1, e2, _⟩ := setPhase_ok g n x hm
  rw [e1] at e
  rw [← Except.ok.inj e, e2]

theorem takePhase_names (q : Int) (pre : Attrs → Except PyErr PVal) (s s' : LGraph × List PInstr × PyDict Nat ℝ) (i : Nat)
    (e : takePhase q d pre s i = .ok s') : Spec.names s'.1 = Spec.names s.1 := by
  unfold takePhase at e
  simp only [bind, Except.bind, pure, Except.pure] at e
  cases h1 : s.1.phase (i : Nat) with
  | error x => rw [h1] at e; cases e
  | ok x =>
    rw [h1] at e
    simp only at e
    have key : ∀ out : List PInstr, ((s.1.setPhase (i : Nat) 0).bind fun v =>
        (.ok (v, out, PyDict.set s.2.2 i (newMod x)) : Except PyErr (LGraph × List PInstr × PyDict Nat ℝ))) = .ok s' →
        Spec.names s'.1 = Spec.names s.1 := by
      intro out e
      cases h2 : s.1.setPhase (i : Nat) 0 with
      | error x => rw [h2] at e; cases e
      | ok h =>
        rw [h2] at e
        simp only [Except.bind, Except.ok.injEq] at e
        rw [← e]
        exact setPhase_names _ _ _ _ h2
    split_ifs at e with hc
    · cases h3 : s.1.node (i : Nat) with
      | error y => rw [h3] at e; cases e
      | ok a =>
        rw [h3] at e
        simp only at e
        cases h4 : pre a with
        | error y => rw [h4] at e; cases e
        | ok v =>
          rw [h4] at e
          exact key _ e
    · exact key _ e

theorem takePhases_names (q : Int) (pre : Attrs → Except PyErr PVal) (g : LGraph) (s : LGraph × List PInstr × PyDict Nat ℝ)
    (e : takePhases q d pre g = .ok s) : Spec.names s.1 = Spec.names g := by
  unfold takePhases at e
  simp only [bind, Except.bind, pure, Except.pure] at e
  cases h : g.hasPhases with
  | error x => rw [h] at e; cases e
  | ok b =>
    rw [h] at e
    cases b with
    | false =>
      simp only [Bool.false_eq_true, if_false, Except.ok.injEq] at e
      rw [← e]
    | true =>
      simp only [if_true] at e
      have : ∀ (l : List Nat) (t t' : LGraph × List PInstr × PyDict Nat ℝ), l.foldlM (takePhase q d pre) t = .ok t' →
          Spec.names t'.1 = Spec.names t.1 := by
        intro l
        induction l with
        | nil =>
          intro t t' ht
          simp only [List.foldlM_nil, pure, Except.pure, Except.ok.injEq] at ht
          rw [ht]
        | cons x xs ih =>
          intro t t' ht
          rw [List.foldlM_cons] at ht
          cases hx : takePhase q d pre t x with
          | error y => rw [hx] at ht; cases ht
          | ok t1 =>
            rw [hx] at ht
            exact (ih t1 t' ht).trans (takePhase_names q pre t t1 x hx)
      exact this _ _ _ e

theorem restore_fold (saved : PyDict Nat ℝ) (ph : Fin d → ℝ) (hs : ∀ j : Fin d, PyDict.get? saved (j : Nat) = some (ph j)) :
    ∀ (m i : Nat) (g : LGraph), i + m = d → Device d g lp → (∀ j : Fin d, ∃ x, value g (j : Nat) "phase_storage" = some (.flt x)) →
    ∃ g', (List.range' i m).foldlM (fun (h : LGraph) (i : Nat) => match PyDict.get? saved i with
        | some z => h.setPhase i z
        | none => .error .keyError) g = .ok g' ∧ Device d g' lp ∧ g'.edges = g.edges ∧ Spec.names g' = Spec.names g ∧
      (∀ n k, k ≠ "phase_storage" → value g' n k = value g n k) ∧
      ∀ j : Fin d, (i ≤ (j : Nat) → value g' (j : Nat) "phase_storage" = some (.flt (ph j))) ∧
        ((j : Nat) < i → value g' (j : Nat) "phase_storage" = value g (j : Nat) "phase_storage") := by
  intro m
  induction m with
  | zero =>
    intro i g hi h hp
    exact ⟨g, rfl, h, rfl, rfl, fun _ _ _ => rfl, fun j => ⟨fun hj => by have := j.isLt; omega, fun _ => rfl⟩⟩
  | succ m ih =>
    intro i g hi h hp
    have hlt : i < d := by omega
    obtain ⟨g1, e1, e2, e3, e4⟩ := h.setPhase ⟨i, hlt⟩ (ph ⟨i, hlt⟩) (by obtain ⟨x, hx⟩ := hp ⟨i, hlt⟩; rw [hx]; rfl)
    obtain ⟨g', i1, i2, i3, i3', i4, i5⟩ := ih (i + 1) g1 (by omega) e2 (by
      intro j
      rw [e3]
      split_ifs
      · exact ⟨_, rfl⟩
      · exact hp j)
    refine ⟨g', ?_, i2, i3.trans e4, i3'.trans (setPhase_names _ _ _ _ e1), fun n k hk => by rw [i4 n k hk, e3, if_neg (fun h => hk h.2)], fun j => ⟨fun hj => ?_, fun hj => ?_⟩⟩
    · rw [List.range'_succ, List.foldlM_cons]
      have := hs ⟨i, hlt⟩
      simp only at this
      simp only [this]
      rw [show g.setPhase ((i : Nat) : Int) (ph ⟨i, hlt⟩) = .ok g1 from e1]
      exact i1
    · by_cases hji : (j : Nat) = i
      · rw [(i5 j).2 (by omega), e3]
        have : j = ⟨i, hlt⟩ := Fin.ext hji
        subst this
        simp
      · exact (i5 j).1 (by omega)
    · rw [(i5 j).2 (by omega), e3, if_neg]
      rintro ⟨h1, _⟩
      simp only at h1
      omega

/-- taking the phases out and putting them back -/
theorem takeRestore_ok (q : Int) (pre : Attrs → Except PyErr PVal) {C : Matrix (Fin d) (Fin d) ℂ →* Matrix (Fin d) (Fin d) ℂ}
    (hpre : ∀ (i : Fin d) (a : Attrs), PyDict.get? a "lpmap" = some (.int ((lp i : Fin d) : Nat)) →
      ∃ l, pre a = .ok l ∧ ∀ x, PhasePass.lineOp d (phaseInstr q d l x) = C (onePhase i x)) (h : Device d g lp) :
    ∃ gT E saved gR, takePhases q d pre g = .ok (gT, E, saved) ∧ restorePhases gT saved = .ok gR ∧
      (Device d gT lp ∧ NoPhases d gT ∧ gT.edges = g.edges ∧ Spec.names gT = Spec.names g ∧ ∀ n k, k ≠ "phase_storage" → value gT n k = value g n k) ∧
      Device d gR lp ∧ gR.edges = g.edges ∧ Spec.names gR = Spec.names g ∧ (∀ n k, k ≠ "phase_storage" → value gR n k = value g n k) ∧
      ∀ i : Fin d, stored gR i = newMod (stored g i) := by
  rcases h.hasPhases with ⟨h1, h2⟩ | ⟨h1, h2⟩
  · obtain ⟨gT, E, saved, f1, f2, f3, f4, _, _, _, f8, f9, _⟩ := takePhase_ok q pre hpre (stored g) d 0 g [] [] (by simp) h (by
      intro j
      obtain ⟨x, hx⟩ := h2 j
      rw [if_neg (by omega), hx, stored_of hx]) (by intro j hj; omega)
    rw [List.nil_append] at f1
    have ht : takePhases q d pre g = .ok (gT, E, saved) := by
      unfold takePhases
      simp only [bind, Except.bind, h1, if_true]
      rw [h.length, List.range_eq_range']
      exact f1
    have hnm := takePhases_names q pre g _ ht
    obtain ⟨gR, r1, r2, r3, r4, r5, r6⟩ := restore_fold saved (fun j => newMod (stored g j)) f4 d 0 gT (by simp) f2 (fun j => ⟨0, f3 j⟩)
    have hT : gT.hasPhases = .ok true := by
      rcases f2.hasPhases with ⟨k1, _⟩ | ⟨_, k2⟩
      · exact k1
      · obtain ⟨j, _⟩ := h.start
        have := k2 j; rw [f3] at this; cases this
    refine ⟨gT, E, saved, gR, ht, ?_, ⟨f2, fun i v hv => (by rw [f3 i] at hv; exact (Option.some_inj.1 hv).symm), f8, hnm, f9⟩, r2, r3.trans f8,
      r4.trans hnm, fun n k hk => (r5 n k hk).trans (f9 n k hk), fun i => stored_of ((r6 i).1 (Nat.zero_le _))⟩
    unfold restorePhases
    simp only [bind, Except.bind, hT, if_true]
    rw [f2.length, List.range_eq_range']
    exact r1
  · have ht : takePhases q d pre g = .ok (g, [], []) := by
      unfold takePhases
      simp only [bind, Except.bind, pure, Except.pure, h1]
      rfl
    refine ⟨g, [], [], g, ht, ?_, ⟨h, fun i v hv => (by rw [h2 i] at hv; cases hv), rfl, rfl, fun _ _ _ => rfl⟩, h, rfl, rfl, fun _ _ _ => rfl, fun i => ?_⟩
    · unfold restorePhases
      simp only [bind, Except.bind, pure, Except.pure, h1]
      rfl
    · have : stored g i = 0 := by unfold stored; rw [h2 i]
      rw [this, newMod_zero]

/-- The decomposition that gives the limit of a search, and the graph it hands over. -/
theorem qrLimit_ok {C C' : Matrix (Fin d) (Fin d) ℂ →* Matrix (Fin d) (Fin d) ℂ} {Q : PInstr → Prop} {L : Nat} (q : Int)
    {eps del : ℝ} (heps : 0 ≤ eps) (pre : Attrs → Except PyErr PVal) (emit : Emit)
    (levelAt : LGraph → Nat → Except PyErr PVal) (h : Device d g lp)
    (hpre : ∀ (i : Fin d) (a : Attrs), PyDict.get? a "lpmap" = some (.int ((lp i : Fin d) : Nat)) →
      ∃ l, pre a = .ok l ∧ ∀ x, PhasePass.lineOp d (phaseInstr q d l x) = C' (onePhase i x))
    (hemit : ∀ g', Device d g' lp → NoPhases d g' → g'.edges = g.edges → (∀ n, value g' n "lpmap" = value g n "lpmap") →
      EmitOk sp d g' emit C Q L)
    (hlev : ∀ g', Device d g' lp → ∀ i : Fin d, ∃ l, levelAt g' i = .ok l ∧ ∀ x, PhasePass.lineOp d (phaseInstr q d l x) = C (onePhase i x))
    (u : Arr2 ℂ) (hu : Square d u) :
    ∃ res gT E st, LocalQR.execute sp q d eps del pre emit levelAt false true u g = .ok res ∧
      (Device d gT lp ∧ NoPhases d gT ∧ gT.edges = g.edges ∧ Spec.names gT = Spec.names g ∧ ∀ n k, k ≠ "phase_storage" → value gT n k = value g n k) ∧
      (Device d res.graph lp ∧ res.graph.edges = g.edges ∧ Spec.names res.graph = Spec.names g ∧
        (∀ n k, k ≠ "phase_storage" → value res.graph n k = value g n k) ∧ ∀ i : Fin d, stored res.graph i = newMod (stored g i)) ∧
      EmitOk sp d gT emit C Q L ∧ (List.range' 0 d).foldlM (qrColumn sp d eps emit gT d) ⟨u, E, 0, 0⟩ = .ok st ∧ res.tot = st.tot ∧ 0 ≤ res.tot ∧
      Square d st.u ∧ ColsClear eps d (st.u.toM d) := by
  obtain ⟨gT, E, saved, gR, t1, t2, t3, t4⟩ := takeRestore_ok q pre hpre h
  have hem := hemit gT t3.1 t3.2.1 t3.2.2.1 (fun n => t3.2.2.2.2 n _ (by decide))
  have h0 : Reached C Q L (u.toM d) E 0 1 ⟨u, E, 0, 0⟩ :=
    ⟨hu.rows, hu.cols, one_mem _, by rw [one_mul], ⟨[], by simp, by simp, by simp, by rw [circuitOp_nil, map_one]⟩, le_rfl, le_rfl⟩
  obtain ⟨T, st, f1, f2, f3⟩ := qrCols_ok (eps := eps) hem heps d 0 0 1 _ (by simp) h0 (by intro c hc; omega)
  obtain ⟨P, p1, _⟩ := qrPhases_ok (C := C) q del levelAt (hlev gT t3.1) st.u f2.rows f2.cols d 0 st.decomp (by simp)
  refine ⟨⟨st.decomp ++ P, st.alg, st.tot, gR⟩, gT, E, st, ?_, t3, t4, hem, f1, rfl, f2.tot, ⟨f2.rows, f2.cols, ?_⟩, ?_⟩
  · unfold LocalQR.execute
    simp only [bind, Except.bind, pure, Except.pure]
    simp only [Bool.false_eq_true, if_false]
    rw [t1]
    simp only []
    rw [hu.cols, hu.rows, List.range_eq_range', f1]
    simp only []
    rw [p1]
    simp only [Bool.not_false, Bool.and_self, if_true]
    rw [t2]
  · rw [f2.mat]; exact mul_mem f2.unitary hu.unitary
  · rw [f2.mat]; exact f3

end Qudits.Adaptive
