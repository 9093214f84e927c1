import Verif.Lemmas.AdaPhy
/- The end of the physical search: the phases left over. -/
namespace Qudits.Adaptive
open LGraph LocalQR Spec Matrix Qudits.Tree QRAlg Complex

variable {d : Nat} {off : ℝ} {limit : ℝ × ℝ} {g g0 : LGraph} {lp : Equiv.Perm (Fin d)} {sp : PathFinder}

theorem setup_value (g : LGraph) (n : Int) (k : String) : value g.phaseStoringSetup n k =
    if n ∈ Spec.names g ∧ k = "phase_storage" ∧ value g n k = none then some (.flt 0) else value g n k := by
  unfold value phaseStoringSetup
  simp only
  rw [PyDict.get?_map_snd (f := fun a : Attrs => if (PyDict.get? a "phase_storage").isSome then a else PyDict.set a "phase_storage" (.flt 0))]
  cases ha : PyDict.get? g.nodes n with
  | none =>
    simp only [Option.map_none, Option.bind_none]
    rw [if_neg]
    rintro ⟨h, _⟩
    have := (PyDict.get?_isSome_iff g.nodes n).2 h
    rw [ha] at this; cases this
  | some a =>
    have hm : n ∈ Spec.names g := (PyDict.get?_isSome_iff g.nodes n).1 (by rw [ha]; rfl)
    simp only [Option.map_some, Option.bind_some]
    by_cases hk : k = "phase_storage"
    · subst hk
      cases hp : PyDict.get? a "phase_storage" with
      | none => simp [hm, getq_set]
      | some v => simp [hp]
    · rw [show (if n ∈ Spec.names g ∧ k = "phase_storage" ∧ PyDict.get? a k = none then some (PVal.flt 0) else PyDict.get? a k) =
        PyDict.get? a k from if_neg (fun h => hk h.2.1)]
      by_cases hp : (PyDict.get? a "phase_storage").isSome
      · rw [if_pos hp]
      · rw [if_neg hp, getq_set, if_neg hk]

theorem setup_names (g : LGraph) : Spec.names g.phaseStoringSetup = Spec.names g := by
  unfold Spec.names phaseStoringSetup PyDict.keys
  simp [List.map_map, Function.comp_def]

theorem setup_wf (h : Wf g) : Wf g.phaseStoringSetup := by
  refine ⟨by rw [setup_names]; exact h.nodup, ?_, h.simple, ?_⟩
  · intro p hp
    obtain ⟨p', hp', rfl⟩ := List.mem_map.1 hp
    simp only
    split_ifs
    · exact h.attrs p' hp'
    · exact PyDict.keys_nodup_set _ _ _ (h.attrs p' hp')
  · intro e he
    rw [setup_names]
    exact h.ends e he

theorem setup_edges (g : LGraph) : g.phaseStoringSetup.edges = g.edges := rfl

theorem edgesIn_of (he : g.edges = g0.edges) (hv : ∀ n, value g n "lpmap" = value g0 n "lpmap") : EdgesIn g g0 := fun p q data h =>
  physEdge_congr he hv p q data h

theorem setup_edgesIn (g : LGraph) : EdgesIn g.phaseStoringSetup g := edgesIn_of rfl fun n => by
  rw [setup_value, if_neg (fun h => absurd h.2.1 (by decide))]

/-- the graph the search starts with -/
theorem setup_ok (h : Device d g lp) : Device d g.phaseStoringSetup lp ∧
    ∀ i : Fin d, value g.phaseStoringSetup (i : Nat) "phase_storage" = some (.flt (stored g i)) := by
  have hv : ∀ (j : Int) k, k ≠ "phase_storage" → value g.phaseStoringSetup j k = value g j k := by
    intro j k hk
    rw [setup_value, if_neg (fun h => hk h.2.1)]
  have hs : ∀ i : Fin d, value g.phaseStoringSetup (i : Nat) "phase_storage" = some (.flt (stored g i)) := by
    intro i
    rw [setup_value]
    cases hp : value g ((i : Nat) : Int) "phase_storage" with
    | none => rw [if_pos ⟨h.mem i, rfl, rfl⟩]; unfold stored; rw [hp]
    | some v =>
      obtain ⟨x, rfl⟩ := h.phases i v hp
      rw [if_neg (fun h => by cases h.2.2)]
      unfold stored; rw [hp]
  refine ⟨⟨setup_wf h.wf, ?_, by rw [setup_names]; exact h.names, ?_, ?_, ?_, ?_, ?_⟩, hs⟩
  · intro n hn m hm k hk
    rw [setup_names] at hn hm
    by_cases hkk : k = "phase_storage"
    · subst hkk
      obtain ⟨i, rfl⟩ := (h.mem_iff m).1 hm
      rw [hs]; rfl
    · rw [hv _ _ hkk] at hk ⊢
      exact h.uniform n hn m hm k hk
  · intro j; rw [hv _ _ (by decide)]; exact h.lp j
  · intro j; rw [hv _ _ (by decide)]; exact h.level j
  · obtain ⟨j, hj⟩ := h.start; exact ⟨j, by rw [hv _ _ (by decide)]; exact hj⟩
  · intro a b
    obtain ⟨p, hp⟩ := h.conn a b
    exact ⟨p, hp.first, hp.last, hp.steps, hp.nodup⟩
  · intro j v hv'
    rw [hs] at hv'
    exact ⟨_, (Option.some.inj hv').symm⟩

theorem frame_setup (h : Device d g lp) : frame d g.phaseStoringSetup = frame d g := by
  obtain ⟨h1, h2⟩ := setup_ok h
  rw [frame_eq h1, frame_eq h]
  congr 2
  funext i
  rw [stored_of (h2 i)]

/-! ### phases kept in the graph -/

theorem storePhases_ok (del : ℝ) {u : Arr2 ℂ} (hu : Square d u) : ∀ (m i : Nat) (g : LGraph) (ph : Fin d → ℝ), i + m = d → Device d g lp →
    (∀ j : Fin d, value g (j : Nat) "phase_storage" = some (.flt (ph j))) →
    ∃ g', (List.range' i m).foldlM (storePhase del u) g = .ok g' ∧ Device d g' lp ∧ g'.edges = g.edges ∧
      (∀ n k, k ≠ "phase_storage" → value g' n k = value g n k) ∧
      ∀ j : Fin d, value g' (j : Nat) "phase_storage" = some (.flt (if i ≤ (j : Nat) ∧ |arg (u.toM d j j)| > del then
        newMod (ph j + arg (u.toM d j j)) else ph j)) := by
  intro m
  induction m with
  | zero =>
    intro i g ph hi h hp
    refine ⟨g, rfl, h, rfl, fun _ _ _ => rfl, fun j => ?_⟩
    rw [hp, if_neg (by have := j.isLt; omega)]
  | succ m ih =>
    intro i g ph hi h hp
    have hlt : i < d := by omega
    have hfi : ((⟨i, hlt⟩ : Fin d) : Nat) = i := rfl
    have key : ∃ g1, storePhase del u g i = .ok g1 ∧ Device d g1 lp ∧ g1.edges = g.edges ∧ (∀ n k, k ≠ "phase_storage" → value g1 n k = value g n k) ∧
        ∀ j : Fin d, value g1 (j : Nat) "phase_storage" = some (.flt (if (j : Nat) = i ∧ |arg (u.toM d j j)| > del then
          newMod (ph j + arg (u.toM d j j)) else ph j)) := by
      have hget := hu.get ⟨i, hlt⟩ ⟨i, hlt⟩
      rw [hfi] at hget
      unfold storePhase
      simp only [bind, Except.bind, pure, Except.pure]
      rw [hget]
      simp only []
      split_ifs with hc
      · have hph : g.hasPhases = .ok true := by
          rcases h.hasPhases with ⟨h1, _⟩ | ⟨_, h2⟩
          · exact h1
          · have := h2 ⟨i, hlt⟩; rw [hp] at this; cases this
        rw [hph]
        simp only [if_true]
        have hphase : g.phase ((i : Nat) : Int) = .ok (ph ⟨i, hlt⟩) := phase_ok g (i : Nat) _ (hp ⟨i, hlt⟩)
        rw [hphase]
        simp only []
        obtain ⟨g1, e1, e2, e3, e4⟩ := h.setPhase ⟨i, hlt⟩ (newMod (ph ⟨i, hlt⟩ + arg (u.toM d ⟨i, hlt⟩ ⟨i, hlt⟩))) (by rw [hp]; rfl)
        refine ⟨g1, e1, e2, e4, fun n k hk => by rw [e3, if_neg (fun h => hk h.2)], fun j => ?_⟩
        rw [e3]
        by_cases hj : j = ⟨i, hlt⟩
        · subst hj; simp [hc]
        · have : (j : Nat) ≠ i := fun e => hj (Fin.ext e)
          rw [if_neg (by simp [this]), hp, if_neg (fun h => this h.1)]
      · refine ⟨g, rfl, h, rfl, fun _ _ _ => rfl, fun j => ?_⟩
        rw [hp, if_neg]
        rintro ⟨rfl, h2⟩
        exact hc h2
    obtain ⟨g1, k1, k2, k3, k4, k5⟩ := key
    obtain ⟨g', i1, i2, i3, i4, i5⟩ := ih (i + 1) g1 _ (by omega) k2 k5
    refine ⟨g', ?_, i2, i3.trans k3, fun n k hk => (i4 n k hk).trans (k4 n k hk), fun j => ?_⟩
    · rw [List.range'_succ, List.foldlM_cons, k1]
      exact i1
    · rw [i5]
      congr 2
      by_cases hj : (j : Nat) = i
      · rw [if_neg (by omega)]; simp [hj]
      · simp only [hj, false_and, if_false]
        congr 1
        apply propext
        constructor
        · rintro ⟨h1, h2⟩; exact ⟨by omega, h2⟩
        · rintro ⟨h1, h2⟩; exact ⟨by omega, h2⟩

theorem newMod_exp (x : ℝ) : cexp (I * (newMod x : ℝ)) = cexp (I * (x : ℝ)) := by
  obtain ⟨h1, h2⟩ := newMod_trig x
  rw [mul_comm I, mul_comm I, Complex.exp_mul_I, Complex.exp_mul_I, ← Complex.ofReal_cos, ← Complex.ofReal_sin, h1, h2,
    Complex.ofReal_cos, Complex.ofReal_sin]

/-! ### the end of a branch -/

theorem near_relabel {e : ℝ} (lp : Equiv.Perm (Fin d)) (x : Fin d → ℂ) (hx : ∀ i, ‖x i‖ = 1) (W : Matrix (Fin d) (Fin d) ℂ)
    (h : NearOne e W) : Near e (relabelling lp * diagonal x * W) (relabelling lp * diagonal x) := by
  intro r c
  have : relabelling lp * diagonal x * W - relabelling lp * diagonal x = relabelling lp * (diagonal x * (W - 1)) := by
    rw [mul_sub, mul_sub, mul_one, mul_assoc]
  rw [this, Matrix.mul_apply, Finset.sum_eq_single (lp.symm r)]
  · unfold relabelling
    rw [Equiv.apply_symm_apply, if_pos rfl, one_mul, diagonal_mul, norm_mul, hx, one_mul]
    exact h _ _
  · intro j _ hj
    unfold relabelling
    rw [if_neg, zero_mul]
    rintro rfl
    exact hj (by simp)
  · simp

theorem allPhases_unitary (lp : Equiv.Perm (Fin d)) (i : Nat) (p : Fin d → Prop) [DecidablePred p] (f : Fin d → ℝ) :
    conjHom lp (phasesFrom i p f) ∈ unitaryGroup (Fin d) ℂ := by
  rw [conjHom_eq]
  exact mul_mem (mul_mem (relabelling_unitary lp) (phasesFrom_unitary _ _ _)) (Unitary.star_mem (relabelling_unitary lp))

/-- what is asked of the placements a search meets -/
def KindOk (d : Nat) (g0 : LGraph) (tau : ℝ) (K : LGraph → Prop) : Prop :=
  ∀ g, K g → (∃ lp : Equiv.Perm (Fin d), Device d g lp) ∧ EdgesIn g g0 ∧ (∀ i : Fin d, ∃ x, value g (i : Nat) "phase_storage" = some (.flt x)) ∧
    ∀ i : Fin d, |newMod (stored g i)| ≤ 1e-4 → ‖cexp (I * (stored g i : ℝ)) - 1‖ ≤ tau

theorem phyExtract_ok {K : LGraph → Prop} {tau del : ℝ} (htau : 0 ≤ tau) (hk : KindOk d g0 tau K) (hK : K g) (q : Int) (hoff : 0 ≤ off) (hdel : 0 ≤ del)
    (zProp : Bool) (nodes : List (TNode NodeData (Option LGraph))) (l : TNode NodeData (Option LGraph)) (hl : nodes.getLast? = some l)
    (hu : Square d l.data.u) (hdiag : IsDiag off l.data.u) :
    ∃ E g1 lp1, phyExtract q d off del zProp nodes (some g) = .ok (nodeGates q d nodes ++ E, some g1) ∧ AllPhases E ∧ (Device d g lp1 ∧ Device d g1 lp1 ∧ g1.edges = g.edges) ∧
      EdgesIn g1 g0 ∧ (zProp = true → E = []) ∧ (zProp = false → NoPhases d g1) ∧
      circuitOp (PhasePass.lineOp d) E ∈ unitaryGroup (Fin d) ℂ ∧
      Near (qrError d off del + if zProp then 0 else tau) (circuitOp (PhasePass.lineOp d) E * (frame d g * l.data.u.toM d)) (frame d g1) := by
  classical
  obtain ⟨⟨lp, h⟩, he, hph, htau'⟩ := hk g hK
  have hnear := isDiag_near hu hoff hdel hdiag
  unfold phyExtract
  rw [hl]
  simp only [if_pos hdiag, hu.rows]
  have hrange : List.range d = List.range' 0 d := List.range_eq_range'
  cases zProp with
  | true =>
    obtain ⟨g1, e1, e2, e3, e4, e5⟩ := storePhases_ok (lp := lp) del hu d 0 g (stored g) (by omega) h (fun j => by
      obtain ⟨x, hx⟩ := hph j
      rw [hx, stored_of hx])
    refine ⟨[], g1, lp, ?_, (by intro x hx; cases hx), ⟨h, e2, e3⟩, (edgesIn_of e3 fun n => e4 n _ (by decide)).trans he, fun _ => rfl, fun h => (by cases h),
      by rw [circuitOp_nil]; exact one_mem _, ?_⟩
    · simp only [if_true, bind, Except.bind, pure, Except.pure, hrange, e1, List.append_nil]
    · simp only [if_true, add_zero]
      rw [circuitOp_nil, one_mul, frame_eq h, frame_eq e2]
      have hst : ∀ i : Fin d, cexp (I * (stored g1 i : ℝ)) = cexp (I * (stored g i : ℝ)) *
          star (if 0 ≤ (i : Nat) ∧ |arg (l.data.u.toM d i i)| > del then cexp (-I * (arg (l.data.u.toM d i i) : ℝ)) else 1) := by
        intro i
        rw [stored_of (e5 i)]
        split_ifs with hc
        · rw [newMod_exp, RCLike.star_def, ← Complex.exp_conj, ← Complex.exp_add]
          congr 1
          simp
          ring
        · simp
      have hP := phasesFrom_unitary (d := d) 0 (fun j => |arg (l.data.u.toM d j j)| > del) (fun j => arg (l.data.u.toM d j j))
      rw [mem_unitaryGroup_iff', star_eq_conjTranspose] at hP
      have hsplit : (diagonal fun i => cexp (I * (stored g1 i : ℝ))) = (diagonal fun i => cexp (I * (stored g i : ℝ))) *
          (phasesFrom 0 (fun j => |arg (l.data.u.toM d j j)| > del) (fun j => arg (l.data.u.toM d j j)))ᴴ := by
        unfold phasesFrom
        rw [diagonal_conjTranspose, diagonal_mul_diagonal]
        congr 1
        funext i
        exact hst i
      have hgoal : relabelling lp * (diagonal fun i => cexp (I * (stored g i : ℝ))) * l.data.u.toM d =
          relabelling lp * (diagonal fun i => cexp (I * (stored g1 i : ℝ))) *
            (phasesFrom 0 (fun j => |arg (l.data.u.toM d j j)| > del) (fun j => arg (l.data.u.toM d j j)) * l.data.u.toM d) := by
        rw [hsplit, ← mul_assoc (relabelling lp), mul_assoc (relabelling lp * _), ← mul_assoc (_ᴴ), hP, one_mul]
      rw [hgoal]
      refine near_relabel lp _ (fun i => ?_) _ hnear
      rw [mul_comm I, Complex.norm_exp_ofReal_mul_I]
  | false =>
    obtain ⟨E1, a1, a2, _, a4⟩ := qrPhases_ok (C := conjHom lp) (g := g) q del (fun g i => do
        let l ← g.lpmap i
        pure (.int l)) (fun i => ⟨.int ((lp i : Fin d) : Nat), by simp only [h.lpmap, bind, Except.bind, pure, Except.pure], fun x => by
          rw [lineOp_phase, conjHom_onePhase]⟩) l.data.u hu.rows hu.cols d 0 (nodeGates q d nodes) (by omega)
    obtain ⟨g1, E2, saved, b1, b2, b3, b4, _, b6, b7, b8, _⟩ := takePhases_ok (C := conjHom lp) q (fun a => attr a "lpmap") (fun i a ha =>
      ⟨.int ((lp i : Fin d) : Nat), by unfold attr; rw [ha], fun x => by rw [lineOp_phase, conjHom_onePhase]⟩) h
    refine ⟨E1 ++ E2, g1, lp, ?_, ?_, ⟨h, b2, b7⟩, (edgesIn_of b7 fun n => b8 n _ (by decide)).trans he, fun h => (by cases h), fun _ => b3, ?_, ?_⟩
    · rw [hrange]
      simp only [Bool.false_eq_true, if_false]
      simp only [bind, Except.bind, pure, Except.pure] at a1 ⊢
      rw [a1]
      simp only []
      rw [b1]
      simp only [List.append_assoc]
    · intro x hx
      rcases List.mem_append.1 hx with hx | hx
      · exact a2 x hx
      · exact b4 x hx
    · rw [circuitOp_append, a4, b6]
      exact mul_mem (allPhases_unitary _ _ _ _) (allPhases_unitary _ _ _ _)
    · simp only [Bool.false_eq_true, if_false]
      have hf1 : frame d g1 = relabelling lp := by
        rw [frame_eq b2]
        have : (fun i : Fin d => cexp (I * (stored g1 i : ℝ))) = fun _ => 1 := by
          funext i; rw [stored_zero b3]; simp
        rw [this, diagonal_one, mul_one]
      have hR := (mem_unitaryGroup_iff').1 (relabelling_unitary lp)
      rw [star_eq_conjTranspose] at hR
      rw [circuitOp_append, a4, b6, ← map_mul, conjHom_eq, frame_eq h, hf1]
      generalize hT : phasesFrom 0 (fun j : Fin d => |newMod (stored g j)| > 1e-4) (fun j => newMod (stored g j)) = T
      generalize hP : phasesFrom 0 (fun j => |arg (l.data.u.toM d j j)| > del) (fun j => arg (l.data.u.toM d j j)) = P at hnear ⊢
      have hcomm : P * (diagonal fun i : Fin d => cexp (I * (stored g i : ℝ))) = (diagonal fun i => cexp (I * (stored g i : ℝ))) * P := by
        rw [← hP]; unfold phasesFrom
        rw [diagonal_mul_diagonal, diagonal_mul_diagonal]
        congr 1; funext i; ring
      have hgoal : relabelling lp * (T * P) * (relabelling lp)ᴴ * (relabelling lp * (diagonal fun i => cexp (I * (stored g i : ℝ))) * l.data.u.toM d) =
          relabelling lp * ((T * diagonal fun i => cexp (I * (stored g i : ℝ))) * (P * l.data.u.toM d)) := by
        calc _ = relabelling lp * T * P * ((relabelling lp)ᴴ * relabelling lp) * (diagonal fun i => cexp (I * (stored g i : ℝ))) * l.data.u.toM d := by
              noncomm_ring
          _ = relabelling lp * T * (P * diagonal fun i => cexp (I * (stored g i : ℝ))) * l.data.u.toM d := by rw [hR]; noncomm_ring
          _ = _ := by rw [hcomm]; noncomm_ring
      rw [hgoal]
      have hT' : T * (diagonal fun i => cexp (I * (stored g i : ℝ))) = diagonal fun i : Fin d =>
          (if 0 ≤ (i : Nat) ∧ |newMod (stored g i)| > 1e-4 then cexp (-I * (newMod (stored g i) : ℝ)) else 1) * cexp (I * (stored g i : ℝ)) := by
        rw [← hT]; unfold phasesFrom
        rw [diagonal_mul_diagonal]
      have hxi : ∀ i : Fin d, ‖(if 0 ≤ (i : Nat) ∧ |newMod (stored g i)| > 1e-4 then cexp (-I * (newMod (stored g i) : ℝ)) else 1) *
          cexp (I * (stored g i : ℝ)) - 1‖ ≤ tau := by
        intro i
        split_ifs with hc
        · rw [show -I * (newMod (stored g i) : ℂ) = -(I * (newMod (stored g i) : ℝ)) by ring, Complex.exp_neg, newMod_exp,
            inv_mul_cancel₀ (Complex.exp_ne_zero _), sub_self, norm_zero]
          exact htau
        · rw [one_mul]
          exact htau' i (not_lt.1 fun h => hc ⟨Nat.zero_le _, h⟩)
      rw [hT']
      generalize hX : (fun i : Fin d => (if 0 ≤ (i : Nat) ∧ |newMod (stored g i)| > 1e-4 then cexp (-I * (newMod (stored g i) : ℝ)) else 1) *
        cexp (I * (stored g i : ℝ))) = X at *
      have hX1 : ∀ i, ‖X i - 1‖ ≤ tau := fun i => by rw [← hX]; exact hxi i
      have hX2 : ∀ i, ‖X i‖ = 1 := fun i => by
        rw [← hX]
        simp only [norm_mul]
        rw [norm_phase, mul_comm I, Complex.norm_exp_ofReal_mul_I, one_mul]
      have hW : NearOne (qrError d off del + tau) (diagonal X * (P * l.data.u.toM d)) := by
        intro i j
        rw [diagonal_mul]
        have e : X i * (P * l.data.u.toM d) i j - (1 : Matrix (Fin d) (Fin d) ℂ) i j =
            X i * ((P * l.data.u.toM d) i j - (1 : Matrix (Fin d) (Fin d) ℂ) i j) + (X i - 1) * (1 : Matrix (Fin d) (Fin d) ℂ) i j := by ring
        rw [e]
        refine (norm_add_le _ _).trans (add_le_add ?_ ?_)
        · rw [norm_mul, hX2, one_mul]; exact hnear i j
        · rw [norm_mul]
          have : ‖(1 : Matrix (Fin d) (Fin d) ℂ) i j‖ ≤ 1 := by
            rw [Matrix.one_apply]; split_ifs <;> simp
          calc _ ≤ tau * 1 := mul_le_mul (hX1 i) this (norm_nonneg _) htau
            _ = tau := mul_one _
      have := near_relabel lp (fun _ => 1) (by simp) _ hW
      rw [diagonal_one, mul_one] at this
      exact this

end Qudits.Adaptive
