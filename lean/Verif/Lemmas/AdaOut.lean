import Verif.Lemmas.AdaGate
/- What the searches and the passes return. -/
namespace Qudits.Adaptive
open LGraph LocalQR Spec Matrix Qudits.Tree QRAlg Complex

variable {d : Nat} {off del : ℝ} {lim : ℝ × ℝ} {g g' g0 : LGraph} {lp lp' : Equiv.Perm (Fin d)} {sp : PathFinder}

theorem mem_logTriples {n c a r : Nat} (h1 : c ≤ a) (h2 : a < r) (h3 : r < n) : (c, a, r) ∈ logTriples n := by
  unfold logTriples
  simp only [List.mem_flatMap, List.mem_range, List.mem_range', List.mem_map]
  exact ⟨c, by omega, a, ⟨a - c, by omega, by omega⟩, r, ⟨r - (a + 1), by omega, by omega⟩, rfl⟩

theorem mem_phyTriples {n c a r : Nat} (h1 : c ≤ a) (h2 : a < r) (h3 : r < n) : (c, a, r) ∈ phyTriples n := by
  unfold phyTriples
  simp only [List.mem_filter, List.mem_flatMap, List.mem_range, List.mem_map]
  refine ⟨⟨c, by omega, a, by omega, r, by omega, rfl⟩, ?_⟩
  simp
  omega

/-- what the logical search returns -/
structure LogOut (d : Nat) (U : Matrix (Fin d) (Fin d) ℂ) (e : ℝ) (limit : ℝ) (res : Result) : Prop where
  gates : ∀ x ∈ res.gates, LevelRotation d x ∨ PhaseRotation x
  plain : ∀ x ∈ res.gates, x.dagger = false
  unitary : circuitOp (PhasePass.lineOp d) res.gates ∈ unitaryGroup (Fin d) ℂ
  near : NearOne e (circuitOp (PhasePass.lineOp d) res.gates * U)
  cost : ∃ c, res.cost = some c ∧ (c.2 = 0 ∨ c.2 < limit + 1e-12)

theorem logExtract_ok (q : Int) (hoff : 0 ≤ off) (hdel : 0 ≤ del) (g : Option LGraph) (nodes : List (TNode NodeData (Option LGraph)))
    (l : TNode NodeData (Option LGraph)) (hl : nodes.getLast? = some l) (hu : Square d l.data.u) (hdiag : IsDiag off l.data.u) :
    ∃ E, logExtract q d off del nodes g = .ok (nodeGates q d nodes ++ E, g) ∧ AllPhases E ∧
      circuitOp (PhasePass.lineOp d) E ∈ unitaryGroup (Fin d) ℂ ∧
      NearOne (qrError d off del) (circuitOp (PhasePass.lineOp d) E * l.data.u.toM d) := by
  classical
  have hnear := isDiag_near hu hoff hdel hdiag
  obtain ⟨E, a1, a2, _, a4⟩ := qrPhases_ok (C := MonoidHom.id _) (g := {}) q del (fun _ i => .ok (.int i)) (fun i => ⟨.int (i : Nat), rfl, fun x =>
    lineOp_phase q i x⟩) l.data.u hu.rows hu.cols d 0 (nodeGates q d nodes) (by omega)
  have a4 : circuitOp (PhasePass.lineOp d) E = phasesFrom 0 (fun j => |arg (l.data.u.toM d j j)| > del) (fun j => arg (l.data.u.toM d j j)) := a4
  refine ⟨E, ?_, a2, ?_, by rw [a4]; exact hnear⟩
  · unfold logExtract
    rw [hl]
    simp only [if_pos hdiag, hu.rows, List.range_eq_range', bind, Except.bind, pure, Except.pure]
    rw [a1]
  · rw [a4]
    exact phasesFrom_unitary _ _ _

theorem logSearch_ok (q : Int) (hoff : 0 ≤ off) (hdel : 0 ≤ del) (limit : ℝ × ℝ) (u : Arr2 ℂ) (hu : Square d u) (g : LGraph) (fuel : Nat)
    (hf : 0 < fuel) :
    (logAda fuel q d off del limit u g = .error .recursion ∧ fuel * 8e-5 ≤ limit.2 + 1e-12) ∨
    (logAda fuel q d off del limit u g = .ok ⟨[], none, some g.phaseStoringSetup⟩ ∧
      ¬ Leads off logTriples (logStep d) ⟨⟨none, u, limit, []⟩, some g.phaseStoringSetup, 0⟩) ∨
    ∃ res, logAda fuel q d off del limit u g = .ok res ∧ LogOut d (u.toM d) (qrError d off del) limit.2 res ∧
      (¬ IsDiag off u → res.graph = none) := by
  have hI : LogInv d u ⟨⟨none, u, limit, []⟩, some g.phaseStoringSetup, 0⟩ := ⟨hu, Or.inr rfl⟩
  rcases search_ok (off := off) (logStep_ok d u) fuel (logExtract q d off del) limit u g hI with ⟨e1, e2⟩ | e | ⟨p, l, c1, c2, c3, c4, c5⟩
  · exact Or.inl ⟨e1, depth_fuel fuel hf _ rfl fun n hn => e2 Depth n (fun n c c' => depth_step n c c') hn⟩
  · exact Or.inr (Or.inl e)
  · right; right
    obtain ⟨f1, ⟨f2, f2'⟩, f3, f4, f5⟩ := chain_follows p _ l hI c1 c2 c3
    have f2 : Square d l.data.u := f2
    obtain ⟨E, x1, x2, x3, x4⟩ := logExtract_ok q hoff hdel l.graph p l c3 f2 c4
    have hres : logAda fuel q d off del limit u g = .ok ⟨nodeGates q d p ++ E, some (l.cost, l.dcost), l.graph⟩ := by
      unfold logAda
      rw [c5, x1]
      rfl
    have hN := f1 q
    have hNu := unitary_of_mul hu.unitary f2.unitary hN
    refine ⟨_, hres, ⟨?_, ?_, ?_, ?_, ?_⟩, ?_⟩
    · intro x hx
      rcases List.mem_append.1 hx with hx | hx
      · obtain ⟨r, rfl, hr⟩ := f3 q x hx
        exact Or.inl ⟨r.par, rfl, hr⟩
      · exact Or.inr (x2 x hx).1
    · intro x hx
      rcases List.mem_append.1 hx with hx | hx
      · obtain ⟨r, rfl, _⟩ := f3 q x hx
        rfl
      · exact (x2 x hx).2
    · rw [circuitOp_append]
      exact mul_mem x3 hNu
    · rw [circuitOp_append, mul_assoc, hN]
      exact x4
    · refine ⟨_, rfl, ?_⟩
      rcases f5 with f5 | f5
      · exact Or.inl (congrArg Core.dcost f5)
      · exact Or.inr f5
    · intro hnd
      rcases f2' with h | h
      · exact h
      · exact absurd (h ▸ c4) hnd

/-- a diagonal matrix is found at once -/
theorem execute_diag {triples : Nat → List (Nat × Nat × Nat)} {step : Step} (fuel : Nat) (extract : Extract) (limit : ℝ × ℝ) (u : Arr2 ℂ) (g : LGraph)
    (hd : IsDiag off u) :
    execute (fuel + 1) off triples step extract limit u g = (do
      let (gates, graph) ← extract [(Tree.new 0 (⟨none, u, limit, []⟩ : NodeData) (some g.phaseStoringSetup) 0 0 none).top |> marked] (some g.phaseStoringSetup)
      pure ⟨gates, some (0, 0), graph⟩) := by
  classical
  unfold execute dfs Tree.new
  simp only [bind, Except.bind, pure, Except.pure]
  rw [if_pos hd]
  rfl

/-- the root leads to a diagonal matrix if the decomposition that fixed the limit did -/
theorem leads_root {emit : Emit} {C : Matrix (Fin d) (Fin d) ℂ →* Matrix (Fin d) (Fin d) ℂ} {Q : PInstr → Prop} {L : Nat} {triples : Nat → List (Nat × Nat × Nat)}
    {step : Step} {J : Core → Prop} {gT : LGraph} {u : Arr2 ℂ} {E : List PInstr} {st : QrState} (hd0 : 0 < d) (hd : d ≤ 10000)
    (he : EmitOk sp d gT emit C Q L) (ht : ∀ c a r : Nat, c ≤ a → a < r → r < d → (c, a, r) ∈ triples d) (hn : NoTinyEntries (u.toM d))
    (hcan : CanTurn d sp gT step J) (h : (List.range' 0 d).foldlM (qrColumn sp d 1e-8 emit gT d) ⟨u, E, 0, 0⟩ = .ok st) (hu : Square d u)
    (hst : Square d st.u) (hclear : ColsClear 1e-8 d (st.u.toM d)) (lim : ℝ × ℝ) (hlim : st.tot ≤ lim.2) (gr : Option LGraph)
    (hJ : J ⟨⟨none, u, lim, []⟩, gr, 0⟩) : Leads 1e-4 triples step ⟨⟨none, u, lim, []⟩, gr, 0⟩ := by
  have hb := qrCols_back (off := 1e-4) (U := u.toM d) (lim := lim) (J := J) he ht hn hcan _ _ h hu
  refine hb.2.2 hlim (fun c hc => .diag c ?_) _ ⟨hu, hu, rfl, Cleared.start, le_rfl, rfl, hJ⟩
  obtain ⟨h1, i, h2, h3, h4⟩ := clear_isDiag hst hd0 hd hclear
  have hat : ∀ i j : Nat, i < d → j < d → c.data.u.at' i j = st.u.at' i j := fun i j h1 h2 => congrFun (congrFun hc.mat ⟨i, h1⟩) ⟨j, h2⟩
  rw [hst.rows] at h1 h2
  rw [hst.cols] at h1 h3
  refine ⟨?_, i, by rw [hc.sq'.rows]; exact h2, by rw [hc.sq'.cols]; exact h3, by rw [hat i i h2 h3]; exact h4⟩
  rw [hc.sq'.rows, hc.sq'.cols]
  intro i hi j hj hij
  rw [hat i j hi hj]
  exact h1 i hi j hj hij

theorem square_of {u : Arr2 ℂ} (h : UnitaryArr u d) : Square d u := ⟨h.1, h.2.1, h.2.2⟩

theorem fuel_enough (x : ℝ) : ∃ N : Nat, 0 < N ∧ ∀ fuel ≥ N, ¬ ((fuel : ℝ) * 8e-5 ≤ x) := by
  obtain ⟨N, hN⟩ := exists_nat_gt (x / 8e-5)
  refine ⟨N + 1, by omega, fun fuel hf hc => ?_⟩
  have h1 : (N : ℝ) < fuel := by exact_mod_cast hf
  rw [div_lt_iff₀ (by norm_num)] at hN
  nlinarith

/-- the logical decomposition that fixes the limit -/
theorem logLimit_ok (h : Device d g lp) (hsp : FindsPaths sp) (q : Int) (u : Arr2 ℂ) (hu : Square d u) :
    ∃ res, logQr sp q d 1e-8 1e-4 false true u g = .ok res ∧ (d ≤ 10000 → NoTinyEntries (u.toM d) → ∀ gr,
      Leads 1e-4 logTriples (logStep d) ⟨⟨none, u, (res.alg, res.tot), []⟩, gr, 0⟩) := by
  have hd : 0 < d := by
    obtain ⟨i, _⟩ := h.start
    have := i.isLt
    omega
  obtain ⟨res, gT, E, st, h1, ⟨t1, t2, _⟩, _, h4, h5, h6, h7, h8, h9⟩ :=
    qrLimit_ok (C := MonoidHom.id _) (C' := 1) (Q := fun x => AdjacentRotation d x ∧ x.dagger = false) (L := 1) (sp := sp) (eps := 1e-8) (del := 1e-4)
      q (by norm_num)
      (fun _ => .ok (.str "node")) (logEmit q d) (fun g i => do
        let _ ← g.node i
        pure (.int i)) h (fun i a _ => ⟨_, rfl, fun x => lineOp_phase_str q _ x hd⟩) (fun g' k1 k2 _ _ => logEmit_ok hsp q g' k1 k2)
      (fun g' k1 i => by
        obtain ⟨a, ha⟩ := Option.isSome_iff_exists.1 ((PyDict.get?_isSome_iff g'.nodes _).2 (k1.mem i))
        refine ⟨.int (i : Nat), ?_, fun x => lineOp_phase q i x⟩
        simp [LGraph.node, ha, bind, Except.bind, pure, Except.pure]) u hu
  exact ⟨res, h1, fun hdd hn gr => leads_root hd hdd h4 (fun c a r => mem_logTriples) hn (log_canTurn t1 t2 hsp) h5 hu h8 h9 _
    (le_of_eq h6.symm) gr trivial⟩

/-- the physical decomposition that fixes the limit, and the graph it leaves behind -/
theorem phyLimit_ok (h : Device d g lp) (hsp : FindsPaths sp) (q : Int) (u : Arr2 ℂ) (hu : Square d u) :
    ∃ res, phyQr sp q d 1e-8 1e-4 false true u g = .ok res ∧ Device d res.graph lp ∧ res.graph.edges = g.edges ∧
      Spec.names res.graph = Spec.names g ∧ (∀ n k, k ≠ "phase_storage" → value res.graph n k = value g n k) ∧
      (∀ i : Fin d, stored res.graph i = newMod (stored g i)) ∧
      (d ≤ 10000 → NoTinyEntries (u.toM d) → FindsShortest sp → AllCoupled d g →
        Leads 1e-4 phyTriples (phyStep sp d) ⟨⟨none, u, (res.alg, res.tot), []⟩, some res.graph.phaseStoringSetup, 0⟩) := by
  have hd : 0 < d := by
    obtain ⟨i, _⟩ := h.start
    have := i.isLt
    omega
  obtain ⟨res, gT, E, st, h1, ⟨t1, t2, t3, t4, t5⟩, ⟨r1, r2, r3, r4, r5⟩, h4, h5, h6, h7, h8, h9⟩ :=
    qrLimit_ok (C := conjHom lp) (C' := conjHom lp) (Q := fun x => CoupledRotation g x ∧ x.dagger = false) (L := 2 * d - 3) (sp := sp)
      (eps := 1e-8) (del := 1e-4) q (by norm_num)
      (fun a => attr a "lpmap") (phyEmit q d) (fun g i => do
        let l ← g.lpmap i
        pure (.int l)) h (fun i a ha => ⟨.int ((lp i : Fin d) : Nat), by simp [attr, ha], fun x => by
          rw [lineOp_phase, conjHom_onePhase]⟩) (fun g' k1 k2 k3 k4 => phyEmit_ok hsp q g' k1 k2 k3 k4)
      (fun g' k1 i => ⟨.int ((lp i : Fin d) : Nat), by
        simp [k1.lpmap i, bind, Except.bind, pure, Except.pure], fun x => by rw [lineOp_phase, conjHom_onePhase]⟩) u hu
  refine ⟨res, h1, r1, r2, r3, r4, r5, fun hdd hn hsh hc => ?_⟩
  obtain ⟨s1, s2⟩ := setup_ok r1
  have hcs : AllCoupled d res.graph.phaseStoringSetup := by
    intro i j hij
    have := hc i j hij
    unfold Spec.Joined edgeData at *
    rw [setup_edges, r2]; exact this
  refine leads_root hd hdd h4 (fun c a r => mem_phyTriples) hn (direct_canTurn hsh s1 t1 hcs (fun i => ⟨_, s2 i⟩) ?_ ?_ ?_) h5 hu h8 h9 _
    (le_of_eq h6.symm) _ rfl
  · rw [setup_edges, r2, t3]
  · rw [setup_names, r3, t4]
  · intro n
    rw [setup_value, if_neg (fun h => absurd h.2.1 (by decide)), t5 n _ (by decide), r4 n _ (by decide)]

theorem frame_congr (h : Device d g lp) (h' : Device d g' lp) (hs : ∀ i : Fin d, stored g' i = newMod (stored g i)) : frame d g' = frame d g := by
  rw [frame_eq h, frame_eq h']
  congr 2
  funext i
  rw [hs, newMod_exp]

theorem device_unique (h : Device d g lp) (h' : Device d g lp') : lp = lp' := by
  ext i
  have h1 := h.lp i
  rw [h'.lp i] at h1
  simp only [Option.some.injEq, PVal.int.injEq, Nat.cast_inj] at h1
  exact h1.symm

/-- the kind of the graph the search starts with: phases that are multiples of π -/
theorem pi_start (h : Device d g lp) (ho : InOrder d g) (hp : PiPhases d g) : PiKind d g g.phaseStoringSetup := by
  obtain ⟨s1, s2⟩ := setup_ok h
  refine ⟨lp, fun l => Real.cos (stored g (lp.symm l)), s1, ?_, fun i => ⟨_, s2 i, ?_, by simp only [Equiv.symm_apply_apply]⟩, setup_edgesIn g⟩
  · unfold InOrder
    rw [setup_names]; exact ho
  · obtain ⟨k, hk⟩ := hp i
    rw [hk]; exact Real.sin_int_mul_pi k

theorem newMod_pi (x : ℝ) (h : ∃ k : ℤ, x = k * Real.pi) : ∃ k : ℤ, newMod x = k * Real.pi := by
  obtain ⟨k, hk⟩ := h
  have h1 : Real.sin (newMod x) = 0 := by rw [(newMod_trig x).1, hk]; exact Real.sin_int_mul_pi k
  obtain ⟨n, hn⟩ := Real.sin_eq_zero_iff.1 h1
  exact ⟨n, hn.symm⟩

end Qudits.Adaptive
