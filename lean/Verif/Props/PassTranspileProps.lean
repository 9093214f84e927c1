import Verif.Model.PassTranspile
import Verif.Props.PassProps
import Verif.Props.QrProps
import Verif.Props.AdaProps
/-
C98: `transpile` of the decomposition passes on a whole circuit.
-/
namespace Qudits
open Spec Matrix LGraph Compiler LocalQR
open PhasePass (lineOp)
open scoped Matrix.Norms.L2Operator

variable {n : Nat} {d : Fin n → Nat} {lp : ∀ i, Equiv.Perm (Fin (d i))} {sem : Op (Arr2 ℂ) → Matrix (Reg d) (Reg d) ℂ} {sp : PathFinder} {rnd : ℝ → ℝ}
  {rho : ℝ} {other : Nat → Other}

private theorem slots_one (p : DecompPass) : ∃ s, slots [p.name] = .ok s ∧ ∀ t, s.get t = match p, t with
    | .phyLocQR, .single => some .phyLocQR
    | .phyLocAda, .single => some .phyLocAda
    | .logLocQR, .single => some .logLocQR
    | .logEntQR, .two => some .logEntQR
    | .phyEntQR, .two => some .phyEntQR
    | _, _ => none := by
  cases p
  · exact ⟨⟨some .phyLocQR, none, none⟩, rfl, fun t => by cases t <;> rfl⟩
  · exact ⟨⟨some .phyLocAda, none, none⟩, rfl, fun t => by cases t <;> rfl⟩
  · exact ⟨⟨some .logLocQR, none, none⟩, rfl, fun t => by cases t <;> rfl⟩
  · exact ⟨⟨none, some .logEntQR, none⟩, rfl, fun t => by cases t <;> rfl⟩
  · exact ⟨⟨none, some .phyEntQR, none⟩, rfl, fun t => by cases t <;> rfl⟩

private theorem collect_congr {f f' : Graphs → Op (Arr2 ℂ) → Except PyErr (List CInstr × Graphs)} (h : ∀ b g, f b g = f' b g) :
    ∀ (gs : List (Op (Arr2 ℂ))) (b : Graphs), collect f b gs = collect f' b gs
  | [], _ => rfl
  | g :: gs, b => by
    unfold collect
    rw [h b g]
    rcases f' b g with e | ⟨l, b'⟩
    · rfl
    · change (collect f b' gs >>= _) = (collect f' b' gs >>= _)
      rw [collect_congr h gs b']

/-- C98: the passes PhyLocAdaPass, LogLocQRPass and PhyEntQRCEXPass put into the circuit what `QuditCompiler.compile` does when only this
pass is named, with the same errors; `compile` reads off the mappings afterwards. -/
theorem C98_same_as_compile (fuel : Nat) (p : DecompPass) (hp : p = .phyLocAda ∨ p = .logLocQR ∨ p = .phyEntQR) (b : Graphs) (dims : List Nat)
    (gs : List (Op (Arr2 ℂ))) : compile fuel sp rnd other b ⟨dims, gs⟩ [p.name] =
      (passTranspile fuel sp rnd other p b gs >>= fun r => do
        let m ← mappings r.2 dims
        pure ⟨r.1, m, r.2⟩) := by
  obtain ⟨s, hs, hget⟩ := slots_one p
  have hc : collect (compileGate (transpileGate fuel sp rnd other) other s) b gs = passTranspile fuel sp rnd other p b gs := by
    refine collect_congr ?_ gs b
    intro b g
    unfold compileGate
    rw [hget]
    rcases hp with rfl | rfl | rfl <;> rcases ht : typeOf other g <;> simp [passStep, ht, transpileGate]
  unfold compile compileWith
  rw [hs]
  change (collect (compileGate (transpileGate fuel sp rnd other) other s) b gs >>= fun r => finish dims r) = _
  rw [hc]
  rfl

private theorem step_reversed (fuel : Nat) (p : DecompPass) (hp : p = .phyLocQR ∨ p = .logEntQR) {s : Slots} (hs : slots [p.name] = .ok s) (b : Graphs)
    (g : Op (Arr2 ℂ)) : passStep fuel sp rnd other p b g =
      (compileGate (transpileGate fuel sp rnd other) other s b g >>= fun r => pure (r.1.reverse, r.2)) := by
  obtain ⟨s', hs', hget⟩ := slots_one p
  rw [hs] at hs'
  cases hs'
  unfold compileGate
  rw [hget]
  rcases hp with rfl | rfl
  · rcases ht : typeOf other g
    · have h1 : passStep fuel sp rnd other .phyLocQR b g = onLine (withGraph (phyPassInCircuit sp)) b g := by simp [passStep, ht]
      rw [h1]
      change onLine (withGraph (phyPassInCircuit sp)) b g =
        (onLine (withGraph (phyPassGate sp)) b g >>= fun r => pure (r.1.reverse, r.2))
      unfold onLine
      rcases g.target with q | qs
      · simp only [bind, Except.bind, withGraph, theGraph, phyPassInCircuit, phyPassGate, pure, Except.pure]
        rcases hg : graphAt b q with e | gr
        · simp only
        · rcases gr with _ | gr
          · simp only
          · simp only
            rcases phyQr sp q g.body.rows 1e-8 1e-4 false false g.body gr with e | r
            · simp only
            · simp [LocalQR.revDag, LocalQR.dag, Function.comp_def]
      · rfl
    · simp [passStep, ht, bind, Except.bind, pure, Except.pure]
    · simp [passStep, ht, bind, Except.bind, pure, Except.pure]
  · rcases ht : typeOf other g
    · simp [passStep, ht, bind, Except.bind, pure, Except.pure]
    · simp only [passStep, ht, if_true]
      rfl
    · simp [passStep, ht, bind, Except.bind, pure, Except.pure]

/-- C98: the passes PhyLocQRPass and LogEntQRCEXPass put into the circuit, for each gate, what `QuditCompiler.compile` does when only this pass
is named, in reverse order (without inverting the gates). -/
theorem C98_reversed (fuel : Nat) (p : DecompPass) (hp : p = .phyLocQR ∨ p = .logEntQR) (b : Graphs) (dims : List Nat) (gs : List (Op (Arr2 ℂ)))
    (c : Compiled) (h : compile fuel sp rnd other b ⟨dims, gs⟩ [p.name] = .ok c) :
    ∃ parts : List (List CInstr), parts.length = gs.length ∧ c.gates = parts.flatten ∧
      passTranspile fuel sp rnd other p b gs = .ok ((parts.map List.reverse).flatten, c.graphs) := by
  obtain ⟨s, hs, _⟩ := slots_one p
  have key : ∀ (gs : List (Op (Arr2 ℂ))) (b : Graphs) (l : List CInstr) (b' : Graphs),
      collect (compileGate (transpileGate fuel sp rnd other) other s) b gs = .ok (l, b') →
      ∃ parts : List (List CInstr), parts.length = gs.length ∧ l = parts.flatten ∧
        collect (passStep fuel sp rnd other p) b gs = .ok ((parts.map List.reverse).flatten, b') := by
    intro gs
    induction gs with
    | nil =>
      intro b l b' h
      cases h
      exact ⟨[], rfl, rfl, rfl⟩
    | cons g gs ih =>
      intro b l b' h
      unfold collect at h
      rcases h1 : compileGate (transpileGate fuel sp rnd other) other s b g with e | ⟨l1, b1⟩
      · rw [h1] at h; cases h
      · rw [h1] at h
        change (collect (compileGate (transpileGate fuel sp rnd other) other s) b1 gs >>= fun r => pure (l1 ++ r.1, r.2)) = _ at h
        rcases h2 : collect (compileGate (transpileGate fuel sp rnd other) other s) b1 gs with e | ⟨l2, b2⟩
        · rw [h2] at h; cases h
        · rw [h2] at h
          obtain ⟨parts, q1, q2, q3⟩ := ih b1 l2 b2 h2
          cases h
          refine ⟨l1 :: parts, by simp [q1], by simp [q2], ?_⟩
          unfold collect
          rw [step_reversed fuel p hp hs, h1]
          change (collect (passStep fuel sp rnd other p) b1 gs >>= fun r => pure (l1.reverse ++ r.1, r.2)) = _
          rw [q3]
          rfl
  unfold compile compileWith at h
  rw [hs] at h
  change (collect (compileGate (transpileGate fuel sp rnd other) other s) b gs >>= fun r => finish dims r) = _ at h
  rcases h2 : collect (compileGate (transpileGate fuel sp rnd other) other s) b gs with e | ⟨l2, b2⟩
  · rw [h2] at h; cases h
  · rw [h2] at h
    change (mappings b2 dims >>= fun m => pure (Compiled.mk l2 m b2)) = _ at h
    rcases h3 : mappings b2 dims with e | m
    · rw [h3] at h; cases h
    · rw [h3] at h
      cases h
      exact key gs b l2 b2 h2

/-- C98, partial: for the adaptive pass and the pass for two lines: if every gate of the type the pass is made for is one that it translates as it
should be, the circuit that `transpile` returns does what the given circuit does, on the places of the levels, up to the errors of the pass;
with too small a stack the search of the adaptive pass can fail instead.  (For the pass for two lines the circuit has no
gates on one line.)  Missing: the other three passes (`C98_violated`,
`C98_logical_inverse`, `C98_reversed`). -/
theorem C98_transpile_partial (hsem : Semantics d sem) (hsp : FindsShortest sp) (hrnd : ∀ x, |rnd x - x| ≤ rho) (p : DecompPass)
    (hp : p = .phyLocAda ∨ p = .phyEntQR) {b : Graphs} (hb : Backend d lp b) (gs : List (Op (Arr2 ℂ)))
    (hg : ∀ g ∈ gs, TranslatedBy d lp other sem b g (passFor [p.name] (typeOf other g))) :
    ∃ N l b', (∀ fuel, N ≤ fuel → passTranspile fuel sp rnd other p b gs = .ok (l, b')) ∧ Backend d lp b' ∧
      Implements d lp sem b (gs.map fun g => passError d other rho g (passFor [p.name] (typeOf other g))).sum (circuitOp sem gs) l := by
  obtain ⟨N, l, b', h1, h2, h3⟩ := C78_compile_partial (rnd := rnd) (rho := rho) (other := other) hsem hsp hrnd [p.name]
    (by rcases hp with rfl | rfl <;> decide) hb gs hg
  refine ⟨N, l, b', ?_, h2, h3⟩
  intro fuel hf
  rcases h1 fuel with h | ⟨h, _⟩
  · rw [C98_same_as_compile fuel p (by tauto) b (List.ofFn d) gs] at h
    rcases h4 : passTranspile fuel sp rnd other p b gs with e | ⟨l', b''⟩
    · rw [h4] at h; cases h
    · rw [h4] at h
      change (mappings b'' (List.ofFn d) >>= fun m => pure (Compiled.mk l' m b'')) = _ at h
      rcases h5 : mappings b'' (List.ofFn d) with e | m
      · rw [h5] at h; cases h
      · rw [h5] at h
        cases h
        rfl
  · omega

/-- C98: LogLocQRPass, on lines of any dimension with any placement, for circuits of gates on one line and on more than two lines: what comes
out is the circuit with every gate on one line replaced by its inverse. -/
theorem C98_logical_inverse (hsem : Semantics d sem) (hsp : FindsPaths sp) (fuel : Nat) {b : Graphs} (hb : Backend d lp b) (gs : List (Op (Arr2 ℂ)))
    (hg : ∀ g ∈ gs, LogicalGate d other sem g) (h2 : ∀ g ∈ gs, typeOf other g ≠ .two) :
    ∃ l b', passTranspile fuel sp rnd other .logLocQR b gs = .ok (l, b') ∧ circuitOp (instrOp d sem) l ∈ unitaryGroup (Reg d) ℂ ∧
      ∃ z : ℂ, ‖z‖ = 1 ∧ ‖circuitOp (instrOp d sem) l - z • circuitOp (invertSingles sem) gs‖ ≤
        (gs.map fun g => passError d other 0 g (passFor ["LogLocQRPass", "LogEntQRCEXPass"] (typeOf other g))).sum := by
  obtain ⟨l, b', c1, c2, c3⟩ := C78_logical_inverse (rho := 0) (rnd := id) (other := other) hsem hsp (by simp) fuel hb gs hg
  refine ⟨l, b', ?_, c2, c3⟩
  have hs : slots ["LogLocQRPass", "LogEntQRCEXPass"] = .ok ⟨some .logLocQR, some .logEntQR, none⟩ := rfl
  unfold compile compileWith at c1
  rw [hs] at c1
  change (collect (compileGate (transpileGate fuel sp id other) other ⟨some .logLocQR, some .logEntQR, none⟩) b gs >>= fun r =>
    finish (List.ofFn d) r) = _ at c1
  have key : ∀ (gs : List (Op (Arr2 ℂ))) (b : Graphs), (∀ g ∈ gs, typeOf other g ≠ .two) →
      collect (compileGate (transpileGate fuel sp id other) other ⟨some .logLocQR, some .logEntQR, none⟩) b gs =
        passTranspile fuel sp rnd other .logLocQR b gs := by
    intro gs
    induction gs with
    | nil => intro b _; rfl
    | cons g gs ih =>
      intro b h
      have h1 : compileGate (transpileGate fuel sp id other) other ⟨some .logLocQR, some .logEntQR, none⟩ b g =
          passStep fuel sp rnd other .logLocQR b g := by
        have := h g List.mem_cons_self
        unfold compileGate
        rcases ht : typeOf other g
        · simp only [passStep, ht, if_true]; rfl
        · exact absurd ht this
        · simp [passStep, ht, Slots.get]
      unfold passTranspile collect
      rw [h1]
      rcases passStep fuel sp rnd other .logLocQR b g with e | ⟨l, b1⟩
      · rfl
      · change (collect _ b1 gs >>= _) = (collect _ b1 gs >>= _)
        rw [ih b1 (fun x hx => h x (List.mem_cons_of_mem _ hx))]
        rfl
  rw [key gs b h2] at c1
  rcases h4 : passTranspile fuel sp rnd other .logLocQR b gs with e | ⟨l', b''⟩
  · rw [h4] at c1; cases c1
  · rw [h4] at c1
    change (mappings b'' (List.ofFn d) >>= fun m => pure (Compiled.mk l' m b'')) = _ at c1
    rcases h5 : mappings b'' (List.ofFn d) with e | m
    · rw [h5] at c1; cases c1
    · rw [h5] at c1
      cases c1
      rfl

/-- C98 does not hold for PhyLocQRPass: the circuit it makes of the Hadamard gate of a qubit has the wrong sign in one entry. -/
theorem C98_violated (hsp : FindsPaths sp) (fuel : Nat) : ∃ u m b', hArray 2 = .ok u ∧
    passTranspile fuel sp rnd other .phyLocQR [some qubitDevice] [⟨0, true, .one 0, u⟩] = .ok (m.map .one, b') ∧
    circuitOp (lineOp 2) m 0 1 = -(u.toM 2 0 1) ∧ u.toM 2 0 1 ≠ 0 := by
  obtain ⟨u, m, g', h1, h2, h3, h4⟩ := C35_transpile_violated (sp := sp) hsp 0
  refine ⟨u, m, [some g'], h1, ?_, h3, h4⟩
  have hr : u.rows = 2 := by
    obtain ⟨v, e1, e2, _⟩ := hArray_ok 2
    rw [h1] at e1
    cases e1
    exact e2
  simp [passTranspile, collect, passStep, typeOf, onLine, graphAt, withGraph, theGraph, hr, h2, bind, Except.bind, pure, Except.pure]

/-- a line without a graph stays so -/
private theorem logAda_none {fuel : Nat} {i : Nat} {b : Graphs} (hb : b[i]? = some none) (g : Op (Arr2 ℂ)) {l : List CInstr} {b' : Graphs}
    (h : logAdaStep fuel sp other b g = .ok (l, b')) : b'[i]? = some none ∧ ¬ (g.single = true ∧ g.target = .one (i : Nat)) := by
  unfold logAdaStep at h
  by_cases ht : typeOf other g = .single
  · rw [if_pos ht] at h
    unfold onLine at h
    rcases e : g.target with q | qs
    · rw [e] at h
      simp only [graphAt, bind, Except.bind, pure, Except.pure] at h
      by_cases hq : q < 0
      · rw [if_pos hq] at h; cases h
      · rw [if_neg hq] at h
        rcases e1 : b[q.toNat]? with _ | gr
        · rw [e1] at h; cases h
        · rw [e1] at h
          simp only at h
          rcases e2 : Adaptive.logAdaGate fuel sp q g.body.rows g.body gr with _ | ⟨l1, gr1⟩
          · rw [e2] at h; cases h
          · rw [e2] at h
            have hne : q.toNat ≠ i := by
              rintro rfl
              rw [hb] at e1
              cases e1
              cases e2
            cases h
            refine ⟨by rw [List.getElem?_set_ne hne]; exact hb, ?_⟩
            rintro ⟨_, h2⟩
            cases h2
            exact hne rfl
    · rw [e] at h; cases h
  · rw [if_neg ht] at h
    cases h
    refine ⟨hb, ?_⟩
    rintro ⟨h1, _⟩
    exact ht (by unfold typeOf; rw [if_pos h1])

private theorem logAda_stuck {fuel : Nat} {i : Nat} (g' : Op (Arr2 ℂ)) (h1 : g'.single = true) (h2 : g'.target = .one (i : Nat))
    (post : List (Op (Arr2 ℂ))) : ∀ (mid : List (Op (Arr2 ℂ))) (b : Graphs), b[i]? = some none →
      ∃ e, collect (logAdaStep fuel sp other) b (mid ++ g' :: post) = .error e
  | [], b, hb => by
    change ∃ e, collect (logAdaStep fuel sp other) b (g' :: post) = .error e
    unfold collect
    rcases h : logAdaStep fuel sp other b g' with e | ⟨l, b1⟩
    · exact ⟨e, rfl⟩
    · exact absurd ⟨h1, h2⟩ (logAda_none hb g' h).2
  | m :: mid, b, hb => by
    change ∃ e, collect (logAdaStep fuel sp other) b (m :: (mid ++ g' :: post)) = .error e
    unfold collect
    rcases h : logAdaStep fuel sp other b m with e | ⟨l, b1⟩
    · exact ⟨e, rfl⟩
    · obtain ⟨e, he⟩ := logAda_stuck g' h1 h2 post mid b1 (logAda_none hb m h).1
      refine ⟨e, ?_⟩
      change (collect (logAdaStep fuel sp other) b1 (mid ++ g' :: post) >>= _) = _
      rw [he]
      rfl

/-- C98 does not hold for LogLocAdaPass either: after a gate on a line that is not diagonal there is no graph of this line left, and every
circuit with a later gate on the same line raises an error, whatever stands between and after the two. -/
theorem C98_logical_adaptive_violated (hsp : FindsPaths sp) (fuel : Nat) {b : Graphs} {i k : Nat} {gr : LGraph} {pl : Equiv.Perm (Fin k)}
    (hb : b[i]? = some (some gr)) (hd : Device k gr pl) (g : Op (Arr2 ℂ)) (hg : g.single = true ∧ g.target = .one (i : Nat))
    (hu : UnitaryArr g.body k) (hk : k ≤ 10000) (hn : NoTinyEntries (g.body.toM k)) (hnd : ¬ DiagonalUpTo 1e-4 (g.body.toM k))
    (g' : Op (Arr2 ℂ)) (hg' : g'.single = true ∧ g'.target = .one (i : Nat)) (mid post : List (Op (Arr2 ℂ))) :
    ∃ e, logAdaTranspile fuel sp other b (g :: (mid ++ g' :: post)) = .error e := by
  unfold logAdaTranspile collect
  rcases h : logAdaStep fuel sp other b g with e | ⟨l, b1⟩
  · exact ⟨e, rfl⟩
  · have hn1 : b1[i]? = some none := by
      unfold logAdaStep at h
      rw [if_pos (by unfold typeOf; rw [if_pos hg.1])] at h
      unfold onLine at h
      rw [hg.2] at h
      have hi : i < b.length := by
        by_contra hc
        rw [List.getElem?_eq_none (by omega)] at hb
        cases hb
      have e0 : graphAt b (i : Int) = .ok (some gr) := by
        unfold graphAt
        rw [if_neg (by omega), Int.toNat_natCast, hb]
      simp only [e0, bind, Except.bind, pure, Except.pure, hu.1] at h
      obtain ⟨r, r1, r2⟩ := Adaptive.logLimit_ok hd hsp (i : Int) g.body (Adaptive.square_of hu)
      have e1 : Adaptive.logAdaGate fuel sp i k g.body (some gr) =
          (Adaptive.logAda fuel i k 1e-4 1e-4 (r.alg, r.tot) g.body r.graph >>= fun a => pure (a.gates, a.graph)) := by
        unfold Adaptive.logAdaGate
        simp only [r1, bind, Except.bind, pure, Except.pure]
      rw [e1] at h
      rcases Nat.eq_zero_or_pos fuel with rfl | hf
      · exact absurd h (by intro h; cases h)
      · rcases Adaptive.logSearch_ok (off := 1e-4) (del := 1e-4) (i : Int) (by norm_num) (by norm_num) (r.alg, r.tot) g.body (Adaptive.square_of hu) r.graph fuel hf
          with ⟨s, _⟩ | ⟨_, s⟩ | ⟨res, s1, _, s3⟩
        · rw [s] at h; cases h
        · exact absurd (r2 hk hn _) s
        · rw [s1] at h
          cases h
          rw [Int.toNat_natCast, List.getElem?_set_self hi, s3 (fun hi => hnd ((isDiag_iff hu _).1 hi))]
    obtain ⟨e, he⟩ := logAda_stuck (sp := sp) (other := other) (fuel := fuel) g' hg'.1 hg'.2 post mid b1 hn1
    refine ⟨e, ?_⟩
    change (collect (logAdaStep fuel sp other) b1 (mid ++ g' :: post) >>= _) = _
    rw [he]
    rfl

/-! ### cases -/

/-- The demo circuit, with two gates on the first line. -/
example (hsp : FindsPaths sp) (fuel : Nat) : ∃ e, logAdaTranspile fuel sp demoOther (List.replicate 2 (some qubitDevice)) demoGates = .error e := by
  obtain ⟨gr, h1, h2, _⟩ := qubits_ok 2 0
  refine C98_logical_adaptive_violated hsp fuel (i := 0) (k := 2) h1 h2 ⟨0, true, .one 0, gate2 quarterGate⟩ ⟨rfl, rfl⟩
    (gate2_unitary quarterGate_unitary) (by norm_num) (by rw [gate2_toM]; exact noTiny_two quarterGate_unitary quarterGate_tiny) ?_
    ⟨2, true, .one 0, gate2 quarterGate⟩ ⟨rfl, rfl⟩ [⟨1, false, .many [0, 1], gate2 quarterGate⟩] []
  rw [gate2_toM]
  rintro ⟨h, _⟩
  have := h 0 1 (by decide)
  norm_num [quarterGate] at this
  rw [abs_of_nonneg (Real.sqrt_nonneg 2)] at this
  have h3 : Real.sqrt 2 ≤ 2 := by rw [Real.sqrt_le_left (by norm_num)]; norm_num
  have h4 : (2 : ℝ)⁻¹ ≤ (Real.sqrt 2)⁻¹ := inv_anti₀ (by positivity) h3
  norm_num at h4
  linarith

/-- The adaptive pass on the demo circuit: two gates on one line are translated, the gate on two lines between them is kept. -/
example (hsp : FindsShortest sp) : ∃ N l b', ∀ fuel ≥ N, passTranspile fuel sp id demoOther .phyLocAda (List.replicate 2 (some qubitDevice)) demoGates =
    .ok (l, b') := by
  obtain ⟨N, l, b', h1, _⟩ := C98_transpile_partial (rho := 0) (rnd := id) demoSem_ok hsp (by simp) .phyLocAda (Or.inl rfl) (qubits_ok 2) demoGates
    (fun g hg => by
      simp only [demoGates, List.mem_cons, List.not_mem_nil, or_false] at hg
      have hl : ∀ k : Nat, TranslatedBy (fun _ : Fin 2 => 2) (fun _ => 1) demoOther demoSem (List.replicate 2 (some qubitDevice))
          ⟨k, true, .one 0, gate2 quarterGate⟩ (some .phyLocAda) := by
        intro k
        refine ⟨⟨rfl, 0, rfl, gate2_unitary quarterGate_unitary⟩, fun i _ => ⟨by simp, ?_, fun gr hgr => ?_⟩⟩
        · rw [gate2_toM]
          exact noTiny_two quarterGate_unitary quarterGate_tiny
        · rw [List.getElem?_replicate, if_pos i.isLt] at hgr
          obtain rfl := Option.some.inj (Option.some.inj hgr)
          exact qubit_coupled
      rcases hg with rfl | rfl | rfl
      · exact hl 0
      · refine ⟨rfl, ⟨_, rfl⟩, ?_, fun _ _ => rfl⟩
        have hc : pairOp ⟨0, 1, 2, 2⟩ (.cex ⟨0, 1, 1, 0⟩ 0 1 2 2 false) ∈ unitaryGroup (Fin (2 * 2)) ℂ :=
          cex_unitary ⟨0, 1, 2, 2⟩ (0 : Fin 2) (1 : Fin 2) (by decide) (1 : Fin 2) 0 0 1 2 2
        have he : demoSem ⟨1, false, .many [0, 1], gate2 quarterGate⟩ =
            embedPair (fun _ : Fin 2 => 2) 0 1 (pairOp ⟨0, 1, 2, 2⟩ (.cex ⟨0, 1, 1, 0⟩ 0 1 2 2 false)) := by simp [demoSem]
        rw [he]
        exact embedPair_unitary (d := fun _ : Fin 2 => 2) (i := 0) (j := 1) (by decide) hc
      · exact hl 2)
  exact ⟨N, l, b', h1⟩

/-- LogLocQRPass on a Hadamard gate. -/
example (hsp : FindsPaths sp) (fuel : Nat) : ∃ l b', passTranspile fuel sp id demoOther .logLocQR (List.replicate 2 (some qubitDevice))
    [⟨0, true, .one 0, gate2 quarterGate⟩] = .ok (l, b') := by
  obtain ⟨l, b', h, -⟩ := C98_logical_inverse (rnd := id) (other := demoOther) demoSem_ok hsp fuel (qubits_ok 2) [⟨0, true, .one 0, gate2 quarterGate⟩]
    (fun g hg => by
      rw [List.mem_singleton] at hg
      subst hg
      exact Or.inl ⟨rfl, 0, rfl, gate2_unitary quarterGate_unitary⟩)
    (fun g hg => by
      rw [List.mem_singleton] at hg
      subst hg
      intro h
      cases h)
  exact ⟨l, b', h⟩

end Qudits
