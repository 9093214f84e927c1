import Verif.Lemmas.MisimNoise
import Verif.Props.NoiseProps
/-
Property C80: the noisy circuits that the decision-diagram simulator generates and runs.
-/
namespace Qudits
open Spec DD

variable {n : Nat}

theorem noisy_run (H : Hashes) (rng : Misim.Chance ℝ) (hrng : Faithful rng) (d : Fin n → Nat) (hn : 0 < n) (hd : ∀ i, 2 ≤ d i ∧ d i ≤ 7)
    (noise : PyDict String (PyDict String (Noise ℝ))) (hk : Keyed noise) (gs : List PyGate) (hc : ∀ g ∈ gs, Common d g)
    (ha : Applicable d noise gs) :
    ∃ gs' arrs v, WithErrors d noise gs gs' ∧ (∀ g ∈ gs', Common d g) ∧ Misim.executeNoisy H rng (List.ofFn d) (asModel noise) gs = .ok v ∧
      List.Forall₂ (fun (g : PyGate) a => g.array = .ok a) gs' arrs ∧ Misim.execute H (List.ofFn d) gs' = .ok v ∧
      Tnsim.execute (List.ofFn d) ((gs'.map (·.gate)).zip arrs) = .ok v := by
  obtain ⟨m, hm, hl⟩ := parseNoise_ok noise hk
  obtain ⟨gs', k, hw, hc', hrun⟩ := generate_sound hd hk hrng hl gs ⟨[], 0⟩ hc ha
  obtain ⟨arrs, v, h1, h2, h3⟩ := C18_uncontrolled_partial H d hn (fun i => by have := (hd i).1; omega) gs' hc'
  refine ⟨gs', arrs, v, hw, hc', ?_, h1, h2, h3⟩
  rw [List.nil_append] at hrun
  unfold Misim.executeNoisy Misim.generate
  rw [hm]
  simp only [bind, Except.bind]
  rw [hrun]
  exact h2

/-- C80: a run with a noise model returns the exact state of a circuit made of the gates of the given one with errors after them, as the noise
model allows: both the decision-diagram simulator and the tensor-network simulator give this state for the circuit with the errors. -/
theorem C80_noisy (H : Hashes) (rng : Misim.Chance ℝ) (hrng : Faithful rng) (d : Fin n → Nat) (hn : 0 < n) (hd : ∀ i, 2 ≤ d i ∧ d i ≤ 7)
    (noise : PyDict String (PyDict String (Noise ℝ))) (hk : Keyed noise) (gs : List PyGate) (hc : ∀ g ∈ gs, Common d g)
    (ha : Applicable d noise gs) :
    ∃ gs' arrs v, WithErrors d noise gs gs' ∧ Misim.executeNoisy H rng (List.ofFn d) (asModel noise) gs = .ok v ∧
      List.Forall₂ (fun (g : PyGate) a => g.array = .ok a) gs' arrs ∧ Misim.execute H (List.ofFn d) gs' = .ok v ∧
      Tnsim.execute (List.ofFn d) ((gs'.map (·.gate)).zip arrs) = .ok v := by
  obtain ⟨gs', arrs, v, h1, _, h2⟩ := noisy_run H rng hrng d hn hd noise hk gs hc ha
  exact ⟨gs', arrs, v, h1, h2⟩

/-- C80: every circuit with errors that the noise model allows is the one generated in some run. -/
theorem C80_all_errors (H : Hashes) (d : Fin n → Nat) (hd : ∀ i, 2 ≤ d i ∧ d i ≤ 7)
    (noise : PyDict String (PyDict String (Noise ℝ))) (hk : Keyed noise) (gs gs' : List PyGate) (hc : ∀ g ∈ gs, Common d g)
    (h : WithErrors d noise gs gs') :
    ∃ rng m s, Faithful rng ∧ Misim.parseNoise (asModel noise) = .ok m ∧ Misim.generate rng (List.ofFn d) m (gs.map readInstr) = .ok s ∧
      s.out = gs'.map readInstr ∧ Misim.executeNoisy H rng (List.ofFn d) (asModel noise) gs = Misim.execute H (List.ofFn d) gs' := by
  obtain ⟨m, hm, hl⟩ := parseNoise_ok noise hk
  obtain ⟨cs, hpos, hrun⟩ := generate_complete hd hk hl h hc
  obtain ⟨rng, hrng, hag⟩ := exists_draws cs hpos
  have hg := hrun rng ⟨[], 0⟩ hag
  rw [List.nil_append] at hg
  refine ⟨rng, m, _, hrng, hm, hg, rfl, ?_⟩
  unfold Misim.executeNoisy Misim.generate
  rw [hm]
  simp only [bind, Except.bind]
  rw [hg]
  rfl

/-- C80: without an entry for any gate of the circuit the result is the one without noise. -/
theorem C80_no_noise (H : Hashes) (rng : Misim.Chance ℝ) (dims : List Nat) (noise : PyDict String (PyDict String (Noise ℝ))) (hk : Keyed noise)
    (gs : List PyGate) (h : ∀ g ∈ gs, PyDict.get? noise g.tag = none) :
    Misim.executeNoisy H rng dims (asModel noise) gs = Misim.execute H dims gs := by
  obtain ⟨m, hm, hl⟩ := parseNoise_ok noise hk
  have : ∀ (gs : List PyGate) (s : Misim.NSt), (∀ g ∈ gs, PyDict.get? noise g.tag = none) →
      (gs.map readInstr).foldlM (Misim.stepGate rng dims m) s =
        (.ok ⟨s.out ++ gs.map readInstr, s.drawn⟩ : Except DD.Err Misim.NSt) := by
    intro gs
    induction gs with
    | nil => intro s _; simp [pure, Except.pure]
    | cons g gs ih =>
      intro s h
      have ht : (readInstr g).tag = g.tag := rfl
      have h3 := ih { s with out := s.out ++ [readInstr g] } fun g' hg' => h g' (by simp [hg'])
      rw [List.map_cons, List.foldlM_cons, Misim.stepGate]
      simp only [ht, hl, h g (by simp), Option.map_none, bind, Except.bind, pure, Except.pure] at h3 ⊢
      rw [h3]
      simp
  have hg := this gs ⟨[], 0⟩ h
  rw [List.nil_append] at hg
  unfold Misim.executeNoisy Misim.generate
  rw [hm]
  simp only [bind, Except.bind]
  rw [hg]
  rfl

/-! ### where the noise differs from the documented channels and from the other backends -/

/-- the circuit `h` on one qubit -/
def hGate : PyGate := ⟨⟨[2], "h", .single, .one 0, none, false, false⟩, "h", [2], .none⟩

/-- C80 is violated for depolarisation: with `Noise(1, 0)` on `h` of a qubit every run applies X after it. The noisy circuit factory, with which the
other backends work, draws "no error" with probability 1/4, and then has the circuit unchanged. -/
theorem C80_depolarizing_violated (rng : Misim.Chance ℝ) (hrng : Faithful rng) :
    Misim.generate rng [2] [("h", [("local", ⟨1, 0⟩)])] [readInstr hGate] =
      .ok ⟨[readInstr hGate, ⟨"x", false, [2], [0], .none, ([], [])⟩], 2⟩ ∧
    (NoisyFactory.depolProbs 2 (1 : ℝ))[0]? = some (1 / 4) ∧
    ∃ s, NoisyFactory.generate (fun _ => 0) [2] [("h", [("local", .math ⟨(1 : ℝ), 0⟩)])] [⟨hGate.gate, "h", none⟩] = .ok s ∧
      s.instrs = [.orig ⟨hGate.gate, "h", none⟩] := by
  have h0 : rng 0 1 = true := by
    have := hrng 0 1
    unfold Possible at this
    by_contra hc
    rw [if_neg hc] at this
    exact lt_irrefl _ this
  have h1 : rng 1 0 = false := by
    have := hrng 1 0
    unfold Possible at this
    by_contra hc
    rw [if_pos (by simpa using hc)] at this
    exact lt_irrefl _ this
  refine ⟨?_, ?_, ⟨_, rfl, rfl⟩⟩
  · have hs : Misim.applyMode rng [2] (readInstr hGate) ⟨[readInstr hGate], 0⟩ ("local", ⟨1, 0⟩) =
        .ok ⟨[readInstr hGate, ⟨"x", false, [2], [0], .none, ([], [])⟩], 2⟩ := by
      unfold Misim.applyMode
      dsimp only
      rw [h0, h1]
      rfl
    unfold Misim.generate
    change Except.bind (Except.bind (Misim.applyMode rng [2] (readInstr hGate) ⟨[readInstr hGate], 0⟩ ("local", ⟨1, 0⟩)) Except.ok) Except.ok = _
    rw [hs]
    rfl
  · unfold NoisyFactory.depolProbs
    norm_num

/-- C80 is violated for dephasing: with `Noise(0, 1)` on `h` of a qubit every run applies Z after it, whereas the noisy circuit factory never adds
anything but the error of the depolarisation, which has probability zero here. -/
theorem C80_dephasing_violated (rng : Misim.Chance ℝ) (hrng : Faithful rng) :
    Misim.generate rng [2] [("h", [("local", ⟨0, 1⟩)])] [readInstr hGate] =
      .ok ⟨[readInstr hGate, ⟨"z", false, [2], [0], .none, ([], [])⟩], 2⟩ ∧
    ∀ draws : NoisyFactory.Draws, (∃ p, 0 < p ∧ (NoisyFactory.depolProbs 2 (0 : ℝ))[draws 0 % 4]? = some p) →
      ∃ s, NoisyFactory.generate draws [2] [("h", [("local", .math ⟨(0 : ℝ), 1⟩)])] [⟨hGate.gate, "h", none⟩] = .ok s ∧
        s.instrs = [.orig ⟨hGate.gate, "h", none⟩] := by
  have h0 : rng 0 0 = false := by
    have := hrng 0 0
    unfold Possible at this
    by_contra hc
    rw [if_pos (by simpa using hc)] at this
    exact lt_irrefl _ this
  have h1 : rng 1 1 = true := by
    have := hrng 1 1
    unfold Possible at this
    by_contra hc
    rw [if_neg hc] at this
    exact lt_irrefl _ this
  constructor
  · have hs : Misim.applyMode rng [2] (readInstr hGate) ⟨[readInstr hGate], 0⟩ ("local", ⟨0, 1⟩) =
        .ok ⟨[readInstr hGate, ⟨"z", false, [2], [0], .none, ([], [])⟩], 2⟩ := by
      unfold Misim.applyMode
      dsimp only
      rw [h0, h1]
      rfl
    unfold Misim.generate
    change Except.bind (Except.bind (Misim.applyMode rng [2] (readInstr hGate) ⟨[readInstr hGate], 0⟩ ("local", ⟨0, 1⟩)) Except.ok) Except.ok = _
    rw [hs]
    rfl
  · rintro draws ⟨p, hp, hdr⟩
    have hk : draws 0 % 4 = 0 := by
      by_contra hne
      have hlt : draws 0 % 4 < 4 := Nat.mod_lt _ (by norm_num)
      have : (NoisyFactory.depolProbs 2 (0 : ℝ))[draws 0 % 4]? = some 0 := by
        unfold NoisyFactory.depolProbs
        generalize draws 0 % 4 = k at hne hlt
        match k, hne, hlt with
        | 1, _, _ => norm_num
        | 2, _, _ => norm_num
        | 3, _, _ => norm_num
      rw [this] at hdr
      exact absurd (Option.some.inj hdr) (ne_of_lt hp)
    refine ⟨⟨[.orig ⟨hGate.gate, "h", none⟩], 1, 1⟩, ?_, rfl⟩
    have : NoisyFactory.depolMath draws [2] 0 ⟨[.orig ⟨hGate.gate, "h", none⟩], 1, 0⟩ = .ok ⟨[.orig ⟨hGate.gate, "h", none⟩], 1, 1⟩ := by
      change (.ok (NoisyFactory.emitN (.z 0) (draws 0 % 4 % 2) (NoisyFactory.emitN (.x 0) (draws 0 % 4 / 2)
        ⟨[.orig ⟨hGate.gate, "h", none⟩], 1, 1⟩)) : Except PyErr _) = _
      rw [hk]
      rfl
    change Except.bind (Except.bind (Except.bind (Except.bind (NoisyFactory.depolMath draws [2] 0 ⟨[.orig ⟨hGate.gate, "h", none⟩], 1, 0⟩) Except.ok)
      Except.ok) Except.ok) Except.ok = _
    rw [this]
    rfl

/-- C80 is violated for controls: noise of mode `local` does not reach the control lines, whatever the gate, whereas the noisy circuit factory has
them among the lines. -/
theorem C80_controls_violated (num : Nat) (g : PyGate) (c : ControlData) (hc : g.gate.controls = some c)
    (hs : c.ctrlStates.length = c.indices.length) :
    Misim.affected num (readInstr g) "local" = .ok g.gate.target.lines ∧
    ∀ levels l, NoisyFactory.affected ⟨g.gate, g.tag, levels⟩ "local" = .ok l → ∀ q ∈ c.indices, q ∈ l := by
  constructor
  · unfold Misim.affected Misim.referenceLines readInstr
    rw [if_pos rfl, hc]
    dsimp only
    rw [if_neg]
    rintro ⟨h1, h2⟩
    rw [h2] at hs
    exact h1 (List.length_eq_zero_iff.1 hs.symm)
  · intro levels l hl q hq
    unfold NoisyFactory.affected at hl
    rw [if_pos rfl] at hl
    dsimp only at hl
    unfold Gate.referenceLines Gate.controlLines at hl
    rw [hc] at hl
    dsimp only at hl
    split at hl
    · cases hl
    · rw [← Except.ok.inj hl]
      exact List.mem_append_left _ hq

/-- C80 is violated for noise on chosen levels: the decision-diagram simulator refuses every noise model with such an entry, for every circuit. -/
theorem C80_subspace_violated (H : Hashes) (rng : Misim.Chance ℝ) (dims : List Nat) (errs : PyDict String (PyDict String (NoiseObj ℝ)))
    (gs : List PyGate) (tag mode : String) (modes : PyDict String (NoiseObj ℝ)) (s : SubspaceNoise ℝ) (h1 : (tag, modes) ∈ errs)
    (h2 : (mode, .sub s) ∈ modes) : Misim.executeNoisy H rng dims errs gs = .error (.py .attributeError) := by
  have hm : ∀ (modes : PyDict String (NoiseObj ℝ)) (acc : List (String × Noise ℝ)), (mode, .sub s) ∈ modes →
      modes.foldlM Misim.parseMode acc = (.error (.py .attributeError) : Except Misim.MErr _) := by
    intro modes
    induction modes with
    | nil => intro _ h; cases h
    | cons e modes ih =>
      intro acc h
      rw [List.foldlM_cons]
      obtain ⟨k, o⟩ := e
      cases o with
      | sub _ => rfl
      | math _ =>
        rcases List.mem_cons.1 h with h | h
        · cases h
        · exact ih _ h
  have hp : ∀ modes : PyDict String (NoiseObj ℝ), (∃ m, Misim.parseModes modes = .ok m) ∨ Misim.parseModes modes = .error (.py .attributeError) := by
    intro modes
    unfold Misim.parseModes
    generalize ([] : List (String × Noise ℝ)) = acc
    induction modes generalizing acc with
    | nil => exact .inl ⟨_, rfl⟩
    | cons e modes ih =>
      rw [List.foldlM_cons]
      obtain ⟨k, o⟩ := e
      cases o with
      | sub _ => exact .inr rfl
      | math _ => exact ih _
  have he : ∀ (errs : PyDict String (PyDict String (NoiseObj ℝ))) (acc : List (String × List (String × Noise ℝ))), (tag, modes) ∈ errs →
      errs.foldlM (fun acc e => do
        let m ← Misim.parseModes e.2
        pure (Misim.insertKey e.1 m acc)) acc = (.error (.py .attributeError) : Except Misim.MErr _) := by
    intro errs
    induction errs with
    | nil => intro _ h; cases h
    | cons e errs ih =>
      intro acc h
      rw [List.foldlM_cons]
      rcases hp e.2 with ⟨m, hm'⟩ | hm'
      · simp only [hm', bind, Except.bind, pure, Except.pure]
        rcases List.mem_cons.1 h with rfl | h
        · have := hm modes [] h2
          unfold Misim.parseModes at hm'
          dsimp only at hm'
          rw [this] at hm'
          cases hm'
        · exact ih _ h
      · simp only [hm', bind, Except.bind]
  unfold Misim.executeNoisy Misim.parseNoise
  rw [he errs [] h1]
  rfl

/-- C80 is violated for `target` on a gate on one line: the run fails as soon as an error is drawn, whereas the noisy circuit factory takes the line of
the gate. -/
theorem C80_target_violated (d : Fin n → Nat) (rng : Misim.Chance ℝ) (g : Gate) (q : Fin n) (hg : Made d g (.one (q : Nat)) [q])
    (hty : g.gateType = .single) (tag : String) (dims : List Nat) (params : Params) (p : Noise ℝ) (s : Misim.NSt)
    (hr : rng s.drawn p.depolarizing = true ∨ rng (s.drawn + 1) p.dephasing = true) :
    Misim.applyMode rng (List.ofFn d) (readInstr ⟨g, tag, dims, params⟩) s ("target", p) = .error .outOfRange ∧
    ∀ levels, NoisyFactory.affected ⟨g, tag, levels⟩ "target" = .ok [((q : Nat) : Int)] := by
  constructor
  · have ha : Misim.affected (List.ofFn d).length (readInstr ⟨g, tag, dims, params⟩) "target" = .error .outOfRange := by
      unfold Misim.affected readInstr
      rw [hg.target]
      rfl
    unfold Misim.applyMode
    dsimp only
    rw [if_pos (by simpa using hr), ha]
    rfl
  · intro levels
    unfold NoisyFactory.affected
    dsimp only
    rw [if_neg (by decide), if_neg (by decide), if_neg (by decide), if_neg (by decide), if_pos rfl, if_neg (by simp [hty]), hg.target]

/-- C80 is violated for `all` on lines of different dimensions: after a rotation of the levels 0 and 2 of a qutrit the error on a qubit line is
written for these levels, too, which no Python gate accepts, and applied to its levels 0 and 1. -/
theorem C80_other_line_violated (g : PyGate) (ht : g.tag = "rxy") (theta phi : ℝ)
    (hp : g.params = .list [.int 0, .int 2, .flt theta, .flt phi]) :
    ∃ params, Misim.xError [3, 2] (readInstr g) 1 = .ok ⟨"rxy", false, [2], [1], params, ([], [])⟩ ∧
      rInit 2 params = .error .assertionError ∧
      singleMat "rxy" [2] params = singleMat "rxy" [2] (.list [.int 0, .int 1, .flt Real.pi, .flt (Real.pi / 2)]) := by
  refine ⟨.list [.int 0, .int 2, .flt Real.pi, .flt (Real.pi / 2)], ?_, ?_, ?_⟩
  · have h1 : (readInstr g).tag = "rxy" := ht
    have h2 : (readInstr g).params = .list [.int 0, .int 2, .flt theta, .flt phi] := hp
    unfold Misim.xError Misim.errorLevels
    rw [h1, h2]
    rfl
  · rfl
  · simp [singleMat, tableDim, paramList, getSize, getFlt, rxyMat, bind, Except.bind]

/-- A qutrit and a qubit: `h` with noise of both kinds, a sum with noise on its target, a rotation of the levels 0 and 1 with noise on all lines. -/
example (H : Hashes) (rng : Misim.Chance ℝ) (hrng : Faithful rng) :
    let d : Fin 2 → Nat := ![3, 2]
    let gs : List PyGate := [⟨⟨[3, 2], "h", .single, .one 0, none, false, false⟩, "h", [3], .none⟩,
      ⟨⟨[3, 2], "csum", .two, .many [0, 1], none, false, false⟩, "csum", [3, 2], .none⟩,
      ⟨⟨[3, 2], "rxy", .single, .one 0, none, false, false⟩, "rxy", [3], .list [.int 0, .int 1, .flt 1, .flt 0]⟩]
    let noise : PyDict String (PyDict String (Noise ℝ)) := [("rxy", [("all", ⟨1 / 2, 0⟩)]), ("h", [("nonlocal", ⟨1 / 3, 1 / 3⟩), ("local", ⟨1, 1 / 2⟩)]),
      ("csum", [("target", ⟨1 / 10, 1 / 5⟩)])]
    ∃ gs' v, WithErrors d noise gs gs' ∧ Misim.executeNoisy H rng [3, 2] (asModel noise) gs = .ok v ∧ Misim.execute H [3, 2] gs' = .ok v := by
  intro d gs noise
  have hc : ∀ g ∈ gs, Common d g := by
    intro g hg
    rcases List.mem_cons.1 hg with rfl | hg
    · exact .plain _ (0 : Fin 2) "h" ⟨rfl, "h", _, 0, rfl, rfl⟩ (by decide) (by decide) (by simp)
    rcases List.mem_cons.1 hg with rfl | hg
    · exact .csum _ (0 : Fin 2) (1 : Fin 2) ⟨rfl, "csum", _, 0, rfl, rfl⟩ (by decide) (by decide) (by decide)
    rcases List.mem_cons.1 hg with rfl | hg
    · exact Common.rxy (d := d) _ (0 : Fin 2) (0 : Fin 3) (1 : Fin 3) 1 0 ⟨rfl, "rxy", _, 0, rfl, rfl⟩ (by decide : d 0 ≤ 7)
        (by decide : (0 : Fin 3) < 1)
    · cases hg
  have ha : Applicable d noise gs := by
    intro g hg modes hm e he
    rcases List.mem_cons.1 hg with rfl | hg
    · obtain rfl : [("nonlocal", ⟨1 / 3, 1 / 3⟩), ("local", ⟨1, 1 / 2⟩)] = modes := Option.some.inj hm
      rcases List.mem_cons.1 he with rfl | he
      · exact ⟨by simp, by simp, by simp⟩
      · rw [List.mem_singleton] at he
        subst he
        exact ⟨by simp, by simp, by simp⟩
    rcases List.mem_cons.1 hg with rfl | hg
    · obtain rfl : [("target", ⟨1 / 10, 1 / 5⟩)] = modes := Option.some.inj hm
      rw [List.mem_singleton] at he
      subst he
      exact ⟨by simp, fun _ => by simp [Target.lines], by simp⟩
    rcases List.mem_cons.1 hg with rfl | hg
    · obtain rfl : [("all", ⟨1 / 2, 0⟩)] = modes := Option.some.inj hm
      rw [List.mem_singleton] at he
      subst he
      refine ⟨by simp, by simp, fun _ _ q => ?_⟩
      match q with
      | 0 => exact ⟨(0 : Fin 3), (1 : Fin 3), (by decide : (0 : Fin 3) < 1), .inl ⟨by simp, _, rfl⟩⟩
      | 1 => exact ⟨(0 : Fin 2), (1 : Fin 2), (by decide : (0 : Fin 2) < 1), .inl ⟨by simp, _, rfl⟩⟩
    · cases hg
  have hk : Keyed noise := by
    refine ⟨by simp [PyDict.keys, noise], ?_⟩
    simp [PyDict.keys, noise]
  obtain ⟨gs', arrs, v, hw, h1, _, h2, _⟩ := C80_noisy H rng hrng d (by norm_num) (by decide) noise hk gs hc ha
  exact ⟨gs', v, hw, h1, h2⟩

/-- With `Noise(1/2, 1/2)` the circuit of `h`, X and Z on a qubit is one of those with errors. -/
example : WithErrors (n := 1) (fun _ => 2) [("h", [("local", ⟨1 / 2, 1 / 2⟩)])] [hGate]
    [hGate, ⟨⟨[2], "x", .single, .one 0, none, false, false⟩, "x", [2], .none⟩, ⟨⟨[2], "z", .single, .one 0, none, false, false⟩, "z", [2], .none⟩] :=
  WithErrors.noisy hGate [] [] _ _ [[⟨⟨[2], "x", .single, .one 0, none, false, false⟩, "x", [2], .none⟩] ++
      [⟨⟨[2], "z", .single, .one 0, none, false, false⟩, "z", [2], .none⟩]] rfl (.refl _) (by simp)
    (.cons (.mk "local" ⟨1 / 2, 1 / 2⟩ [0] true true _ _ (.inl ⟨.inl rfl, rfl⟩) (by simp [Possible]) (by simp only [Possible]; norm_num)
      (.cons ⟨made_new (fun _ : Fin 1 => 2) 0 "x", rfl, rfl, by simp [hGate]⟩ .nil)
      (.cons ⟨made_new (fun _ : Fin 1 => 2) 0 "z", rfl, rfl, by simp [hGate]⟩ .nil)) .nil) .nil

end Qudits
