import Verif.Props.ShotsProps
import Verif.Model.FakeBackends
import Verif.Spec.FakeSpec
/-
C85: circuits on the shipped backends that are not plain simulators.
-/
namespace Qudits.Shots
open Spec Matrix Complex NoisyFactory
variable {n : Nat} {d : Fin n → Nat}

noncomputable def afterSum : PyDict String (NoiseObj ℝ) := [("all", .math ⟨0.001, 0.001⟩), ("control", .math ⟨0.01, 0⟩), ("nonlocal", .math ⟨0.1, 0.1⟩)]

noncomputable def afterTwo : PyDict String (NoiseObj ℝ) := [("nonlocal", .math ⟨0.1, 0.001⟩), ("target", .math ⟨0.1, 0⟩), ("control", .math ⟨0.01, 0⟩)]

noncomputable def afterOne : PyDict String (NoiseObj ℝ) := [("local", .math ⟨0.001, 0.001⟩)]

noncomputable def afterRz : PyDict String (NoiseObj ℝ) := [("local", .math ⟨0.03, 0.03⟩)]

/-- the noise model, written out -/
noncomputable def fakeErrors : Errors :=
  [("csum", afterSum), ("cx", afterTwo), ("ls", afterTwo), ("ms", afterTwo), ("h", afterOne), ("rxy", afterOne), ("s", afterOne), ("x", afterOne),
    ("z", afterOne), ("rz", afterRz), ("virtrz", afterRz)]

theorem fakeNoise_eq : fakeNoise = .ok fakeErrors := rfl

theorem fakeInit_eq (fields : Options Errors) : fakeInit fields = .ok ⟨{ (BackendSt.init fields).options with noiseModel := some (some fakeErrors) },
    { (BackendSt.init fields).attrs with noiseModel := some fakeErrors }⟩ := rfl

/-- the entries of the noise model -/
theorem fake_entry (tag : String) (modes : PyDict String (NoiseObj ℝ)) : PyDict.get? fakeErrors tag = some modes ↔
    (tag = "csum" ∧ modes = afterSum) ∨ (tag ∈ ["cx", "ls", "ms"] ∧ modes = afterTwo) ∨
    (tag ∈ ["h", "rxy", "s", "x", "z"] ∧ modes = afterOne) ∨ (tag ∈ ["rz", "virtrz"] ∧ modes = afterRz) := by
  constructor
  · intro h
    unfold fakeErrors at h
    simp only [PyDict.get?] at h
    split_ifs at h with h1 h2 h3 h4 h5 h6 h7 h8 h9 h10 h11
    · exact .inl ⟨h1.symm, (Option.some.inj h).symm⟩
    · exact .inr (.inl ⟨by rw [← h2]; decide, (Option.some.inj h).symm⟩)
    · exact .inr (.inl ⟨by rw [← h3]; decide, (Option.some.inj h).symm⟩)
    · exact .inr (.inl ⟨by rw [← h4]; decide, (Option.some.inj h).symm⟩)
    · exact .inr (.inr (.inl ⟨by rw [← h5]; decide, (Option.some.inj h).symm⟩))
    · exact .inr (.inr (.inl ⟨by rw [← h6]; decide, (Option.some.inj h).symm⟩))
    · exact .inr (.inr (.inl ⟨by rw [← h7]; decide, (Option.some.inj h).symm⟩))
    · exact .inr (.inr (.inl ⟨by rw [← h8]; decide, (Option.some.inj h).symm⟩))
    · exact .inr (.inr (.inl ⟨by rw [← h9]; decide, (Option.some.inj h).symm⟩))
    · exact .inr (.inr (.inr ⟨by rw [← h10]; decide, (Option.some.inj h).symm⟩))
    · exact .inr (.inr (.inr ⟨by rw [← h11]; decide, (Option.some.inj h).symm⟩))
  · rintro (⟨rfl, rfl⟩ | ⟨ht, rfl⟩ | ⟨ht, rfl⟩ | ⟨ht, rfl⟩)
    · rfl
    all_goals
      simp only [List.mem_cons, List.not_mem_nil, or_false] at ht
    · rcases ht with rfl | rfl | rfl <;> rfl
    · rcases ht with rfl | rfl | rfl | rfl | rfl <;> rfl
    · rcases ht with rfl | rfl <;> rfl

theorem fake_ascending : Ascending fakeErrors := by
  intro tag modes h mode m hm
  rcases (fake_entry tag modes).1 h with ⟨-, rfl⟩ | ⟨-, rfl⟩ | ⟨-, rfl⟩ | ⟨-, rfl⟩ <;> simp [afterSum, afterTwo, afterOne, afterRz] at hm

/-- C85: the noise model that the constructor of a fake backend installs, whatever options it is given, has exactly the entries of the table. -/
theorem C85_table (fields : Options Errors) : ∃ st errs, fakeInit fields = .ok st ∧ st.options.noiseModel = some (some errs) ∧
    ∀ tag mode o, (∃ modes, PyDict.get? errs tag = some modes ∧ (mode, o) ∈ modes) ↔
      ∃ tags p q, (tags, mode, p, q) ∈ deviceTable ∧ tag ∈ tags ∧ o = .math ⟨p, q⟩ := by
  refine ⟨_, fakeErrors, rfl, rfl, fun tag mode o => ?_⟩
  simp only [fake_entry, deviceTable, List.mem_cons, List.not_mem_nil, or_false, Prod.mk.injEq]
  constructor
  · rintro ⟨modes, ⟨ht, rfl⟩ | ⟨ht, rfl⟩ | ⟨ht, rfl⟩ | ⟨ht, rfl⟩, hm⟩
    · simp only [afterSum, afterTwo, afterOne, afterRz, List.mem_cons, List.not_mem_nil, or_false, Prod.mk.injEq] at hm
      rcases hm with ⟨rfl, rfl⟩ | ⟨rfl, rfl⟩ | ⟨rfl, rfl⟩
      · exact ⟨["csum"], _, _, .inl ⟨rfl, rfl, rfl, rfl⟩, by simpa using ht, rfl⟩
      · exact ⟨["csum"], _, _, .inr (.inl ⟨rfl, rfl, rfl, rfl⟩), by simpa using ht, rfl⟩
      · exact ⟨["csum"], _, _, .inr (.inr (.inl ⟨rfl, rfl, rfl, rfl⟩)), by simpa using ht, rfl⟩
    · simp only [afterSum, afterTwo, afterOne, afterRz, List.mem_cons, List.not_mem_nil, or_false, Prod.mk.injEq] at hm
      rcases hm with ⟨rfl, rfl⟩ | ⟨rfl, rfl⟩ | ⟨rfl, rfl⟩
      · exact ⟨["cx", "ls", "ms"], _, _, .inr (.inr (.inr (.inl ⟨rfl, rfl, rfl, rfl⟩))), by simpa using ht, rfl⟩
      · exact ⟨["cx", "ls", "ms"], _, _, .inr (.inr (.inr (.inr (.inl ⟨rfl, rfl, rfl, rfl⟩)))), by simpa using ht, rfl⟩
      · exact ⟨["cx", "ls", "ms"], _, _, .inr (.inr (.inr (.inr (.inr (.inl ⟨rfl, rfl, rfl, rfl⟩))))), by simpa using ht, rfl⟩
    · simp only [afterSum, afterTwo, afterOne, afterRz, List.mem_cons, List.not_mem_nil, or_false, Prod.mk.injEq] at hm
      obtain ⟨rfl, rfl⟩ := hm
      exact ⟨["h", "rxy", "s", "x", "z"], _, _, .inr (.inr (.inr (.inr (.inr (.inr (.inl ⟨rfl, rfl, rfl, rfl⟩)))))), by simpa using ht, rfl⟩
    · simp only [afterSum, afterTwo, afterOne, afterRz, List.mem_cons, List.not_mem_nil, or_false, Prod.mk.injEq] at hm
      obtain ⟨rfl, rfl⟩ := hm
      exact ⟨["rz", "virtrz"], _, _, .inr (.inr (.inr (.inr (.inr (.inr (.inr ⟨rfl, rfl, rfl, rfl⟩)))))), by simpa using ht, rfl⟩
  · rintro ⟨tags, p, q, h, ht, rfl⟩
    rcases h with ⟨rfl, rfl, rfl, rfl⟩ | ⟨rfl, rfl, rfl, rfl⟩ | ⟨rfl, rfl, rfl, rfl⟩ | ⟨rfl, rfl, rfl, rfl⟩ | ⟨rfl, rfl, rfl, rfl⟩ | ⟨rfl, rfl, rfl, rfl⟩ |
      ⟨rfl, rfl, rfl, rfl⟩ | ⟨rfl, rfl, rfl, rfl⟩
    · exact ⟨_, .inl ⟨by simpa using ht, rfl⟩, by simp [afterSum]⟩
    · exact ⟨_, .inl ⟨by simpa using ht, rfl⟩, by simp [afterSum]⟩
    · exact ⟨_, .inl ⟨by simpa using ht, rfl⟩, by simp [afterSum]⟩
    · exact ⟨_, .inr (.inl ⟨by simpa using ht, rfl⟩), by simp [afterTwo]⟩
    · exact ⟨_, .inr (.inl ⟨by simpa using ht, rfl⟩), by simp [afterTwo]⟩
    · exact ⟨_, .inr (.inl ⟨by simpa using ht, rfl⟩), by simp [afterTwo]⟩
    · exact ⟨_, .inr (.inr (.inl ⟨by simpa using ht, rfl⟩)), by simp [afterOne, afterRz]⟩
    · exact ⟨_, .inr (.inr (.inr ⟨by simpa using ht, rfl⟩)), by simp [afterOne, afterRz]⟩

theorem fake_fits {instrs : List Instr} (hc : ∀ i ∈ instrs, Constructed i) (dims : List Nat) : NoiseFits dims fakeErrors instrs := by
  intro i hi modes hm e he
  have h := hc i hi
  unfold Constructed at h
  rcases (fake_entry i.tag modes).1 hm with ⟨ht, rfl⟩ | ⟨ht, rfl⟩ | ⟨-, rfl⟩ | ⟨-, rfl⟩
  · obtain ⟨h1, a, b, h2, -⟩ := h (by simp [ht])
    simp only [afterSum, afterTwo, List.mem_cons, List.not_mem_nil, or_false] at he
    rcases he with rfl | rfl | rfl
    · exact ⟨.inr (.inl rfl), trivial, math_fits (by norm_num) _ _ _⟩
    · exact ⟨.inr (.inr (.inr (.inl ⟨rfl, h1, _, h2⟩))), trivial, math_fits (by norm_num) _ _ _⟩
    · exact ⟨.inr (.inr (.inl ⟨rfl, by simp [h1]⟩)), trivial, math_fits (by norm_num) _ _ _⟩
  · obtain ⟨h1, a, b, h2, -⟩ := h (List.mem_cons_of_mem _ ht)
    simp only [afterSum, afterTwo, List.mem_cons, List.not_mem_nil, or_false] at he
    rcases he with rfl | rfl | rfl
    · exact ⟨.inr (.inr (.inl ⟨rfl, by simp [h1]⟩)), trivial, math_fits (by norm_num) _ _ _⟩
    · exact ⟨.inr (.inr (.inr (.inr ⟨rfl, .inl (by simp [h1])⟩))), trivial, math_fits (by norm_num) _ _ _⟩
    · exact ⟨.inr (.inr (.inr (.inl ⟨rfl, h1, _, h2⟩))), trivial, math_fits (by norm_num) _ _ _⟩
  · simp only [afterOne, afterRz, List.mem_singleton] at he
    subst he
    exact ⟨.inl rfl, trivial, math_fits (by norm_num) _ _ _⟩
  · simp only [afterOne, afterRz, List.mem_singleton] at he
    subst he
    exact ⟨.inl rfl, trivial, math_fits (by norm_num) _ _ _⟩

/-- C85: the errors that this noise model allows after a gate. -/
theorem C85_errors (i : Instr) (hc : Constructed i) (hl : ∀ q ∈ i.gate.controlLines ++ i.gate.target.lines, 0 ≤ q ∧ q < i.gate.dims.length) (e : NoisyInstr) :
    AllowedError i.gate.dims fakeErrors i e ↔ DeviceError i.gate.dims.length i e := by
  have hsel : ∀ mode q, Selected i mode q ↔ ((mode = "local" ∧ q ∈ i.gate.controlLines ++ i.gate.target.lines) ∨
      (mode = "all" ∧ 0 ≤ q ∧ q < i.gate.dims.length) ∨
      (mode = "nonlocal" ∧ i.gate.gateType ≠ .single ∧ q ∈ i.gate.controlLines ++ i.gate.target.lines) ∨
      (mode = "control" ∧ i.gate.gateType = .two ∧ ∃ rest, i.gate.target = .many (q :: rest)) ∨
      (mode = "target" ∧ ((i.gate.gateType ≠ .single ∧ ∃ a rest, i.gate.controlLines ++ i.gate.target.lines = a :: rest ∧ q ∈ rest) ∨
        (i.gate.gateType = .single ∧ i.gate.target = .one q)))) := fun _ _ => Iff.rfl
  have hlines : ∀ mode q, mode ≠ "all" → Selected i mode q → q ∈ i.gate.controlLines ++ i.gate.target.lines := by
    intro mode q hm h
    rcases (hsel mode q).1 h with ⟨-, h⟩ | ⟨h, -⟩ | ⟨-, -, h⟩ | ⟨-, -, rest, h⟩ | ⟨-, ⟨-, a, rest, h, hq⟩ | ⟨-, h⟩⟩
    · exact h
    · exact absurd h hm
    · exact h
    · rw [h]; simp [Target.lines]
    · rw [h]; simp [hq]
    · rw [h]; simp [Target.lines]
  have hall : ∀ mode q, Selected i mode q → 0 ≤ q ∧ q < i.gate.dims.length := by
    intro mode q h
    by_cases hm : mode = "all"
    · subst hm
      rcases (hsel _ q).1 h with ⟨h, -⟩ | ⟨-, h⟩ | ⟨h, -⟩ | ⟨h, -⟩ | ⟨h, -⟩
      · exact absurd h (by decide)
      · exact h
      · exact absurd h (by decide)
      · exact absurd h (by decide)
      · exact absurd h (by decide)
    · exact hl q (hlines mode q hm h)
  constructor
  · rintro ⟨modes, mode, o, q, h1, h2, h3, h4⟩
    have hmath : ∃ noise, o = .math noise := by
      rcases (fake_entry i.tag modes).1 h1 with ⟨-, rfl⟩ | ⟨-, rfl⟩ | ⟨-, rfl⟩ | ⟨-, rfl⟩ <;>
        simp only [afterSum, afterTwo, afterOne, afterRz, List.mem_cons, List.not_mem_nil, or_false, Prod.mk.injEq] at h2
      · rcases h2 with ⟨-, rfl⟩ | ⟨-, rfl⟩ | ⟨-, rfl⟩ <;> exact ⟨_, rfl⟩
      · rcases h2 with ⟨-, rfl⟩ | ⟨-, rfl⟩ | ⟨-, rfl⟩ <;> exact ⟨_, rfl⟩
      · exact ⟨_, h2.2⟩
      · exact ⟨_, h2.2⟩
    obtain ⟨noise, rfl⟩ := hmath
    refine ⟨q, h4, ?_⟩
    rcases (fake_entry i.tag modes).1 h1 with ⟨ht, rfl⟩ | ⟨ht, rfl⟩ | ⟨ht, rfl⟩ | ⟨ht, rfl⟩
    · exact .inr ⟨ht, hall _ _ h3⟩
    · refine .inl ⟨?_, hlines mode q ?_ h3⟩
      · simp only [List.mem_cons, List.not_mem_nil, or_false] at ht ⊢
        tauto
      · rintro rfl
        simp [afterTwo, afterOne, afterRz] at h2
    · refine .inl ⟨?_, hlines mode q ?_ h3⟩
      · simp only [List.mem_cons, List.not_mem_nil, or_false] at ht ⊢
        tauto
      · rintro rfl
        simp [afterTwo, afterOne, afterRz] at h2
    · refine .inl ⟨?_, hlines mode q ?_ h3⟩
      · simp only [List.mem_cons, List.not_mem_nil, or_false] at ht ⊢
        tauto
      · rintro rfl
        simp [afterTwo, afterOne, afterRz] at h2
  · rintro ⟨q, he, ⟨ht, hq⟩ | ⟨ht, h0, h1⟩⟩
    · have hcases : i.tag ∈ ["cx", "ls", "ms"] ∨ i.tag ∈ ["h", "rxy", "s", "x", "z"] ∨ i.tag ∈ ["rz", "virtrz"] := by
        simp only [List.mem_cons, List.not_mem_nil, or_false] at ht ⊢
        tauto
      rcases hcases with ht | ht | ht
      · obtain ⟨hg, -⟩ := hc (List.mem_cons_of_mem _ ht)
        exact ⟨_, "nonlocal", .math ⟨0.1, 0.001⟩, q, (fake_entry _ _).2 (.inr (.inl ⟨ht, rfl⟩)), by simp [afterTwo],
          (hsel _ _).2 (.inr (.inr (.inl ⟨rfl, by simp [hg], hq⟩))), he⟩
      · exact ⟨_, "local", .math ⟨0.001, 0.001⟩, q, (fake_entry _ _).2 (.inr (.inr (.inl ⟨ht, rfl⟩))), by simp [afterOne], (hsel _ _).2 (.inl ⟨rfl, hq⟩), he⟩
      · exact ⟨_, "local", .math ⟨0.03, 0.03⟩, q, (fake_entry _ _).2 (.inr (.inr (.inr ⟨ht, rfl⟩))), by simp [afterSum, afterTwo, afterOne, afterRz], (hsel _ _).2 (.inl ⟨rfl, hq⟩), he⟩
    · exact ⟨_, "all", .math ⟨0.001, 0.001⟩, q, (fake_entry _ _).2 (.inl ⟨ht, rfl⟩), by simp [afterSum, afterTwo, afterOne, afterRz], (hsel _ _).2 (.inr (.inl ⟨rfl, h0, h1⟩)), he⟩

/-- C85: the first run of a circuit of unitary gates on a fake backend, unless a noise model is given to the run: with at least 50 shots (the default) it
succeeds, whatever the outcomes of the random generators are, with one result for every shot; a shot returns the state of, or an outcome by Born's rule in, the
circuit with errors of this backend. With fewer shots it fails. -/
theorem C85_run (hn : 0 < n) (hpos : ∀ i, 0 < d i) (W : World) (hW : ∀ s, 0 ≤ W.first s ∧ W.first s < 1) (draws : Draws) (names : Nat → String)
    (circ : List (Instr × Arr2 ℂ)) (Ms : List (Matrix (Reg d) (Reg d) ℂ)) (hops : Operators d circ Ms) (hu : ∀ M ∈ Ms, M ∈ unitaryGroup (Reg d) ℂ)
    (hc : ∀ c ∈ circ, Constructed c.1) (fields opts : Options Errors) (ho : opts.noiseModel = none) (shots : Int)
    (hs : shots = (opts.shots <|> fields.shots).getD 50) :
    ∃ st errs, fakeInit fields = .ok st ∧ (∀ c ∈ circ, ∀ e, AllowedError (List.ofFn d) errs c.1 e ↔ DeviceError n c.1 e) ∧
      (shots < 50 → runTn W draws names (List.ofFn d) circ st opts = .error .assertionError) ∧
      (50 ≤ shots → ∃ job, runTn W draws names (List.ofFn d) circ st opts = .ok job ∧ Lists d job.state (Ms.reverse.prod *ᵥ zeroState d) ∧
        ((opts.fullStateMemory <|> fields.fullStateMemory).getD false = true → ∃ l, job.counts = .states l ∧ (l.length : Int) = shots ∧
          ∀ v ∈ l, ∃ psi, NoisyState d errs circ Ms psi ∧ Lists d v psi) ∧
        ((opts.fullStateMemory <|> fields.fullStateMemory).getD false = false → ∃ l, job.counts = .positions l ∧ (l.length : Int) = shots ∧
          ∀ i k, l[i]? = some k → ∃ psi x, NoisyState d errs circ Ms psi ∧ k = idx d x ∧ Born d psi (W.first (seed W (W.moment i))) x)) := by
  refine ⟨_, fakeErrors, fakeInit_eq fields, ?_, ?_⟩
  · intro c hcm e
    obtain ⟨ls, hf⟩ := operators_flagged hops c hcm
    have := C85_errors c.1 (hc c hcm) (by
      rw [hf.lines, hf.dims, List.length_ofFn]
      intro q hq
      obtain ⟨k, _, rfl⟩ := List.mem_map.1 hq
      omega) e
    rwa [hf.dims, List.length_ofFn] at this
  · generalize hst : (⟨{ (BackendSt.init fields).options with noiseModel := some (some fakeErrors) },
      { (BackendSt.init fields).attrs with noiseModel := some fakeErrors }⟩ : BackendSt Errors) = st
    have hrun : (st.run opts).2.attrs.noiseModel = some fakeErrors ∧ (st.run opts).2.attrs.shots = shots ∧
        (st.run opts).2.attrs.fullStateMemory = (opts.fullStateMemory <|> fields.fullStateMemory).getD false ∧
        (st.run opts).1 = if 50 ≤ shots then .stochastic (st.run opts).2.attrs else .shotsAssertion := by
      subst hst
      subst hs
      have hshots : (opts.shots <|> (BackendSt.init fields).options.shots).getD 50 = (opts.shots <|> fields.shots).getD 50 := by
        unfold BackendSt.init Options.default Options.update
        dsimp only
        cases opts.shots <;> cases fields.shots <;> rfl
      have hfull : (opts.fullStateMemory <|> (BackendSt.init fields).options.fullStateMemory).getD false =
          (opts.fullStateMemory <|> fields.fullStateMemory).getD false := by
        unfold BackendSt.init Options.default Options.update
        dsimp only
        cases opts.fullStateMemory <;> cases fields.fullStateMemory <;> rfl
      unfold BackendSt.run Options.update
      dsimp only
      rw [ho, hshots, hfull]
      split_ifs <;> simp_all
    obtain ⟨r1, r2, r3, r4⟩ := hrun
    constructor
    · intro h
      rw [if_neg (by omega)] at r4
      exact (C83_other_runs hn hpos W draws names circ Ms hops st opts).2 r4
    · intro h
      rw [if_pos h] at r4
      obtain ⟨job, hj⟩ := (C83_tn_succeeds hn hpos W hW draws names circ Ms hops hu st opts _ fakeErrors r4 r1 fake_ascending).2 (fake_fits (by
        intro i hi
        obtain ⟨c, hcm, rfl⟩ := List.mem_map.1 hi
        exact hc c hcm) _)
      obtain ⟨j1, j2, j3⟩ := C83_tn hn hpos W hW draws names circ Ms hops hu st opts _ fakeErrors r4 r1 job hj
      rw [r2, r3] at j2 j3
      exact ⟨job, hj, j1, j2, j3⟩

/-- C85: a noise model given to the run takes the place of the one of the backend, and `None` gives a run without errors. -/
theorem C85_run_option (fields opts : Options Errors) (given : Option Errors) (ho : opts.noiseModel = some given) :
    ∃ st, fakeInit fields = .ok st ∧ (given = none → (st.run opts).1 = .exact) ∧
      (∀ mine, given = some mine → (∃ a, (st.run opts).1 = .stochastic a ∧ a.noiseModel = some mine) ∨ (st.run opts).1 = .shotsAssertion) := by
  refine ⟨_, fakeInit_eq fields, ?_, ?_⟩
  · rintro rfl
    unfold BackendSt.run Options.update
    dsimp only
    rw [ho]
    rfl
  · rintro mine rfl
    unfold BackendSt.run Options.update
    dsimp only
    rw [ho]
    split_ifs with h1 h2
    · exact .inl ⟨_, rfl, rfl⟩
    · exact .inr rfl
    · simp at h1

/-- C85 is violated for a noise model given to the constructor (`get_backend(name, noise_model=...)` hands it on): it is ignored. The backend is the same as one
to which no noise model was given, also if it was `None`, to have no errors. -/
theorem C85_own_noise_violated (fields : Options Errors) (mine : Option (Option Errors)) :
    fakeInit { fields with noiseModel := mine } = fakeInit { fields with noiseModel := none } ∧
      innsbruckInit { fields with noiseModel := mine } = innsbruckInit { fields with noiseModel := none } := ⟨rfl, rfl⟩

/-- C85 is violated for `Innsbruck01`: the results of a run do not depend on the circuit. A run with at least 50 shots returns an empty state vector and no
counts. -/
theorem C85_innsbruck_violated (fields opts : Options Errors) (circ : List (Instr × Arr2 ℂ)) :
    (innsbruckRun (innsbruckInit fields) opts circ).1 =
      if 50 ≤ (opts.shots <|> fields.shots).getD 50 then .ok ⟨[], .positions [], none⟩ else .error .assertionError := by
  have hshots : (opts.shots <|> (BackendSt.init fields).options.shots).getD 50 = (opts.shots <|> fields.shots).getD 50 := by
    unfold BackendSt.init Options.default Options.update
    dsimp only
    cases opts.shots <;> cases fields.shots <;> rfl
  have : ((innsbruckInit fields).run opts).2.attrs.shots = (opts.shots <|> fields.shots).getD 50 := by
    rw [← hshots]
    unfold BackendSt.run innsbruckInit Options.update
    dsimp only
    split_ifs <;> rfl
  unfold innsbruckRun
  dsimp only
  rw [this]
  split_ifs <;> rfl

/-! ### examples -/

/-- The gate X on a qubit, run on a fake backend with the default options: 50 outcomes, each the outcome in a state with errors of the table. -/
example (draws : Draws) (names : Nat → String) : ∃ A st job l, xArray 2 = .ok A ∧ fakeInit {} = .ok st ∧
    runTn world draws names [2] (flipCirc A) st {} = .ok job ∧ job.counts = .positions l ∧ l.length = 50 := by
  obtain ⟨A, hA, hops⟩ := flip_operators
  have hW : ∀ s, 0 ≤ world.first s ∧ world.first s < 1 := by
    intro s
    unfold world
    norm_num
  obtain ⟨st, errs, h1, -, -, h2⟩ := C85_run (d := ![2]) (by omega) (by decide) world hW draws names _ _ hops flip_unitary (by
    intro c hc
    simp only [flipCirc, List.mem_singleton] at hc
    subst hc
    intro h
    exact absurd (show "x" ∈ ["csum", "cx", "ls", "ms"] from h) (by decide)) {} {} rfl 50 rfl
  obtain ⟨job, j1, -, -, j2⟩ := h2 (by norm_num)
  obtain ⟨l, l1, l2, -⟩ := j2 rfl
  exact ⟨A, st, job, l, hA, h1, j1, l1, by exact_mod_cast l2⟩

/-- After CEx on lines 0 and 2 there may be an X on line 2, but not on line 1; after CSum it may be on line 1; after Rh there are no errors. -/
example : DeviceError 3 ⟨⟨[2, 2, 2], "CEx", .two, .many [0, 2], none, false, true⟩, "cx", none⟩ (.x 2) ∧
    ¬ DeviceError 3 ⟨⟨[2, 2, 2], "CEx", .two, .many [0, 2], none, false, true⟩, "cx", none⟩ (.x 1) ∧
    DeviceError 3 ⟨⟨[2, 2, 2], "CSum", .two, .many [0, 2], none, false, true⟩, "csum", none⟩ (.x 1) ∧
    ∀ e, ¬ DeviceError 3 ⟨⟨[2, 2, 2], "Rh", .single, .one 0, none, false, false⟩, "rh", some (0, 1)⟩ e := by
  refine ⟨⟨2, .inl rfl, .inl ⟨by decide, by decide⟩⟩, ?_, ⟨1, .inl rfl, .inr ⟨rfl, by decide, by decide⟩⟩, ?_⟩
  · rintro ⟨q, h | h, ⟨-, h2⟩ | ⟨h2, -⟩⟩
    · cases h
      exact absurd h2 (by decide)
    · exact absurd h2 (by decide)
    · cases h
    · cases h
  · rintro e ⟨q, -, ⟨h, -⟩ | ⟨h, -⟩⟩ <;> exact absurd h (by decide)

/-- A mode that does not fit: noise on the control of the gate X makes every run fail. -/
example (draws : Draws) (names : Nat → String) (A : Arr2 ℂ) (hops : Operators ![2] (flipCirc A) [flipOp]) : ¬ ∃ job, runTn world draws names [2] (flipCirc A)
    (BackendSt.init {}) { noiseModel := some (some [("x", [("control", .math ⟨1 / 2, 0⟩)])]) } = .ok job := by
  have hW : ∀ s, 0 ≤ world.first s ∧ world.first s < 1 := by
    intro s
    unfold world
    norm_num
  rintro ⟨job, hj⟩
  have := (C83_tn_succeeds (d := ![2]) (by omega) (by decide) world hW draws names _ _ hops flip_unitary _ _ _ [("x", [("control", .math ⟨1 / 2, 0⟩)])]
    (rfl : ((BackendSt.init ({} : Options Errors)).run { noiseModel := some (some [("x", [("control", .math ⟨1 / 2, 0⟩)])]) }).1 = _) rfl (by
      intro tag modes h mode m hm
      unfold PyDict.get? at h
      split_ifs at h
      · cases h
        simp at hm
      · cases h)).1 ⟨job, hj⟩ _ (List.mem_cons_self ..) _ rfl _ (List.mem_cons_self ..)
  rcases this.1 with h | h | ⟨h, -⟩ | ⟨-, h, -⟩ | ⟨h, -⟩
  · exact absurd h (by decide)
  · exact absurd h (by decide)
  · exact absurd h (by decide)
  · cases h
  · exact absurd h (by decide)

/-- Levels that do not fit: physical noise between the levels 0 and 2 of a qubit. -/
example (draws : Draws) (names : Nat → String) (A : Arr2 ℂ) (hops : Operators ![2] (flipCirc A) [flipOp]) : ¬ ∃ job, runTn world draws names [2] (flipCirc A)
    (BackendSt.init {}) { noiseModel := some (some [("x", [("local", .sub [((0, 2), ⟨1 / 2, 0⟩)])])]) } = .ok job := by
  have hW : ∀ s, 0 ≤ world.first s ∧ world.first s < 1 := by
    intro s
    unfold world
    norm_num
  rintro ⟨job, hj⟩
  have := (C83_tn_succeeds (d := ![2]) (by omega) (by decide) world hW draws names _ _ hops flip_unitary _ _ _ [("x", [("local", .sub [((0, 2), ⟨1 / 2, 0⟩)])])]
    (rfl : ((BackendSt.init ({} : Options Errors)).run { noiseModel := some (some [("x", [("local", .sub [((0, 2), ⟨1 / 2, 0⟩)])])]) }).1 = _) rfl (by
      intro tag modes h mode m hm
      unfold PyDict.get? at h
      split_ifs at h
      · cases h
        simp at hm
        obtain ⟨-, rfl⟩ := hm
        simp
      · cases h)).1 ⟨job, hj⟩ _ (List.mem_cons_self ..) _ rfl _ (List.mem_cons_self ..)
  have h := (this.2.1 0 2 (by simp [NoisePair])).2 0 2 (.inl ⟨rfl, by simp⟩) rfl
  omega

/-- A number that is no probability: each of three errors of a qubit would have probability 1 / 2. -/
example (draws : Draws) (names : Nat → String) (A : Arr2 ℂ) (hops : Operators ![2] (flipCirc A) [flipOp]) : ¬ ∃ job, runTn world draws names [2] (flipCirc A)
    (BackendSt.init {}) { noiseModel := some (some [("x", [("local", .math ⟨2, 0⟩)])]) } = .ok job := by
  have hW : ∀ s, 0 ≤ world.first s ∧ world.first s < 1 := by
    intro s
    unfold world
    norm_num
  rintro ⟨job, hj⟩
  have := (C83_tn_succeeds (d := ![2]) (by omega) (by decide) world hW draws names _ _ hops flip_unitary _ _ _ [("x", [("local", .math ⟨2, 0⟩)])]
    (rfl : ((BackendSt.init ({} : Options Errors)).run { noiseModel := some (some [("x", [("local", .math ⟨2, 0⟩)])]) }).1 = _) rfl (by
      intro tag modes h mode m hm
      unfold PyDict.get? at h
      split_ifs at h
      · cases h
        simp at hm
      · cases h)).1 ⟨job, hj⟩ _ (List.mem_cons_self ..) _ rfl _ (List.mem_cons_self ..)
  have h := (this.2.2 0 2 (.inl ⟨rfl, by simp⟩) rfl (by omega)).2
  norm_num at h

end Qudits.Shots
