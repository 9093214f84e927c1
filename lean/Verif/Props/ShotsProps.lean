import Verif.Lemmas.ShotsMisim
/-
C83: what a run with a noise model returns, shot by shot (see Model/Shots.lean). `W.first s` is the first uniform number of the generator with seed `s`.
-/
namespace Qudits.Shots
open Spec Matrix Complex NoisyFactory DD
variable {n : Nat} {d : Fin n → Nat}

theorem stochastic_run {st : BackendSt Errors} {opts : Options Errors} {a : Settings Errors} (h : (st.run opts).1 = .stochastic a) :
    50 ≤ a.shots ∧ ∃ errs, a.noiseModel = some errs := by
  unfold BackendSt.run at h
  dsimp only at h
  split_ifs at h with h1 h2
  cases h
  exact ⟨h2, Option.isSome_iff_exists.1 h1⟩

theorem runWith_ok {E : Type} {x : E} {names : Nat → String} {exact : Except E (List ℂ)} {noisy : Errors → Nat → Bool → Except E Results}
    {st : BackendSt Errors} {opts : Options Errors} {a : Settings Errors} (hk : (st.run opts).1 = .stochastic a) {job : Done}
    (h : runWith x names exact noisy st opts = .ok job) :
    exact = .ok job.state ∧ noisy (a.noiseModel.getD []) a.shots.toNat a.fullStateMemory = .ok job.counts ∧ job.file = saveResults names a job.counts := by
  unfold runWith at h
  rw [hk] at h
  simp only [bind, Except.bind] at h
  cases h1 : exact with
  | error e => rw [h1] at h; cases h
  | ok v =>
    rw [h1] at h
    dsimp only at h
    cases h2 : noisy (a.noiseModel.getD []) a.shots.toNat a.fullStateMemory with
    | error e => rw [h2] at h; cases h
    | ok r =>
      rw [h2] at h
      cases h
      exact ⟨rfl, rfl, rfl⟩

theorem getElem_rel {β : Type} {R : Nat → β → Prop} {N : Nat} {l : List β} (h : List.Forall₂ R (List.range N) l) :
    l.length = N ∧ ∀ i r, l[i]? = some r → R i r := by
  have hl := h.length_eq
  rw [List.length_range] at hl
  refine ⟨hl.symm, fun i r hr => ?_⟩
  obtain ⟨hi, rfl⟩ := List.getElem?_eq_some_iff.1 hr
  have := h.get (i := i) (by rw [List.length_range]; omega) hi
  simpa using this

/-- the lists of a run of tnsim -/
theorem stochasticTn_ok {W : World} {draws : Draws} {errs : Errors} {circ : List (Instr × Arr2 ℂ)} {N : Nat} (hN : 0 < N) {full : Bool} {r : Results}
    {dims : List Nat} (h : stochasticTn W draws dims errs circ N full = .ok r) :
    (full = true ∧ ∃ l, r = .states l ∧ l.length = N ∧
      ∀ i v, l[i]? = some v → ∃ o, stateNo (tnState draws dims errs circ) 0 (i % chunkSize N W.processes) = .ok (v, o)) ∨
    (full = false ∧ ∃ l, r = .positions l ∧ l.length = N ∧ ∀ i k, l[i]? = some k → ∃ v o,
      stateNo (tnState draws dims errs circ) 0 (i % chunkSize N W.processes) = .ok (v, o) ∧ measureState W (W.moment i) v = .ok k) := by
  unfold stochasticTn at h
  cases full with
  | true =>
    rw [if_pos rfl] at h
    left
    refine ⟨rfl, ?_⟩
    cases hp : poolMap W.processes N (tnChunk (tnState draws dims errs circ) (fun _ v => .ok v) 0) with
    | error e => rw [hp] at h; cases h
    | ok l =>
      rw [hp] at h
      cases h
      obtain ⟨h1, h2⟩ := getElem_rel (tn_shots hN hp)
      refine ⟨l, rfl, h1, fun i v hv => ?_⟩
      obtain ⟨w, o, e1, e2⟩ := h2 i v hv
      cases e2
      exact ⟨o, e1⟩
  | false =>
    rw [if_neg (by simp)] at h
    right
    refine ⟨rfl, ?_⟩
    cases hp : poolMap W.processes N (tnChunk (tnState draws dims errs circ) (fun i v => measureState W (W.moment i) v) 0) with
    | error e => rw [hp] at h; cases h
    | ok l =>
      rw [hp] at h
      cases h
      obtain ⟨h1, h2⟩ := getElem_rel (tn_shots hN hp)
      exact ⟨l, rfl, h1, h2⟩

/-- C83: a run of tnsim with a noise model, whatever noise it describes, for a circuit of unitary gates. If the run succeeds, then the job has the state of
the circuit WITHOUT errors, and one result per shot: with `full_state_memory` the state of a circuit with errors that the noise model allows; without it
the position of the level string that the number drawn for that shot selects by Born's rule in such a state. -/
theorem C83_tn (hn : 0 < n) (hpos : ∀ i, 0 < d i) (W : World) (hW : ∀ s, 0 ≤ W.first s ∧ W.first s < 1) (draws : Draws) (names : Nat → String)
    (circ : List (Instr × Arr2 ℂ)) (Ms : List (Matrix (Reg d) (Reg d) ℂ)) (hops : Operators d circ Ms) (hu : ∀ M ∈ Ms, M ∈ unitaryGroup (Reg d) ℂ)
    (st : BackendSt Errors) (opts : Options Errors) (a : Settings Errors) (errs : Errors) (hk : (st.run opts).1 = .stochastic a)
    (he : a.noiseModel = some errs) (job : Done) (h : runTn W draws names (List.ofFn d) circ st opts = .ok job) :
    Lists d job.state (Ms.reverse.prod *ᵥ zeroState d) ∧
    (a.fullStateMemory = true → ∃ l, job.counts = .states l ∧ (l.length : Int) = a.shots ∧
      ∀ v ∈ l, ∃ psi, NoisyState d errs circ Ms psi ∧ Lists d v psi) ∧
    (a.fullStateMemory = false → ∃ l, job.counts = .positions l ∧ (l.length : Int) = a.shots ∧
      ∀ i k, l[i]? = some k → ∃ psi x, NoisyState d errs circ Ms psi ∧ k = idx d x ∧ Born d psi (W.first (seed W (W.moment i))) x) := by
  obtain ⟨hs, _⟩ := stochastic_run hk
  obtain ⟨h1, h2, _⟩ := runWith_ok hk h
  rw [he, Option.getD_some] at h2
  have hN : 0 < a.shots.toNat := by omega
  refine ⟨?_, ?_, ?_⟩
  · have hops' : List.Forall₂ (fun op M => (∃ ls, Flagged d op.1 ls) ∧ HasOperator d op.1 op.2 M) (circ.map fun c => (c.1.gate, c.2)) Ms := by
      rw [List.forall₂_map_left_iff]
      exact hops
    obtain ⟨w, w1, w2⟩ := C15_execute d hn hpos _ Ms hops'
    rw [w1] at h1
    cases h1
    exact w2
  · intro hf
    rcases stochasticTn_ok hN h2 with ⟨-, l, e1, e2, e3⟩ | ⟨e, -⟩
    · refine ⟨l, e1, by omega, fun v hv => ?_⟩
      obtain ⟨i, hi⟩ := List.getElem?_of_mem hv
      obtain ⟨o, ho⟩ := e3 i v hi
      obtain ⟨off, ho⟩ := stateNo_state ho
      exact tnState_ok hn hpos hops ho
    · rw [hf] at e; cases e
  · intro hf
    rcases stochasticTn_ok hN h2 with ⟨e, -⟩ | ⟨-, l, e1, e2, e3⟩
    · rw [hf] at e; cases e
    · refine ⟨l, e1, by omega, fun i k hi => ?_⟩
      obtain ⟨v, o, ho, hm⟩ := e3 i k hi
      obtain ⟨off, ho⟩ := stateNo_state ho
      obtain ⟨psi, p1, p2⟩ := tnState_ok hn hpos hops ho
      obtain ⟨⟨x, hx⟩, b⟩ := measure_born (m := W.moment i) hW p2 (noisyState_norm hpos hu p1)
      refine ⟨psi, x, p1, ?_, (b x).1 hx⟩
      rw [hm] at hx
      exact Except.ok.inj hx

/-- C83: a run of tnsim with a noise model, for a circuit of unitary gates, succeeds exactly if every entry of the noise model for a gate of the circuit fits
that gate: its mode has a meaning for the gate, and on the lines that the mode selects, the levels of physical noise exist and the numbers make sense as
probabilities. The outcomes of the random generators
and the options play no role. -/
theorem C83_tn_succeeds (hn : 0 < n) (hpos : ∀ i, 0 < d i) (W : World) (hW : ∀ s, 0 ≤ W.first s ∧ W.first s < 1) (draws : Draws) (names : Nat → String)
    (circ : List (Instr × Arr2 ℂ)) (Ms : List (Matrix (Reg d) (Reg d) ℂ)) (hops : Operators d circ Ms) (hu : ∀ M ∈ Ms, M ∈ unitaryGroup (Reg d) ℂ)
    (st : BackendSt Errors) (opts : Options Errors) (a : Settings Errors) (errs : Errors) (hk : (st.run opts).1 = .stochastic a)
    (he : a.noiseModel = some errs) (ha : Ascending errs) : (∃ job, runTn W draws names (List.ofFn d) circ st opts = .ok job) ↔
      NoiseFits (List.ofFn d) errs (circ.map Prod.fst) := by
  obtain ⟨hs, _⟩ := stochastic_run hk
  have hN : 0 < a.shots.toNat := by omega
  constructor
  · rintro ⟨job, h⟩
    obtain ⟨_, h2, _⟩ := runWith_ok hk h
    rw [he, Option.getD_some] at h2
    have hst : ∃ v o j, stateNo (tnState draws (List.ofFn d) errs circ) 0 j = .ok (v, o) := by
      rcases stochasticTn_ok hN h2 with ⟨-, l, -, e2, e3⟩ | ⟨-, l, -, e2, e3⟩
      · obtain ⟨o, ho⟩ := e3 0 l[0] (List.getElem?_eq_getElem _)
        exact ⟨_, _, _, ho⟩
      · obtain ⟨v, o, ho, _⟩ := e3 0 l[0] (List.getElem?_eq_getElem _)
        exact ⟨_, _, _, ho⟩
    obtain ⟨v, o, j, hj⟩ := hst
    obtain ⟨off, ho⟩ := stateNo_state hj
    exact (tnState_fits hn hpos ha hops off).1 ⟨_, ho⟩
  intro hp
  have hops' : List.Forall₂ (fun op M => (∃ ls, Flagged d op.1 ls) ∧ HasOperator d op.1 op.2 M) (circ.map fun c => (c.1.gate, c.2)) Ms := by
    rw [List.forall₂_map_left_iff]
    exact hops
  obtain ⟨w, w1, w2⟩ := C15_execute d hn hpos _ Ms hops'
  have hst : ∃ r, stochasticTn W draws (List.ofFn d) errs circ a.shots.toNat a.fullStateMemory = .ok r := by
    unfold stochasticTn
    split_ifs
    · obtain ⟨l, hl⟩ := poolMap_exists (p := W.processes) (n := a.shots.toNat) (tnChunk_exists (state := tnState draws (List.ofFn d) errs circ)
        (finish := fun _ v => .ok v) (fun off => by
          obtain ⟨⟨v, o⟩, hv⟩ := (tnState_fits hn hpos ha hops (draws := draws) off).2 hp
          exact ⟨v, o, hv, fun _ => ⟨v, rfl⟩⟩) 0)
      rw [hl]
      exact ⟨_, rfl⟩
    · obtain ⟨l, hl⟩ := poolMap_exists (p := W.processes) (n := a.shots.toNat) (tnChunk_exists (state := tnState draws (List.ofFn d) errs circ)
        (finish := fun i v => measureState W (W.moment i) v) (fun off => by
          obtain ⟨⟨v, o⟩, hv⟩ := (tnState_fits hn hpos ha hops (draws := draws) off).2 hp
          refine ⟨v, o, hv, fun i => ?_⟩
          obtain ⟨psi, p1, p2⟩ := tnState_ok hn hpos hops hv
          obtain ⟨⟨x, hx⟩, -⟩ := measure_born (m := W.moment i) hW p2 (noisyState_norm hpos hu p1)
          exact ⟨_, hx⟩) 0)
      rw [hl]
      exact ⟨_, rfl⟩
  obtain ⟨r, hr⟩ := hst
  unfold runTn runWith
  rw [hk, w1]
  simp only [bind, Except.bind, he, Option.getD_some, hr]
  exact ⟨_, rfl⟩

/-- C83: Born's rule for one measurement of a normalised state: there is an outcome, and the numbers that give the outcome `x` are an interval whose
length is the probability of `x`. -/
theorem C83_born (W : World) (m : Moment) (hW : ∀ s, 0 ≤ W.first s ∧ W.first s < 1) (v : List ℂ) (psi : Reg d → ℂ) (h : Lists d v psi)
    (h1 : ∑ x, ‖psi x‖ ^ 2 = 1) : (∃ x, measureState W m v = .ok (idx d x)) ∧ ∀ x, ∃ lo, 0 ≤ lo ∧ lo + ‖psi x‖ ^ 2 ≤ 1 ∧
      (measureState W m v = .ok (idx d x) ↔ lo ≤ W.first (seed W m) ∧ W.first (seed W m) < lo + ‖psi x‖ ^ 2) := by
  obtain ⟨h2, h3⟩ := measure_born (m := m) hW h h1
  refine ⟨h2, fun x => ⟨_, ?_, ?_, h3 x⟩⟩
  · exact Finset.sum_nonneg fun y _ => by positivity
  · have hx : x ∉ Finset.univ.filter fun y => idx d y < idx d x := by simp
    have := Finset.sum_insert (f := fun y => ‖psi y‖ ^ 2) hx
    rw [add_comm, ← this, ← h1]
    exact Finset.sum_le_sum_of_subset_of_nonneg (Finset.subset_univ _) fun y _ _ => by positivity

/-- C83: a state whose norm is not one (it can only come from a gate that is not unitary, C82) is not measured. -/
theorem C83_not_normalised (W : World) (m : Moment) (v : List ℂ) (psi : Reg d → ℂ) (h : Lists d v psi)
    (h1 : 1 / 2 ^ 26 < |∑ x, ‖psi x‖ ^ 2 - 1|) : measureState W m v = .error .valueError := by
  unfold measureState choice
  rw [total_sum h]
  split_ifs with h2 h3 h4
  · rfl
  · rfl
  · rfl
  · exact absurd h1 h4

/-- C83: what is written to a file: with a path and a name, the list of states, each with an identifier, if `full_state_memory` is set; otherwise, if `memory`
is set, the list of the outcomes, numbered from zero in the order of the shots; nothing else. -/
theorem C83_saved (W : World) (draws : Draws) (names : Nat → String) (dims : List Nat)
    (circ : List (Instr × Arr2 ℂ)) (st : BackendSt Errors) (opts : Options Errors) (a : Settings Errors) (hk : (st.run opts).1 = .stochastic a)
    (job : Done) (h : runTn W draws names dims circ st opts = .ok job) (f : Written) :
    job.file = some f ↔ some f.path = a.filePath ∧ some f.name = a.fileName ∧ f.path ≠ "" ∧ f.name ≠ "" ∧
      ((a.fullStateMemory = true ∧ ∃ rows l, f.table = .vectors rows ∧ job.counts = .states l ∧ rows.map Prod.snd = l ∧
          rows.map Prod.fst = (List.range l.length).map names) ∨
        (a.fullStateMemory = false ∧ a.memory = true ∧ ∃ rows l, f.table = .shots rows ∧ job.counts = .positions l ∧ rows.map Prod.snd = l ∧
          rows.map Prod.fst = List.range l.length)) := by
  obtain ⟨hs, _⟩ := stochastic_run hk
  obtain ⟨_, h2, h3⟩ := runWith_ok hk h
  have hN : 0 < a.shots.toNat := by omega
  have hzip : ∀ {α β : Type} (as : List α) (bs : List β) (rows : List (α × β)), as.length = bs.length →
      (rows = as.zip bs ↔ rows.map Prod.snd = bs ∧ rows.map Prod.fst = as) := by
    intro α β as bs rows hl
    constructor
    · rintro rfl
      exact ⟨List.map_snd_zip (by omega), List.map_fst_zip (by omega)⟩
    · rintro ⟨rfl, rfl⟩
      induction rows with
      | nil => rfl
      | cons r rows ih => rw [List.map_cons, List.map_cons, List.zip_cons_cons, ← ih (by simp)]
  rw [h3]
  obtain ⟨fp, fn, ft⟩ := f
  unfold saveResults
  rcases stochasticTn_ok hN h2 with ⟨hf, l, e1, -, -⟩ | ⟨hf, l, e1, -, -⟩
  · rw [e1, hf]
    simp only [Bool.true_and]
    cases hpath : a.filePath with
    | none => simp [truthy]
    | some p =>
      cases hname : a.fileName with
      | none => simp [truthy]
      | some m =>
        by_cases hp : p = ""
        · subst hp
          simp only [truthy, ne_eq, not_true, decide_false, Bool.false_and, Bool.and_false, Bool.false_eq_true, if_false, Option.some.injEq]
          constructor
          · intro h; cases h
          · rintro ⟨rfl, -, h, -⟩; exact absurd rfl h
        · by_cases hm : m = ""
          · subst hm
            simp only [truthy, ne_eq, not_true, decide_false, Bool.and_false, Bool.false_eq_true, if_false, Option.some.injEq]
            constructor
            · intro h; cases h
            · rintro ⟨-, rfl, -, h, -⟩; exact absurd rfl h
          · simp only [truthy, ne_eq, hp, hm, not_false_eq_true, decide_true, Bool.and_true, if_true, Option.getD_some, Option.some.injEq, Written.mk.injEq]
            constructor
            · rintro ⟨rfl, rfl, rfl⟩
              exact ⟨rfl, rfl, hp, hm, .inl ⟨trivial, _, l, rfl, rfl, (hzip _ _ _ (by simp)).1 rfl⟩⟩
            · rintro ⟨rfl, rfl, -, -, ⟨-, rows, l', rfl, e, e'⟩ | ⟨e, -⟩⟩
              · cases e
                exact ⟨rfl, rfl, by rw [(hzip _ _ rows (by simp)).2 e']⟩
              · cases e
  · rw [e1, hf]
    simp only [Bool.false_and, Bool.false_eq_true, if_false]
    cases hpath : a.filePath with
    | none => simp [truthy]
    | some p =>
      cases hname : a.fileName with
      | none => simp [truthy]
      | some m =>
        cases hmem : a.memory with
        | false => simp
        | true =>
          by_cases hp : p = ""
          · subst hp
            simp only [truthy, ne_eq, not_true, decide_false, Bool.false_and, Bool.and_false, Bool.false_eq_true, if_false, Option.some.injEq]
            constructor
            · intro h; cases h
            · rintro ⟨rfl, -, h, -⟩; exact absurd rfl h
          · by_cases hm : m = ""
            · subst hm
              simp only [truthy, ne_eq, not_true, decide_false, Bool.and_false, Bool.false_eq_true, if_false, Option.some.injEq]
              constructor
              · intro h; cases h
              · rintro ⟨-, rfl, -, h, -⟩; exact absurd rfl h
            · simp only [truthy, ne_eq, hp, hm, not_false_eq_true, decide_true, Bool.and_true, if_true, Option.getD_some, Option.some.injEq,
                Written.mk.injEq]
              constructor
              · rintro ⟨rfl, rfl, rfl⟩
                exact ⟨rfl, rfl, hp, hm, .inr ⟨trivial, trivial, _, l, rfl, rfl, (hzip _ _ _ (by simp)).1 rfl⟩⟩
              · rintro ⟨rfl, rfl, -, -, ⟨e, -⟩ | ⟨-, -, rows, l', rfl, e, e'⟩⟩
                · cases e
                · cases e
                  exact ⟨rfl, rfl, by rw [(hzip _ _ rows (by simp)).2 e']⟩

/-- C83: without a noise model the job has the state of the circuit, an empty list of counts, and no file is written, whatever `shots`, `memory`, path and name
are; with a noise model and fewer than 50 shots the assertion fails. -/
theorem C83_other_runs (hn : 0 < n) (hpos : ∀ i, 0 < d i) (W : World) (draws : Draws) (names : Nat → String)
    (circ : List (Instr × Arr2 ℂ)) (Ms : List (Matrix (Reg d) (Reg d) ℂ)) (hops : Operators d circ Ms)
    (st : BackendSt Errors) (opts : Options Errors) :
    ((st.run opts).1 = .exact → ∃ v, runTn W draws names (List.ofFn d) circ st opts = .ok ⟨v, .positions [], none⟩ ∧
      Lists d v (Ms.reverse.prod *ᵥ zeroState d)) ∧
    ((st.run opts).1 = .shotsAssertion → runTn W draws names (List.ofFn d) circ st opts = .error .assertionError) := by
  have hops' : List.Forall₂ (fun op M => (∃ ls, Flagged d op.1 ls) ∧ HasOperator d op.1 op.2 M) (circ.map fun c => (c.1.gate, c.2)) Ms := by
    rw [List.forall₂_map_left_iff]
    exact hops
  obtain ⟨w, w1, w2⟩ := C15_execute d hn hpos _ Ms hops'
  constructor
  · intro hk
    refine ⟨w, ?_, w2⟩
    unfold runTn runWith
    rw [hk, w1]
    rfl
  · intro hk
    unfold runTn runWith
    rw [hk]

/-! ### where the shots are not independent -/

theorem chunkSize_small {N p : Nat} (hN : 0 < N) (h : N ≤ 4 * p) : chunkSize N p = 1 := by
  unfold chunkSize
  rcases Nat.lt_or_ge N (p * 4) with h1 | h1
  · rw [Nat.mod_eq_of_lt h1, Nat.div_eq_of_lt h1, if_neg (by omega)]
  · have : N = p * 4 := by omega
    subst this
    rw [Nat.mod_self, if_pos rfl, Nat.div_self hN]

/-- C83 is violated: the shots of tnsim are not independent. The factory with its generator is made once and copied into every chunk of the pool, so that the
states repeat with the chunk size, whatever the generator gives; with no more shots than four times the number of processors (50 shots on 16 processors, the
default number) EVERY shot runs the same noisy circuit. -/
theorem C83_repeats_violated (W : World) (draws : Draws) (names : Nat → String) (dims : List Nat) (circ : List (Instr × Arr2 ℂ)) (st : BackendSt Errors)
    (opts : Options Errors) (a : Settings Errors) (hk : (st.run opts).1 = .stochastic a) (job : Done)
    (h : runTn W draws names dims circ st opts = .ok job) (l : List (List ℂ)) (hl : job.counts = .states l) :
    (∀ i j, i < l.length → j < l.length → i % chunkSize l.length W.processes = j % chunkSize l.length W.processes → l[i]? = l[j]?) ∧
    (l.length ≤ 4 * W.processes → ∃ v, l = List.replicate l.length v) := by
  obtain ⟨hs, _⟩ := stochastic_run hk
  obtain ⟨_, h2, _⟩ := runWith_ok hk h
  have hN : 0 < a.shots.toNat := by omega
  rcases stochasticTn_ok hN h2 with ⟨-, l', e1, e2, e3⟩ | ⟨-, l', e1, -⟩
  · rw [hl] at e1
    cases e1
    rw [← e2] at e3
    have key : ∀ i j, i < l.length → j < l.length → i % chunkSize l.length W.processes = j % chunkSize l.length W.processes → l[i]? = l[j]? := by
      intro i j hi hj hij
      obtain ⟨o1, h1⟩ := e3 i _ (List.getElem?_eq_getElem hi)
      obtain ⟨o2, h2⟩ := e3 j _ (List.getElem?_eq_getElem hj)
      rw [hij, h2] at h1
      rw [List.getElem?_eq_getElem hi, List.getElem?_eq_getElem hj, ← (Prod.mk.inj (Except.ok.inj h1)).1]
    refine ⟨key, fun hle => ?_⟩
    have hpos : 0 < l.length := by omega
    refine ⟨l[0], ?_⟩
    apply List.ext_getElem?
    intro i
    by_cases hi : i < l.length
    · rw [key i 0 hi hpos (by rw [chunkSize_small hpos hle, Nat.mod_one, Nat.mod_one]), List.getElem?_replicate, if_pos hi, List.getElem?_eq_getElem hpos]
    · rw [List.getElem?_eq_none (by omega), List.getElem?_eq_none (by simp; omega)]
  · rw [hl] at e1
    cases e1

/-- C83 is violated for the measurements, too: the seed is a function of the process and the millisecond, so that two shots that one process measures in the
same millisecond, with the same place in their chunks (always, if there are at most four shots per processor), have the same outcome. -/
theorem C83_same_moment_violated (W : World) (draws : Draws) (names : Nat → String) (dims : List Nat) (circ : List (Instr × Arr2 ℂ))
    (st : BackendSt Errors) (opts : Options Errors) (a : Settings Errors) (hk : (st.run opts).1 = .stochastic a) (job : Done)
    (h : runTn W draws names dims circ st opts = .ok job) (l : List Nat) (hl : job.counts = .positions l) (hle : l.length ≤ 4 * W.processes)
    (i j : Nat) (hi : i < l.length) (hj : j < l.length) (hm : W.moment i = W.moment j) : l[i]? = l[j]? := by
  obtain ⟨hs, _⟩ := stochastic_run hk
  obtain ⟨_, h2, _⟩ := runWith_ok hk h
  have hN : 0 < a.shots.toNat := by omega
  rcases stochasticTn_ok hN h2 with ⟨-, l', e1, -⟩ | ⟨-, l', e1, e2, e3⟩
  · rw [hl] at e1
    cases e1
  · rw [hl] at e1
    cases e1
    rw [← e2] at e3 hN
    obtain ⟨v1, o1, h1, m1⟩ := e3 i _ (List.getElem?_eq_getElem hi)
    obtain ⟨v2, o2, h2, m2⟩ := e3 j _ (List.getElem?_eq_getElem hj)
    rw [chunkSize_small hN hle, Nat.mod_one] at h1 h2
    rw [h2] at h1
    cases h1
    rw [hm, m2] at m1
    rw [List.getElem?_eq_getElem hi, List.getElem?_eq_getElem hj, Except.ok.inj m1]

/-- Two measurements in different processes or different milliseconds are not tied to each other: for an even superposition both pairs of different outcomes
occur, depending on the hash. -/
theorem C83_other_moment (m m' : Moment) (h : m ≠ m') :
    ∃ W : World, measureState W m [((Real.sqrt 2 / 2 : ℝ) : ℂ), ((Real.sqrt 2 / 2 : ℝ) : ℂ)] = .ok 0 ∧
      measureState W m' [((Real.sqrt 2 / 2 : ℝ) : ℂ), ((Real.sqrt 2 / 2 : ℝ) : ℂ)] = .ok 1 := by
  refine ⟨⟨1, fun p t => if p = m.pid ∧ t = m.ms then 0 else 1, fun s => if s = 0 then 0 else 3 / 4, fun _ => m⟩, ?_⟩
  have hn : ‖((Real.sqrt 2 / 2 : ℝ) : ℂ)‖ ^ 2 = 1 / 2 := by
    rw [Complex.norm_real, Real.norm_eq_abs, sq_abs, div_pow, Real.sq_sqrt (by norm_num)]
    norm_num
  have hne : ¬ (m'.pid = m.pid ∧ m'.ms = m.ms) := by
    rintro ⟨h1, h2⟩
    cases m
    cases m'
    simp_all
  have hc : ∀ u : ℝ, choice [1 / 2, 1 / 2] u = .ok ([1 / 2, (1 : ℝ)].countP fun c => decide (c ≤ u)) := by
    intro u
    unfold choice
    rw [if_neg (by simp), if_neg (by rintro ⟨x, hx, h0⟩; simp at hx; subst hx; norm_num at h0), if_neg (by unfold atol; norm_num)]
    simp [cumsum]
    norm_num
  unfold measureState seed
  simp only [List.map_cons, List.map_nil, hn, hc, if_neg hne, and_self, if_true]
  norm_num [List.countP_cons]

/-! ### an example: the gate X on a qubit, with noise -/

noncomputable def flipCirc (A : Arr2 ℂ) : List (Instr × Arr2 ℂ) := [(⟨⟨[2], "X2", .single, .one 0, none, false, false⟩, "x", none⟩, A)]

noncomputable def flipNoise : Errors := [("x", [("local", .math ⟨1 / 2, 0⟩)])]

/-- an operator on one qubit -/
noncomputable abbrev flipOp : Matrix (Reg ![2]) (Reg ![2]) ℂ :=
  embed1 (X := LvOf ![2]) (0 : Fin 1) fun i j : Fin ((![2] : Fin 1 → Nat) 0) => if (i : Nat) = (j + 1) % (![2] : Fin 1 → Nat) 0 then 1 else 0

theorem flip_operators : ∃ A, xArray 2 = .ok A ∧ Operators ![2] (flipCirc A) [flipOp] := by
  obtain ⟨A, hA, hr, hc, hent⟩ := xArray_ok ((![2] : Fin 1 → Nat) 0)
  refine ⟨A, hA, .cons ?_ .nil⟩
  obtain ⟨k1, k2⟩ := one_line (d := ![2]) "X2" (0 : Fin 1) hr hc
  have hM : A.toM ((![2] : Fin 1 → Nat) 0) = fun i j : Fin ((![2] : Fin 1 → Nat) 0) => if (i : Nat) = (j + 1) % (![2] : Fin 1 → Nat) 0 then 1 else 0 := by
    funext i j
    exact hent i j j.2
  rw [hM] at k2
  exact ⟨k1, k2⟩

theorem flip_unitary : ∀ M ∈ [flipOp], M ∈ unitaryGroup (Reg ![2]) ℂ := by
  intro M hM
  rw [List.mem_singleton] at hM
  subst hM
  exact errorOp_unitary (.x (0 : Fin 1))

theorem flipNoise_ascending : Ascending flipNoise := by
  intro tag modes h mode m hm
  unfold flipNoise PyDict.get? at h
  by_cases ht : tag = "x"
  · subst ht
    simp at h
    subst h
    simp at hm
  · rw [if_neg (Ne.symm ht)] at h
    cases h

/-- mathematical noise with a probability fits every line -/
theorem math_fits {noise : Noise ℝ} (h : 0 ≤ noise.depolarizing ∧ noise.depolarizing ≤ 1) (dims : List Nat) (i : Instr) (mode : String) :
    ProbabilitiesFit dims i mode (.math noise) := by
  intro q dim _ _ h1
  refine ⟨h.1, ?_⟩
  have : (1 : ℝ) < dim := by exact_mod_cast h1
  nlinarith

theorem flipNoise_fits (A : Arr2 ℂ) : NoiseFits [2] flipNoise ((flipCirc A).map Prod.fst) := by
  intro i hi modes h e he
  simp only [flipCirc, List.map_cons, List.map_nil, List.mem_singleton] at hi
  subst hi
  simp [flipNoise, PyDict.get?] at h
  subst h
  simp at he
  subst he
  exact ⟨.inl rfl, trivial, math_fits (by norm_num) _ _ _⟩

/-- a computer with 16 processors -/
noncomputable def world : World := ⟨16, fun _ _ => 7, fun _ => 1 / 2, fun _ => ⟨1, 1⟩⟩

noncomputable def flipOpts (full : Bool) : Options Errors :=
  { noiseModel := some (some flipNoise), fullStateMemory := some full, filePath := some (some "out"), fileName := some (some "f.h5"), memory := some true }

theorem flip_run (full : Bool) : ((BackendSt.init ({} : Options Errors)).run (flipOpts full)).1 =
    .stochastic ⟨some flipNoise, 50, true, full, some "out", some "f.h5"⟩ := rfl

/-- The run of the example succeeds with 50 shots; the results are 50 states or 50 positions, and they are saved. -/
example (draws : Draws) (names : Nat → String) (full : Bool) : ∃ A job, xArray 2 = .ok A ∧
    runTn world draws names [2] (flipCirc A) (BackendSt.init {}) (flipOpts full) = .ok job ∧ Lists ![2] job.state (flipOp *ᵥ zeroState ![2]) ∧
      (full = true → ∃ v, job.counts = .states (List.replicate 50 v) ∧ ∃ psi, NoisyState ![2] flipNoise (flipCirc A) [flipOp] psi ∧ Lists ![2] v psi) ∧
      (full = false → ∃ l, job.counts = .positions l ∧ l.length = 50 ∧ ∃ f, job.file = some f ∧ ∃ rows, f.table = .shots rows ∧ rows.map Prod.snd = l) := by
  obtain ⟨A, hA, hops⟩ := flip_operators
  have hW : ∀ s, 0 ≤ world.first s ∧ world.first s < 1 := by
    intro s
    unfold world
    norm_num
  have hpos : ∀ i, 0 < (![2] : Fin 1 → Nat) i := by decide
  obtain ⟨job, hj⟩ := (C83_tn_succeeds (d := ![2]) (by omega) hpos world hW draws names _ _ hops flip_unitary _ (flipOpts full) _ flipNoise (flip_run full) rfl
    flipNoise_ascending).2 (flipNoise_fits A)
  obtain ⟨h1, h2, h3⟩ := C83_tn (d := ![2]) (by omega) hpos world hW draws names _ _ hops flip_unitary _ (flipOpts full) _ flipNoise (flip_run full) rfl job hj
  refine ⟨A, job, hA, hj, by simpa using h1, ?_, ?_⟩
  · intro hf
    obtain ⟨l, l1, l2, l3⟩ := h2 hf
    have l2 : l.length = 50 := by dsimp only at l2; exact_mod_cast l2
    obtain ⟨v, hv⟩ := (C83_repeats_violated world draws names _ _ _ _ _ (flip_run full) job hj l l1).2 (by rw [l2]; decide)
    rw [l2] at hv
    exact ⟨v, by rw [l1, hv], l3 v (by rw [hv]; simp)⟩
  · intro hf
    obtain ⟨l, l1, l2, l3⟩ := h3 hf
    refine ⟨l, l1, by dsimp only at l2; exact_mod_cast l2, ⟨"out", "f.h5", .shots ((List.range l.length).zip l)⟩, ?_, _, rfl, List.map_snd_zip (by simp)⟩
    rw [C83_saved world draws names _ _ _ _ _ (flip_run full) job hj]
    exact ⟨rfl, rfl, by simp, by simp, .inr ⟨hf, rfl, _, l, rfl, l1, List.map_snd_zip (by simp), List.map_fst_zip (by simp)⟩⟩

/-- Two different states are allowed in the example: without an error, and with X as an error. Still all 50 states of a run are equal. -/
example (A : Arr2 ℂ) : NoisyState ![2] flipNoise (flipCirc A) [flipOp] ([flipOp].reverse.prod *ᵥ zeroState ![2]) ∧
    NoisyState ![2] flipNoise (flipCirc A) [flipOp] ([flipOp, flipOp].reverse.prod *ᵥ zeroState ![2]) := by
  refine ⟨⟨_, .cons _ _ [] [] [] [] (by simp) .nil .nil, rfl⟩, ⟨_, .cons _ _ [.x 0] [flipOp] [] [] ?_ (.cons (.x (0 : Fin 1)) .nil) .nil, rfl⟩⟩
  intro e he
  rw [List.mem_singleton] at he
  subst he
  exact ⟨_, "local", .math ⟨1 / 2, 0⟩, 0, rfl, by simp, .inl ⟨rfl, by simp⟩, .inl rfl⟩

/-- The two outcomes of the state (|0> + i|1>)/√2. -/
example (m : Moment) : measureState world m [(1 / Real.sqrt 2 : ℝ), (1 / Real.sqrt 2 : ℝ) * I] = .ok 1 := by
  have hs : (1 / Real.sqrt 2) ^ 2 = (1 / 2 : ℝ) := by
    rw [div_pow, Real.sq_sqrt (by norm_num)]
    norm_num
  have h0 : ∀ x : ℝ, ‖(x : ℂ)‖ ^ 2 = x ^ 2 := by
    intro x
    rw [Complex.norm_real, Real.norm_eq_abs, sq_abs]
  have hp : [((1 / Real.sqrt 2 : ℝ) : ℂ), (1 / Real.sqrt 2 : ℝ) * I].map (fun z : ℂ => ‖z‖ ^ 2) = [1 / 2, 1 / 2] := by
    rw [List.map_cons, List.map_cons, List.map_nil, norm_mul, Complex.norm_I, mul_one, h0, hs]
  unfold measureState
  rw [hp]
  refine ((choice_spec ?_ ?_ ?_ ?_).2 1 (by simp)).2 ?_
  · simp
  · norm_num [atol]
  · norm_num [world]
  · norm_num [world]
  · norm_num [world]

/-! ### misim -/

/-- C83 for misim, for noise on whole lines: every run succeeds; the job has the state of the circuit without errors, and one result per shot. With
`full_state_memory` the result of a shot is the state of a circuit with errors that the noise model allows (a circuit of its own for every shot: `rng i` is
the generator of shot `i`). Without it, the result is the position of the level string that the number drawn for that shot selects by Born's rule in such a
state. -/
theorem C83_misim (H : Hashes) (W : World) (hW : ∀ s, 0 ≤ W.first s ∧ W.first s < 1) (rng : Nat → Misim.Chance ℝ) (hrng : ∀ i, Faithful (rng i))
    (names : Nat → String) (hn : 0 < n) (hd : ∀ i, 2 ≤ d i ∧ d i ≤ 7) (noise : PyDict String (PyDict String (Noise ℝ))) (hk : Keyed noise)
    (gs : List PyGate) (hc : ∀ g ∈ gs, Common d g) (ha : Applicable d noise gs) (st : BackendSt Errors) (opts : Options Errors) (a : Settings Errors)
    (hrun : (st.run opts).1 = .stochastic a) (he : a.noiseModel = some (asModel noise)) :
    ∃ job, runMi H W rng names (List.ofFn d) gs st opts = .ok job ∧ Misim.execute H (List.ofFn d) gs = .ok job.state ∧
      (a.fullStateMemory = true → ∃ l, job.counts = .states l ∧ (l.length : Int) = a.shots ∧
        ∀ (i : Nat) v, l[i]? = some v → Misim.executeNoisy H (rng i) (List.ofFn d) (asModel noise) gs = .ok v ∧
          ∃ gs', WithErrors d noise gs gs' ∧ Misim.execute H (List.ofFn d) gs' = .ok v) ∧
      (a.fullStateMemory = false → ∃ l, job.counts = .positions l ∧ (l.length : Int) = a.shots ∧
        ∀ (i k : Nat), l[i]? = some k → ∃ (gs' : List PyGate) (v : List ℂ) (psi : Reg d → ℂ) (x : Reg d), WithErrors d noise gs gs' ∧
          Misim.executeNoisy H (rng i) (List.ofFn d) (asModel noise) gs = .ok v ∧ Misim.execute H (List.ofFn d) gs' = .ok v ∧ Lists d v psi ∧
          k = idx d x ∧ Born d psi (W.first (seed W (W.moment i))) x) := by
  obtain ⟨hs, _⟩ := stochastic_run hrun
  have hN : 0 < a.shots.toNat := by omega
  have hpos : ∀ i, 0 < d i := fun i => by have := (hd i).1; omega
  have hshot : ∀ i, ∃ gs' v psi, WithErrors d noise gs gs' ∧ Misim.executeNoisy H (rng i) (List.ofFn d) (asModel noise) gs = .ok v ∧
      Misim.execute H (List.ofFn d) gs' = .ok v ∧ Lists d v psi ∧ ∑ x, ‖psi x‖ ^ 2 = 1 := by
    intro i
    obtain ⟨gs', arrs, v, h1, hc', h2, _, h3, _⟩ := noisy_run H (rng i) (hrng i) d hn hd noise hk gs hc ha
    obtain ⟨v', psi, k1, k2, k3⟩ := common_state H hpos gs' hc'
    rw [h3] at k1
    cases k1
    exact ⟨gs', v, psi, h1, h2, h3, k2, k3⟩
  obtain ⟨arrs, v, _, hv, _⟩ := C18_uncontrolled_partial H d hn hpos gs hc
  have hex : ∃ job, runMi H W rng names (List.ofFn d) gs st opts = .ok job := by
    have hst : ∃ r, stochasticMi H W rng (List.ofFn d) (asModel noise) gs a.shots.toNat a.fullStateMemory = .ok r := by
      unfold stochasticMi
      split_ifs
      · obtain ⟨l, hl⟩ := poolMap_exists (p := W.processes) (n := a.shots.toNat)
          (work := fun is => is.mapM fun i => Misim.executeNoisy H (rng i) (List.ofFn d) (asModel noise) gs) fun is => mapM_exists fun i _ => by
            obtain ⟨_, v, _, _, h, _⟩ := hshot i
            exact ⟨v, h⟩
        rw [hl]
        exact ⟨_, rfl⟩
      · obtain ⟨l, hl⟩ := poolMap_exists (p := W.processes) (n := a.shots.toNat)
          (work := fun is => is.mapM fun i => do
            let v ← Misim.executeNoisy H (rng i) (List.ofFn d) (asModel noise) gs
            asM (measureState W (W.moment i) v)) fun is => mapM_exists fun i _ => by
            obtain ⟨_, v, psi, _, h, _, h4, h5⟩ := hshot i
            obtain ⟨⟨x, hx⟩, _⟩ := measure_born (m := W.moment i) hW h4 h5
            refine ⟨idx d x, ?_⟩
            rw [h]
            simp only [bind, Except.bind, hx]
            rfl
        rw [hl]
        exact ⟨_, rfl⟩
    obtain ⟨r, hr⟩ := hst
    unfold runMi runWith
    rw [hrun, hv]
    simp only [bind, Except.bind, he, Option.getD_some, hr]
    exact ⟨_, rfl⟩
  obtain ⟨job, hjob⟩ := hex
  obtain ⟨h1, h2, _⟩ := runWith_ok hrun hjob
  rw [he, Option.getD_some] at h2
  refine ⟨job, hjob, h1, ?_, ?_⟩
  · intro hf
    rw [hf] at h2
    unfold stochasticMi at h2
    rw [if_pos rfl] at h2
    cases hp : poolMap W.processes a.shots.toNat (fun is => is.mapM fun i => Misim.executeNoisy H (rng i) (List.ofFn d) (asModel noise) gs) with
    | error e => rw [hp] at h2; cases h2
    | ok l =>
      rw [hp] at h2
      obtain ⟨e1, e2⟩ := getElem_rel (poolMap_rel (Rel := fun i v => Misim.executeNoisy H (rng i) (List.ofFn d) (asModel noise) gs = .ok v) hN
        (fun c rs hrs => mapM_ok hrs) hp)
      refine ⟨l, (Except.ok.inj h2).symm, by omega, fun i v hv => ?_⟩
      have := e2 i v hv
      obtain ⟨gs', w, _, k1, k2, k3, _⟩ := hshot i
      rw [this] at k2
      cases k2
      exact ⟨this, gs', k1, k3⟩
  · intro hf
    rw [hf] at h2
    unfold stochasticMi at h2
    rw [if_neg (by simp)] at h2
    cases hp : poolMap W.processes a.shots.toNat (fun is => is.mapM fun i => do
        let v ← Misim.executeNoisy H (rng i) (List.ofFn d) (asModel noise) gs
        asM (measureState W (W.moment i) v)) with
    | error e => rw [hp] at h2; cases h2
    | ok l =>
      rw [hp] at h2
      obtain ⟨e1, e2⟩ := getElem_rel (poolMap_rel (Rel := fun i k => (do
        let v ← Misim.executeNoisy H (rng i) (List.ofFn d) (asModel noise) gs
        asM (measureState W (W.moment i) v)) = .ok k) hN (fun c rs hrs => mapM_ok hrs) hp)
      refine ⟨l, (Except.ok.inj h2).symm, by omega, fun i k hi => ?_⟩
      have := e2 i k hi
      obtain ⟨gs', w, psi, k1, k2, k3, k4, k5⟩ := hshot i
      obtain ⟨⟨x, hx⟩, hb⟩ := measure_born (m := W.moment i) hW k4 k5
      rw [k2] at this
      simp only [bind, Except.bind, hx] at this
      cases this
      exact ⟨gs', w, psi, x, k1, k2, k3, k4, rfl, (hb x).1 hx⟩

/-- The run of the example in misim: 50 outcomes, each of them 0 or 1. -/
example (H : Hashes) (rng : Nat → Misim.Chance ℝ) (hrng : ∀ i, Faithful (rng i)) (names : Nat → String) :
    ∃ job l, runMi H world rng names [2] [⟨⟨[2], "X2", .single, .one 0, none, false, false⟩, "x", [2], .none⟩] (BackendSt.init {}) (flipOpts false) = .ok job ∧
      job.counts = .positions l ∧ l.length = 50 ∧ ∀ k ∈ l, k < 2 := by
  have hc : ∀ g ∈ [(⟨⟨[2], "X2", .single, .one 0, none, false, false⟩, "x", [2], .none⟩ : PyGate)], Common (n := 1) ![2] g := by
    intro g hg
    rw [List.mem_singleton] at hg
    subst hg
    exact .plain _ (0 : Fin 1) "x" ⟨rfl, "X2", _, 0, rfl, rfl⟩ (by decide) (by decide) (by simp)
  have ha : Applicable (n := 1) ![2] [("x", [("local", ⟨1 / 2, 0⟩)])] [⟨⟨[2], "X2", .single, .one 0, none, false, false⟩, "x", [2], .none⟩] := by
    intro g hg modes hm e he
    rw [List.mem_singleton] at hg
    subst hg
    obtain rfl : [("local", ⟨1 / 2, 0⟩)] = modes := Option.some.inj hm
    rw [List.mem_singleton] at he
    subst he
    exact ⟨by simp, by simp, by simp⟩
  obtain ⟨job, h1, _, _, h2⟩ := C83_misim H world (fun s => by unfold world; norm_num) rng hrng names (n := 1) (d := ![2]) (by omega) (by decide)
    [("x", [("local", ⟨1 / 2, 0⟩)])] ⟨by simp [PyDict.keys], by simp [PyDict.keys]⟩ _ hc ha _ (flipOpts false) _ (flip_run false) rfl
  obtain ⟨l, l1, l2, l3⟩ := h2 rfl
  refine ⟨job, l, h1, l1, by dsimp only at l2; exact_mod_cast l2, fun k hk => ?_⟩
  obtain ⟨i, hi, rfl⟩ := List.mem_iff_getElem.1 hk
  obtain ⟨_, _, _, x, _, _, _, _, h4, _⟩ := l3 i _ (List.getElem?_eq_getElem hi)
  rw [h4]
  exact idx_lt ![2] x

end Qudits.Shots
