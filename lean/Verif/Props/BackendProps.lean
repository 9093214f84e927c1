import Verif.Model.Backend
import Mathlib.Data.List.Infix
import Mathlib.Tactic.Linarith
import Mathlib.Tactic.Common
/-
C25 backend lookup, C26 run options, C27 waiting for jobs.
-/
namespace Qudits

/-! ### C25 -/

/-- the names users know -/
def availableNames : List String :=
  ["tnsim", "misim", "innsbruck01", "faketraps2trits", "faketraps2six", "faketraps3six"]

/-- which class belongs to a name -/
def classOf : BackendClass → String
  | .tnSim => "tnsim" | .miSim => "misim" | .innsbruck01 => "innsbruck01"
  | .fakeIonTraps2Trits => "faketraps2trits" | .fakeIonTraps2Six => "faketraps2six"
  | .fakeIonTraps3Six => "faketraps3six"

theorem backendTable_names : backendTable.map Prod.fst = availableNames.map String.toList := by decide

theorem lookup_class : ∀ k ∈ availableNames, ∃ b, backendTable.lookup k.toList = some b ∧ classOf b = k := by decide

theorem lookup_class' {k : List Char} {b : BackendClass} (h : backendTable.lookup k = some b) :
    k = (classOf b).toList := by
  have : (k, b) ∈ backendTable := by
    obtain ⟨l₁, l₂, hl, -⟩ := List.lookup_eq_some_iff.1 h
    rw [hl]; simp
  have hall : ∀ x ∈ backendTable, x.1 = (classOf x.2).toList := by decide
  exact hall _ this

/-- `get_backend` returns the backend `b` exactly when the pattern compiles and `b`'s name is the one and only available
name that matches; in all other cases it raises. -/
theorem C25_unique_match (engine : RegexEngine) (name : Option (List Char)) (b : BackendClass) :
    getBackend engine name = .ok b ↔
      ∃ n search, name = some n ∧ engine n = some search ∧
        (∀ k ∈ availableNames, search k.toList = true ↔ k = classOf b) := by
  have hnd : (backendTable.map Prod.fst).Nodup := by decide
  have hmem : ∀ b, classOf b ∈ availableNames := by intro b; cases b <;> decide
  have hlook : ∀ b, backendTable.lookup (classOf b).toList = some b := by intro b; cases b <;> decide
  have hfilter : ∀ search : List Char → Bool,
      (∀ k ∈ availableNames, search k.toList = true ↔ k = classOf b) ↔ matchingKeys search = [(classOf b).toList] := by
    intro search
    unfold matchingKeys
    constructor
    · intro h
      have hx : (backendTable.map Prod.fst).filter search =
          (backendTable.map Prod.fst).filter (fun k => decide (k = (classOf b).toList)) := by
        apply List.filter_congr
        intro k hk
        rw [backendTable_names, List.mem_map] at hk
        obtain ⟨s, hs, rfl⟩ := hk
        have := h s hs
        rw [Bool.eq_iff_iff, this, decide_eq_true_iff]
        constructor
        · rintro rfl; rfl
        · exact fun e => String.toList_inj.1 e
      rw [hx]
      cases b <;> decide
    · intro h k hk
      have h1 : k.toList ∈ (backendTable.map Prod.fst).filter search ↔ k.toList = (classOf b).toList := by
        rw [h]; simp
      rw [List.mem_filter, backendTable_names] at h1
      constructor
      · intro hs
        exact String.toList_inj.1 (h1.1 ⟨List.mem_map_of_mem hk, hs⟩)
      · rintro rfl
        exact (h1.2 rfl).2
  constructor
  · intro h
    unfold getBackend at h
    cases name with
    | none => cases h
    | some n =>
      dsimp only at h
      cases hs : engine n with
      | none => rw [hs] at h; cases h
      | some search =>
        rw [hs] at h
        dsimp only at h
        refine ⟨n, search, rfl, hs, (hfilter search).2 ?_⟩
        split at h
        · cases h
        · rename_i k hk
          split at h
          · rename_i b' hb'
            cases h
            rw [hk, lookup_class' hb']
          · cases h
        · cases h
  · rintro ⟨n, search, rfl, hs, hb⟩
    rw [hfilter] at hb
    unfold getBackend
    simp only [hs, hb, hlook]

/-- A request that does not single out one name raises `ValueError`. -/
theorem C25_otherwise_raises (engine : RegexEngine) (name : Option (List Char))
    (h : ∀ b, getBackend engine name ≠ .ok b) : getBackend engine name = .error .valueError := by
  unfold getBackend at h ⊢
  cases name with
  | none => rfl
  | some n =>
    dsimp only at h ⊢
    cases hs : engine n with
    | none => rfl
    | some search =>
      rw [hs] at h
      dsimp only at h ⊢
      split at h
      · rfl
      · rename_i k heq
        have hk : k ∈ backendTable.map Prod.fst := by
          have : k ∈ matchingKeys search := by rw [heq]; simp
          exact (List.mem_filter.1 this).1
        rw [backendTable_names, List.mem_map] at hk
        obtain ⟨s, hs', rfl⟩ := hk
        obtain ⟨b, hb, -⟩ := lookup_class s hs'
        rw [hb] at h
        exact absurd rfl (h b)
      · rfl

/-- An exact backend name resolves to its backend, for every engine that searches patterns made of letters and digits as
plain substrings. -/
theorem C25_exact_name (engine : RegexEngine)
    (hlit : ∀ n : List Char, (∀ c ∈ n, c.isAlphanum) → ∃ search, engine n = some search ∧
      ∀ k, search k = true ↔ n <:+: k)
    (b : BackendClass) : getBackend engine (some (classOf b).toList) = .ok b := by
  rw [C25_unique_match]
  obtain ⟨search, hs, hk⟩ := hlit (classOf b).toList (by cases b <;> decide)
  refine ⟨_, search, rfl, hs, ?_⟩
  intro k hmem
  rw [hk]
  have : ∀ b, ∀ k ∈ availableNames, (classOf b).toList <:+: k.toList ↔ k = classOf b := by
    intro b; cases b <;> decide
  exact this b k hmem

/-- Listing with a pattern returns exactly the available names that match; without a pattern, all of them. -/
theorem C25_listing (engine : RegexEngine) (name : Option (List Char)) (l : List (List Char))
    (h : listBackends engine name = .ok l) (k : List Char) :
    k ∈ l ↔ k ∈ availableNames.map String.toList ∧
      ∀ n, name = some n → ∃ search, engine n = some search ∧ search k = true := by
  unfold listBackends at h
  cases name with
  | none =>
    cases h
    rw [← backendTable_names]
    simp
  | some n =>
    dsimp only at h
    cases hs : engine n with
    | none => rw [hs] at h; cases h
    | some search =>
      rw [hs] at h
      cases h
      unfold matchingKeys
      rw [List.mem_filter, backendTable_names]
      constructor
      · rintro ⟨h1, h2⟩
        exact ⟨h1, fun m hm => ⟨search, by cases hm; exact hs, h2⟩⟩
      · rintro ⟨h1, h2⟩
        obtain ⟨s', hs', h3⟩ := h2 n rfl
        rw [hs] at hs'
        cases hs'
        exact ⟨h1, h3⟩

/-- plain substring search -/
def literalEngine : RegexEngine := fun n => some fun k => decide (n <:+: k)

example : getBackend literalEngine (some "misim".toList) = .ok .miSim := by decide
example : getBackend literalEngine (some "sim".toList) = .error .valueError := by decide
example : getBackend literalEngine (some "tn".toList) = .ok .tnSim := by decide
example : ∀ n : List Char, (∀ c ∈ n, c.isAlphanum) → ∃ search, literalEngine n = some search ∧
      ∀ k, search k = true ↔ n <:+: k := fun n _ => ⟨_, rfl, by simp⟩

/-! ### C26 -/

variable {N : Type}

/-- the most recent value given for an option in a list of calls -/
def latest {V : Type} (sel : Options N → Option V) (calls : List (Options N)) : Option V :=
  (calls.filterMap sel).getLast?

/-- The settings that a call with options `o` should use: those given in the call, else the constructor's, else the
documented defaults. -/
def requested (fields o : Options N) : Settings N where
  noiseModel := ((o.noiseModel <|> fields.noiseModel).getD none)
  shots := ((o.shots <|> fields.shots).getD 50)
  memory := ((o.memory <|> fields.memory).getD false)
  fullStateMemory := ((o.fullStateMemory <|> fields.fullStateMemory).getD false)
  filePath := ((o.filePath <|> fields.filePath).getD none)
  fileName := ((o.fileName <|> fields.fileName).getD none)

/-- The kind of run that settings ask for. -/
def kindFor (s : Settings N) : RunKind N :=
  if s.noiseModel = none then .exact else if s.shots < 50 then .shotsAssertion else .stochastic s

/-- merge of a history: the last value given wins -/
def mergeHistory (fields : Options N) (hist : List (Options N)) : Options N where
  shots := latest (·.shots) (fields :: hist)
  memory := latest (·.memory) (fields :: hist)
  noiseModel := latest (·.noiseModel) (fields :: hist)
  filePath := latest (·.filePath) (fields :: hist)
  fileName := latest (·.fileName) (fields :: hist)
  fullStateMemory := latest (·.fullStateMemory) (fields :: hist)

theorem latest_snoc {V : Type} (sel : Options N → Option V) (l : List (Options N)) (o : Options N) :
    latest sel (l ++ [o]) = (sel o <|> latest sel l) := by
  unfold latest
  rw [List.filterMap_append]
  cases h : sel o with
  | none => simp [h]
  | some v => simp [h]

theorem runAll_snoc (st : BackendSt N) (hist : List (Options N)) (o : Options N) :
    st.runAll (hist ++ [o]) = ((st.runAll hist).run o).2 := by
  unfold BackendSt.runAll
  rw [List.foldl_append]; rfl

theorem run_options (st : BackendSt N) (o : Options N) : (st.run o).2.options = st.options.update o := by
  unfold BackendSt.run
  dsimp only
  split_ifs <;> rfl

theorem run_attrs_kind (st : BackendSt N) (o : Options N) :
    (st.run o).2.attrs = requested (st.options.update o) {} ∧ (st.run o).1 = kindFor (st.run o).2.attrs := by
  unfold BackendSt.run
  dsimp only
  split_ifs with h1 h2
  · refine ⟨rfl, ?_⟩
    unfold kindFor
    dsimp only
    rw [if_neg (Option.isSome_iff_ne_none.1 h1), if_neg (not_lt.2 h2)]
  · refine ⟨rfl, ?_⟩
    unfold kindFor
    dsimp only
    rw [if_neg (Option.isSome_iff_ne_none.1 h1), if_pos (not_le.1 h2)]
  · refine ⟨rfl, ?_⟩
    unfold kindFor
    dsimp only
    rw [if_pos (Option.not_isSome_iff_eq_none.1 h1)]

theorem history_options (fields : Options N) (hist : List (Options N)) :
    ((BackendSt.init fields).runAll hist).options = Options.default.update (mergeHistory fields hist) := by
  induction hist using List.reverseRecOn with
  | nil =>
    unfold BackendSt.runAll BackendSt.init mergeHistory Options.update latest
    rcases fields with ⟨a, b, c, d, e, f⟩
    cases a <;> cases b <;> cases c <;> cases d <;> cases e <;> cases f <;> rfl
  | append_singleton hist o ih =>
    rw [runAll_snoc, run_options, ih]
    unfold mergeHistory Options.update
    simp only [← List.cons_append, latest_snoc]
    rcases o with ⟨a, b, c, d, e, f⟩
    cases a <;> cases b <;> cases c <;> cases d <;> cases e <;> cases f <;> rfl

/-- What really happens: a run uses, option by option, the value given most recently in this call, any earlier call, or
the constructor; the defaults apply only to options never given. -/
theorem C26_actual (fields : Options N) (hist : List (Options N)) (o : Options N) :
    (((BackendSt.init fields).runAll hist).run o).2.attrs = requested (mergeHistory fields hist) o ∧
    (((BackendSt.init fields).runAll hist).run o).1 = kindFor (requested (mergeHistory fields hist) o) := by
  obtain ⟨h1, h2⟩ := run_attrs_kind ((BackendSt.init fields).runAll hist) o
  have : (((BackendSt.init fields).runAll hist).run o).2.attrs = requested (mergeHistory fields hist) o := by
    rw [h1, history_options]
    generalize mergeHistory fields hist = mm
    unfold requested Options.update Options.default
    rcases o with ⟨a, b, c, d, e, f⟩
    rcases mm with ⟨a', b', c', d', e', f'⟩
    cases a <;> cases b <;> cases c <;> cases d <;> cases e <;> cases f <;>
    cases a' <;> cases b' <;> cases c' <;> cases d' <;> cases e' <;> cases f' <;> rfl
  exact ⟨this, by rw [h2, this]⟩

/-- C26 fails: a noise model given to one run is used by the next run that gives no options. -/
theorem C26_options_persist_violated (nm : N) :
    ∃ first : Options N,
      (((BackendSt.init {}).runAll [first]).run {}).1 = .stochastic { noiseModel := some nm, shots := 50 } ∧
      kindFor (requested {} ({} : Options N)) = .exact :=
  ⟨{ noiseModel := some (some nm) }, rfl, rfl⟩

/-- Even a run that failed its shots assertion leaves its options behind. -/
theorem C26_failed_run_persists_violated (nm : N) :
    ∃ first : Options N, ((BackendSt.init {}).run first).1 = .shotsAssertion ∧
      (((BackendSt.init {}).runAll [first]).run {}).1 = .shotsAssertion :=
  ⟨{ noiseModel := some (some nm), shots := some 10 }, rfl, rfl⟩

/-- What holds: if every option named in an earlier call is named again in this call, then the earlier calls do not
matter. -/
theorem C26_independent_partial (fields : Options N) (hist : List (Options N)) (o : Options N)
    (h : ∀ p ∈ hist, (p.shots.isSome → o.shots.isSome) ∧ (p.memory.isSome → o.memory.isSome) ∧
      (p.noiseModel.isSome → o.noiseModel.isSome) ∧ (p.filePath.isSome → o.filePath.isSome) ∧
      (p.fileName.isSome → o.fileName.isSome) ∧ (p.fullStateMemory.isSome → o.fullStateMemory.isSome)) :
    (((BackendSt.init fields).runAll hist).run o).2.attrs = requested fields o ∧
    (((BackendSt.init fields).runAll hist).run o).1 = kindFor (requested fields o) := by
  have key : ∀ {V : Type} (sel : Options N → Option V), (∀ p ∈ hist, (sel p).isSome → (sel o).isSome) →
      (sel o <|> latest sel (fields :: hist)) = (sel o <|> sel fields) := by
    intro V sel hs
    cases ho : sel o with
    | some v => rfl
    | none =>
      have hnone : hist.filterMap sel = [] := by
        rw [List.filterMap_eq_nil_iff]
        intro p hp
        by_contra hc
        have := hs p hp (Option.isSome_iff_ne_none.2 hc)
        rw [ho] at this; cases this
      unfold latest
      rw [List.filterMap_cons]
      cases hf : sel fields with
      | none => simp [hnone]
      | some v => simp [hnone]
  have : requested (mergeHistory fields hist) o = requested fields o := by
    unfold requested mergeHistory
    dsimp only
    rw [key (·.shots) (fun p hp => (h p hp).1), key (·.memory) (fun p hp => (h p hp).2.1),
      key (·.noiseModel) (fun p hp => (h p hp).2.2.1), key (·.filePath) (fun p hp => (h p hp).2.2.2.1),
      key (·.fileName) (fun p hp => (h p hp).2.2.2.2.1), key (·.fullStateMemory) (fun p hp => (h p hp).2.2.2.2.2)]
  rw [← this]
  exact C26_actual fields hist o

/-- A noise model is only simulated with at least 50 shots. -/
theorem C26_shots (st : BackendSt N) (o : Options N) (s : Settings N) (h : (st.run o).1 = .stochastic s) :
    50 ≤ s.shots ∧ s.noiseModel.isSome := by
  unfold BackendSt.run at h
  dsimp only at h
  split_ifs at h with h1 h2
  cases h
  exact ⟨h2, h1⟩

/-- `set_options` can never set anything: it raises for every field it is given and changes nothing otherwise. -/
theorem C26_set_options_useless (st : BackendSt N) (fields : Options N) :
    st.setOptions fields = if fields.given = [] then .ok st else .error .attributeError := by
  rcases st with ⟨⟨a', b', c', d', e', f'⟩, s⟩
  rcases fields with ⟨a, b, c, d, e, f⟩
  cases a <;> cases b <;> cases c <;> cases d <;> cases e <;> cases f <;>
    simp [BackendSt.setOptions, Options.given, dictAttributes, Options.update]

example (nm : N) : ((((BackendSt.init {}).runAll [{ noiseModel := some (some nm) }]).run
    { noiseModel := some none }).1) = RunKind.exact := rfl

/-! ### C27 -/

/-- the documented final states -/
def DocumentedFinal (s : JobStatus) : Prop := s = .done ∨ s = .cancelled ∨ s = .error

theorem C27_is_final (s : JobStatus) : s.isFinal = true ↔ DocumentedFinal s := by
  cases s <;> simp [JobStatus.isFinal, jobFinalStates, DocumentedFinal]

theorem C27_non_final (s : JobStatus) : s ∈ JobStatus.nonFinalStates ↔ ¬ DocumentedFinal s := by
  cases s <;> simp [JobStatus.nonFinalStates, JobStatus.all, jobFinalStates, DocumentedFinal]

/-- `from_string` inverts the names of the enumeration. -/
theorem C27_from_string (s : JobStatus) (str : String) :
    JobStatus.fromString str = .ok s ↔ str = s.value := by
  constructor
  · intro h
    unfold JobStatus.fromString at h
    split at h
    · rename_i s' hs'
      cases h
      have := List.find?_some hs'
      simp only [decide_eq_true_eq] at this
      exact this.symm
    · cases h
  · rintro rfl
    cases s <;> rfl

theorem waitLoop_returned (status : Nat → Except PyErr JobStatus) (elapsed : Nat → Rat) (timeout : Option Rat)
    (n fuel k : Nat) :
    waitLoop status elapsed timeout fuel k = .returned n ↔
      k ≤ n ∧ n < k + fuel ∧ (status n = .ok .done ∨ status n = .ok .error) ∧
      ∀ j, k ≤ j → j < n → (∃ s, status j = .ok s ∧ s ≠ .done ∧ s ≠ .error) ∧
        ∀ t, timeout = some t → elapsed j < t := by
  induction fuel generalizing k with
  | zero => simp [waitLoop]; intros; omega
  | succ fuel ih =>
    unfold waitLoop
    cases hs : status k with
    | error e =>
      dsimp only
      constructor
      · intro h; cases h
      · rintro ⟨h1, -, h3, h4⟩
        rcases Nat.lt_or_ge k n with hkn | hkn
        · obtain ⟨⟨s, hs', -⟩, -⟩ := h4 k le_rfl hkn
          rw [hs] at hs'; cases hs'
        · obtain rfl : k = n := by omega
          rw [hs] at h3
          rcases h3 with h3 | h3 <;> cases h3
    | ok s =>
      dsimp only
      by_cases hf : s = .done ∨ s = .error
      · rw [if_pos (by simpa using hf)]
        constructor
        · intro h
          cases h
          refine ⟨le_rfl, by omega, ?_, fun j h1 h2 => by omega⟩
          rcases hf with rfl | rfl
          · exact Or.inl hs
          · exact Or.inr hs
        · rintro ⟨h1, -, h3, h4⟩
          rcases Nat.lt_or_ge k n with hkn | hkn
          · obtain ⟨⟨s', hs', hd, he⟩, -⟩ := h4 k le_rfl hkn
            rw [hs] at hs'; cases hs'
            rcases hf with rfl | rfl
            · exact absurd rfl hd
            · exact absurd rfl he
          · obtain rfl : k = n := by omega
            rfl
      · rw [if_neg (by simpa using hf)]
        by_cases ht : timeout.any (fun t => decide (t ≤ elapsed k)) = true
        · rw [if_pos ht]
          constructor
          · intro h; cases h
          · rintro ⟨h1, -, h3, h4⟩
            rcases Nat.lt_or_ge k n with hkn | hkn
            · obtain ⟨-, h5⟩ := h4 k le_rfl hkn
              cases timeout with
              | none => simp at ht
              | some t =>
                have := h5 t rfl
                simp at ht
                linarith
            · obtain rfl : k = n := by omega
              rw [hs] at h3
              exfalso; apply hf
              rcases h3 with h3 | h3
              · exact Or.inl (Except.ok.inj h3)
              · exact Or.inr (Except.ok.inj h3)
        · rw [if_neg ht, ih]
          have hk : (∃ s, status k = .ok s ∧ s ≠ .done ∧ s ≠ .error) ∧ ∀ t, timeout = some t → elapsed k < t := by
            refine ⟨⟨s, hs, fun h => hf (Or.inl h), fun h => hf (Or.inr h)⟩, ?_⟩
            rintro t rfl
            simpa using ht
          constructor
          · rintro ⟨h1, h2, h3, h4⟩
            refine ⟨by omega, by omega, h3, ?_⟩
            intro j hj1 hj2
            rcases Nat.eq_or_lt_of_le hj1 with rfl | hj
            · exact hk
            · exact h4 j hj hj2
          · rintro ⟨h1, h2, h3, h4⟩
            refine ⟨?_, by omega, h3, fun j hj1 hj2 => h4 j (by omega) hj2⟩
            rcases Nat.eq_or_lt_of_le h1 with rfl | h
            · exfalso
              rw [hs] at h3
              apply hf
              rcases h3 with h3 | h3
              · exact Or.inl (Except.ok.inj h3)
              · exact Or.inr (Except.ok.inj h3)
            · exact h

/-- Waiting returns at poll `n` exactly when `n` is the first poll answering DONE or ERROR and no timeout happened before.
(`fuel` is how long we watch; any larger value gives the same answer.) -/
theorem C27_returns_first (status : Nat → Except PyErr JobStatus) (elapsed : Nat → Rat) (timeout : Option Rat)
    (n : Nat) :
    (∃ fuel, waitForFinalState status elapsed timeout fuel = .returned n) ↔
      (status n = .ok .done ∨ status n = .ok .error) ∧
      ∀ j < n, (∃ s, status j = .ok s ∧ s ≠ .done ∧ s ≠ .error) ∧ ∀ t, timeout = some t → elapsed j < t := by
  unfold waitForFinalState
  simp only [waitLoop_returned]
  constructor
  · rintro ⟨fuel, -, -, h3, h4⟩
    exact ⟨h3, fun j hj => h4 j (Nat.zero_le _) hj⟩
  · rintro ⟨h3, h4⟩
    exact ⟨n + 1, Nat.zero_le _, by omega, h3, fun j _ hj => h4 j hj⟩

/-- The claim holds for histories without cancellation: the wait ends at the first documented final state. -/
theorem C27_first_final_partial (hist : Nat → JobStatus) (hc : ∀ n, hist n ≠ .cancelled) (elapsed : Nat → Rat) (n : Nat)
    (hn : DocumentedFinal (hist n)) (hlt : ∀ j < n, ¬ DocumentedFinal (hist j)) :
    ∃ fuel, waitForFinalState (fun k => .ok (hist k)) elapsed none fuel = .returned n := by
  rw [C27_returns_first]
  constructor
  · rcases hn with h | h | h
    · exact Or.inl (by rw [h])
    · exact absurd h (hc n)
    · exact Or.inr (by rw [h])
  · intro j hj
    refine ⟨⟨_, rfl, ?_, ?_⟩, fun t ht => by cases ht⟩
    · exact fun e => hlt j hj (Or.inl e)
    · exact fun e => hlt j hj (Or.inr (Or.inr e))

/-- C27 fails for cancelled jobs: CANCELLED is a documented final state, but waiting without a timeout never ends, however
long we watch. -/
theorem C27_cancelled_violated : DocumentedFinal .cancelled ∧ Job.inFinalState .cancelled = false ∧
    ∀ (elapsed : Nat → Rat) (fuel : Nat),
      waitForFinalState (fun _ => .ok .cancelled) elapsed none fuel = .waiting := by
  refine ⟨Or.inr (Or.inl rfl), rfl, ?_⟩
  intro elapsed fuel
  unfold waitForFinalState
  generalize 0 = k
  induction fuel generalizing k with
  | zero => rfl
  | succ fuel ih =>
    unfold waitLoop
    exact ih (k + 1)

/-- With a timeout, a wait that ends in a timeout has seen no DONE/ERROR poll up to the first poll past the timeout. -/
theorem C27_timeout (hist : Nat → JobStatus) (elapsed : Nat → Rat) (timeout : Option Rat) (n fuel : Nat) (e : PyErr)
    (h : waitForFinalState (fun k => .ok (hist k)) elapsed timeout fuel = .raised n e) :
    e = .jobTimeout ∧ (∃ t, timeout = some t ∧ t ≤ elapsed n ∧ ∀ j < n, elapsed j < t) ∧
      ∀ j ≤ n, hist j ≠ .done ∧ hist j ≠ .error := by
  unfold waitForFinalState at h
  have key : ∀ fuel k, waitLoop (fun k => .ok (hist k)) elapsed timeout fuel k = .raised n e →
      e = .jobTimeout ∧ k ≤ n ∧ (∃ t, timeout = some t ∧ t ≤ elapsed n ∧ ∀ j, k ≤ j → j < n → elapsed j < t) ∧
        ∀ j, k ≤ j → j ≤ n → hist j ≠ .done ∧ hist j ≠ .error := by
    intro fuel
    induction fuel with
    | zero => intro k h; cases h
    | succ fuel ih =>
      intro k h
      unfold waitLoop at h
      dsimp only at h
      split_ifs at h with h1 h2
      · cases h
        simp only [List.mem_cons, List.not_mem_nil, or_false, not_or] at h1
        cases timeout with
        | none => simp at h2
        | some t =>
          simp at h2
          exact ⟨rfl, le_rfl, ⟨t, rfl, h2, fun j a b => by omega⟩, fun j a b => by
            obtain rfl : j = n := by omega
            exact h1⟩
      · obtain ⟨a, b, ⟨t, ht, c, d⟩, e'⟩ := ih (k + 1) h
        simp only [List.mem_cons, List.not_mem_nil, or_false, not_or] at h1
        refine ⟨a, by omega, ⟨t, ht, c, ?_⟩, ?_⟩
        · intro j h3 h4
          rcases Nat.eq_or_lt_of_le h3 with rfl | h5
          · subst ht; simpa using h2
          · exact d j h5 h4
        · intro j h3 h4
          rcases Nat.eq_or_lt_of_le h3 with rfl | h5
          · exact h1
          · exact e' j h5 h4
  obtain ⟨a, -, ⟨t, ht, c, d⟩, e'⟩ := key fuel 0 h
  exact ⟨a, ⟨t, ht, c, fun j hj => d j (Nat.zero_le _) hj⟩, fun j hj => e' j (Nat.zero_le _) hj⟩

/-- The jobs handed out by the simulators are plain `Job` objects whose `status` is not implemented: waiting on them
raises at the first poll. -/
theorem C27_simulator_jobs_raise (elapsed : Nat → Rat) (timeout : Option Rat) (fuel : Nat) :
    waitForFinalState Job.baseStatus elapsed timeout (fuel + 1) = .raised 0 .notImplemented := rfl

/-- a job that is queued twice, then done -/
example : waitForFinalState (fun k => .ok (if k < 2 then .queued else .done)) (fun k => k) none 10 = .returned 2 := by
  decide

end Qudits
