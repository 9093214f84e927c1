import Verif.Model.NoisyDraws
import Verif.Lemmas.Noise
import Mathlib.Tactic.Ring
import Mathlib.Tactic.FieldSimp
import Mathlib.Tactic.Linarith
import Mathlib.Tactic.Positivity
/- The factory with probabilities: a sequence of independent draws, fixed by the circuit. -/
namespace Qudits.NoisyFactory

/-- One call of the generator: the probabilities, and what each outcome adds to the circuit. -/
structure Site where
  ps : List ℝ
  out : Nat → List NoisyInstr

/-- the state after one draw -/
def Site.after (rng : Draws) (t : Site) (s : StP) : StP :=
  ⟨⟨s.instrs ++ t.out (rng s.drawn % t.ps.length), s.numGates + (t.out (rng s.drawn % t.ps.length)).length, s.drawn + 1⟩, s.asked ++ [t.ps]⟩

open Classical in
noncomputable def Site.run (rng : Draws) (t : Site) (s : StP) : Except PyErr StP := if ValidProbs t.ps then .ok (t.after rng s) else .error .valueError

/-- several draws -/
noncomputable def runSites (rng : Draws) (ts : List Site) (s : StP) : Except PyErr StP := ts.foldlM (fun s t => t.run rng s) s

theorem emitNP_eq (g : NoisyInstr) (k : Nat) (s : StP) :
    emitNP g k s = ⟨⟨s.instrs ++ List.replicate k g, s.numGates + k, s.drawn⟩, s.asked⟩ := by
  induction k generalizing s with
  | zero => simp [emitNP]
  | succ k ih =>
    rw [emitNP, ih]
    simp only [emitP, emit, List.append_assoc, List.singleton_append, ← List.replicate_succ]
    congr 2
    omega

/-- depolarizing, mathematical -/
noncomputable def mathSite (dim : Nat) (prob : ℝ) (dit : Int) : Site :=
  ⟨depolProbs dim prob, fun k => List.replicate (k / dim) (.x dit) ++ List.replicate (k % dim) (.z dit)⟩

/-- depolarizing, physical -/
noncomputable def subSite (dit : Int) (e : (Int × Int) × Noise ℝ) : Site :=
  ⟨subspaceProbs e.2.depolarizing, fun k => if k = 2 then [.noisex dit e.1.1 e.1.2] else if k = 1 then [.noisez dit e.1.2] else
    if k = 3 then [.noisey dit e.1.1 e.1.2] else []⟩

/-- dephasing of one level -/
def levelSite (dit : Int) (prob : ℝ) (lev : Int) : Site := ⟨[prob, 1 - prob], fun k => if k = 0 then [.noisez dit lev] else []⟩

theorem depolMathP_eq {dims : List Nat} {dit : Int} {dim : Nat} (hd : dimAt dims dit = .ok dim) (h0 : 0 < dim) (rng : Draws) (prob : ℝ) (s : StP) :
    depolMathP rng dims prob dit s = (mathSite dim prob dit).run rng s := by
  unfold depolMathP Site.run drawP mathSite
  rw [hd]
  simp only [bind, Except.bind]
  rw [if_neg (by omega)]
  split_ifs
  · simp only [emitNP_eq, pure, Except.pure, Site.after]
    congr 3
    · rw [List.append_assoc]
    · simp; omega
  · rfl

theorem depolSubOneP_eq {dim : Nat} {e : (Int × Int) × Noise ℝ} (h : (0 ≤ e.1.1 ∧ e.1.1 < dim) ∧ 0 ≤ e.1.2 ∧ e.1.2 < dim) (rng : Draws) (dit : Int) (s : StP) :
    depolSubOneP rng dim dit s e = (subSite dit e).run rng s := by
  unfold depolSubOneP Site.run drawP subSite
  rw [if_neg (by tauto)]
  dsimp only
  split_ifs with h1
  · simp only [bind, Except.bind, Site.after]
    split_ifs <;> simp [emitP, emit]
  · rfl

theorem dephaseLevelP_eq (rng : Draws) (dit : Int) (prob : ℝ) (s : StP) (lev : Int) :
    dephaseLevelP rng dit prob s lev = (levelSite dit prob lev).run rng s := by
  unfold dephaseLevelP Site.run drawP levelSite
  dsimp only
  split_ifs with h1
  · simp only [bind, Except.bind, Site.after]
    split_ifs <;> simp [emitP, emit, pure, Except.pure]
  · rfl

theorem runSites_append (rng : Draws) (a b : List Site) (s : StP) : runSites rng (a ++ b) s = runSites rng a s >>= runSites rng b := by
  unfold runSites
  rw [List.foldlM_append]

/-- a loop of draws -/
theorem fold_sites {α : Type} (rng : Draws) (f : StP → α → Except PyErr StP) (ts : α → List Site) :
    ∀ (l : List α), (∀ a ∈ l, ∀ s, f s a = runSites rng (ts a) s) → ∀ s, l.foldlM f s = runSites rng (l.flatMap ts) s
  | [], _, s => rfl
  | a :: l, h, s => by
    rw [List.foldlM_cons, List.flatMap_cons, runSites_append, h a (by simp)]
    congr 1
    funext s'
    exact fold_sites rng f ts l (fun b hb => h b (by simp [hb])) s'

theorem runSites_one (rng : Draws) (t : Site) (s : StP) : runSites rng [t] s = t.run rng s := by
  unfold runSites
  rw [List.foldlM_cons]
  cases t.run rng s <;> rfl

/-- the levels of a line that dephase -/
def others (dim : Nat) (l : Int × Int) : List Int := ((List.range dim).map fun k : Nat => (k : Int)).filter fun k => k ≠ l.1 ∧ k ≠ l.2

/-- the draws of one line -/
noncomputable def depolSites (dim : Nat) (q : Int) : NoiseObj ℝ → List Site
  | .math noise => [mathSite dim noise.depolarizing q]
  | .sub m => m.map (subSite q)

noncomputable def dephaseSites (dim : Nat) (q : Int) : NoiseObj ℝ → List Site
  | .math _ => []
  | .sub m => m.flatMap fun e => (others dim e.1).map (levelSite q e.2.dephasing)

theorem flatMap_one {α β : Type} (f : α → β) (l : List α) : (l.flatMap fun a => [f a]) = l.map f := by
  induction l with
  | nil => rfl
  | cons a l ih => rw [List.flatMap_cons, ih]; rfl

theorem dephaseOneP_eq {dim : Nat} {e : (Int × Int) × Noise ℝ} (h : (0 ≤ e.1.1 ∧ e.1.1 < dim) ∧ 0 ≤ e.1.2 ∧ e.1.2 < dim) (rng : Draws) (dit : Int) (s : StP) :
    dephaseOneP rng dim dit s e = runSites rng ((others dim e.1).map (levelSite dit e.2.dephasing)) s := by
  unfold dephaseOneP
  rw [if_neg (by tauto), fold_sites rng _ (fun lev => [levelSite dit e.2.dephasing lev])]
  · rw [flatMap_one]
    rfl
  · intro lev _ s
    rw [runSites_one, dephaseLevelP_eq]

/-- the levels of a noise object exist on a line -/
def InRange (dim : Nat) : NoiseObj ℝ → Prop
  | .math _ => 0 < dim
  | .sub m => ∀ e ∈ m, (0 ≤ e.1.1 ∧ e.1.1 < dim) ∧ 0 ≤ e.1.2 ∧ e.1.2 < dim

theorem applyDepolP_eq (rng : Draws) {dims : List Nat} {qs : List Int} {info : NoiseObj ℝ} (dimOf : Int → Nat) (hd : ∀ q ∈ qs, dimAt dims q = .ok (dimOf q))
    (hr : ∀ q ∈ qs, InRange (dimOf q) info) (s : StP) :
    applyDepolP rng dims qs info s = runSites rng (qs.flatMap fun q => depolSites (dimOf q) q info) s := by
  cases info with
  | math noise =>
    refine fold_sites rng _ _ qs ?_ s
    intro q hq s
    rw [depolMathP_eq (hd q hq) (hr q hq)]
    exact (runSites_one ..).symm
  | sub m =>
    refine fold_sites rng _ _ qs ?_ s
    intro q hq s
    rw [hd q hq]
    have := fold_sites rng (fun s e => depolSubOneP rng (dimOf q) q s e) (fun e => [subSite q e]) m (by
      intro e he s
      rw [runSites_one, depolSubOneP_eq (hr q hq e he)]) s
    rw [flatMap_one] at this
    exact this

theorem applyDephaseP_eq (rng : Draws) {dims : List Nat} {qs : List Int} {info : NoiseObj ℝ} (dimOf : Int → Nat) (hd : ∀ q ∈ qs, dimAt dims q = .ok (dimOf q))
    (hr : ∀ q ∈ qs, InRange (dimOf q) info) (s : StP) :
    applyDephaseP rng dims qs info s = runSites rng (qs.flatMap fun q => dephaseSites (dimOf q) q info) s := by
  cases info with
  | math noise =>
    have : (qs.flatMap fun q => dephaseSites (dimOf q) q (.math noise)) = [] := by simp [dephaseSites]
    rw [this]
    rfl
  | sub m =>
    refine fold_sites rng _ _ qs ?_ s
    intro q hq s
    rw [hd q hq]
    exact fold_sites rng (fun s e => dephaseOneP rng (dimOf q) q s e) (fun e => (others (dimOf q) e.1).map (levelSite q e.2.dephasing)) m (by
      intro e he s
      rw [dephaseOneP_eq (hr q hq e he)]) s

/-- the result of draws -/
theorem runSites_ok (rng : Draws) : ∀ (ts : List Site) (s : StP), (∀ t ∈ ts, ValidProbs t.ps) → ∃ s', runSites rng ts s = .ok s' ∧
    s'.instrs = s.instrs ++ ((ts.zipIdx s.drawn).flatMap fun t => t.1.out (rng t.2 % t.1.ps.length)) ∧ s'.drawn = s.drawn + ts.length ∧
    s'.asked = s.asked ++ ts.map Site.ps
  | [], s, _ => ⟨s, rfl, by simp, rfl, by simp⟩
  | t :: ts, s, h => by
    obtain ⟨s', h1, h2, h3, h4⟩ := runSites_ok rng ts (t.after rng s) fun t ht => h t (by simp [ht])
    refine ⟨s', ?_, ?_, ?_, ?_⟩
    · unfold runSites
      rw [List.foldlM_cons]
      unfold Site.run
      rw [if_pos (h t (by simp))]
      exact h1
    · rw [h2, List.zipIdx_cons, List.flatMap_cons]
      simp only [Site.after, List.append_assoc]
    · rw [h3]
      simp only [Site.after, List.length_cons]
      omega
    · rw [h4]
      simp [Site.after]

theorem runSites_bad (rng : Draws) : ∀ (ts : List Site) (s : StP), (∃ t ∈ ts, ¬ ValidProbs t.ps) → runSites rng ts s = .error .valueError
  | [], s, h => by obtain ⟨t, ht, _⟩ := h; simp at ht
  | t :: ts, s, h => by
    unfold runSites
    rw [List.foldlM_cons]
    unfold Site.run
    by_cases ht : ValidProbs t.ps
    · rw [if_pos ht]
      obtain ⟨t', h1, h2⟩ := h
      rcases List.mem_cons.1 h1 with rfl | h1
      · exact absurd ht h2
      · exact runSites_bad rng ts _ ⟨t', h1, h2⟩
    · rw [if_neg ht]
      rfl

/-! ### refinement of the factory without probabilities -/

theorem foldlM_refine {α : Type} {f : StP → α → Except PyErr StP} {g : St → α → Except PyErr St} : ∀ {l : List α},
    (∀ a ∈ l, ∀ s s', f s a = .ok s' → g s.toSt a = .ok s'.toSt) → ∀ {s s'}, l.foldlM f s = .ok s' → l.foldlM g s.toSt = .ok s'.toSt
  | [], _, s, s', h => by cases h; rfl
  | a :: l, hf, s, s', h => by
    rw [List.foldlM_cons] at h
    obtain ⟨s1, h1, h2⟩ := bindOk h
    rw [List.foldlM_cons, hf a (by simp) s s1 h1]
    exact foldlM_refine (fun b hb => hf b (by simp [hb])) h2

theorem drawP_ok {rng : Draws} {p : List ℝ} {s : StP} {r : Nat × StP} (h : drawP rng p s = .ok r) :
    r.1 = rng s.drawn % p.length ∧ r.2 = { s with drawn := s.drawn + 1, asked := s.asked ++ [p] } := by
  unfold drawP at h
  split_ifs at h
  cases h
  exact ⟨rfl, rfl⟩

theorem depolProbs_length {dim : Nat} (h : 0 < dim) (p : ℝ) : (depolProbs dim p).length = dim * dim := by
  have := Nat.mul_pos h h
  simp [depolProbs]
  omega

theorem depolMathP_refine {rng : Draws} {dims : List Nat} {prob : ℝ} {dit : Int} {s s' : StP} (h : depolMathP rng dims prob dit s = .ok s') :
    depolMath rng dims dit s.toSt = .ok s'.toSt := by
  unfold depolMathP at h
  obtain ⟨dim, h1, h⟩ := bindOk h
  dsimp only at h
  split_ifs at h with h0
  obtain ⟨r, h2, h⟩ := bindOk h
  obtain ⟨e1, e2⟩ := drawP_ok h2
  cases h
  unfold depolMath
  rw [h1]
  simp only [bind, Except.bind, if_neg h0, draw, pure, Except.pure, e1, e2, depolProbs_length (Nat.pos_of_ne_zero h0), emitNP_eq]
  congr 1
  have key : ∀ (g : NoisyInstr) (k : Nat) (s : St), emitN g k s = ⟨s.instrs ++ List.replicate k g, s.numGates + k, s.drawn⟩ := by
    intro g k
    induction k with
    | zero => intro s; simp [emitN]
    | succ k ih =>
      intro s
      rw [emitN, ih]
      simp only [emit, List.append_assoc, List.singleton_append, ← List.replicate_succ]
      congr 1
      omega
  rw [key, key]

theorem depolSubOneP_refine {rng : Draws} {dim : Nat} {dit : Int} {e : (Int × Int) × Noise ℝ} {s s' : StP} (h : depolSubOneP rng dim dit s e = .ok s') :
    depolSubOne rng dim dit s.toSt e.1 = .ok s'.toSt := by
  unfold depolSubOneP at h
  unfold depolSubOne
  split_ifs at h ⊢ with h0
  obtain ⟨r, h2, h⟩ := bindOk h
  obtain ⟨e1, e2⟩ := drawP_ok h2
  have e3 : (subspaceProbs e.2.depolarizing).length = 4 := rfl
  rw [e3] at e1
  dsimp only [draw]
  dsimp only at h
  rw [e1, e2] at h
  split_ifs at h ⊢ <;> cases h <;> rfl

theorem dephaseOneP_refine {rng : Draws} {dim : Nat} {dit : Int} {e : (Int × Int) × Noise ℝ} {s s' : StP} (h : dephaseOneP rng dim dit s e = .ok s') :
    dephaseOne rng dim dit s.toSt e.1 = .ok s'.toSt := by
  unfold dephaseOneP at h
  unfold dephaseOne
  split_ifs at h ⊢ with h0
  dsimp only
  have key : ∀ (l : List Int) (s s' : StP), l.foldlM (dephaseLevelP rng dit e.2.dephasing) s = .ok s' → l.foldl (dephaseLevel rng dit) s.toSt = s'.toSt := by
    intro l
    induction l with
    | nil => intro s s' h; cases h; rfl
    | cons a l ih =>
      intro s s' h
      rw [List.foldlM_cons] at h
      obtain ⟨s1, h1, h2⟩ := bindOk h
      rw [List.foldl_cons, ← ih s1 s' h2]
      congr 1
      unfold dephaseLevelP at h1
      obtain ⟨r, h3, h4⟩ := bindOk h1
      obtain ⟨e1, e2⟩ := drawP_ok h3
      unfold dephaseLevel draw
      dsimp only at h4 ⊢
      rw [e1, e2] at h4
      split_ifs at h4 ⊢ with h5 h6 h6
      · cases h4; rfl
      · exact absurd h5 h6
      · exact absurd h6 h5
      · cases h4; rfl
  congr 1
  exact key _ _ _ h

theorem foldlM_keys {β : Type} (f : St → Int × Int → Except PyErr St) : ∀ (m : List ((Int × Int) × β)) (s : St),
    (m.map Prod.fst).foldlM f s = m.foldlM (fun s e => f s e.1) s
  | [], s => rfl
  | a :: m, s => by
    rw [List.map_cons, List.foldlM_cons, List.foldlM_cons]
    congr 1
    funext s'
    exact foldlM_keys f m s'

theorem applyModeP_refine {rng : Draws} {dims : List Nat} {i : Instr} {s s' : StP} {e : String × NoiseObj ℝ} (h : applyModeP rng dims i s e = .ok s') :
    applyMode rng dims i s.toSt e = .ok s'.toSt := by
  obtain ⟨mode, o⟩ := e
  unfold applyModeP at h
  obtain ⟨qs, hq, h⟩ := bindOk h
  obtain ⟨info, hi, h⟩ := bindOk h
  obtain ⟨s1, h1, h2⟩ := bindOk h
  unfold applyMode
  have r1 : applyDepol rng dims qs info s.toSt = .ok s1.toSt := by
    cases info with
    | math noise => exact foldlM_refine (fun q _ s s' h => depolMathP_refine h) h1
    | sub m =>
      refine foldlM_refine (fun q _ s s' h => ?_) h1
      obtain ⟨dim, hd, h⟩ := bindOk h
      rw [hd]
      simp only [bind, Except.bind]
      unfold PyDict.keys
      rw [foldlM_keys]
      exact foldlM_refine (g := fun s e => depolSubOne rng dim q s e.1) (fun e _ s s' h => depolSubOneP_refine h) h
  have r2 : applyDephase rng dims qs info s1.toSt = .ok s'.toSt := by
    cases info with
    | math noise => cases h2; rfl
    | sub m =>
      refine foldlM_refine (fun q _ s s' h => ?_) h2
      obtain ⟨dim, hd, h⟩ := bindOk h
      rw [hd]
      simp only [bind, Except.bind]
      unfold PyDict.keys
      rw [foldlM_keys]
      exact foldlM_refine (g := fun s e => dephaseOne rng dim q s e.1) (fun e _ s s' h => dephaseOneP_refine h) h
  dsimp only at hq hi
  simp only [hq, hi, bind, Except.bind, r1, r2]

/-- the factory with probabilities makes circuits of the factory without -/
theorem generateP_refine {rng : Draws} {dims : List Nat} {errs : PyDict String (PyDict String (NoiseObj ℝ))} {instrs : List Instr} {s : StP}
    (h : generateP rng dims errs instrs = .ok s) : generate rng dims errs instrs = .ok s.toSt := by
  unfold generateP at h
  unfold generate
  refine foldlM_refine (g := fun s i => applyNoise rng dims errs i (emit s (.orig i))) ?_ h
  intro i _ s s' h
  unfold applyNoiseP at h
  unfold applyNoise
  cases hg : PyDict.get? errs i.tag with
  | none => rw [hg] at h; cases h; rfl
  | some modes =>
    rw [hg] at h
    exact foldlM_refine (s := emitP s (.orig i)) (fun e _ s s' h => applyModeP_refine h) h

theorem runSites_iff (rng : Draws) (ts : List Site) (s : StP) : (∃ s', runSites rng ts s = .ok s') ↔ ∀ t ∈ ts, ValidProbs t.ps := by
  constructor
  · rintro ⟨s', h⟩
    by_contra hc
    push Not at hc
    rw [runSites_bad rng ts s hc] at h
    cases h
  · intro h
    obtain ⟨s', h1, _⟩ := runSites_ok rng ts s h
    exact ⟨s', h1⟩

theorem validProbs_of {p : List ℝ} (h : p.sum = 1) : ValidProbs p ↔ ∀ x ∈ p, 0 ≤ x := by
  unfold ValidProbs
  rw [h]
  simp

theorem depolProbs_sum {d : Nat} (hd : 0 < d) (p : ℝ) : (depolProbs d p).sum = 1 := by
  have hd' : (0 : ℝ) < d := by exact_mod_cast hd
  have hdd : 0 < d * d := Nat.mul_pos hd hd
  have hcast : ((d * d - 1 : Nat) : ℝ) = (d : ℝ) * d - 1 := by
    rw [Nat.cast_sub hdd]
    push_cast
    ring
  simp only [depolProbs, List.singleton_append, List.sum_cons, List.sum_replicate, nsmul_eq_mul, hcast]
  ring

/-- the probabilities of a mathematical error -/
theorem mathSite_valid {d : Nat} (hd : 0 < d) (p : ℝ) (q : Int) : ValidProbs (mathSite d p q).ps ↔ (1 < d → 0 ≤ p ∧ p * (d ^ 2 - 1) ≤ d ^ 2) := by
  unfold mathSite
  dsimp only
  rw [validProbs_of (depolProbs_sum hd p)]
  have hd' : (0 : ℝ) < d := by exact_mod_cast hd
  by_cases h1 : d = 1
  · subst h1
    simp [depolProbs]
  have h2 : 1 < d := by omega
  have hdd : 1 < d * d := by nlinarith
  simp only [depolProbs, List.mem_append, List.mem_singleton, List.mem_replicate, h2, true_implies]
  have e1 : p / d / d = p / (d * d) := by rw [div_div]
  have hp : (0 : ℝ) < d * d := by positivity
  have e2 : 1 - p / d / d * ((d : ℝ) * d - 1) = (d ^ 2 - p * (d ^ 2 - 1)) / (d * d) := by
    field_simp
  constructor
  · intro h
    have a1 := h _ (.inl rfl)
    have a2 := h (p / d / d) (.inr ⟨by omega, rfl⟩)
    rw [e2, le_div_iff₀ hp] at a1
    rw [e1, le_div_iff₀ hp] at a2
    exact ⟨by linarith, by linarith⟩
  · rintro ⟨a1, a2⟩ x (rfl | ⟨-, rfl⟩)
    · rw [e2]
      apply div_nonneg <;> linarith
    · positivity

/-- the probabilities of a physical error -/
theorem subSite_valid (q : Int) (e : (Int × Int) × Noise ℝ) : ValidProbs (subSite q e).ps ↔ 0 ≤ e.2.depolarizing ∧ 3 * e.2.depolarizing ≤ 4 := by
  unfold subSite
  dsimp only
  rw [validProbs_of (by simp [subspaceProbs]; ring)]
  simp only [subspaceProbs, List.mem_append, List.mem_singleton, List.mem_replicate]
  constructor
  · intro h
    have a1 := h _ (.inl rfl)
    have a2 := h (e.2.depolarizing / 4) (.inr ⟨by omega, rfl⟩)
    exact ⟨by linarith, by linarith⟩
  · rintro ⟨a1, a2⟩ x (rfl | ⟨-, rfl⟩) <;> linarith

theorem levelSite_valid (q : Int) (p : ℝ) (l : Int) : ValidProbs (levelSite q p l).ps ↔ 0 ≤ p ∧ p ≤ 1 := by
  unfold levelSite
  dsimp only
  rw [validProbs_of (by simp)]
  simp

theorem others_nonempty {dim : Nat} {a b : Int} (h0 : 0 ≤ a) (hab : a < b) (hb : b < dim) : others dim (a, b) ≠ [] ↔ 2 < dim := by
  unfold others
  rw [Ne, List.filter_eq_nil_iff]
  push Not
  constructor
  · rintro ⟨x, hx, hy⟩
    obtain ⟨k, hk, rfl⟩ := List.mem_map.1 hx
    have := List.mem_range.1 hk
    simp only [decide_eq_true_eq] at hy
    omega
  · intro h
    have : ∃ k : Nat, k < dim ∧ (k : Int) ≠ a ∧ (k : Int) ≠ b := by
      by_cases h1 : a = 0
      · by_cases h2 : b = 1
        · exact ⟨2, by omega, by omega, by omega⟩
        · exact ⟨1, by omega, by omega, by omega⟩
      · by_cases h2 : b = 0
        · exact ⟨1, by omega, by omega, by omega⟩
        · exact ⟨0, by omega, by omega, by omega⟩
    obtain ⟨k, k1, k2, k3⟩ := this
    exact ⟨(k : Int), List.mem_map.2 ⟨k, List.mem_range.2 k1, rfl⟩, by simp [k2, k3]⟩

end Qudits.NoisyFactory
