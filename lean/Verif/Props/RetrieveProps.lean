import Verif.Lemmas.RetrieveState
import Mathlib.Tactic.NormNum
/-! # C42: generators of named states -/
namespace Qudits
open Spec RetrieveState

theorem oneEntry_cons_zero (n i : Nat) : oneEntry (n + 1) 0 i = i :: List.replicate n 0 := rfl

theorem oneEntry_cons_succ (n j i : Nat) : oneEntry (n + 1) (j + 1) i = 0 :: oneEntry n j i := rfl

theorem oneEntry_length (n j i : Nat) : (oneEntry n j i).length = n := by simp [oneEntry]

theorem oneEntry_getD {n j i : Nat} (hj : j < n) (k : Nat) : (oneEntry n j i).getD k 0 = if k = j then i else 0 := by
  simp only [oneEntry, List.getD_eq_getElem?_getD, List.getElem?_set, List.length_replicate, List.getElem?_replicate]
  by_cases h : k = j
  · subst h; simp [hj]
  · rw [if_neg (Ne.symm h), if_neg h]; split <;> rfl

theorem oneEntry_inj {n j i j' i' : Nat} (hj : j < n) (hj' : j' < n) (hi : i ≠ 0) (h : oneEntry n j i = oneEntry n j' i') : j = j' ∧ i = i' := by
  have h1 := congrArg (fun l => l.getD j 0) h
  simp only [oneEntry_getD hj, oneEntry_getD hj', if_true] at h1
  by_cases e : j = j'
  · rw [if_pos e] at h1; exact ⟨e, h1⟩
  · rw [if_neg e] at h1; exact absurd h1 hi

/-- exactly one line is excited -/
theorem one_excited_iff : ∀ (p : List Nat), p.countP (fun l => l ≠ 0) = 1 ↔ ∃ j i, j < p.length ∧ i ≠ 0 ∧ p = oneEntry p.length j i
  | [] => by simp
  | l :: p => by
    have hzero : p.countP (fun l => l ≠ 0) = 0 ↔ p = List.replicate p.length 0 := by
      rw [List.countP_eq_zero]
      constructor
      · intro h
        exact List.eq_replicate_iff.2 ⟨rfl, fun b hb => by have := h b hb; simpa using this⟩
      · intro h x hx
        rw [h] at hx
        simp [(List.mem_replicate.1 hx).2]
    by_cases hl : l = 0
    · subst hl
      rw [List.countP_cons_of_neg (by simp), one_excited_iff p]
      constructor
      · rintro ⟨j, i, hj, hi, e⟩
        exact ⟨j + 1, i, by simpa using hj, hi, by rw [List.length_cons, oneEntry_cons_succ, ← e]⟩
      · rintro ⟨j, i, hj, hi, e⟩
        cases j with
        | zero =>
          rw [List.length_cons, oneEntry_cons_zero] at e
          injection e with e1 _
          exact absurd e1.symm hi
        | succ j =>
          rw [List.length_cons, oneEntry_cons_succ] at e
          injection e with _ e2
          exact ⟨j, i, by simpa using hj, hi, e2⟩
    · rw [List.countP_cons_of_pos (by simpa using hl)]
      constructor
      · intro h
        refine ⟨0, l, by simp, hl, ?_⟩
        rw [List.length_cons, oneEntry_cons_zero, ← hzero.1 (by omega)]
      · rintro ⟨j, i, hj, hi, e⟩
        cases j with
        | zero =>
          rw [List.length_cons, oneEntry_cons_zero] at e
          injection e with _ e2
          rw [hzero.2 e2]
        | succ j =>
          rw [List.length_cons, oneEntry_cons_succ] at e
          injection e with e1 _
          exact absurd e1 hl

theorem levels_oneEntry : ∀ {dims : List Nat} {j i : Nat}, j < dims.length → (∀ d ∈ dims, 0 < d) →
    (Levels dims (oneEntry dims.length j i) ↔ i < dims.getD j 0)
  | [], j, i, h, _ => by simp at h
  | d :: ds, 0, i, _, hpos => by
    rw [List.length_cons, oneEntry_cons_zero]
    have hz : Levels ds (List.replicate ds.length 0) := by
      clear * - hpos
      induction ds with
      | nil => exact .nil
      | cons e es ih => exact .cons (hpos e (by simp)) (ih fun d' hd' => by
          simp only [List.mem_cons] at hpos hd' ⊢; exact hpos d' (by tauto))
    constructor
    · intro h; cases h with | cons h _ => simpa using h
    · intro h; exact .cons (by simpa using h) hz
  | d :: ds, j + 1, i, h, hpos => by
    rw [List.length_cons, oneEntry_cons_succ]
    have ih := levels_oneEntry (dims := ds) (j := j) (i := i) (by simpa using h) (fun d hd => hpos d (by simp [hd]))
    constructor
    · intro hh; cases hh with | cons _ hh => simpa using ih.1 hh
    · intro hh; exact .cons (hpos d (by simp)) (ih.2 (by simpa using hh))

theorem one_excited_sum {p : List Nat} (h : p.sum = 1) : p.countP (fun l => l ≠ 0) = 1 := by
  induction p with
  | nil => simp at h
  | cons l p ih =>
    rw [List.sum_cons] at h
    by_cases hl : l = 0
    · subst hl
      rw [List.countP_cons_of_neg (by simp)]; exact ih (by omega)
    · rw [List.countP_cons_of_pos (by simpa using hl)]
      have hs : p.sum = 0 := by omega
      have : p.countP (fun l => l ≠ 0) = 0 := by
        rw [List.countP_eq_zero]
        intro x hx
        have := List.single_le_sum (l := p) (by simp) x hx
        simp; omega
      omega

theorem sum_oneEntry {n j i : Nat} (hj : j < n) : (oneEntry n j i).sum = i := by
  induction n generalizing j with
  | zero => omega
  | succ n ih =>
    cases j with
    | zero => simp [oneEntry_cons_zero]
    | succ j => rw [oneEntry_cons_succ, List.sum_cons, ih (by omega)]; simp

theorem norm_amp {m : Nat} (hm : 0 < m) : (m : ℝ) * ‖((Real.sqrt (1 / m) : ℝ) : ℂ)‖ ^ 2 = 1 := by
  rw [Complex.norm_real, Real.norm_eq_abs, sq_abs, Real.sq_sqrt (by positivity)]
  field_simp

theorem unit_of_sum {v : List ℂ} (h : (v.map fun x => ‖x‖ ^ 2).sum = 1) : vecNorm v = 1 := by
  unfold vecNorm; rw [h, Real.sqrt_one]

open Classical in
/-- GHZ: the amplitude is `sqrt (1/m)`, `m` the smallest dimension, exactly where all lines are at the same level, and 0 elsewhere; the
vector has unit norm. -/
theorem C42_ghz (dims : List Nat) (hne : dims ≠ []) (hpos : ∀ d ∈ dims, 0 < d) :
    ∃ v m, uniformState dims "ghz" = .ok v ∧ (m ∈ dims ∧ ∀ d ∈ dims, m ≤ d) ∧ v.length = dims.prod ∧ vecNorm v = 1 ∧
      ∀ p, Levels dims p → v.getD (index dims p) 0 =
        if ∃ i, ∀ l ∈ p, l = i then ((Real.sqrt (1 / m) : ℝ) : ℂ) else 0 := by
  cases hm : dims.min? with
  | none => exact absurd (List.min?_eq_none_iff.1 hm) hne
  | some m =>
  obtain ⟨hm1, hm2⟩ := List.min?_eq_some_iff.1 hm
  set E := (List.range m).map fun i => List.replicate dims.length i with hE
  have hn : dims.length ≠ 0 := by simpa using hne
  have hnd : E.Nodup := by
    refine List.nodup_range.map ?_
    intro a b hab
    exact List.replicate_right_injective hn hab
  have hm0 : 0 < m := hpos m hm1
  have hEl : E.length = m := by simp [hE]
  obtain ⟨l, h1, h2, h3, h4⟩ := uniform_vector dims E (by intro h; rw [h] at hEl; simp at hEl; omega) (by
    intro e he; obtain ⟨i, _, rfl⟩ := List.mem_map.1 he; simp) hnd
  refine ⟨_, m, ?_, ⟨hm1, hm2⟩, h3 ((Real.sqrt (1 / m) : ℝ) : ℂ), ?_, ?_⟩
  · unfold uniformState ghzEntries
    simp only [hm, bind, Except.bind, pure, Except.pure]
    rw [if_neg (by decide), if_neg (by decide), if_pos trivial]
    simp only [← hE, hEl, h1]
    rw [if_neg (by omega)]
  · apply unit_of_sum
    rw [h4]
    have : (E.filter fun e => Levels dims e) = E := by
      rw [List.filter_eq_self]
      intro e he
      obtain ⟨i, hi, rfl⟩ := List.mem_map.1 he
      rw [decide_eq_true_eq]
      rw [List.mem_range] at hi
      have : ∀ (ds : List Nat), (∀ d ∈ ds, i < d) → Levels ds (List.replicate ds.length i) := by
        intro ds
        induction ds with
        | nil => intro _; exact .nil
        | cons d ds ih => intro h; exact .cons (h d (by simp)) (ih fun d hd => h d (by simp [hd]))
      exact this dims fun d hd => lt_of_lt_of_le hi (hm2 d hd)
    rw [this, hEl]
    exact norm_amp hm0
  · intro p hp
    rw [h2 _ p hp]
    have hmem : p ∈ E ↔ ∃ i, ∀ l ∈ p, l = i := by
      constructor
      · intro h
        obtain ⟨i, _, rfl⟩ := List.mem_map.1 h
        exact ⟨i, fun l hl => (List.mem_replicate.1 hl).2⟩
      · rintro ⟨i, hi⟩
        have e : p = List.replicate dims.length i := List.eq_replicate_iff.2 ⟨hp.length, hi⟩
        rw [hE, e]
        refine List.mem_map.2 ⟨i, List.mem_range.2 ?_, rfl⟩
        obtain ⟨k, hk⟩ := List.mem_iff_getElem?.1 hm1
        have hkl := (List.getElem?_eq_some_iff.1 hk).1
        rw [e] at hp
        have := List.forall₂_iff_get.1 hp
        have h5 := this.2 k (by simpa using hkl) hkl
        have h6 := (List.getElem?_eq_some_iff.1 hk).2
        simpa [h6] using h5
    by_cases h : p ∈ E
    · rw [if_pos h, if_pos (hmem.1 h)]
    · rw [if_neg h, if_neg (fun hh => h (hmem.2 hh))]

/-- W over all levels: the amplitude is `sqrt (1/m)`, `m` the number of excited levels of all lines, exactly where one line is excited and
all others are at level 0; the vector has unit norm. -/
theorem C42_qudit_w (dims : List Nat) (hpos : ∀ d ∈ dims, 0 < d) (h2 : ∃ d ∈ dims, 2 ≤ d) :
    ∃ v, uniformState dims "qudit-w-state" = .ok v ∧ v.length = dims.prod ∧ vecNorm v = 1 ∧
      ∀ p, Levels dims p → v.getD (index dims p) 0 =
        if p.countP (fun l => l ≠ 0) = 1 then ((Real.sqrt (1 / ((dims.map fun d => d - 1).sum : Nat)) : ℝ) : ℂ) else 0 := by
  classical
  set E := quditWEntries dims with hE
  have hmem : ∀ p, p ∈ E ↔ ∃ j i, j < dims.length ∧ i ≠ 0 ∧ i < dims.getD j 0 ∧ p = oneEntry dims.length j i := by
    intro p
    rw [hE, quditWEntries, List.mem_flatMap]
    constructor
    · rintro ⟨j, hj, hp⟩
      obtain ⟨i, hi, rfl⟩ := List.mem_map.1 hp
      rw [List.mem_range'_1] at hi
      exact ⟨j, i, List.mem_range.1 hj, by omega, by omega, rfl⟩
    · rintro ⟨j, i, hj, hi, hi', rfl⟩
      exact ⟨j, List.mem_range.2 hj, List.mem_map.2 ⟨i, List.mem_range'_1.2 ⟨by omega, by omega⟩, rfl⟩⟩
  have hnd : E.Nodup := by
    rw [hE, quditWEntries, List.nodup_flatMap]
    constructor
    · intro j hj
      refine (List.nodup_range').map_on ?_
      intro a ha b hb hab
      rw [List.mem_range'_1] at ha
      exact (oneEntry_inj (List.mem_range.1 hj) (List.mem_range.1 hj) (by omega) hab).2
    · refine List.Pairwise.imp_of_mem ?_ List.nodup_range
      intro a b ha hb hab
      intro x hx hy
      obtain ⟨i, hi, rfl⟩ := List.mem_map.1 hx
      obtain ⟨i', hi', e⟩ := List.mem_map.1 hy
      rw [List.mem_range'_1] at hi hi'
      exact hab (oneEntry_inj (List.mem_range.1 hb) (List.mem_range.1 ha) (by omega) e).1.symm
  have hlen : E.length = (dims.map fun d => d - 1).sum := by
    rw [hE, quditWEntries, List.length_flatMap]
    congr 1
    simp only [List.length_map, List.length_range']
    apply List.ext_getElem (by simp)
    intro k h1 h2
    simp at h1
    simp [List.getD_eq_getElem?_getD, h1]
  have hm0 : 0 < (dims.map fun d => d - 1).sum := by
    obtain ⟨d, hd, hd2⟩ := h2
    have := List.single_le_sum (l := dims.map fun d => d - 1) (by simp) (d - 1) (List.mem_map.2 ⟨d, hd, rfl⟩)
    omega
  obtain ⟨l, h1, h2, h3, h4⟩ := uniform_vector dims E (by intro h; rw [h] at hlen; simp at hlen; omega) (by
    intro e he; obtain ⟨j, i, _, _, _, rfl⟩ := (hmem e).1 he; exact oneEntry_length _ _ _) hnd
  refine ⟨_, ?_, h3 ((Real.sqrt (1 / ((dims.map fun d => d - 1).sum : Nat)) : ℝ) : ℂ), ?_, ?_⟩
  · unfold uniformState
    simp only [bind, Except.bind, pure, Except.pure]
    rw [if_pos trivial]
    simp only [← hE, hlen, h1]
    rw [if_neg (by omega)]
  · apply unit_of_sum
    rw [h4]
    have : (E.filter fun e => Levels dims e) = E := by
      rw [List.filter_eq_self]
      intro e he
      obtain ⟨j, i, hj, _, hi, rfl⟩ := (hmem e).1 he
      rw [decide_eq_true_eq]
      exact (levels_oneEntry hj hpos).2 hi
    rw [this, hlen]
    exact norm_amp hm0
  · intro p hp
    rw [h2 _ p hp]
    have : p ∈ E ↔ p.countP (fun l => l ≠ 0) = 1 := by
      rw [hmem, one_excited_iff, hp.length]
      constructor
      · rintro ⟨j, i, hj, hi, _, e⟩; exact ⟨j, i, hj, hi, e⟩
      · rintro ⟨j, i, hj, hi, e⟩
        exact ⟨j, i, hj, hi, (levels_oneEntry hj hpos).1 (by rw [← e]; exact hp), e⟩
    by_cases h : p ∈ E
    · rw [if_pos h, if_pos (this.1 h)]
    · rw [if_neg h, if_neg (fun hh => h (this.2 hh))]

/-- Embedded W: the amplitude is `sqrt (1/n)` exactly where one line is at level 1 and all others are at level 0; if every line has a level
1, the vector has unit norm. -/
theorem C42_embedded_w_partial (dims : List Nat) (hne : dims ≠ []) (hpos : ∀ d ∈ dims, 0 < d) :
    ∃ v, uniformState dims "embedded-w-state" = .ok v ∧ v.length = dims.prod ∧ ((∀ d ∈ dims, 2 ≤ d) → vecNorm v = 1) ∧
      ∀ p, Levels dims p → v.getD (index dims p) 0 = if p.sum = 1 then ((Real.sqrt (1 / (dims.length : Nat)) : ℝ) : ℂ) else 0 := by
  classical
  set E := embeddedWEntries dims with hE
  have hn : 0 < dims.length := List.length_pos_of_ne_nil hne
  have hlen : E.length = dims.length := by simp [hE, embeddedWEntries]
  have hnd : E.Nodup := by
    refine List.nodup_range.map_on ?_
    intro a ha b hb hab
    exact (oneEntry_inj (List.mem_range.1 ha) (List.mem_range.1 hb) one_ne_zero hab).1
  obtain ⟨l, h1, h2, h3, h4⟩ := uniform_vector dims E (by intro h; rw [h] at hlen; simp at hlen; omega) (by
    intro e he; obtain ⟨j, _, rfl⟩ := List.mem_map.1 he; exact oneEntry_length _ _ _) hnd
  refine ⟨_, ?_, h3 ((Real.sqrt (1 / (dims.length : Nat)) : ℝ) : ℂ), ?_, ?_⟩
  · unfold uniformState
    simp only [bind, Except.bind, pure, Except.pure]
    rw [if_neg (by decide), if_pos trivial]
    simp only [← hE, hlen, h1]
    rw [if_neg (by omega)]
  · intro hd2
    apply unit_of_sum
    rw [h4]
    have : (E.filter fun e => Levels dims e) = E := by
      rw [List.filter_eq_self]
      intro e he
      obtain ⟨j, hj, rfl⟩ := List.mem_map.1 he
      rw [List.mem_range] at hj
      rw [decide_eq_true_eq]
      refine (levels_oneEntry hj hpos).2 ?_
      have := hd2 dims[j] (List.getElem_mem hj)
      simp only [List.getD_eq_getElem?_getD, List.getElem?_eq_getElem hj, Option.getD_some]
      omega
    rw [this, hlen]
    exact norm_amp hn
  · intro p hp
    rw [h2 _ p hp]
    have : p ∈ E ↔ p.sum = 1 := by
      constructor
      · intro h
        obtain ⟨j, hj, rfl⟩ := List.mem_map.1 h
        exact sum_oneEntry (List.mem_range.1 hj)
      · intro h
        obtain ⟨j, i, hj, _, e⟩ := (one_excited_iff p).1 (one_excited_sum h)
        rw [e, sum_oneEntry hj] at h
        subst h
        rw [hp.length] at hj e
        exact List.mem_map.2 ⟨j, List.mem_range.2 hj, e.symm⟩
    by_cases h : p ∈ E
    · rw [if_pos h, if_pos (this.1 h)]
    · rw [if_neg h, if_neg (fun hh => h (this.2 hh))]

/-- A line of one level has no level 1: the entry is not found and the embedded W state is not normalised. -/
theorem C42_embedded_w_violated : ∃ v, uniformState [1, 2] "embedded-w-state" = .ok v ∧ (v.map fun x => ‖x‖ ^ 2).sum = 1 / 2 := by
  obtain ⟨v, h1, h2, _, h4⟩ := C42_embedded_w_partial [1, 2] (by simp) (by simp)
  refine ⟨v, h1, ?_⟩
  rw [list_sum_range, h2]
  have e0 := h4 [0, 0] (.cons (by norm_num) (.cons (by norm_num) .nil))
  have e1 := h4 [0, 1] (.cons (by norm_num) (.cons (by norm_num) .nil))
  rw [show index [1, 2] [0, 0] = 0 from rfl, if_neg (by simp)] at e0
  rw [show index [1, 2] [0, 1] = 1 from rfl, if_pos (by simp)] at e1
  rw [show ([1, 2] : List Nat).prod = 2 from rfl, Finset.sum_range_succ, Finset.sum_range_succ, Finset.sum_range_zero, e0, e1]
  rw [Complex.norm_real, Real.norm_eq_abs, sq_abs, Real.sq_sqrt (by positivity)]
  norm_num

/-- Other names are refused, a GHZ state of no lines is refused, and a W state without an excited level is refused. -/
theorem C42_refused (dims : List Nat) (name : String) :
    (name ≠ "ghz" → name ≠ "qudit-w-state" → name ≠ "embedded-w-state" → uniformState dims name = .error .valueError) ∧
    uniformState [] "ghz" = .error .valueError ∧
    ((∀ d ∈ dims, d ≤ 1) → uniformState dims "qudit-w-state" = .error .zeroDivisionError) := by
  refine ⟨?_, ?_, ?_⟩
  · intro h1 h2 h3
    unfold uniformState
    rw [if_neg h2, if_neg h3, if_neg h1]
    rfl
  · unfold uniformState
    rw [if_neg (by decide), if_neg (by decide), if_pos rfl]
    rfl
  · intro h
    have : quditWEntries dims = [] := by
      rw [quditWEntries, List.flatMap_eq_nil_iff]
      intro j hj
      rw [List.mem_range] at hj
      have := h dims[j] (List.getElem_mem hj)
      have e : dims.getD j 0 - 1 = 0 := by
        simp only [List.getD_eq_getElem?_getD, List.getElem?_eq_getElem hj, Option.getD_some]; omega
      rw [e]; rfl
    unfold uniformState
    simp only [bind, Except.bind, pure, Except.pure]
    rw [if_pos trivial]
    simp only [this, List.length_nil, if_true]

example : ∃ v, uniformState [2, 3] "ghz" = .ok v ∧ v.getD (index [2, 3] [1, 1]) 0 = ((Real.sqrt (1 / (2 : Nat)) : ℝ) : ℂ) ∧
    v.getD (index [2, 3] [1, 2]) 0 = 0 := by
  obtain ⟨v, m, h1, ⟨hm1, hm2⟩, _, _, h4⟩ := C42_ghz [2, 3] (by simp) (by simp)
  have : m = 2 := by
    have := hm2 2 (by simp)
    simp at hm1
    omega
  subst this
  refine ⟨v, h1, ?_, ?_⟩
  · rw [h4 [1, 1] (.cons (by norm_num) (.cons (by norm_num) .nil)), if_pos ⟨1, by simp⟩]
  · rw [h4 [1, 2] (.cons (by norm_num) (.cons (by norm_num) .nil)), if_neg]
    rintro ⟨i, hi⟩
    have h1 := hi 1 (by simp)
    have h2 := hi 2 (by simp)
    omega

end Qudits
