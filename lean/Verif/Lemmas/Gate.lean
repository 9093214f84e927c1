import Verif.Spec.GateSpec
import Mathlib.Tactic.Linarith
import Mathlib.Tactic.Common

namespace Qudits
open Spec

theorem anyGap_iff (l : List Int) (h : l.Pairwise (· ≤ ·)) : Gate.anyGap l = true ↔ HasGap l := by
  induction l with
  | nil => simp [Gate.anyGap, HasGap]
  | cons a t ih =>
    cases t with
    | nil =>
      simp only [Gate.anyGap, HasGap, List.mem_singleton]
      constructor
      · intro h; cases h
      · rintro ⟨m, ⟨x, rfl, hx⟩, ⟨y, rfl, hy⟩, _⟩; omega
    | cons b rest =>
      have hp := List.pairwise_cons.1 h
      have hab : a ≤ b := hp.1 b (by simp)
      have hb := List.pairwise_cons.1 hp.2
      have ih := ih hp.2
      simp only [Gate.anyGap, Bool.or_eq_true, decide_eq_true_eq]
      rw [ih]
      constructor
      · rintro (hgap | ⟨m, ⟨x, hx, hxm⟩, ⟨y, hy, hmy⟩, hm⟩)
        · refine ⟨a + 1, ⟨a, by simp, by omega⟩, ⟨b, by simp, by omega⟩, ?_⟩
          simp only [List.mem_cons, not_or]
          refine ⟨by omega, by omega, ?_⟩
          intro hmem
          have := hb.1 _ hmem
          omega
        · refine ⟨m, ⟨x, List.mem_cons_of_mem _ hx, hxm⟩, ⟨y, List.mem_cons_of_mem _ hy, hmy⟩, ?_⟩
          rw [List.mem_cons, not_or]
          refine ⟨?_, hm⟩
          have : a ≤ x := hp.1 x hx
          omega
      · rintro ⟨m, ⟨x, hx, hxm⟩, ⟨y, hy, hmy⟩, hm⟩
        by_cases hg : b - a > 1
        · exact Or.inl hg
        · right
          rw [List.mem_cons, not_or] at hm
          have hmb : m ≠ b := fun e => hm.2 (by rw [e]; simp)
          have hxa : a ≤ x := by
            rcases List.mem_cons.1 hx with rfl | hx
            · exact le_refl _
            · exact hp.1 x hx
          refine ⟨m, ⟨b, by simp, by omega⟩, ⟨y, ?_, hmy⟩, hm.2⟩
          rcases List.mem_cons.1 hy with rfl | hy
          · omega
          · exact hy

theorem hasGap_congr (l l' : List Int) (h : ∀ x, x ∈ l ↔ x ∈ l') : HasGap l ↔ HasGap l' := by
  simp only [HasGap, h]

theorem checkLongRange_iff (g : Gate) (b : Bool) (h : g.checkLongRange = .ok b) :
    b = true ↔ HasGap (g.controlLines ++ g.target.lines) := by
  unfold Gate.checkLongRange Gate.referenceLines at h
  by_cases h0 : (g.controlLines ++ g.target.lines).length = 0
  · simp only [h0, if_true] at h; cases h
  · simp only [h0, if_false] at h
    change (if (g.controlLines ++ g.target.lines).length > 1 then
        (pure (Gate.anyGap ((g.controlLines ++ g.target.lines).insertionSort (· ≤ ·))) : Except PyErr Bool)
        else pure false) = .ok b at h
    split at h
    · have : b = Gate.anyGap ((g.controlLines ++ g.target.lines).insertionSort (· ≤ ·)) := by
        exact (Except.ok.inj h).symm
      rw [this, anyGap_iff _ (List.pairwise_insertionSort _ _)]
      exact hasGap_congr _ _ fun x => (List.perm_insertionSort _ _).mem_iff
    · rename_i h1
      have hb : b = false := (Except.ok.inj h).symm
      subst hb
      have hl : (g.controlLines ++ g.target.lines).length = 1 := by omega
      obtain ⟨a, ha⟩ := List.length_eq_one_iff.1 hl
      rw [ha]
      simp only [Bool.false_eq_true, HasGap, List.mem_singleton, false_iff]
      rintro ⟨m, ⟨x, rfl, hx⟩, ⟨y, rfl, hy⟩, _⟩; omega

theorem anyLevelTooBig_false (dims : List Nat) (lev : List Int) : ∀ i,
    Gate.anyLevelTooBig dims i lev = .ok false ↔
      ∀ (k : Nat) (l : Int), lev[k]? = some l → ∃ d : Nat, dims[i + k]? = some d ∧ l < d := by
  induction lev with
  | nil => intro i; simp [Gate.anyLevelTooBig]
  | cons c cs ih =>
    intro i
    unfold Gate.anyLevelTooBig
    cases hd : dims[i]? with
    | none =>
      constructor
      · intro h; cases h
      · intro h
        obtain ⟨d, h1, _⟩ := h 0 c (by simp)
        simp [hd] at h1
    | some d =>
      simp only
      by_cases hc : (d : Int) ≤ c
      · rw [if_pos hc]
        constructor
        · intro h; cases h
        · intro h
          obtain ⟨d', h1, h2⟩ := h 0 c (by simp)
          simp only [Nat.add_zero, hd, Option.some.injEq] at h1
          omega
      · rw [if_neg hc, ih (i + 1)]
        constructor
        · intro h k l hk
          cases k with
          | zero =>
            simp only [List.getElem?_cons_zero, Option.some.injEq] at hk
            exact ⟨d, by simpa using hd, by omega⟩
          | succ k =>
            obtain ⟨d', h1, h2⟩ := h k l (by simpa using hk)
            exact ⟨d', by rw [show i + (k + 1) = i + 1 + k by omega]; exact h1, h2⟩
        · intro h k l hk
          obtain ⟨d', h1, h2⟩ := h (k + 1) l (by simpa using hk)
          exact ⟨d', by rw [show i + 1 + k = i + (k + 1) by omega]; exact h1, h2⟩

/-- The gate returned by an accepted, non-trivial control request. -/
def Gate.controlResult (g : Gate) (idx lev : List Int) : Gate :=
  { g with controls := some ⟨idx, lev⟩
           gateType := if (idx ++ g.target.lines).length = 2 then .two
             else if (idx ++ g.target.lines).length > 2 then .multi else g.gateType }

theorem control_ok_iff (g g' : Gate) (idx lev : List Int) (hi : idx ≠ []) (hl : lev ≠ []) :
    g.control idx lev = .ok g' ↔
      (g.gateType = .single ∧ idx.length ≤ g.dims.length ∧
        (∀ i ∈ idx, i < g.dims.length ∧ i ∉ g.target.lines) ∧
        (∀ (k : Nat) (l : Int), lev[k]? = some l → ∃ d : Nat, g.dims[k]? = some d ∧ l < d)) ∧
      g' = g.controlResult idx lev := by
  have hi' : idx.length ≠ 0 := fun h => hi (List.length_eq_zero_iff.1 h)
  have hl' : lev.length ≠ 0 := fun h => hl (List.length_eq_zero_iff.1 h)
  unfold Gate.control
  rw [if_neg (by omega)]
  by_cases ht : g.gateType = .single
  swap
  · rw [if_pos ht]
    constructor
    · intro h; cases h
    · rintro ⟨⟨h, _⟩, _⟩; exact absurd h ht
  rw [if_neg (by simpa using ht)]
  by_cases hr : idx.length > g.dims.length ∨ idx.any (fun i => decide ((g.dims.length : Int) ≤ i))
  · rw [if_pos hr]
    constructor
    · intro h; cases h
    · rintro ⟨⟨_, h1, h2, _⟩, _⟩
      rcases hr with hr | hr
      · omega
      · obtain ⟨i, hi, hi2⟩ := List.any_eq_true.1 hr
        have := (h2 i hi).1
        have := of_decide_eq_true hi2
        omega
  rw [if_neg hr]
  rw [not_or] at hr
  have hr2 : ∀ i ∈ idx, i < g.dims.length := by
    intro i hi
    by_contra hc
    apply hr.2
    exact List.any_eq_true.2 ⟨i, hi, decide_eq_true (by omega)⟩
  by_cases ho : idx.any (fun i => decide (i ∈ g.target.lines))
  · rw [if_pos ho]
    constructor
    · intro h; cases h
    · rintro ⟨⟨_, _, h2, _⟩, _⟩
      obtain ⟨i, hi, hi2⟩ := List.any_eq_true.1 ho
      exact absurd (of_decide_eq_true hi2) (h2 i hi).2
  rw [if_neg ho]
  have ho2 : ∀ i ∈ idx, i ∉ g.target.lines := by
    intro i hi hc
    exact ho (List.any_eq_true.2 ⟨i, hi, decide_eq_true hc⟩)
  have hlev := anyLevelTooBig_false g.dims lev 0
  simp only [Nat.zero_add] at hlev
  cases hb : Gate.anyLevelTooBig g.dims 0 lev with
  | error e =>
    constructor
    · intro h; cases h
    · rintro ⟨⟨_, _, _, h⟩, _⟩
      rw [hlev.2 h] at hb; cases hb
  | ok b =>
    cases b with
    | true =>
      constructor
      · intro h; cases h
      · rintro ⟨⟨_, _, _, h⟩, _⟩
        rw [hlev.2 h] at hb; cases hb
    | false =>
      have h4 := hlev.1 hb
      have hne : (idx ++ g.target.lines).length ≠ 0 := by rw [List.length_append]; omega
      have href : ∀ ty, ({ g with controls := some ⟨idx, lev⟩, gateType := ty } : Gate).referenceLines
          = .ok (idx ++ g.target.lines) := by
        intro ty
        exact if_neg hne
      have hclr : ∀ ty, ∃ b, ({ g with controls := some ⟨idx, lev⟩, gateType := ty } : Gate).checkLongRange
          = .ok b := by
        intro ty
        unfold Gate.checkLongRange
        rw [href]
        by_cases h : (idx ++ g.target.lines).length > 1
        · exact ⟨_, by simp only [bind, Except.bind, pure, Except.pure, h, if_true]; rfl⟩
        · exact ⟨_, by simp only [bind, Except.bind, pure, Except.pure, h, if_false]; rfl⟩
      have hres : (do
          let g' := ({ g with controls := some ⟨idx, lev⟩ } : Gate)
          let lines ← g'.referenceLines
          let g'' := if lines.length = 2 then { g' with gateType := .two }
            else if lines.length > 2 then { g' with gateType := .multi } else g'
          let _ ← g''.checkLongRange
          Except.ok g'' : Except PyErr Gate) = .ok (g.controlResult idx lev) := by
        have h0 := href g.gateType
        change ({ g with controls := some ⟨idx, lev⟩ } : Gate).referenceLines = _ at h0
        simp only [h0, bind, Except.bind]
        by_cases h2 : (idx ++ g.target.lines).length = 2
        · obtain ⟨b, hb⟩ := hclr .two
          simp only [h2, if_true, hb, Gate.controlResult]
        · by_cases h3 : (idx ++ g.target.lines).length > 2
          · obtain ⟨b, hb⟩ := hclr .multi
            simp only [h2, h3, if_true, if_false, hb, Gate.controlResult]
          · obtain ⟨b, hb⟩ := hclr g.gateType
            change ({ g with controls := some ⟨idx, lev⟩ } : Gate).checkLongRange = _ at hb
            simp only [h2, h3, if_false, hb, Gate.controlResult]
      constructor
      · intro h
        refine ⟨⟨ht, by omega, fun i hi => ⟨hr2 i hi, ho2 i hi⟩, h4⟩, ?_⟩
        have h' : Except.ok (g.controlResult idx lev) = Except.ok (ε := PyErr) g' := by
          rw [← hres]; exact h
        exact (Except.ok.inj h').symm
      · rintro ⟨_, rfl⟩
        exact hres

end Qudits
