import Verif.Lemmas.Gate
import Mathlib.Data.Finset.Card

/-
Properties C03 (acceptance of controls) and C04 (gate type and long-range flag).
-/
namespace Qudits
open Spec

/-! ### C03 -/

/-- C03, part that holds (control lines and levels given as distinct non-negative lists of the same
length, all lines of the circuit of the same dimension): `control` is accepted exactly when the
request is legal, and then it records the request and changes neither target, name nor adjoint mark.
Missing from the full claim: mixed dimensions and malformed lists, where it is false (below). -/
theorem C03_control_uniform_partial (g : Gate) (d : Nat) (idx lev : List Int)
    (hdims : ∀ e ∈ g.dims, e = d) (hty : g.gateType = .single)
    (hne : idx ≠ []) (hlen : idx.length = lev.length) (hnd : idx.Nodup)
    (hpos : ∀ i ∈ idx, 0 ≤ i) (hlev : ∀ l ∈ lev, 0 ≤ l) :
    ((∃ g', g.control idx lev = .ok g') ↔ LegalControl g.dims g.target.lines idx lev) ∧
    (∀ g', g.control idx lev = .ok g' → g'.controls = some ⟨idx, lev⟩ ∧ g'.target = g.target ∧
      g'.name = g.name ∧ g'.dagger = g.dagger ∧ g'.dims = g.dims) := by
  have hl : lev ≠ [] := by
    intro h; apply hne; rw [h] at hlen; exact List.length_eq_zero_iff.1 hlen
  constructor
  · constructor
    · rintro ⟨g', h⟩
      obtain ⟨⟨_, h1, h2, h3⟩, _⟩ := (control_ok_iff g g' idx lev hne hl).1 h
      refine ⟨hnd, hlen, fun i hi => ⟨hpos i hi, h2 i hi⟩, ?_⟩
      rintro ⟨i, l⟩ hp
      have hi := (List.of_mem_zip hp).1
      have hl := (List.of_mem_zip hp).2
      refine ⟨hlev l hl, d, ?_, ?_⟩
      · have := (h2 i hi).1
        have := hpos i hi
        have hlt : i.toNat < g.dims.length := by omega
        rw [List.getElem?_eq_getElem hlt, Option.some.injEq]
        exact hdims _ (List.getElem_mem hlt)
      · obtain ⟨k, hk⟩ := List.mem_iff_getElem?.1 hl
        obtain ⟨e, he, hle⟩ := h3 k l hk
        rw [hdims e (List.mem_of_getElem? he)] at hle
        exact hle
    · intro h
      refine ⟨_, (control_ok_iff g _ idx lev hne hl).2 ⟨⟨hty, ?_, fun i hi => ⟨(h.lines i hi).2.1, (h.lines i hi).2.2⟩, ?_⟩, rfl⟩⟩
      · -- distinct lines below the number of lines: at most that many
        have h1 : (idx.map Int.toNat).Nodup := by
          refine List.Nodup.map_on ?_ hnd
          intro x hx y hy hxy
          have := hpos x hx
          have := hpos y hy
          omega
        have h2 : idx.map Int.toNat ⊆ List.range g.dims.length := by
          intro x hx
          obtain ⟨i, hi, rfl⟩ := List.mem_map.1 hx
          have := (h.lines i hi).2.1
          have := hpos i hi
          rw [List.mem_range]; omega
        have := (List.subperm_of_subset h1 h2).length_le
        simpa using this
      · intro k l hk
        have hkl : k < lev.length := (List.getElem?_eq_some_iff.1 hk).1
        have hz : (idx[k]'(by omega), l) ∈ idx.zip lev := by
          rw [List.mem_iff_getElem]
          refine ⟨k, by rw [List.length_zip]; omega, ?_⟩
          rw [List.getElem_zip]
          rw [(List.getElem?_eq_some_iff.1 hk).2]
        obtain ⟨_, e, he, hle⟩ := h.levels _ hz
        have hkn : k < g.dims.length := by
          have h1 : (idx.map Int.toNat).Nodup := by
            refine List.Nodup.map_on ?_ hnd
            intro x hx y hy hxy
            have := hpos x hx
            have := hpos y hy
            omega
          have h2 : idx.map Int.toNat ⊆ List.range g.dims.length := by
            intro x hx
            obtain ⟨i, hi, rfl⟩ := List.mem_map.1 hx
            have := (h.lines i hi).2.1
            have := hpos i hi
            rw [List.mem_range]; omega
          have := (List.subperm_of_subset h1 h2).length_le
          rw [List.length_map, List.length_range] at this
          omega
        refine ⟨g.dims[k], List.getElem?_eq_getElem hkn, ?_⟩
        rw [hdims _ (List.getElem_mem hkn)]
        rw [hdims e (List.mem_of_getElem? he)] at hle
        exact hle
  · intro g' h
    rw [((control_ok_iff g g' idx lev hne hl).1 h).2]
    exact ⟨rfl, rfl, rfl, rfl, rfl⟩

/-- C03, exact acceptance condition for arbitrary circuits and arbitrary lists: the level in position
`k` is compared with the dimension of line `k`, not with that of the line it controls. An empty list
leaves the gate as it was. -/
theorem C03_control_exact_partial (g : Gate) (idx lev : List Int) :
    (∃ g', g.control idx lev = .ok g') ↔
      idx = [] ∨ lev = [] ∨
      (g.gateType = .single ∧ idx.length ≤ g.dims.length ∧
        (∀ i ∈ idx, i < g.dims.length ∧ i ∉ g.target.lines) ∧
        (∀ (k : Nat) (l : Int), lev[k]? = some l → ∃ d : Nat, g.dims[k]? = some d ∧ l < d)) := by
  by_cases h1 : idx = []
  · subst h1
    simp [Gate.control]
  by_cases h2 : lev = []
  · subst h2
    simp [Gate.control]
  simp only [control_ok_iff g _ idx lev h1 h2, h1, h2, false_or]
  constructor
  · rintro ⟨g', h, _⟩; exact h
  · intro h; exact ⟨_, h, rfl⟩

/-- C03 fails: a control level that does not exist on the controlled line is accepted. -/
theorem C03_accepts_illegal_level_violated :
    ∃ g g' : Gate, g.control [1] [4] = .ok g' ∧ ¬ LegalControl g.dims g.target.lines [1] [4] := by
  refine ⟨⟨[5, 2], "H", .single, .one 0, none, false, false⟩, _, by rfl, ?_⟩
  intro h
  obtain ⟨_, d, hd, hlt⟩ := h.levels (1, 4) (by simp)
  simp at hd; omega

/-- C03 fails: a legal control is rejected. -/
theorem C03_rejects_legal_violated :
    ∃ g : Gate, g.control [2] [4] = .error .indexError ∧
      LegalControl g.dims g.target.lines [2] [4] := by
  refine ⟨⟨[2, 3, 5], "H", .single, .one 0, none, false, false⟩, by rfl, by simp, by simp, ?_, ?_⟩
  · intro i hi; simp at hi; subst hi; simp [Target.lines]
  · intro p hp; simp at hp; subst hp; simp

/-- C03 fails: repeated, negative or unmatched control lines are accepted. -/
theorem C03_accepts_malformed_violated :
    ∃ g : Gate,
      (∃ g', g.control [1, 1] [0, 1] = .ok g') ∧ (∃ g', g.control [-1] [0] = .ok g') ∧
      (∃ g', g.control [1, 2] [0] = .ok g') ∧
      ¬ LegalControl g.dims g.target.lines [1, 1] [0, 1] ∧
      ¬ LegalControl g.dims g.target.lines [-1] [0] ∧
      ¬ LegalControl g.dims g.target.lines [1, 2] [0] := by
  refine ⟨⟨[2, 2, 2], "H", .single, .one 0, none, false, false⟩, ⟨_, by rfl⟩, ⟨_, by rfl⟩, ⟨_, by rfl⟩, ?_, ?_, ?_⟩
  · intro h; exact absurd h.distinct (by decide)
  · intro h; exact absurd (h.lines (-1) (by simp)).1 (by decide)
  · intro h; exact absurd h.sameLength (by decide)

example : ∃ g', (⟨[3, 3, 3], "H", .single, .one 1, none, false, false⟩ : Gate).control [2, 0] [1, 2] = .ok g' :=
  ((C03_control_uniform_partial ⟨[3, 3, 3], "H", .single, .one 1, none, false, false⟩ 3 [2, 0] [1, 2]
    (by decide) rfl (by decide) rfl (by decide) (by decide) (by decide)).1).2
    ⟨by decide, rfl, by decide, by
      intro p hp; simp at hp; rcases hp with rfl | rfl <;> simp⟩

/-! ### C04 -/

/-- C04, part that holds: a gate built by the constructor (with or without a control set) from a type
that fits its targets has the type that fits all its distinct lines, and its long-range flag says
exactly whether some line between its lines is not touched.
Missing from the full claim: the flag after a later `control` call, where it is stale (below). -/
theorem C04_constructed_partial (dims : List Nat) (name : String) (ty : GateType) (t : Target)
    (cs : Option ControlData) (g : Gate) (hty : ty = typeFor t.lines.length)
    (h : Gate.init dims name ty t cs = .ok g) (hnd : (g.controlLines ++ g.target.lines).Nodup) :
    g.gateType = typeFor (g.controlLines ++ g.target.lines).toFinset.card ∧
    (g.longRange = true ↔ HasGap (g.controlLines ++ g.target.lines)) := by
  rw [List.toFinset_card_of_nodup hnd]
  have key : ∀ g1 : Gate, ((do
      let lr ← g1.checkLongRange
      pure { g1 with longRange := lr }) : Except PyErr Gate) = .ok g →
      (g.longRange = true ↔ HasGap (g.controlLines ++ g.target.lines)) ∧
      g.gateType = g1.gateType ∧ g.controlLines = g1.controlLines ∧ g.target = g1.target := by
    intro g1 h1
    cases hb : g1.checkLongRange with
    | error e => rw [hb] at h1; cases h1
    | ok b =>
      rw [hb] at h1
      have := Except.ok.inj h1
      subst this
      exact ⟨checkLongRange_iff g1 b hb, rfl, rfl, rfl⟩
  unfold Gate.init at h
  cases cs with
  | none =>
    obtain ⟨k1, k2, k3, k4⟩ := key _ h
    refine ⟨?_, k1⟩
    rw [k2, k3, k4]
    simpa [Gate.controlLines] using hty
  | some c =>
    cases hc : (⟨dims, name, ty, t, none, false, false⟩ : Gate).control c.indices c.ctrlStates with
    | error e =>
      simp only [hc] at h; cases h
    | ok g1 =>
      simp only [hc] at h
      obtain ⟨k1, k2, k3, k4⟩ := key g1 h
      refine ⟨?_, k1⟩
      rw [k2, k3, k4]
      by_cases hi : c.indices = []
      · rw [Gate.control, if_pos (by simp [hi])] at hc
        have := (Except.ok.inj hc).symm
        subst this
        simpa [Gate.controlLines] using hty
      by_cases hl : c.ctrlStates = []
      · rw [Gate.control, if_pos (by simp [hl])] at hc
        have := (Except.ok.inj hc).symm
        subst this
        simpa [Gate.controlLines] using hty
      obtain ⟨⟨hs, _⟩, rfl⟩ := (control_ok_iff _ _ _ _ hi hl).1 hc
      simp only at hs
      have hil : c.indices.length ≠ 0 := fun e => hi (List.length_eq_zero_iff.1 e)
      simp only [Gate.controlResult, Gate.controlLines, List.length_append]
      rw [hs] at hty
      have ht : t.lines.length ≤ 1 := by
        by_contra hc
        match hn : t.lines.length, hty with
        | 0, _ => omega
        | 1, _ => omega
        | 2, hty => simp [hn, typeFor] at hty
        | n + 3, hty => simp [hn, typeFor] at hty
      by_cases h2 : c.indices.length + t.lines.length = 2
      · simp [h2, typeFor]
      · rw [if_neg h2]
        by_cases h3 : c.indices.length + t.lines.length > 2
        · rw [if_pos h3]
          match hn : c.indices.length + t.lines.length, h3 with
          | n + 3, _ => rfl
        · rw [if_neg h3, hs]
          have : c.indices.length + t.lines.length = 1 := by omega
          rw [this]; rfl

/-- C04, gate type after a later control call on a single-line gate. -/
theorem C04_type_after_control (g g' : Gate) (q : Int) (idx lev : List Int) (hq : g.target = .one q)
    (hi : idx ≠ []) (hl : lev ≠ []) (hnd : (q :: idx).Nodup) (h : g.control idx lev = .ok g') :
    g'.gateType = typeFor (q :: idx).toFinset.card := by
  obtain ⟨⟨hs, _⟩, rfl⟩ := (control_ok_iff _ _ _ _ hi hl).1 h
  rw [List.toFinset_card_of_nodup hnd]
  have hil : idx.length ≠ 0 := fun e => hi (List.length_eq_zero_iff.1 e)
  simp only [Gate.controlResult, hq, Target.lines, List.length_append, List.length_cons, List.length_nil]
  match hn : idx.length with
  | 0 => exact absurd hn hil
  | 1 => simp [typeFor]
  | n + 2 =>
    rw [if_neg (by omega), if_pos (by omega)]; rfl

/-- C04 fails: attaching a control after construction leaves the long-range flag stale. -/
theorem C04_stale_flag_violated :
    ∃ g g' : Gate, Gate.init [2, 2, 2] "H" .single (.one 0) none = .ok g ∧
      g.control [2] [1] = .ok g' ∧ g'.longRange = false ∧
      HasGap (g'.controlLines ++ g'.target.lines) := by
  refine ⟨_, _, by rfl, by rfl, by rfl, ?_⟩
  exact ⟨1, ⟨0, by decide, by decide⟩, ⟨2, by decide, by decide⟩, by decide⟩

example : ∃ g, Gate.init [2, 2, 2] "H" .single (.one 0) (some ⟨[2], [1]⟩) = .ok g ∧ g.longRange = true ∧
    g.gateType = .two := ⟨_, by rfl, by rfl, by rfl⟩
example : ∃ g, Gate.init [2, 3, 2] "csum" .two (.many [1, 0]) none = .ok g ∧ g.longRange = false ∧
    g.gateType = .two := ⟨_, by rfl, by rfl, by rfl⟩

end Qudits
