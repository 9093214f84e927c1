import Verif.Lemmas.LaneReplace
import Verif.Props.LanesProps
/-
C96: replacing a stretch of single-qudit gates of a line by one gate.
-/
namespace Qudits
open Spec Lanes
variable {β : Type}

private theorem wf_touches {g : Op β} (h : WellFormed g) : ∃ q, Touches q g := by
  rcases h with ⟨_, q, hq⟩ | ⟨_, qs, hne, _, hqs⟩
  · exact ⟨q, by unfold Touches; rw [hq]; simp [Target.lines]⟩
  · obtain ⟨q, hq⟩ := List.exists_mem_of_ne_nil qs hne
    exact ⟨q, by unfold Touches; rw [hqs]; exact hq⟩

/-- gates that stand for themselves -/
private theorem stands_self {n : Nat} {d : Fin n → Nat} (sem : Op β → Matrix (Reg d) (Reg d) ℂ) (q : Int) (L : List (Op β))
    (h : ∀ g ∈ L, Touches q g) : List.Forall₂ (StandsFor sem q) (L.map fun g => [g]) L := by
  induction L with
  | nil => exact List.Forall₂.nil
  | cons g L ih =>
    refine List.Forall₂.cons ?_ (ih fun x hx => h x (by simp [hx]))
    have hg := h g (by simp)
    unfold StandsFor
    unfold Touches at hg
    cases ht : g.target with
    | many qs => rfl
    | one p =>
      rw [ht] at hg
      simp [Target.lines] at hg
      subst hg
      refine ⟨rfl, ?_, ?_⟩
      · intro a ha
        rw [List.mem_singleton] at ha
        rw [ha, ht]
      · rw [circuitOp_cons, circuitOp_nil, one_mul]

private theorem flatten_singles {γ : Type} (L : List γ) : (L.map fun g => [g]).flatten = L := by
  induction L with
  | nil => rfl
  | cons g L ih => simp [ih]

/-- C96, partial (runs of single-qudit gates; `C96_entangling_violated` for the rest). In a circuit of distinct well-formed gate objects, replacing positions `start` to `stop` of line `q`, all of them
single-qudit gates, by a new single-qudit gate on this line changes this line as asked and no other line; and the extracted
circuit is the same operator if the new gate does what the replaced gates do together. -/
theorem C96_replace_partial (l : List (Op β)) (hid : (l.map Op.oid).Nodup) (hwf : ∀ a ∈ l, WellFormed a) (q : Int) (start stop : Nat)
    (hle : start ≤ stop) (hs : start < (lane q l).length) (g : Op β) (hgt : g.target = .one q)
    (hfresh : ∀ a ∈ l, a.oid ≠ g.oid) (hrun : ∀ a ∈ ((lane q l).take (stop + 1)).drop start, a.single = true) :
    ∃ D D', create (preProcess 0 l) = .ok D ∧ replaceGates D q start stop g = .ok D' ∧
      lane q (extract D') = (lane q l).take start ++ g :: (lane q l).drop (stop + 1) ∧
      (∀ q', q' ≠ q → lane q' (extract D') = lane q' l) ∧
      ∀ (n : Nat) (d : Fin n → Nat) (sem : Op β → Matrix (Reg d) (Reg d) ℂ), (∀ a ∈ l, ActsOn d a.target.lines (sem a)) →
        sem g = circuitOp sem (((lane q l).take (stop + 1)).drop start) → circuitOp sem (extract D') = circuitOp sem l := by
  classical
  obtain ⟨D, h1, h2, h3⟩ := lanes_good l hid hwf
  have hmem : ∀ q, ∀ t ∈ (PyDict.get? D q).getD [], t.2 ∈ l := by
    intro q t ht
    rw [h3, List.mem_filter] at ht
    rw [← preProcess_ops 0 l]
    exact List.mem_map_of_mem ht.1
  have hlane : ∀ q, lane q l = ((PyDict.get? D q).getD []).map Prod.snd := by
    intro q
    rw [h3]
    conv_lhs => rw [← preProcess_ops 0 l]
    unfold lane
    rw [List.filter_map]
    rfl
  have hnd : (((PyDict.get? D q).getD []).map fun t => t.2.oid).Nodup := by
    rw [List.Nodup, List.pairwise_map]
    exact (h2.order q).imp fun h => h.1
  obtain ⟨A, t, M, B, e1, e2, e3, e4, e5⟩ := replaceGates_ok D q start stop g hle (by
    rw [hlane, List.length_map] at hs
    exact hs) hnd
  have hM : ∀ x ∈ t :: M, x.2.target = .one q := by
    intro x hx
    have hxl : x ∈ (PyDict.get? D q).getD [] := by
      rw [e1]
      exact List.mem_append_right _ (List.mem_append_left _ hx)
    have hsx : x.2.single = true := by
      apply hrun
      rw [hlane, ← List.map_take, ← List.map_drop, ← e3]
      exact List.mem_map_of_mem hx
    have htq := h2.touches q x hxl
    rcases hwf _ (hmem q x hxl) with ⟨_, p, hp⟩ | ⟨hc, _⟩
    · unfold Touches at htq
      rw [hp] at htq
      simp [Target.lines] at htq
      rw [hp, htq]
    · rw [hsx] at hc; cases hc
  have hgood := good_replaced h2 e1 hgt hM fun q' x hx => hfresh _ (hmem q' x hx)
  have hself : lane q (extract (PyDict.set D q (A ++ (t.1, g) :: B))) = A.map Prod.snd ++ g :: B.map Prod.snd := by
    rw [extract_lane hgood, PyDict.get?_set_self, Option.getD_some, List.map_append, List.map_cons]
  have hother : ∀ q', q' ≠ q → lane q' (extract (PyDict.set D q (A ++ (t.1, g) :: B))) = lane q' l := by
    intro q' hq'
    rw [extract_lane hgood, PyDict.get?_set_ne _ _ _ _ (Ne.symm hq'), hlane]
  refine ⟨D, _, h1, e5, ?_, hother, ?_⟩
  · rw [hself, e2, e4, hlane, List.map_take, List.map_drop]
  · intro n d sem hsem hg
    symm
    refine circuitOp_eq_of_groups sem (fun a => a ∈ l) ?_ l _ (fun b hb => hb) (fun b hb => wf_touches (hwf b hb)) ?_ ?_
    · intro a b ha hb hdis
      exact actsOn_commute (hsem a ha) (hsem b hb) hdis
    · intro b hb
      obtain ⟨q', x, hx, rfl⟩ := extract_mem b hb
      exact ⟨q', hgood.touches q' x hx⟩
    · intro q'
      by_cases h : q' = q
      · subst h
        have hA : ∀ L : List (LaneItem β), (∀ x ∈ L, x ∈ (PyDict.get? D q').getD []) → ∀ a ∈ L.map Prod.snd, Touches q' a := by
          intro L hL a ha
          obtain ⟨x, hx, rfl⟩ := List.mem_map.1 ha
          exact h2.touches q' x (hL x hx)
        refine ⟨(A.map Prod.snd).map (fun a => [a]) ++ ((t :: M).map Prod.snd) :: (B.map Prod.snd).map (fun a => [a]), ?_, ?_⟩
        · rw [List.flatten_append, List.flatten_cons, flatten_singles, flatten_singles, hlane, e1, List.map_append,
            List.map_append]
        · rw [hself]
          refine List.rel_append (stands_self sem q' _ (hA A fun x hx => by rw [e1]; simp [hx])) (List.Forall₂.cons ?_
            (stands_self sem q' _ (hA B fun x hx => by rw [e1]; simp [hx])))
          unfold StandsFor
          rw [hgt]
          refine ⟨rfl, ?_, ?_⟩
          · intro a ha
            obtain ⟨x, hx, rfl⟩ := List.mem_map.1 ha
            exact hM x hx
          · rw [hg, hlane, ← List.map_take, ← List.map_drop, ← e3]
      · refine ⟨(lane q' l).map (fun a => [a]), (flatten_singles _).symm, ?_⟩
        rw [hother q' h]
        exact stands_self sem q' _ fun a ha => by
          have := (List.mem_filter.1 ha).2
          simpa using this

/-- C96: a line without gates is left alone, and a start beyond the end of the line is an IndexError. -/
theorem C96_outside (l : List (Op β)) (hid : (l.map Op.oid).Nodup) (hwf : ∀ a ∈ l, WellFormed a) (q : Int) (start stop : Nat)
    (hs : (lane q l).length ≤ start) (g : Op β) :
    ∃ D, create (preProcess 0 l) = .ok D ∧
      replaceGates D q start stop g = (if lane q l = [] then .ok D else .error .indexError) := by
  obtain ⟨D, h1, h2, h3⟩ := lanes_good l hid hwf
  have hlane : lane q l = ((PyDict.get? D q).getD []).map Prod.snd := by
    rw [h3]
    conv_lhs => rw [← preProcess_ops 0 l]
    unfold lane
    rw [List.filter_map]
    rfl
  have hne : ∀ q ∈ PyDict.keys D, (PyDict.get? D q).getD [] ≠ [] := create_ne _ [] D (by simp [PyDict.keys]) h1
  refine ⟨D, h1, ?_⟩
  unfold replaceGates
  cases hq : PyDict.get? D q with
  | none =>
    rw [hq] at hlane
    rw [if_pos (by rw [hlane]; rfl)]
  | some L =>
    have hk : q ∈ PyDict.keys D := by
      by_contra hc
      rw [(PyDict.get?_eq_none_iff D q).2 hc] at hq
      cases hq
    have hL := hne q hk
    rw [hq, Option.getD_some] at hlane hL
    have hlen : L[start]? = none := by
      rw [hlane, List.length_map] at hs
      exact List.getElem?_eq_none hs
    dsimp only
    rw [hlen, if_neg]
    rw [hlane]
    intro h
    exact hL (List.map_eq_nil_iff.1 h)

/-- C96 is restricted to single-qudit gates for a reason: an entangling gate in the stretch is taken from this line only, and the
extracted circuit still has it. -/
theorem C96_entangling_violated (b : β) :
    ∃ D D', create (preProcess 0 [(⟨0, true, .one 0, b⟩ : Op β), ⟨1, false, .many [0, 1], b⟩]) = .ok D ∧
      replaceGates D 0 0 1 ⟨2, true, .one 0, b⟩ = .ok D' ∧
      extract D' = [⟨2, true, .one 0, b⟩, ⟨1, false, .many [0, 1], b⟩] := ⟨_, _, rfl, rfl, rfl⟩

/-- Two gates of line 0 with an entangling gate behind and a gate of line 1 in between are replaced. -/
example (b : β) : ∃ D D', create (preProcess 0 [(⟨0, true, .one 0, b⟩ : Op β), ⟨1, true, .one 1, b⟩, ⟨2, true, .one 0, b⟩,
      ⟨3, false, .many [0, 1], b⟩]) = .ok D ∧
    replaceGates D 0 0 1 ⟨7, true, .one 0, b⟩ = .ok D' ∧
    extract D' = [⟨7, true, .one 0, b⟩, ⟨1, true, .one 1, b⟩, ⟨3, false, .many [0, 1], b⟩] := ⟨_, _, rfl, rfl, rfl⟩

/-- It meets the hypotheses of `C96_replace_partial`. -/
example (b : β) : ∀ a ∈ ((lane 0 [(⟨0, true, .one 0, b⟩ : Op β), ⟨1, true, .one 1, b⟩, ⟨2, true, .one 0, b⟩,
    ⟨3, false, .many [0, 1], b⟩]).take 2).drop 0, a.single = true := by
  intro a ha
  have : ((lane 0 [(⟨0, true, .one 0, b⟩ : Op β), ⟨1, true, .one 1, b⟩, ⟨2, true, .one 0, b⟩,
    ⟨3, false, .many [0, 1], b⟩]).take 2).drop 0 = [⟨0, true, .one 0, b⟩, ⟨2, true, .one 0, b⟩] := rfl
  rw [this] at ha
  simp at ha
  rcases ha with rfl | rfl <;> rfl

end Qudits
