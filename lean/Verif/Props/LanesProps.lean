import Verif.Lemmas.Lanes
/-
C32: splitting a circuit into lanes and extracting it again only exchanges gates on disjoint lines.
-/
namespace Qudits
open Spec
variable {β : Type}

/-- C32. For every circuit of well-formed, distinct gate objects the reordered circuit exists, has the same gates, and on
every line the same gates in the same order. -/
theorem C32_lanes_kept (l : List (Op β)) (hid : (l.map Op.oid).Nodup) (hwf : ∀ g ∈ l, WellFormed g) :
    ∃ l', Lanes.reorder l = .ok l' ∧ l'.Perm l ∧ ∀ q, lane q l' = lane q l := by
  classical
  obtain ⟨d, h1, h2, h3⟩ := Lanes.lanes_good l hid hwf
  have hl : ∀ q, lane q (Lanes.extract d) = lane q l := by
    intro q
    rw [Lanes.extract_lane h2, h3]
    conv_rhs => rw [← Lanes.preProcess_ops 0 l]
    unfold lane
    rw [List.filter_map]
    rfl
  refine ⟨Lanes.extract d, ?_, ?_, hl⟩
  · unfold Lanes.reorder
    rw [h1]; rfl
  · have hmem : ∀ g, g ∈ Lanes.extract d ↔ g ∈ l := by
      intro g
      constructor
      · intro h
        obtain ⟨q, t, ht, rfl⟩ := Lanes.extract_mem g h
        rw [h3, List.mem_filter] at ht
        rw [← Lanes.preProcess_ops 0 l]
        exact List.mem_map_of_mem ht.1
      · intro h
        have : ∃ q, Touches q g := by
          rcases hwf g h with ⟨_, q, hq⟩ | ⟨_, qs, hne, _, hqs⟩
          · exact ⟨q, by unfold Touches; rw [hq]; simp [Target.lines]⟩
          · obtain ⟨q, hq⟩ := List.exists_mem_of_ne_nil qs hne
            exact ⟨q, by unfold Touches; rw [hqs]; exact hq⟩
        obtain ⟨q, hq⟩ := this
        have hg : g ∈ lane q l := List.mem_filter.2 ⟨h, by simpa using hq⟩
        rw [← hl] at hg
        exact (List.mem_filter.1 hg).1
    have hnd : (Lanes.extract d).Nodup := by
      rw [List.nodup_iff_count_le_one]
      intro g
      by_contra hc
      have hg : g ∈ Lanes.extract d := List.count_pos_iff.1 (by omega)
      have hgl := (hmem g).1 hg
      have : ∃ q, Touches q g := by
        rcases hwf g hgl with ⟨_, q, hq⟩ | ⟨_, qs, hne, _, hqs⟩
        · exact ⟨q, by unfold Touches; rw [hq]; simp [Target.lines]⟩
        · obtain ⟨q, hq⟩ := List.exists_mem_of_ne_nil qs hne
          exact ⟨q, by unfold Touches; rw [hqs]; exact hq⟩
      obtain ⟨q, hq⟩ := this
      have h4 : List.count g (lane q (Lanes.extract d)) = List.count g (Lanes.extract d) := by
        unfold lane
        exact List.count_filter (by simpa using hq)
      have h5 : List.count g (lane q l) = List.count g l := by
        unfold lane
        exact List.count_filter (by simpa using hq)
      rw [hl, h5] at h4
      have := List.nodup_iff_count_le_one.1 hid.of_map g
      omega
    exact (List.perm_ext_iff_of_nodup hnd hid.of_map).2 hmem

/-- C32, pair form: two gates sharing a line keep their order. -/
theorem C32_order (l l' : List (Op β)) (hid : (l.map Op.oid).Nodup) (hwf : ∀ g ∈ l, WellFormed g)
    (h : Lanes.reorder l = .ok l') (a b : Op β) (q : Int) (ha : Touches q a) (hb : Touches q b)
    (hab : [a, b].Sublist l) : [a, b].Sublist l' := by
  obtain ⟨l'', h1, -, h3⟩ := C32_lanes_kept l hid hwf
  rw [h] at h1
  cases h1
  have := hab.filter (fun g => decide (Touches q g))
  have he : [a, b].filter (fun g => decide (Touches q g)) = [a, b] := by simp [ha, hb]
  rw [he] at this
  have h4 : [a, b].Sublist (lane q l') := by rw [h3]; exact this
  exact h4.trans List.filter_sublist

/-- C32, operator form: the reordered circuit implements the same operator, whatever the gates do on their lines. -/
theorem C32_operator {n : Nat} (d : Fin n → Nat) (l l' : List (Op β)) (hid : (l.map Op.oid).Nodup)
    (hwf : ∀ g ∈ l, WellFormed g) (sem : Op β → Matrix (Reg d) (Reg d) ℂ)
    (hsem : ∀ g ∈ l, ActsOn d g.target.lines (sem g)) (h : Lanes.reorder l = .ok l') :
    circuitOp sem l' = circuitOp sem l := by
  obtain ⟨l'', h1, h2, h3⟩ := C32_lanes_kept l hid hwf
  rw [h] at h1
  cases h1
  have hne : ∀ g ∈ l, ∃ q, Touches q g := by
    intro g hg
    rcases hwf g hg with ⟨_, q, hq⟩ | ⟨_, qs, hne, _, hqs⟩
    · exact ⟨q, by unfold Touches; rw [hq]; simp [Target.lines]⟩
    · obtain ⟨q, hq⟩ := List.exists_mem_of_ne_nil qs hne
      exact ⟨q, by unfold Touches; rw [hqs]; exact hq⟩
  refine circuitOp_eq_of_lanes sem (fun g => g ∈ l) ?_ l' l (fun b hb => h2.mem_iff.1 hb)
    (fun b hb => hne b (h2.mem_iff.1 hb)) hne h3
  intro a b ha hb hdis
  exact actsOn_commute (hsem a ha) (hsem b hb) hdis

/-- The claim does not cover gates with attached controls: they keep an integer target but are no longer single-qudit
gates, and building the lanes raises. -/
theorem C32_controlled_gate_violated (body : β) :
    ∃ g g' : Gate, Gate.init [2, 2] "x" .single (.one 1) none = .ok g ∧ g.control [0] [1] = .ok g' ∧
      Lanes.reorder [Op.ofGate 0 g' body] = .error .typeError :=
  ⟨⟨[2, 2], "x", .single, .one 1, none, false, false⟩,
   ⟨[2, 2], "x", .two, .one 1, some ⟨[0], [1]⟩, false, false⟩, rfl, rfl, rfl⟩

/-- Distinctness of the objects is needed: a gate object that occurs twice is kept once. -/
theorem C32_repeated_object (body : β) :
    Lanes.reorder [⟨0, true, .one 0, body⟩, ⟨0, true, .one 0, body⟩] = .ok [(⟨0, true, .one 0, body⟩ : Op β)] := rfl

/-- a circuit that is really reordered: the gate on line 0 overtakes the earlier gate on line 1 -/
example (b : β) : Lanes.reorder [⟨0, true, .one 1, b⟩, ⟨1, true, .one 0, b⟩, ⟨2, false, .many [0, 1], b⟩] =
    .ok [(⟨1, true, .one 0, b⟩ : Op β), ⟨0, true, .one 1, b⟩, ⟨2, false, .many [0, 1], b⟩] := rfl
example (b : β) : ∀ g ∈ [(⟨0, true, .one 1, b⟩ : Op β), ⟨2, false, .many [0, 1], b⟩], WellFormed g := by
  intro g hg
  simp at hg
  rcases hg with rfl | rfl
  · exact Or.inl ⟨rfl, 1, rfl⟩
  · exact Or.inr ⟨rfl, [0, 1], by decide, by decide, rfl⟩

end Qudits
