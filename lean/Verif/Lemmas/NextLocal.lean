import Verif.Lemmas.Resynth
import Verif.Model.Compiler
/- Lemmas about the index of the groups of a circuit. -/
namespace Qudits.Lanes
open Spec Resynth
variable {β : Type}

/-! ### the groups of a whole circuit -/

theorem keys_sets (qs : List Int) (d : PyDict Int (List (List (LaneItem β)))) (t : LaneItem β) (h : (PyDict.keys d).Nodup) :
    (PyDict.keys (qs.foldl (fun d q => PyDict.set d q ((PyDict.get? d q).getD [] ++ [[t], []])) d)).Nodup := by
  induction qs generalizing d with
  | nil => exact h
  | cons k qs ih => exact ih _ (PyDict.keys_nodup_set _ _ _ h)

theorem groupStep_all (d : PyDict Int (List (List (LaneItem β)))) (t : LaneItem β) (ht : WellFormed t.2) (hk : (PyDict.keys d).Nodup) :
    ∃ d', groupStep d t = .ok d' ∧ (PyDict.keys d').Nodup ∧
      ∀ q, (PyDict.get? d' q).getD [] = if Touches q t.2 then rawStep ((PyDict.get? d q).getD []) t else (PyDict.get? d q).getD [] := by
  unfold groupStep rawStep
  rcases ht with ⟨hs, p, hp⟩ | ⟨hs, qs, _, hnd, hqs⟩
  · have htt : ∀ q, Touches q t.2 ↔ q = p := by
      intro q; unfold Touches; rw [hp]; simp [Target.lines]
    rw [hs, hp]
    refine ⟨_, rfl, PyDict.keys_nodup_set _ _ _ hk, ?_⟩
    intro q
    by_cases hq : q = p
    · rw [if_pos ((htt q).2 hq)]
      subst hq
      rw [PyDict.get?_set_self, if_pos rfl]; rfl
    · rw [if_neg (fun h => hq ((htt q).1 h)), PyDict.get?_set_ne _ _ _ _ (Ne.symm hq)]
  · have htt : ∀ q, Touches q t.2 ↔ q ∈ qs := by
      intro q; unfold Touches; rw [hqs]; simp [Target.lines]
    rw [hs, hqs]
    refine ⟨_, rfl, keys_sets _ _ _ hk, ?_⟩
    intro q
    rw [get?_sets _ hnd, if_neg (by simp : ¬ (false = true))]
    by_cases hq : q ∈ qs
    · rw [if_pos hq, if_pos ((htt q).2 hq)]
    · rw [if_neg hq, if_neg (fun h => hq ((htt q).1 h)), List.append_nil]

theorem fold_groups (items : List (LaneItem β)) (hwf : ∀ t ∈ items, WellFormed t.2) (d0 : PyDict Int (List (List (LaneItem β))))
    (hk : (PyDict.keys d0).Nodup) : ∃ d, items.foldlM groupStep d0 = .ok d ∧ (PyDict.keys d).Nodup ∧
      ∀ q, (PyDict.get? d q).getD [] = (items.filter fun t => Touches q t.2).foldl rawStep ((PyDict.get? d0 q).getD []) := by
  induction items generalizing d0 with
  | nil => exact ⟨d0, rfl, hk, fun _ => rfl⟩
  | cons t items ih =>
    obtain ⟨d1, h1, h2, h3⟩ := groupStep_all d0 t (hwf t (by simp)) hk
    obtain ⟨d, e1, e2, e3⟩ := ih (fun s hs => hwf s (List.mem_cons_of_mem _ hs)) d1 h2
    refine ⟨d, ?_, e2, fun q => ?_⟩
    · rw [List.foldlM_cons, h1]; exact e1
    · rw [e3, h3]
      by_cases h : Touches q t.2
      · rw [if_pos h, List.filter_cons_of_pos (by simpa using h)]; rfl
      · rw [if_neg h, List.filter_cons_of_neg (by simpa using h)]

/-- the groups of every line of a circuit -/
theorem findConsecutive_ok (items : List (LaneItem β)) (hwf : ∀ t ∈ items, WellFormed t.2) :
    ∃ v, findConsecutive items = .ok v ∧ (PyDict.keys v).Nodup ∧
      ∀ q, Grouping (items.filter fun t => Touches q t.2) ((PyDict.get? v q).getD []) := by
  obtain ⟨d, h1, h2, h3⟩ := fold_groups items hwf [] (by simp [PyDict.keys])
  refine ⟨d.map fun kv => (kv.1, kv.2.filter fun g => !g.isEmpty), ?_, ?_, fun q => ?_⟩
  · unfold findConsecutive
    rw [h1]; rfl
  · have : PyDict.keys (d.map fun kv => (kv.1, kv.2.filter fun g => !g.isEmpty)) = PyDict.keys d := by
      unfold PyDict.keys
      rw [List.map_map]; rfl
    rw [this]; exact h2
  · have h := (raw_grouping (items.filter fun t => Touches q t.2)).1
    have e : (PyDict.get? (d.map fun kv => (kv.1, kv.2.filter fun g => !g.isEmpty)) q).getD [] =
        nonEmpty ((items.filter fun t => Touches q t.2).foldl rawStep []) := by
      rw [get?_map_snd]
      have h3' := h3 q
      rw [show (PyDict.get? ([] : PyDict Int (List (List (LaneItem β)))) q).getD [] = [] from rfl] at h3'
      rw [← h3']
      cases PyDict.get? d q <;> rfl
    rw [e]; exact h

/-! ### the index -/

theorem lookup_fold (es : List (Nat × Int × Nat × Nat)) (k : Nat) (v : Int × Nat × Nat) (hall : ∀ e ∈ es, e.1 = k → e.2 = v)
    (d : PyDict Nat (Int × Nat × Nat)) (h : PyDict.get? d k = some v ∨ ∃ e ∈ es, e.1 = k) :
    PyDict.get? (es.foldl (fun d e => PyDict.set d e.1 e.2) d) k = some v := by
  induction es generalizing d with
  | nil =>
    rcases h with h | ⟨e, he, _⟩
    · exact h
    · cases he
  | cons e es ih =>
    refine ih (fun e' he' => hall e' (List.mem_cons_of_mem _ he')) _ ?_
    by_cases hk : e.1 = k
    · left
      rw [← hall e (by simp) hk, ← hk, PyDict.get?_set_self]
    · rcases h with h | ⟨e', he', h'⟩
      · left; rw [PyDict.get?_set_ne _ _ _ _ hk]; exact h
      · rcases List.mem_cons.1 he' with rfl | he'
        · exact absurd h' hk
        · exact Or.inr ⟨e', he', h'⟩

theorem position_unique {γ : Type} {F : List (List γ)} (hnd : F.flatten.Nodup) {t : γ} {k k' j j' : Nat} {G G' : List γ}
    (h1 : F[k]? = some G) (h2 : G[j]? = some t) (h1' : F[k']? = some G') (h2' : G'[j']? = some t) : k = k' ∧ j = j' := by
  rw [List.nodup_flatten] at hnd
  have hk : k = k' := by
    by_contra hne
    obtain ⟨l1, e1⟩ := List.getElem?_eq_some_iff.1 h1
    obtain ⟨l2, e2⟩ := List.getElem?_eq_some_iff.1 h1'
    have mG : t ∈ G := List.mem_of_getElem? h2
    have mG' : t ∈ G' := List.mem_of_getElem? h2'
    rcases Nat.lt_or_gt_of_ne hne with h | h
    · have := List.pairwise_iff_getElem.1 hnd.2 k k' l1 l2 h
      rw [e1, e2] at this
      exact this mG mG'
    · have := List.pairwise_iff_getElem.1 hnd.2 k' k l2 l1 h
      rw [e1, e2] at this
      exact this mG' mG
  subst hk
  rw [h1] at h1'
  cases h1'
  refine ⟨rfl, ?_⟩
  have hG : G.Nodup := hnd.1 G (List.mem_of_getElem? h1)
  obtain ⟨l1, e1⟩ := List.getElem?_eq_some_iff.1 h2
  obtain ⟨l2, e2⟩ := List.getElem?_eq_some_iff.1 h2'
  exact (List.Nodup.getElem_inj_iff hG).1 (e1.trans e2.symm)

theorem mem_of_key {ν : Type} {d : PyDict Int ν} (hk : (PyDict.keys d).Nodup) {q : Int} {v : ν} (h : (q, v) ∈ d) : PyDict.get? d q = some v := by
  induction d with
  | nil => cases h
  | cons kv d ih =>
    obtain ⟨k, w⟩ := kv
    unfold PyDict.keys at hk
    rw [List.map_cons, List.nodup_cons] at hk
    rcases List.mem_cons.1 h with e | e
    · cases e; simp [PyDict.get?]
    · have : k ≠ q := by
        rintro rfl
        exact hk.1 (List.mem_map.2 ⟨_, e, rfl⟩)
      rw [PyDict.get?, if_neg this]
      exact ih hk.2 e

theorem key_mem {ν : Type} {d : PyDict Int ν} {q : Int} {v : ν} (h : PyDict.get? d q = some v) : (q, v) ∈ d := by
  induction d with
  | nil => cases h
  | cons kv d ih =>
    obtain ⟨k, w⟩ := kv
    rw [PyDict.get?] at h
    split_ifs at h with hk
    · cases h; subst hk; simp
    · exact List.mem_cons_of_mem _ (ih h)

/-- `next_is_local` of a gate of a run asks whether the run goes on -/
theorem nextIsLocal_ok (items : List (LaneItem β)) (hid : (items.map fun t => t.2.oid).Nodup)
    {v : PyDict Int (List (List (LaneItem β)))} (hk : (PyDict.keys v).Nodup)
    (hv : ∀ q, Grouping (items.filter fun t => Touches q t.2) ((PyDict.get? v q).getD [])) {t : LaneItem β} (ht : t ∈ items) {q : Int}
    (hq : ∀ q', Touches q' t.2 ↔ q' = q) : ∃ F1 X Y F2, (PyDict.get? v q).getD [] = F1 ++ (X ++ t :: Y) :: F2 ∧
      nextIsLocal v t.2.oid = .ok (decide (Y ≠ [])) := by
  have huniq : ∀ a ∈ items, ∀ b ∈ items, a.2.oid = b.2.oid → a = b := fun a ha b hb h => List.inj_on_of_nodup_map hid ha hb h
  have hnd : ∀ q, ((items.filter fun t => Touches q t.2)).Nodup := fun q => (List.Nodup.of_map _ hid).filter _
  have hmem : t ∈ (items.filter fun t => Touches q t.2) := List.mem_filter.2 ⟨ht, by simpa using (hq q).2 rfl⟩
  rw [← (hv q).flat] at hmem
  obtain ⟨G, hG, htG⟩ := List.mem_flatten.1 hmem
  obtain ⟨F1, F2, hF⟩ := List.append_of_mem hG
  obtain ⟨X, Y, rfl⟩ := List.append_of_mem htG
  refine ⟨F1, X, Y, F2, hF, ?_⟩
  obtain ⟨gs, hgs⟩ : ∃ gs, PyDict.get? v q = some gs := by
    cases h : PyDict.get? v q with
    | none => rw [h] at hF; simp at hF
    | some gs => exact ⟨gs, rfl⟩
  have hF' : gs = F1 ++ (X ++ t :: Y) :: F2 := by rw [hgs] at hF; exact hF
  have h1 : gs[F1.length]? = some (X ++ t :: Y) := by rw [hF']; simp
  have h2 : (X ++ t :: Y)[X.length]? = some t := by simp
  have hlook : PyDict.get? (fastLookup v) t.2.oid = some (q, F1.length, X.length) := by
    unfold fastLookup
    refine lookup_fold _ _ _ ?_ _ (Or.inr ⟨(t.2.oid, q, F1.length, X.length), ?_, rfl⟩)
    · intro e he hoid
      unfold lookupEntries at he
      rw [List.mem_flatMap] at he
      obtain ⟨⟨q', gs'⟩, hkv, he⟩ := he
      rw [List.mem_flatMap] at he
      obtain ⟨⟨G', k'⟩, hG', he⟩ := he
      rw [List.mem_map] at he
      obtain ⟨⟨t', j'⟩, ht', rfl⟩ := he
      have e1 : gs'[k']? = some G' := List.mem_zipIdx_iff_getElem?.1 hG'
      have e2 : G'[j']? = some t' := List.mem_zipIdx_iff_getElem?.1 ht'
      have hget := mem_of_key hk hkv
      have hin : t' ∈ items.filter fun t => Touches q' t.2 := by
        rw [← (hv q').flat, hget]
        exact List.mem_flatten.2 ⟨G', List.mem_of_getElem? e1, List.mem_of_getElem? e2⟩
      obtain ⟨m1, m2⟩ := List.mem_filter.1 hin
      have : t' = t := huniq _ m1 _ ht hoid
      subst this
      have hq' : q' = q := (hq q').1 (by simpa using m2)
      subst hq'
      rw [hgs] at hget
      cases hget
      have hflat : gs.flatten.Nodup := by
        have := (hv q').flat
        rw [hgs] at this
        rw [show gs = (some gs).getD [] from rfl, this]
        exact hnd q'
      obtain ⟨a, b⟩ := position_unique hflat e1 e2 h1 h2
      simp only [a, b]
    · unfold lookupEntries
      rw [List.mem_flatMap]
      refine ⟨(q, gs), key_mem hgs, ?_⟩
      rw [List.mem_flatMap]
      refine ⟨(X ++ t :: Y, F1.length), List.mem_zipIdx_iff_getElem?.2 h1, ?_⟩
      rw [List.mem_map]
      exact ⟨(t, X.length), List.mem_zipIdx_iff_getElem?.2 h2, rfl⟩
  unfold nextIsLocal
  rw [hlook]
  simp only [hgs, h1]
  congr 1
  rw [decide_eq_decide]
  cases Y with
  | nil => simp
  | cons y Y => simp; omega

/-- What follows a gate of a run on its line is a single-qudit gate exactly if the run goes on. -/
theorem run_goes_on {L : List (LaneItem β)} {F1 F2 : List (List (LaneItem β))} {X Y : List (LaneItem β)} {t : LaneItem β}
    (hF : Grouping L (F1 ++ (X ++ t :: Y) :: F2)) (hs : t.2.single = true) (hnd : L.Nodup) {A B : List (LaneItem β)} (hL : L = A ++ t :: B) :
    Y ≠ [] ↔ ∃ h, B.head? = some h ∧ h.2.single = true := by
  have hflat : L = (F1.flatten ++ X) ++ t :: (Y ++ F2.flatten) := by
    rw [← hF.flat]; simp
  have hB : B = Y ++ F2.flatten := by
    have e := hL.symm.trans hflat
    have hnot' : t ∉ F1.flatten ++ X := fun h => by
      rw [hflat] at hnd
      exact (List.nodup_append.1 hnd).2.2 t h t (by simp) rfl
    exact ((List.append_cons_inj_of_notMem hnot' (fun h => by
      rw [hflat] at hnd
      exact (List.nodup_cons.1 (List.nodup_append.1 hnd).2.1).1 h)).1 e.symm).2.2.symm
  have hrun : IsRun (X ++ t :: Y) := by
    rcases hF.kinds _ (List.mem_append_right _ (List.mem_cons_self ..)) with ⟨s, h1, h2⟩ | h
    · have : t ∈ [s] := by rw [← h1]; simp
      rw [List.mem_singleton] at this
      rw [this, h2] at hs; cases hs
    · exact h
  rw [hB]
  constructor
  · intro h
    obtain ⟨y, Y', rfl⟩ := List.exists_cons_of_ne_nil h
    exact ⟨y, rfl, hrun.2 y (by simp)⟩
  · rintro ⟨h, h1, h2⟩ rfl
    rw [List.nil_append] at h1
    cases F2 with
    | nil => cases h1
    | cons G F2 =>
      have hc := hF.alternate
      rw [List.isChain_append] at hc
      have := (List.isChain_cons_cons.1 hc.2.1).1
      rcases this with ⟨s, e1, e2⟩ | ⟨s, e1, e2⟩
      · have := hrun.2 s (by rw [e1]; simp)
        rw [e2] at this; cases this
      · rw [e1] at h1
        simp at h1
        subst h1
        rw [e2] at h2; cases h2

end Qudits.Lanes
