import Verif.Lemmas.Trace
import Mathlib.Data.List.Sort
import Mathlib.Data.List.Nodup
import Mathlib.Data.List.Pairwise
import Mathlib.Tactic.Common
/- Lemmas about lanes. -/
namespace Qudits.Lanes
open Spec
variable {β : Type}

/-! ### collecting without repetitions -/

theorem collect_prefix (s acc : List (LaneItem β)) : ∃ r, s.foldl collect acc = acc ++ r := by
  induction s generalizing acc with
  | nil => exact ⟨[], by simp⟩
  | cons t s ih =>
    rw [List.foldl_cons]
    obtain ⟨r, hr⟩ := ih (collect acc t)
    rw [hr]
    unfold collect
    split_ifs
    · exact ⟨r, rfl⟩
    · exact ⟨t :: r, by simp⟩

theorem collect_mem (s acc : List (LaneItem β)) (t : LaneItem β) (h : t ∈ s.foldl collect acc) : t ∈ acc ∨ t ∈ s := by
  induction s generalizing acc with
  | nil => exact Or.inl h
  | cons x s ih =>
    rw [List.foldl_cons] at h
    rcases ih _ h with h | h
    · unfold collect at h
      split_ifs at h
      · exact Or.inl h
      · rw [List.mem_append, List.mem_singleton] at h
        rcases h with h | h
        · exact Or.inl h
        · exact Or.inr (by simp [h])
    · exact Or.inr (List.mem_cons_of_mem _ h)

theorem collect_nodup (s acc : List (LaneItem β)) (h : (acc.map fun t => t.2.oid).Nodup) :
    ((s.foldl collect acc).map fun t => t.2.oid).Nodup := by
  induction s generalizing acc with
  | nil => exact h
  | cons x s ih =>
    rw [List.foldl_cons]
    apply ih
    unfold collect
    split_ifs with hc
    · exact h
    · rw [List.map_append, List.map_cons, List.map_nil, List.nodup_append]
      refine ⟨h, by simp, ?_⟩
      rintro a ha b hb rfl
      rw [List.mem_singleton] at hb
      subst hb
      rw [List.mem_map] at ha
      obtain ⟨t, ht, he⟩ := ha
      apply hc
      rw [List.any_eq_true]
      exact ⟨t, ht, by simpa using he⟩

/-- identities are unique among the items -/
def IdsUnique (s : List (LaneItem β)) : Prop := ∀ a ∈ s, ∀ b ∈ s, a.2.oid = b.2.oid → a = b

theorem collect_complete (s : List (LaneItem β)) (hid : IdsUnique s) (p : List (LaneItem β)) (hp : ∀ a ∈ p, a ∈ s)
    (t : LaneItem β) (ht : t ∈ p) : t ∈ p.foldl collect [] := by
  induction p using List.reverseRecOn with
  | nil => simp at ht
  | append_singleton p x ih =>
    rw [List.foldl_append, List.foldl_cons, List.foldl_nil]
    have ih := ih (fun a ha => hp a (by simp [ha]))
    unfold collect
    rw [List.mem_append, List.mem_singleton] at ht
    split_ifs with hc
    · rcases ht with ht | ht
      · exact ih ht
      · subst ht
        rw [List.any_eq_true] at hc
        obtain ⟨y, hy, he⟩ := hc
        have hmem := collect_mem p [] y hy
        have hys : y ∈ p := by simpa using hmem
        have : y = t := hid y (hp y (by simp [hys])) t (hp t (by simp)) (by simpa using he)
        rw [← this]; exact hy
    · rcases ht with ht | ht
      · exact List.mem_append_left _ (ih ht)
      · subst ht; simp

theorem collect_order (s : List (LaneItem β)) (hid : IdsUnique s) (p r : List (LaneItem β)) (x y : LaneItem β)
    (hs : s = p ++ y :: r) (hx : x ∈ p) (hy : y ∉ p) : [x, y].Sublist (s.foldl collect []) := by
  subst hs
  rw [List.foldl_append, List.foldl_cons]
  have hxm := collect_complete _ hid p (fun a ha => by simp [ha]) x hx
  have hstep : collect (p.foldl collect []) y = p.foldl collect [] ++ [y] := by
    unfold collect
    rw [if_neg]
    intro hc
    rw [List.any_eq_true] at hc
    obtain ⟨z, hz, he⟩ := hc
    have hzp : z ∈ p := by simpa using collect_mem p [] z hz
    have : z = y := hid z (by simp [hzp]) y (by simp) (by simpa using he)
    rw [this] at hzp
    exact hy hzp
  rw [hstep]
  obtain ⟨w, hw⟩ := collect_prefix r (p.foldl collect [] ++ [y])
  rw [hw]
  refine List.Sublist.trans ?_ (List.sublist_append_left _ _)
  exact (List.singleton_sublist.2 hxm).append (List.Sublist.refl [y])

/-! ### extraction -/

/-- What the lane dictionary must satisfy for the extraction to keep every lane. -/
structure Good (d : PyDict Int (List (LaneItem β))) : Prop where
  keys : (PyDict.keys d).Nodup
  touches : ∀ q, ∀ t ∈ (PyDict.get? d q).getD [], Touches q t.2
  everywhere : ∀ q, ∀ t ∈ (PyDict.get? d q).getD [], ∀ q', Touches q' t.2 → t ∈ (PyDict.get? d q').getD []
  ids : ∀ q q', ∀ t ∈ (PyDict.get? d q).getD [], ∀ t' ∈ (PyDict.get? d q').getD [], t.2.oid = t'.2.oid → t = t'
  order : ∀ q, ((PyDict.get? d q).getD []).Pairwise fun x y =>
    x.2.oid ≠ y.2.oid ∧ (x.1 < y.1 ∨ (x.1 = y.1 ∧ ∃ p, y.2.target = .one p))

theorem mem_of_getD_mem {d : PyDict Int (List (LaneItem β))} {q : Int} {t : LaneItem β}
    (h : t ∈ (PyDict.get? d q).getD []) : q ∈ PyDict.keys d := by
  by_contra hc
  rw [(PyDict.get?_eq_none_iff d q).2 hc] at h
  simp at h

theorem pair_or {l : List (LaneItem β)} {x y : LaneItem β} (hx : x ∈ l) (hy : y ∈ l) (hne : x ≠ y) :
    [x, y].Sublist l ∨ [y, x].Sublist l := by
  induction l with
  | nil => simp at hx
  | cons a l ih =>
    rcases List.mem_cons.1 hx with ex | ex
    · rcases List.mem_cons.1 hy with ey | ey
      · exact absurd (ex.trans ey.symm) hne
      · rw [ex]; exact Or.inl (List.Sublist.cons_cons _ (List.singleton_sublist.2 ey))
    · rcases List.mem_cons.1 hy with ey | ey
      · rw [ey]; exact Or.inr (List.Sublist.cons_cons _ (List.singleton_sublist.2 ex))
      · exact (ih ex ey).imp (fun h => h.cons a) (fun h => h.cons a)

theorem pair_antisymm {l : List (LaneItem β)} (hn : l.Nodup) {x y : LaneItem β} (h1 : [x, y].Sublist l)
    (h2 : [y, x].Sublist l) : x = y := by
  induction l with
  | nil => cases h1
  | cons a l ih =>
    rw [List.nodup_cons] at hn
    cases h1 with
    | cons _ h1 =>
      cases h2 with
      | cons _ h2 => exact ih hn.2 h1 h2
      | cons_cons _ h2 => exact absurd (h1.subset (by simp)) hn.1
    | cons_cons _ h1 =>
      cases h2 with
      | cons _ h2 => exact absurd (h2.subset (by simp)) hn.1
      | cons_cons _ h2 => rfl

theorem extractItems_lane {d : PyDict Int (List (LaneItem β))} (hd : Good d) (q : Int) :
    (extractItems d).filter (fun t => Touches q t.2) = (PyDict.get? d q).getD [] := by
  classical
  set cat := (sortedKeys d).flatMap fun q => (PyDict.get? d q).getD [] with hcat
  have hkeys : ∀ q, q ∈ sortedKeys d ↔ q ∈ PyDict.keys d := fun q => (List.perm_insertionSort _ _).mem_iff
  have hmemcat : ∀ t, t ∈ cat ↔ ∃ q, t ∈ (PyDict.get? d q).getD [] := by
    intro t
    rw [hcat, List.mem_flatMap]
    constructor
    · rintro ⟨q, -, h⟩; exact ⟨q, h⟩
    · rintro ⟨q, h⟩; exact ⟨q, (hkeys q).2 (mem_of_getD_mem h), h⟩
  have hid : IdsUnique cat := by
    intro a ha b hb hab
    obtain ⟨q1, h1⟩ := (hmemcat a).1 ha
    obtain ⟨q2, h2⟩ := (hmemcat b).1 hb
    exact hd.ids q1 q2 a h1 b h2 hab
  set comb := cat.foldl collect [] with hcomb
  have hys : extractItems d = comb.insertionSort fun a b => a.1 ≤ b.1 := rfl
  have hperm : (extractItems d).Perm comb := List.perm_insertionSort _ _
  have hmem : ∀ t, t ∈ extractItems d ↔ ∃ q, t ∈ (PyDict.get? d q).getD [] := by
    intro t
    rw [hperm.mem_iff, ← hmemcat]
    constructor
    · intro h; simpa using collect_mem cat [] t h
    · intro h; exact collect_complete cat hid cat (fun _ h => h) t h
  have hnd : (extractItems d).Nodup := by
    rw [hperm.nodup_iff]
    exact (collect_nodup cat [] (by simp)).of_map
  have hsorted : (extractItems d).Pairwise fun a b => a.1 ≤ b.1 := by
    rw [hys]
    have : Std.Total (fun a b : LaneItem β => a.1 ≤ b.1) := ⟨fun a b => Nat.le_total a.1 b.1⟩
    have : IsTrans (LaneItem β) (fun a b => a.1 ≤ b.1) := ⟨fun a b c => Nat.le_trans⟩
    exact List.pairwise_insertionSort _ _
  have hlanend : ((PyDict.get? d q).getD []).Nodup :=
    (hd.order q).imp fun {a b} h e => h.1 (by rw [e])
  apply List.Perm.eq_of_pairwise (le := fun x y => [x, y].Sublist (extractItems d))
  · intro a b _ _ h1 h2
    exact pair_antisymm hnd h1 h2
  · apply List.Pairwise.sublist List.filter_sublist
    rw [List.pairwise_iff_forall_sublist]
    exact fun h => h
  · rw [List.pairwise_iff_forall_sublist]
    intro x y hxy
    have hx : x ∈ (PyDict.get? d q).getD [] := hxy.subset (by simp)
    have hy : y ∈ (PyDict.get? d q).getD [] := hxy.subset (by simp)
    obtain ⟨hne, hlt | ⟨heq, p, hp⟩⟩ := (List.pairwise_iff_forall_sublist.1 (hd.order q)) hxy
    · rcases pair_or ((hmem x).2 ⟨q, hx⟩) ((hmem y).2 ⟨q, hy⟩) (fun e => hne (by rw [e])) with h | h
      · exact h
      · have := (List.pairwise_iff_forall_sublist.1 hsorted) h
        omega
    · rw [hys]
      refine List.pair_sublist_insertionSort (r := fun a b : LaneItem β => a.1 ≤ b.1) (le_of_eq heq) ?_
      -- position of `y` in the concatenation
      have hyq : ∀ q', y ∈ (PyDict.get? d q').getD [] → q' = q := by
        intro q' h'
        have h1 := hd.touches q' y h'
        have h2 := hd.touches q y hy
        unfold Touches at h1 h2
        rw [hp] at h1 h2
        simp [Target.lines] at h1 h2
        rw [h1, h2]
      obtain ⟨k1, k2, hk⟩ := List.append_of_mem ((hkeys q).2 (mem_of_getD_mem hy))
      have hknd : (sortedKeys d).Nodup := (List.perm_insertionSort _ _).nodup_iff.2 hd.keys
      obtain ⟨a, b, hab⟩ : ∃ a b, (PyDict.get? d q).getD [] = a ++ y :: b ∧ x ∈ a := by
        obtain ⟨a, b, hab⟩ := List.append_of_mem hy
        refine ⟨a, b, hab, ?_⟩
        rw [hab] at hxy hlanend
        have hx' : x ∈ a ++ y :: b := hxy.subset (by simp)
        rcases List.mem_append.1 hx' with h | h
        · exact h
        · exfalso
          rcases List.mem_cons.1 h with h | h
          · exact hne (by rw [h])
          · have h3 : [y, x].Sublist (a ++ y :: b) :=
              List.Sublist.trans (List.Sublist.cons_cons y (List.singleton_sublist.2 h)) (List.sublist_append_right _ _)
            exact hne (by rw [pair_antisymm hlanend hxy h3])
      refine collect_order cat hid ((k1.flatMap fun q => (PyDict.get? d q).getD []) ++ a)
        (b ++ k2.flatMap fun q => (PyDict.get? d q).getD []) x y ?_ ?_ ?_
      · rw [hcat, hk, List.flatMap_append, List.flatMap_cons, hab.1]
        simp
      · exact List.mem_append_right _ hab.2
      · rw [List.mem_append]
        rintro (h | h)
        · rw [List.mem_flatMap] at h
          obtain ⟨q', hq', hyq'⟩ := h
          rw [hyq q' hyq'] at hq'
          rw [hk, List.nodup_append] at hknd
          exact hknd.2.2 q hq' q (by simp) rfl
        · rw [hab.1, List.nodup_append] at hlanend
          exact hlanend.2.2 y h y (by simp) rfl
  · rw [List.perm_ext_iff_of_nodup (hnd.filter _) hlanend]
    intro t
    rw [List.mem_filter, hmem]
    simp only [decide_eq_true_eq]
    constructor
    · rintro ⟨⟨q', h⟩, hq⟩
      exact hd.everywhere q' t h q hq
    · intro h
      exact ⟨⟨q, h⟩, hd.touches q t h⟩

theorem extract_lane {d : PyDict Int (List (LaneItem β))} (hd : Good d) (q : Int) :
    lane q (extract d) = ((PyDict.get? d q).getD []).map Prod.snd := by
  rw [← extractItems_lane hd q]
  unfold lane extract
  rw [List.filter_map]
  rfl

theorem extract_mem {d : PyDict Int (List (LaneItem β))} (g : Op β) (h : g ∈ extract d) :
    ∃ q, ∃ t ∈ (PyDict.get? d q).getD [], t.2 = g := by
  unfold extract at h
  rw [List.mem_map] at h
  obtain ⟨t, ht, rfl⟩ := h
  have h1 : t ∈ ((sortedKeys d).flatMap fun q => (PyDict.get? d q).getD []).foldl collect [] :=
    (List.perm_insertionSort _ _).mem_iff.1 ht
  have h2 := collect_mem _ [] t h1
  simp only [List.not_mem_nil, false_or, List.mem_flatMap] at h2
  obtain ⟨q, -, hq⟩ := h2
  exact ⟨q, t, hq, rfl⟩

/-! ### building the lanes -/

theorem preProcess_ops (c : Nat) (l : List (Op β)) : (preProcess c l).map Prod.snd = l := by
  induction l generalizing c with
  | nil => rfl
  | cons g l ih =>
    unfold preProcess
    split_ifs <;> simp [ih]

theorem preProcess_ge (c : Nat) (l : List (Op β)) : ∀ t ∈ preProcess c l, c ≤ t.1 ∧ (t.2.single = false → c < t.1) := by
  induction l generalizing c with
  | nil => simp [preProcess]
  | cons g l ih =>
    unfold preProcess
    split_ifs with hs
    · intro t ht
      rcases List.mem_cons.1 ht with rfl | ht
      · exact ⟨le_rfl, fun h => by rw [hs] at h; cases h⟩
      · exact ih c t ht
    · intro t ht
      rcases List.mem_cons.1 ht with rfl | ht
      · exact ⟨by simp, fun _ => by simp⟩
      · have := ih (c + 1) t ht
        exact ⟨by omega, fun h => by have := this.2 h; omega⟩

theorem preProcess_order (c : Nat) (l : List (Op β)) :
    (preProcess c l).Pairwise fun x y => x.1 ≤ y.1 ∧ (y.2.single = false → x.1 < y.1) := by
  induction l generalizing c with
  | nil => exact List.Pairwise.nil
  | cons g l ih =>
    unfold preProcess
    split_ifs with hs
    · exact List.Pairwise.cons (fun t ht => preProcess_ge c l t ht) (ih c)
    · exact List.Pairwise.cons (fun t ht => preProcess_ge (c + 1) l t ht) (ih (c + 1))

theorem get?_append (d : PyDict Int (List (LaneItem β))) (k q : Int) (t : LaneItem β) :
    (PyDict.get? (append d k t) q).getD [] = (PyDict.get? d q).getD [] ++ (if q = k then [t] else []) := by
  unfold append
  by_cases h : q = k
  · subst h; rw [PyDict.get?_set_self]; simp
  · rw [PyDict.get?_set_ne _ _ _ _ (Ne.symm h), if_neg h, List.append_nil]

theorem get?_appends (d : PyDict Int (List (LaneItem β))) (qs : List Int) (hqs : qs.Nodup) (q : Int) (t : LaneItem β) :
    (PyDict.get? (qs.foldl (fun d q => append d q t) d) q).getD [] =
      (PyDict.get? d q).getD [] ++ (if q ∈ qs then [t] else []) := by
  induction qs generalizing d with
  | nil => simp
  | cons k qs ih =>
    rw [List.foldl_cons, ih _ (List.nodup_cons.1 hqs).2, get?_append]
    by_cases h : q = k
    · subst h
      rw [if_pos rfl, if_neg (List.nodup_cons.1 hqs).1, if_pos (by simp), List.append_nil]
    · rw [if_neg h, List.append_nil]
      congr 1
      simp [h]

theorem keys_appends (d : PyDict Int (List (LaneItem β))) (qs : List Int) (t : LaneItem β)
    (h : (PyDict.keys d).Nodup) : (PyDict.keys (qs.foldl (fun d q => append d q t) d)).Nodup := by
  induction qs generalizing d with
  | nil => exact h
  | cons k qs ih => exact ih _ (PyDict.keys_nodup_set _ _ _ h)

theorem createStep_ok (d : PyDict Int (List (LaneItem β))) (t : LaneItem β) (ht : WellFormed t.2)
    (hk : (PyDict.keys d).Nodup) : ∃ d', createStep d t = .ok d' ∧ (PyDict.keys d').Nodup ∧
      ∀ q, (PyDict.get? d' q).getD [] = (PyDict.get? d q).getD [] ++ (if Touches q t.2 then [t] else []) := by
  unfold createStep
  rcases ht with ⟨hs, p, hp⟩ | ⟨hs, qs, _, hnd, hqs⟩
  · have htt : ∀ q, Touches q t.2 ↔ q = p := by
      intro q; unfold Touches; rw [hp]; simp [Target.lines]
    rw [hs, hp]
    refine ⟨_, rfl, PyDict.keys_nodup_set _ _ _ hk, ?_⟩
    intro q
    rw [get?_append]
    congr 1
    exact if_congr (htt q).symm rfl rfl
  · have htt : ∀ q, Touches q t.2 ↔ q ∈ qs := by
      intro q; unfold Touches; rw [hqs]; simp [Target.lines]
    rw [hs, hqs]
    refine ⟨_, rfl, keys_appends _ _ _ hk, ?_⟩
    intro q
    rw [get?_appends _ _ hnd]
    congr 1
    exact if_congr (htt q).symm rfl rfl

theorem create_from (items : List (LaneItem β)) (hwf : ∀ t ∈ items, WellFormed t.2)
    (d0 : PyDict Int (List (LaneItem β))) (hk : (PyDict.keys d0).Nodup) :
    ∃ d, items.foldlM createStep d0 = .ok d ∧ (PyDict.keys d).Nodup ∧
      ∀ q, (PyDict.get? d q).getD [] = (PyDict.get? d0 q).getD [] ++ items.filter (fun t => Touches q t.2) := by
  induction items generalizing d0 with
  | nil => exact ⟨d0, rfl, hk, by simp⟩
  | cons t items ih =>
    obtain ⟨d1, h1, h2, h3⟩ := createStep_ok d0 t (hwf t (by simp)) hk
    obtain ⟨d, e1, e2, e3⟩ := ih (fun s hs => hwf s (List.mem_cons_of_mem _ hs)) d1 h2
    refine ⟨d, ?_, e2, ?_⟩
    · rw [List.foldlM_cons, h1]; exact e1
    · intro q
      rw [e3, h3]
      by_cases h : Touches q t.2
      · rw [if_pos h, List.filter_cons_of_pos (by simpa using h)]; simp
      · rw [if_neg h, List.filter_cons_of_neg (by simpa using h)]; simp

theorem create_ok (items : List (LaneItem β)) (hwf : ∀ t ∈ items, WellFormed t.2) :
    ∃ d, create items = .ok d ∧ (PyDict.keys d).Nodup ∧
      ∀ q, (PyDict.get? d q).getD [] = items.filter (fun t => Touches q t.2) := by
  obtain ⟨d, h1, h2, h3⟩ := create_from items hwf [] (by simp [PyDict.keys])
  exact ⟨d, h1, h2, fun q => by rw [h3]; rfl⟩

theorem append_ne {d : PyDict Int (List (LaneItem β))} (h : ∀ q ∈ PyDict.keys d, (PyDict.get? d q).getD [] ≠ [])
    (k : Int) (t : LaneItem β) : ∀ q ∈ PyDict.keys (append d k t), (PyDict.get? (append d k t) q).getD [] ≠ [] := by
  intro q hq
  rw [get?_append]
  by_cases e : q = k
  · rw [if_pos e]; simp
  · rw [if_neg e, List.append_nil]
    apply h
    rcases (PyDict.mem_keys_set _ _ _ _).1 hq with h' | h'
    · exact absurd h' e
    · exact h'

theorem create_ne (items : List (LaneItem β)) (d0 d : PyDict Int (List (LaneItem β)))
    (h0 : ∀ q ∈ PyDict.keys d0, (PyDict.get? d0 q).getD [] ≠ []) (h : items.foldlM createStep d0 = .ok d) :
    ∀ q ∈ PyDict.keys d, (PyDict.get? d q).getD [] ≠ [] := by
  induction items generalizing d0 with
  | nil => cases h; exact h0
  | cons t items ih =>
    rw [List.foldlM_cons] at h
    cases h1 : createStep d0 t with
    | error e => rw [h1] at h; cases h
    | ok d1 =>
      rw [h1] at h
      refine ih d1 ?_ h
      unfold createStep at h1
      split at h1
      · cases h1; exact append_ne h0 _ _
      · cases h1
      · cases h1
        have : ∀ (qs : List Int) (d0 : PyDict Int (List (LaneItem β))),
            (∀ q ∈ PyDict.keys d0, (PyDict.get? d0 q).getD [] ≠ []) →
            ∀ q ∈ PyDict.keys (qs.foldl (fun d q => append d q t) d0),
              (PyDict.get? (qs.foldl (fun d q => append d q t) d0) q).getD [] ≠ [] := by
          intro qs
          induction qs with
          | nil => intro d0 h; exact h
          | cons k qs ih => intro d0 h; exact ih _ (append_ne h _ _)
        exact this _ d0 h0
      · cases h1

theorem wf_target {g : Op β} (h : WellFormed g) (hs : g.single ≠ false) : ∃ p, g.target = .one p := by
  rcases h with ⟨_, h⟩ | ⟨h, _⟩
  · exact h
  · exact absurd h hs

/-- The lanes of a circuit with distinct, well-formed gate objects. -/
theorem lanes_good (l : List (Op β)) (hid : (l.map Op.oid).Nodup) (hwf : ∀ g ∈ l, WellFormed g) :
    ∃ d, create (preProcess 0 l) = .ok d ∧ Good d ∧
      ∀ q, (PyDict.get? d q).getD [] = (preProcess 0 l).filter (fun t => Touches q t.2) := by
  have hops := preProcess_ops 0 l
  have hmem : ∀ t ∈ preProcess 0 l, t.2 ∈ l := by
    intro t ht
    rw [← hops]
    exact List.mem_map_of_mem ht
  have hidp : ((preProcess 0 l).map fun t => t.2.oid).Nodup := by
    have : (preProcess 0 l).map (fun t => t.2.oid) = ((preProcess 0 l).map Prod.snd).map Op.oid := by
      rw [List.map_map]; rfl
    rw [this, hops]; exact hid
  obtain ⟨d, h1, h2, h3⟩ := create_ok (preProcess 0 l) (fun t ht => hwf _ (hmem t ht))
  refine ⟨d, h1, ⟨h2, ?_, ?_, ?_, ?_⟩, h3⟩
  · intro q t ht
    rw [h3, List.mem_filter] at ht
    simpa using ht.2
  · intro q t ht q' hq'
    rw [h3, List.mem_filter] at ht ⊢
    exact ⟨ht.1, by simpa using hq'⟩
  · intro q q' t ht t' ht' he
    rw [h3, List.mem_filter] at ht ht'
    exact List.inj_on_of_nodup_map hidp ht.1 ht'.1 he
  · intro q
    rw [h3]
    apply List.Pairwise.filter
    have hp1 := preProcess_order 0 l
    have hp2 : (preProcess 0 l).Pairwise fun x y => x.2.oid ≠ y.2.oid := by
      have := List.pairwise_map.1 hidp
      exact this
    refine (hp1.and hp2).imp_of_mem ?_
    intro x y _ hy h
    refine ⟨h.2, ?_⟩
    by_cases hs : y.2.single = false
    · exact Or.inl (h.1.2 hs)
    · rcases Nat.lt_or_ge x.1 y.1 with hlt | hge
      · exact Or.inl hlt
      · exact Or.inr ⟨by omega, wf_target (hwf _ (hmem y hy)) hs⟩

end Qudits.Lanes
