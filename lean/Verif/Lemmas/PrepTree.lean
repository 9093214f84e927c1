import Verif.Lemmas.MicroDD
namespace Qudits
open Spec MicroDD

variable (H : List (Int × ℂ) → Int)

theorem hashings_eq (cs : List MicroDD) : hashings H cs = cs.map (hashing H) := by
  induction cs with
  | nil => rw [hashings]; rfl
  | cons c cs ih => rw [hashings, ih]; rfl

theorem hashing_weight (t : MicroDD) : (hashing H t).weight = t.weight := by
  cases t with
  | node i cs => rw [hashing]; split <;> rfl

theorem hashing_terminal (t : MicroDD) : (hashing H t).info.terminal = t.info.terminal := by
  cases t with
  | node i cs => rw [hashing]; split <;> rfl

theorem hashing_index (t : MicroDD) : (hashing H t).info.index = t.info.index := by
  cases t with
  | node i cs => rw [hashing]; split <;> rfl

theorem hashing_children {t : MicroDD} (h : t.info.terminal = false) : (hashing H t).children = t.children.map (hashing H) := by
  cases t with
  | node i cs =>
    have h : i.terminal = false := h
    rw [hashing, if_neg (by rw [h]; decide), hashings_eq]; rfl

theorem hashing_hash {t : MicroDD} (h : t.info.terminal = false) :
    (hashing H t).info.hash = H (t.children.map fun c => ((hashing H c).info.hash, c.weight)) := by
  cases t with
  | node i cs =>
    have h : i.terminal = false := h
    rw [hashing, if_neg (by rw [h]; decide), hashings_eq]
    simp only [info, children, List.map_map, Function.comp_def, hashing_weight]

theorem hashing_hash_terminal {t : MicroDD} (h : t.info.terminal = true) : ∃ x, (hashing H t).info.hash = H [x] ∧ Hashed H t [x] := by
  refine ⟨_, ?_, .leaf h⟩
  cases t with
  | node i cs =>
    have h : i.terminal = true := h
    rw [hashing, if_pos h]; rfl

/-- nodes with the same hash stand for the same state -/
theorem hash_inj {H : List (Int × ℂ) → Int} {P : List (Int × ℂ) → Prop} (hH : ∀ x y, P x → P y → H x = H y → x = y) :
    ∀ (dims : List Nat) (a b : MicroDD), (∀ d ∈ dims, 2 ≤ d) → Normal dims a → Normal dims b →
    (∀ x, Hashed H a x → P x) → (∀ x, Hashed H b x → P x) →
    (hashing H a).info.hash = (hashing H b).info.hash →
    (dims ≠ [] → a.info.terminal = b.info.terminal) ∧ ∀ p, p.length = dims.length → ampRel a p = ampRel b p
  | [], a, b, _, ha, hb, _, _, _ => by
    refine ⟨fun h => absurd rfl h, ?_⟩
    intro p hp
    have : p = [] := List.length_eq_zero_iff.1 hp
    subst this
    simp only [Normal] at ha hb
    simp [ampRel, ha, hb]
  | c :: cs, a, b, hd, ha, hb, pa, pb, h => by
    have hc : 2 ≤ c := hd c (by simp)
    cases ta : a.info.terminal with
    | true =>
      cases tb : b.info.terminal with
      | true =>
        refine ⟨fun _ => rfl, ?_⟩
        intro p hp
        cases p with
        | nil => simp at hp
        | cons l p => simp [ampRel, ta, tb]
      | false =>
        obtain ⟨x, hx, hx'⟩ := hashing_hash_terminal H ta
        rw [hx, hashing_hash H tb] at h
        rcases hb with ⟨hb1, _⟩ | ⟨_, _, hb3, _⟩
        · rw [tb] at hb1; cases hb1
        · have := congrArg List.length (hH _ _ (pa _ hx') (pb _ (.inner tb)) h)
          simp [hb3] at this
          omega
    | false =>
      rcases ha with ⟨ha1, _⟩ | ⟨_, _, ha3, _, ha5⟩
      · rw [ta] at ha1; cases ha1
      cases tb : b.info.terminal with
      | true =>
        obtain ⟨x, hx, hx'⟩ := hashing_hash_terminal H tb
        rw [hx, hashing_hash H ta] at h
        have := congrArg List.length (hH _ _ (pa _ (.inner ta)) (pb _ hx') h)
        simp [ha3] at this
        omega
      | false =>
        rcases hb with ⟨hb1, _⟩ | ⟨_, _, hb3, _, hb5⟩
        · rw [tb] at hb1; cases hb1
        refine ⟨fun _ => rfl, ?_⟩
        rw [hashing_hash H ta, hashing_hash H tb] at h
        have h := hH _ _ (pa _ (.inner ta)) (pb _ (.inner tb)) h
        intro p hp
        cases p with
        | nil => simp at hp
        | cons l p =>
          have hl := congrArg (fun z => z[l]?) h
          simp only [List.getElem?_map] at hl
          simp only [ampRel, ta, tb, Bool.false_eq_true, if_false]
          cases ea : a.children[l]? with
          | none =>
            rw [ea] at hl
            cases eb : b.children[l]? with
            | none => rfl
            | some v => rw [eb] at hl; cases hl
          | some u =>
            rw [ea] at hl
            cases eb : b.children[l]? with
            | none => rw [eb] at hl; cases hl
            | some v =>
              rw [eb] at hl
              simp only [Option.map_some, Option.some.injEq, Prod.mk.injEq] at hl
              simp only []
              rw [hl.2, (hash_inj hH cs u v (fun d hd' => hd d (by simp [hd'])) (ha5 u (List.mem_of_getElem? ea))
                (hb5 v (List.mem_of_getElem? eb)) (fun x hx => pa x (.deeper ta (List.mem_of_getElem? ea) hx))
                (fun x hx => pb x (.deeper tb (List.mem_of_getElem? eb) hx)) hl.1).2 p (by simpa using hp)]

theorem aggregates_nil (k : Nat) (hs : List Int) (j : Nat) : aggregates k hs j [] = .ok [] := by rw [aggregates]

theorem aggregate_childless (k : Nat) (t : MicroDD) (h : t.info.terminal = true) (hc : t.children = []) :
    ∃ t', aggregate k t = .ok t' := by
  cases k with
  | zero => exact ⟨t, by rw [aggregate]⟩
  | succ k =>
    cases t with
    | node i cs =>
      have hc : cs = [] := hc
      subst hc
      rw [aggregate]
      have h : i.terminal = true := h
      simp only [bind, Except.bind, aggregates_nil, pure, Except.pure]
      rw [if_pos h]
      exact ⟨_, rfl⟩

theorem aggregate_info {k : Nat} {t t' : MicroDD} (h : aggregate k t = .ok t') :
    t'.weight = t.weight ∧ t'.info.terminal = t.info.terminal := by
  cases k with
  | zero => rw [aggregate] at h; injection h with h; subst h; exact ⟨rfl, rfl⟩
  | succ k =>
    cases t with
    | node i cs =>
      rw [aggregate] at h
      simp only [bind, Except.bind] at h
      split at h
      · cases h
      · simp only [pure, Except.pure] at h
        split at h
        · injection h with h; subst h; exact ⟨rfl, rfl⟩
        · split at h
          · cases h
          · injection h with h; subst h; exact ⟨rfl, rfl⟩

theorem aggregates_ok (k : Nat) (hs : List Int) : ∀ (cs : List MicroDD) (j : Nat), (∀ c ∈ cs, ∃ c', aggregate k c = .ok c') →
    ∃ cs', aggregates k hs j cs = .ok cs' ∧ cs'.length = cs.length ∧ cs'.map weight = cs.map weight ∧
      ∀ i c, cs[i]? = some c → ∃ c', cs'[i]? = some c' ∧ (firstWith hs (j + i) = j + i → aggregate k c = .ok c')
  | [], j, _ => ⟨[], by rw [aggregates], rfl, rfl, by intro i c h; simp at h⟩
  | c :: cs, j, h => by
    obtain ⟨c', hc'⟩ := h c (by simp)
    obtain ⟨cs', e1, e2, e3, e4⟩ := aggregates_ok k hs cs (j + 1) (fun x hx => h x (by simp [hx]))
    rw [aggregates]
    by_cases hj : firstWith hs j = j
    · refine ⟨c' :: cs', by simp [bind, Except.bind, hj, hc', e1, pure, Except.pure], by simp [e2],
        by simp [e3, (aggregate_info hc').1], ?_⟩
      intro i x hx
      cases i with
      | zero => simp only [List.getElem?_cons_zero, Option.some.injEq] at hx; subst hx; exact ⟨c', by simp, fun _ => hc'⟩
      | succ i =>
        simp only [List.getElem?_cons_succ] at hx
        obtain ⟨y, hy1, hy2⟩ := e4 i x hx
        exact ⟨y, by simpa using hy1, fun hq => hy2 (by rw [show j + 1 + i = j + (i + 1) by omega]; exact hq)⟩
    · refine ⟨c :: cs', by simp [bind, Except.bind, hj, e1, pure, Except.pure], by simp [e2], by simp [e3], ?_⟩
      intro i x hx
      cases i with
      | zero =>
        exact ⟨c, by simp, fun hq => absurd (by simpa using hq) hj⟩
      | succ i =>
        simp only [List.getElem?_cons_succ] at hx
        obtain ⟨y, hy1, hy2⟩ := e4 i x hx
        exact ⟨y, by simpa using hy1, fun hq => hy2 (by rw [show j + 1 + i = j + (i + 1) by omega]; exact hq)⟩

theorem firstWith_le {hs : List Int} {i : Nat} (hi : i < hs.length) :
    firstWith hs i < hs.length ∧ hs.getD (firstWith hs i) 0 = hs.getD i 0 ∧ firstWith hs (firstWith hs i) = firstWith hs i := by
  have hm : hs.getD i 0 ∈ hs := by
    rw [List.getD_eq_getElem?_getD, List.getElem?_eq_getElem hi]; exact List.getElem_mem hi
  have h1 : firstWith hs i < hs.length := List.idxOf_lt_length_iff.2 hm
  have h2 : hs.getD (firstWith hs i) 0 = hs.getD i 0 := by
    rw [List.getD_eq_getElem?_getD, List.getElem?_eq_getElem h1, Option.getD_some]
    exact List.getElem_idxOf h1
  refine ⟨h1, h2, ?_⟩
  conv_lhs => rw [firstWith, h2]
  rfl

theorem firstWith_zero (hs : List Int) : firstWith hs 0 = 0 := by
  cases hs with
  | nil => simp [firstWith]
  | cons a l => simp [firstWith]

/-- what the mark `reduced` says -/
theorem reducedMark_spec (index : List Nat) (cs : List MicroDD) (h : ∃ (i : Nat) (c : MicroDD), cs[i]? = some c ∧ c.weight ≠ 0) :
    ∃ r, reducedMark index cs = .ok r ∧ (r = true ↔
      (∃ (i j : Nat) (a b : MicroDD), i ≠ j ∧ cs[i]? = some a ∧ cs[j]? = some b ∧ a.weight ≠ 0 ∧ b.weight ≠ 0) ∧
      ∀ (i j : Nat) (a b : MicroDD), cs[i]? = some a → cs[j]? = some b → a.weight ≠ 0 → b.weight ≠ 0 → index.getD i 0 = index.getD j 0) := by
  set L := (List.range cs.length).filter fun i => (cs.map weight).getD i 0 ≠ 0 with hL
  have hmem : ∀ i, i ∈ L ↔ ∃ c, cs[i]? = some c ∧ c.weight ≠ 0 := by
    intro i
    rw [hL, List.mem_filter, List.mem_range, List.getD_eq_getElem?_getD, List.getElem?_map]
    constructor
    · rintro ⟨h1, h2⟩
      rw [List.getElem?_eq_getElem h1] at h2
      exact ⟨cs[i], List.getElem?_eq_getElem h1, by simpa using h2⟩
    · rintro ⟨c, h1, h2⟩
      have := (List.getElem?_eq_some_iff.1 h1).1
      exact ⟨this, by rw [h1]; simpa using h2⟩
  have hnd : L.Nodup := List.nodup_range.filter _
  unfold reducedMark
  simp only [← hL]
  obtain ⟨i0, c0, h1, h2⟩ := h
  have hi0 : i0 ∈ L := (hmem i0).2 ⟨c0, h1, h2⟩
  by_cases hone : (L.map fun i => index.getD i 0).length = 1
  · rw [if_pos hone]
    refine ⟨false, rfl, fun h => (by cases h), ?_⟩
    rintro ⟨⟨i, j, a, b, hij, hi, hj, ha, hb⟩, _⟩
    rw [List.length_map] at hone
    obtain ⟨x, hx⟩ := List.length_eq_one_iff.1 hone
    have h1 := (hmem i).2 ⟨a, hi, ha⟩
    have h2 := (hmem j).2 ⟨b, hj, hb⟩
    rw [hx, List.mem_singleton] at h1 h2
    exact absurd (h1.trans h2.symm) hij
  · rw [if_neg hone]
    match hLL : L, hi0 with
    | x :: xs, _ =>
      refine ⟨_, rfl, ?_, ?_⟩
      swap
      · rintro ⟨_, hall⟩
        refine List.all_eq_true.2 fun z hz => ?_
        obtain ⟨y, hy, rfl⟩ := List.mem_map.1 hz
        obtain ⟨a, ha⟩ := (hmem y).1 (by simp [hy])
        obtain ⟨b, hb⟩ := (hmem x).1 (by simp)
        simp only [beq_iff_eq]
        exact hall y x a b ha.1 hb.1 ha.2 hb.2
      intro hall
      have hall' : ∀ y ∈ xs, index.getD y 0 = index.getD x 0 := by
        intro y hy
        have := List.all_eq_true.1 hall (index.getD y 0) (List.mem_map.2 ⟨y, hy, rfl⟩)
        simpa using this
      constructor
      · match xs with
        | [] => simp at hone
        | y :: ys =>
          obtain ⟨a, ha⟩ := (hmem x).1 (by simp)
          obtain ⟨b, hb⟩ := (hmem y).1 (by simp)
          refine ⟨x, y, a, b, ?_, ha.1, hb.1, ha.2, hb.2⟩
          intro hxy
          simp [hxy] at hnd
      · have key : ∀ i a, cs[i]? = some a → a.weight ≠ 0 → index.getD i 0 = index.getD x 0 := by
          intro i a hi hw
          rcases List.mem_cons.1 ((hmem i).2 ⟨a, hi, hw⟩) with h | h
          · rw [h]
          · exact hall' i h
        intro i j a b hi hj ha hb
        rw [key i a hi ha, key j b hj hb]

end Qudits
