import Verif.Lemmas.Approx
/-! # Which branches are cut -/
namespace Qudits
open Spec MicroDD

/-- the facts about the levels of the tree -/
structure LevelOk (dims : List Nat) (data : List ℂ) (k : Nat) (lv : List (List Nat × MicroDD × ℝ)) : Prop where
  len : ∀ e ∈ lv, e.1.length = k
  ent : ∀ e ∈ lv, Ent dims data e
  pos : 0 < k → ∀ e ∈ lv, e.2.2 ≠ 0
  all : ∀ q, Levels (dims.take k) q → q.length = k → prob (branch dims data q) ≠ 0 → ∃ u pr, (q, u, pr) ∈ lv
  nodup : (lv.map Prod.fst).Nodup

theorem levelsBelow_length : ∀ (k : Nat) (lv : List (List Nat × MicroDD × ℝ)), (levelsBelow k lv).length = k
  | 0, _ => rfl
  | k + 1, lv => by rw [levelsBelow, List.length_cons, levelsBelow_length]

theorem levelsBelow_ok {dims : List Nat} {data : List ℂ} (hl : data.length = dims.prod) : ∀ (m k : Nat) (lv : List (List Nat × MicroDD × ℝ)),
    k + m ≤ dims.length → LevelOk dims data k lv → ((∀ e ∈ lv, e.2.2 ≠ 0) ∨ nextLevel lv = []) →
    ∀ j l, (levelsBelow m lv)[j]? = some l → LevelOk dims data (k + j + 1) l
  | 0, _, _, _, _, _, j, l, h => by simp [levelsBelow] at h
  | m + 1, k, lv, hk, h, h0, j, l, hj => by
    obtain ⟨a, b, c, d, e⟩ := ent_step hl (by omega : k < dims.length) h.len h.ent h.all h.nodup
    have hpos : ∀ e ∈ nextLevel lv, e.2.2 ≠ 0 := by
      rcases h0 with h0 | h0
      · exact c h0
      · rw [h0]; simp
    have hok : LevelOk dims data (k + 1) (nextLevel lv) := ⟨a, b, fun _ => hpos, d, e⟩
    cases j with
    | zero =>
      rw [levelsBelow, List.getElem?_cons_zero] at hj
      injection hj with hj
      subst hj
      exact hok
    | succ j =>
      rw [levelsBelow, List.getElem?_cons_succ] at hj
      have := levelsBelow_ok hl m (k + 1) (nextLevel lv) (by omega) hok (Or.inl hpos) j l hj
      rwa [show k + (j + 1) + 1 = k + 1 + j + 1 by omega]

theorem root_level {dims : List Nat} {data : List ℂ} {t : MicroDD} (hl : data.length = dims.prod) (hN : Normal dims t)
    (ha : ∀ p, Levels dims p → amp t p = data.getD (index dims p) 0) :
    LevelOk dims data 0 [([], t, ‖t.weight‖ ^ 2)] := by
  have hp := normal_prob dims t data 1 hN hl (by simpa using ha)
  refine ⟨by simp, ?_, by simp, ?_, by simp⟩
  · intro e he
    rw [List.mem_singleton] at he
    subst he
    exact ⟨1, .nil, by simp, by simpa using hN, by simpa [branch] using ha, by simpa [branch] using hp.symm⟩
  · intro q _ hq _
    rw [List.length_eq_zero_iff] at hq
    subst hq
    exact ⟨_, _, List.mem_singleton.2 rfl⟩

theorem sortLevel_perm (lv : List (List Nat × ℝ)) : (sortLevel lv).Perm lv := List.perm_insertionSort _ _

theorem sortLevel_sorted (lv : List (List Nat × ℝ)) : (sortLevel lv).Pairwise fun a b => a.2 ≤ b.2 := by
  classical
  have : Std.Total fun a b : List Nat × ℝ => a.2 ≤ b.2 := ⟨fun a b => le_total _ _⟩
  have : IsTrans (List Nat × ℝ) fun a b => a.2 ≤ b.2 := ⟨fun a b c h1 h2 => le_trans h1 h2⟩
  exact List.pairwise_insertionSort _ lv

/-- what `cut_branches` sees at depth `k` -/
structure SortedOk (dims : List Nat) (data : List ℂ) (k : Nat) (lv : List (List Nat × ℝ)) : Prop where
  mem : ∀ q pr, (q, pr) ∈ lv ↔ q.length = k ∧ Levels (dims.take k) q ∧ pr = prob (branch dims data q) ∧ pr ≠ 0
  nodup : (lv.map Prod.fst).Nodup
  sorted : lv.Pairwise fun a b => a.2 ≤ b.2

theorem contributions_ok {dims : List Nat} {data : List ℂ} {t : MicroDD} (hl : data.length = dims.prod) (hN : Normal dims t)
    (ha : ∀ p, Levels dims p → amp t p = data.getD (index dims p) 0) :
    (contributions dims.length t).length = dims.length ∧
    ∀ j lv, (contributions dims.length t)[j]? = some lv → SortedOk dims data (j + 1) lv := by
  refine ⟨by unfold contributions; rw [List.length_map, levelsBelow_length], ?_⟩
  intro j lv h
  unfold contributions at h
  rw [List.getElem?_map, Option.map_eq_some_iff] at h
  obtain ⟨l, hj, rfl⟩ := h
  have h0 : (∀ e ∈ [(([] : List Nat), t, ‖t.weight‖ ^ 2)], e.2.2 ≠ 0) ∨ nextLevel [([], t, ‖t.weight‖ ^ 2)] = [] := by
    by_cases hw : t.weight = 0
    · right
      have hlt : j < dims.length := by
        have := (List.getElem?_eq_some_iff.1 hj).1
        rwa [levelsBelow_length] at this
      cases dims with
      | nil => simp at hlt
      | cons c cs =>
        rcases hN with ⟨h, _⟩ | ⟨_, ⟨r, hr, h⟩, _⟩
        · simp [nextLevel, h]
        · rw [h] at hw
          exact absurd (by exact_mod_cast hw) hr.ne'
    · left
      intro e he
      rw [List.mem_singleton] at he
      subst he
      exact pow_ne_zero _ (norm_ne_zero_iff.2 hw)
  have hok := levelsBelow_ok hl dims.length 0 _ (by omega) (root_level hl hN ha) h0 j l hj
  rw [Nat.zero_add] at hok
  have hperm := sortLevel_perm (l.map fun e => (e.1, e.2.2))
  refine ⟨?_, ?_, sortLevel_sorted _⟩
  · intro q pr
    rw [hperm.mem_iff, List.mem_map]
    constructor
    · rintro ⟨e, he, heq⟩
      injection heq with h1 h2
      subst h1; subst h2
      obtain ⟨w, a, _, _, _, b⟩ := hok.ent e he
      have := hok.len e he
      rw [this] at a
      exact ⟨this, a, b, hok.pos (by omega) e he⟩
    · rintro ⟨h1, h2, h3, h4⟩
      obtain ⟨u, pr', hm⟩ := hok.all q h2 h1 (by rw [← h3]; exact h4)
      obtain ⟨_, _, _, _, _, b⟩ := hok.ent _ hm
      exact ⟨_, hm, by rw [h3]; exact Prod.ext rfl b⟩
  · refine ((hperm.map Prod.fst).nodup_iff).2 ?_
    rw [List.map_map]
    exact hok.nodup

theorem available_of_length {cuts : List (List Nat)} {p : List Nat} (h : ∀ q ∈ cuts, p.length ≤ q.length) : available cuts p = true := by
  unfold available
  rw [Bool.not_eq_true', List.any_eq_false]
  intro q hq
  simp only [Bool.and_eq_true, List.isPrefixOf_iff_prefix, bne_iff_ne, ne_eq, not_and, not_not]
  intro hp
  exact hp.eq_of_length (le_antisymm hp.length_le (h q hq))

theorem cutLevel_spec (tol : ℝ) (k : Nat) : ∀ (lv : List (List Nat × ℝ)) (s : ℝ × List (List Nat)), (∀ e ∈ lv, e.1.length = k) →
    (∀ q ∈ s.2, k ≤ q.length) →
    ∃ pre suf, lv = pre ++ suf ∧ cutLevel tol lv s = (s.1 + (pre.map Prod.snd).sum, (pre.map Prod.fst).reverse ++ s.2) ∧
      (pre ≠ [] → s.1 + (pre.map Prod.snd).sum < tol) ∧ ∀ e ∈ suf.head?, tol ≤ s.1 + (pre.map Prod.snd).sum + e.2
  | [], s, _, _ => ⟨[], [], rfl, by simp [cutLevel], by simp, by simp⟩
  | e :: rest, s, hlv, hs => by
    unfold cutLevel
    have hav := available_of_length (cuts := s.2) (p := e.1) (by rw [hlv e (by simp)]; exact hs)
    by_cases h : s.1 + e.2 < tol
    · rw [if_pos ⟨h, hav⟩]
      obtain ⟨pre, suf, h1, h2, h3, h4⟩ := cutLevel_spec tol k rest (s.1 + e.2, e.1 :: s.2) (fun e he => hlv e (by simp [he])) (by
        intro q hq
        rcases List.mem_cons.1 hq with rfl | hq
        · rw [hlv e (by simp)]
        · exact hs q hq)
      refine ⟨e :: pre, suf, by rw [h1]; rfl, ?_, ?_, ?_⟩
      · rw [h2]; simp [add_assoc]
      · intro _
        cases pre with
        | nil => simpa using h
        | cons a as => have := h3 (by simp); simpa [add_assoc] using this
      · intro f hf
        have := h4 f hf
        simpa [add_assoc] using this
    · rw [if_neg (fun hh => h hh.1)]
      exact ⟨[], e :: rest, rfl, by simp, by simp, by simpa using h⟩

/-- the fold over the levels, deepest first -/
theorem cutFold_spec {dims : List Nat} {data : List ℂ} (tol : ℝ) : ∀ (Ls : List (List (List Nat × ℝ))) (s : ℝ × List (List Nat)),
    (∀ j lv, Ls[j]? = some lv → SortedOk dims data (Ls.length - j) lv) → (∀ q ∈ s.2, Ls.length < q.length) →
    ∃ new, (Ls.foldl (fun s lv => cutLevel tol lv s) s) = (s.1 + (new.map fun q => prob (branch dims data q)).sum, new ++ s.2) ∧
      new.Nodup ∧ (∀ q ∈ new, 0 < q.length ∧ q.length ≤ Ls.length ∧ Levels (dims.take q.length) q ∧ prob (branch dims data q) ≠ 0) ∧
      (new ≠ [] → s.1 + (new.map fun q => prob (branch dims data q)).sum < tol) ∧
      ∀ q, 0 < q.length → q.length ≤ Ls.length → Levels (dims.take q.length) q → prob (branch dims data q) ≠ 0 → q ∉ new →
        (∀ q' ∈ new, q'.length = q.length → prob (branch dims data q') ≤ prob (branch dims data q)) ∧
        tol ≤ s.1 + ((new.filter fun q' => q.length ≤ q'.length).map fun q => prob (branch dims data q)).sum + prob (branch dims data q)
  | [], s, _, _ => ⟨[], by simp, by simp, by simp, by simp, fun q h1 h2 => absurd h2 (by rw [List.length_nil]; omega)⟩
  | lv :: Ls, s, hL, hs => by
    rw [List.foldl_cons]
    have hlv : SortedOk dims data (Ls.length + 1) lv := by simpa using hL 0 lv rfl
    have hlen : ∀ e ∈ lv, e.1.length = Ls.length + 1 := fun e he => ((hlv.mem e.1 e.2).1 he).1
    obtain ⟨pre, suf, h1, h2, h3, h4⟩ := cutLevel_spec tol (Ls.length + 1) lv s hlen (fun q hq => le_of_lt (by simpa using hs q hq))
    have hpre : ∀ e ∈ pre, e ∈ lv := fun e he => by rw [h1]; exact List.mem_append_left _ he
    have hpsum : (pre.map Prod.snd).sum = ((pre.map Prod.fst).map fun q => prob (branch dims data q)).sum := by
      rw [List.map_map]
      congr 1
      exact List.map_congr_left fun e he => ((hlv.mem e.1 e.2).1 (hpre e he)).2.2.1
    rw [h2]
    obtain ⟨new, g1, g2, g3, g4, g5⟩ := cutFold_spec tol Ls (s.1 + (pre.map Prod.snd).sum, (pre.map Prod.fst).reverse ++ s.2)
      (fun j l hj => by
        have := hL (j + 1) l hj
        rwa [List.length_cons, Nat.add_sub_add_right] at this)
      (by
        intro q hq
        rcases List.mem_append.1 hq with hq | hq
        · rw [List.mem_reverse] at hq
          obtain ⟨e, he, rfl⟩ := List.mem_map.1 hq
          rw [hlen e (hpre e he)]; omega
        · have := hs q hq
          rw [List.length_cons] at this
          omega)
    have hrev : (((pre.map Prod.fst).reverse).map fun q => prob (branch dims data q)).sum = (pre.map Prod.snd).sum := by
      rw [hpsum, List.map_reverse, List.sum_reverse]
    have hmem : ∀ q, q ∈ pre.map Prod.fst → q.length = Ls.length + 1 ∧ Levels (dims.take q.length) q ∧ prob (branch dims data q) ≠ 0 := by
      intro q hq
      obtain ⟨e, he, rfl⟩ := List.mem_map.1 hq
      obtain ⟨a, b, c, d⟩ := (hlv.mem e.1 e.2).1 (hpre e he)
      exact ⟨a, by rw [a]; exact b, by rw [← c]; exact d⟩
    refine ⟨new ++ (pre.map Prod.fst).reverse, ?_, ?_, ?_, ?_, ?_⟩
    · rw [g1, List.map_append, List.sum_append, hrev, List.append_assoc]
      simp only
      congr 1
      ring
    · rw [List.nodup_append]
      refine ⟨g2, ?_, ?_⟩
      · rw [List.nodup_reverse]
        have := hlv.nodup
        rw [h1, List.map_append] at this
        exact (List.nodup_append.1 this).1
      · intro a ha b hb hab
        subst hab
        rw [List.mem_reverse] at hb
        have := (g3 a ha).2.1
        have := (hmem a hb).1
        omega
    · intro q hq
      rcases List.mem_append.1 hq with hq | hq
      · obtain ⟨a, b, c⟩ := g3 q hq
        exact ⟨a, by rw [List.length_cons]; omega, c⟩
      · rw [List.mem_reverse] at hq
        obtain ⟨a, b, c⟩ := hmem q hq
        exact ⟨by omega, by rw [List.length_cons]; omega, b, c⟩
    · intro _
      rw [List.map_append, List.sum_append, hrev]
      by_cases hn : new = []
      · subst hn
        rw [List.map_nil, List.sum_nil, zero_add]
        apply h3
        rintro rfl
        simp_all
      · have := g4 hn
        simp only at this
        linarith
    · intro q hq0 hql hqL hqp hqn
      rw [List.length_cons] at hql
      rw [List.mem_append, not_or, List.mem_reverse] at hqn
      rw [List.filter_append, List.map_append, List.sum_append]
      by_cases hk : q.length = Ls.length + 1
      · have hfil : new.filter (fun q' => q.length ≤ q'.length) = [] := by
          rw [List.filter_eq_nil_iff]
          intro q' hq'
          have := (g3 q' hq').2.1
          simp; omega
        have hfil2 : (pre.map Prod.fst).reverse.filter (fun q' => q.length ≤ q'.length) = (pre.map Prod.fst).reverse := by
          rw [List.filter_eq_self]
          intro q' hq'
          have := (hmem q' (List.mem_reverse.1 hq')).1
          simp; omega
        have hin : (q, prob (branch dims data q)) ∈ lv := (hlv.mem _ _).2 ⟨hk, by rw [← hk]; exact hqL, rfl, hqp⟩
        have hsuf : (q, prob (branch dims data q)) ∈ suf := by
          rw [h1] at hin
          rcases List.mem_append.1 hin with h | h
          · exact absurd (List.mem_map.2 ⟨_, h, rfl⟩) hqn.2
          · exact h
        have hsort := hlv.sorted
        rw [h1, List.pairwise_append] at hsort
        refine ⟨?_, ?_⟩
        · intro q' hq' hl'
          rcases List.mem_append.1 hq' with h | h
          · have := (g3 q' h).2.1; omega
          · rw [List.mem_reverse] at h
            obtain ⟨e, he, rfl⟩ := List.mem_map.1 h
            have h5 := hsort.2.2 e he _ hsuf
            have h6 := ((hlv.mem e.1 e.2).1 (hpre e he)).2.2.1
            rw [h6] at h5
            exact h5
        · rw [hfil, hfil2, hrev, List.map_nil, List.sum_nil, zero_add]
          cases suf with
          | nil => cases hsuf
          | cons f fs =>
            have h5 := h4 f rfl
            have h6 : f.2 ≤ prob (branch dims data q) := by
              rcases List.mem_cons.1 hsuf with h | h
              · rw [← h]
              · exact (List.pairwise_cons.1 hsort.2.1).1 _ h
            linarith
      · obtain ⟨a, b⟩ := g5 q hq0 (by omega) hqL hqp hqn.1
        have hfil2 : (pre.map Prod.fst).reverse.filter (fun q' => q.length ≤ q'.length) = (pre.map Prod.fst).reverse := by
          rw [List.filter_eq_self]
          intro q' hq'
          have := (hmem q' (List.mem_reverse.1 hq')).1
          simp; omega
        refine ⟨?_, ?_⟩
        · intro q' hq' hl'
          rcases List.mem_append.1 hq' with h | h
          · exact a q' h hl'
          · have := (hmem q' (List.mem_reverse.1 h)).1
            omega
        · rw [hfil2, hrev]
          simp only at b
          linarith

theorem cutBranches_spec {dims : List Nat} {data : List ℂ} {t : MicroDD} (hl : data.length = dims.prod) (hN : Normal dims t)
    (ha : ∀ p, Levels dims p → amp t p = data.getD (index dims p) 0) (tol : ℝ) :
    let cuts := cutBranches (contributions dims.length t) tol
    cuts.Nodup ∧ (∀ q ∈ cuts, IsPart dims q ∧ prob (branch dims data q) ≠ 0) ∧
      (cuts ≠ [] → (cuts.map fun q => prob (branch dims data q)).sum < tol) ∧
      ∀ q, IsPart dims q → prob (branch dims data q) ≠ 0 → q ∉ cuts →
        (∀ q' ∈ cuts, q'.length = q.length → prob (branch dims data q') ≤ prob (branch dims data q)) ∧
        tol ≤ ((cuts.filter fun q' => q.length ≤ q'.length).map fun q => prob (branch dims data q)).sum + prob (branch dims data q) := by
  obtain ⟨hlen, hok⟩ := contributions_ok hl hN ha
  obtain ⟨new, g1, g2, g3, g4, g5⟩ := cutFold_spec (dims := dims) (data := data) tol (contributions dims.length t).reverse (0, []) (by
    intro j lv hj
    rw [List.length_reverse, hlen]
    have hjl : j < dims.length := by
      have := (List.getElem?_eq_some_iff.1 hj).1
      rwa [List.length_reverse, hlen] at this
    rw [List.getElem?_reverse (by rw [hlen]; exact hjl), hlen] at hj
    have := hok _ lv hj
    rwa [show dims.length - 1 - j + 1 = dims.length - j by omega] at this) (by simp)
  rw [List.length_reverse, hlen] at g3 g5
  simp only [zero_add, List.append_nil] at g1 g4 g5
  have e : cutBranches (contributions dims.length t) tol = new := by unfold cutBranches; rw [g1]
  intro cuts
  have ec : cuts = new := e
  rw [ec]
  exact ⟨g2, fun q hq => ⟨⟨(g3 q hq).1, (g3 q hq).2.1, (g3 q hq).2.2.1⟩, (g3 q hq).2.2.2⟩, g4, fun q hq => g5 q hq.1 hq.2.1 hq.2.2⟩

end Qudits
