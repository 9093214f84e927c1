import Verif.Spec.QasmText
import Verif.Lemmas.QasmText

/-
What the reader does with a written gate line.
-/
namespace Qudits.Qasm
open Re Qudits

theorem word_ne {x : Char} (h : isWord x = true) {y : Char} (hy : isWord y = false) : x ≠ y := by
  rintro rfl
  rw [hy] at h
  cases h

theorem fst_qudit_then {k : Re} {s : Text} (hs : Ident s) (i : Nat) {t u : Text} {c c'}
    (hk : Fst k t c u c') :
    Fst (.seq word (.seq (ch '[') (.seq num (.seq (ch ']') k)))) (qtext s i ++ t) c u c' := by
  have e : qtext s i ++ t = s ++ '[' :: (showNat i ++ ']' :: t) := by simp [qtext]
  rw [e]
  exact fst_seq (fst_word _ _ _ hs (head_cons (by decide))) (fst_seq (fst_ch _ _ _)
    (fst_seq (fst_num _ _ _ (head_cons (by decide))) (fst_seq (fst_ch _ _ _) hk)))

theorem fst_qudit_end {s : Text} (hs : Ident s) (i : Nat) (t : Text) (c) :
    Fst (.seq word (.seq (ch '[') (.seq num (ch ']')))) (qtext s i ++ t) c t c := by
  have e : qtext s i ++ t = s ++ '[' :: (showNat i ++ ']' :: t) := by simp [qtext]
  rw [e]
  exact fst_seq (fst_word _ _ _ hs (head_cons (by decide))) (fst_seq (fst_ch _ _ _)
    (fst_seq (fst_num _ _ _ (head_cons (by decide))) (fst_ch _ _ _)))

theorem head_qtext {p : Char → Bool} (h : ∀ x, isWord x = true → p x = false) {s : Text} (hs : Ident s)
    (i : Nat) (t : Text) : ∀ x v, qtext s i ++ t = x :: v → p x = false := by
  have e : qtext s i ++ t = s ++ ('[' :: showNat i ++ [']'] ++ t) := by simp [qtext]
  rw [e]
  exact head_ident h hs _

/-- further targets, each preceded by a comma and a space -/
def moreTargets (ts : List (Text × Nat)) : Text := (ts.map fun x => ',' :: ' ' :: qtext x.1 x.2).flatten

theorem fst_star_targets (ts : List (Text × Nat)) (hts : ∀ x ∈ ts, Ident x.1) (t : Text) (c : Caps)
    (ht : ∀ x v, t = x :: v → x ≠ ',') :
    ∃ c', Fst (.star (.grp 4 (cat [ch ',', sp, word, ch '[', num, ch ']'])))
      (moreTargets ts ++ t) c t c' ∧ ∀ n, n ≠ 4 → group c' n = group c n := by
  induction ts generalizing c with
  | nil =>
    refine ⟨c, ?_, fun _ _ => rfl⟩
    apply fst_star_stop
    apply none_grp
    apply none_seq
    apply none_cls
    intro x v e
    simpa using ht x v e
  | cons x ts ih =>
    obtain ⟨c', h1, h2⟩ := ih (fun y hy => hts y (by simp [hy])) ((4, ',' :: ' ' :: qtext x.1 x.2) :: c)
    have e : moreTargets (x :: ts) ++ t = (',' :: ' ' :: qtext x.1 x.2) ++ (moreTargets ts ++ t) := by
      simp [moreTargets]
    refine ⟨c', ?_, ?_⟩
    · rw [e]
      refine fst_star_step (fst_grp 4 rfl (fst_seq (fst_ch _ _ _) (fst_seq (fst_space _ _ ?_)
        (fst_qudit_end (hts x (by simp)) _ _ _)))) (by simp; omega) h1
      exact head_qtext (fun y => word_not_space) (hts x (by simp)) _ _
    · intro n hn
      rw [h2 n hn, group_cons_ne _ _ _ _ (Ne.symm hn)]

/-- the written parameter part -/
def paramText : Option Text → Text
  | none => []
  | some P => '(' :: P ++ ") ".toList

/-- the pattern up to the end of the target list -/
theorem gate_front {k : Re} (tag : Text) (htag : Ident tag) (P : Option Text) (hP : ∀ p, P = some p → ')' ∉ p)
    (s : Text) (rest u : Text) (hs : ∀ x v, s ++ rest = x :: v → isWord x = true) (hne : s ≠ [])
    (T : Caps → Caps → Prop) (r3 : Re)
    (h3 : ∀ c, ∃ c', Fst r3 (s ++ rest) c rest c' ∧ T c c')
    (hk : ∀ c, ∃ c', Fst k rest c u c' ∧ ∀ n, n ≤ 3 → group c' n = group c n) :
    ∃ c0 c1 c2, Fst (.seq (.grp 1 word) (.seq sp (.seq (.opt (cat [ch '(',
      .grp 2 (.star (.cls (fun c => c != ')'))), ch ')'])) (.seq sp (.seq (.grp 3 r3) k)))))
      (tag ++ ' ' :: (paramText P ++ (s ++ rest))) [] u c2 ∧ T c0 c1 ∧
      group c0 1 = some tag ∧ group c0 2 = P ∧ (∀ n, 3 ≤ n → group c0 n = none) ∧
      Fst k rest ((3, s) :: c1) u c2 := by
  have hsp : ∀ x v, s ++ rest = x :: v → isSpace x = false := fun x v e => word_not_space (hs x v e)
  cases P with
  | none =>
    obtain ⟨c1, h1, hT⟩ := h3 [(1, tag)]
    obtain ⟨c2, h2, _⟩ := hk ((3, s) :: c1)
    refine ⟨[(1, tag)], c1, c2, ?_, hT, by simp [group], by simp [group], ?_, h2⟩
    · show Fst _ (tag ++ ' ' :: (s ++ rest)) _ _ _
      refine fst_seq (fst_grp 1 rfl (fst_word _ _ _ htag (head_cons (by decide)))) (fst_seq
        (fst_space _ _ hsp) (fst_seq (fst_opt_none ?_) (fst_seq (fst_nospace _ _ hsp)
          (fst_seq (fst_grp 3 (u := s) rfl h1) h2))))
      apply none_seq
      apply none_cls
      intro x v e
      have := word_ne (hs x v e) (y := '(') (by decide)
      simpa using this
    · intro n hn
      have : (1 : Nat) ≠ n := by omega
      simp [group, this]
  | some p =>
    obtain ⟨c1, h1, hT⟩ := h3 [(2, p), (1, tag)]
    obtain ⟨c2, h2, _⟩ := hk ((3, s) :: c1)
    refine ⟨[(2, p), (1, tag)], c1, c2, ?_, hT, by simp [group], by simp [group], ?_, h2⟩
    · have e : paramText (some p) ++ (s ++ rest) = '(' :: (p ++ ')' :: (' ' :: (s ++ rest))) := by
        simp [paramText]
      rw [e]
      refine fst_seq (fst_grp 1 rfl (fst_word _ _ _ htag (head_cons (by decide)))) (fst_seq
        (fst_space _ _ (head_cons (by decide))) (fst_seq (fst_opt (fst_seq (fst_ch _ _ _)
          (fst_seq (fst_grp 2 rfl (fst_star_cls p _ _ ?_ (head_cons (by decide)))) (fst_ch _ _ _))))
          (fst_seq (fst_space _ _ hsp) (fst_seq (fst_grp 3 rfl h1) h2))))
      intro x hx
      have : x ≠ ')' := by rintro rfl; exact hP p rfl hx
      simpa using this
    · intro n hn
      have h1 : (1 : Nat) ≠ n := by omega
      have h2 : (2 : Nat) ≠ n := by omega
      simp [group, h1, h2]

/-- the target list as text -/
def targetText (t : Text × Nat) (ts : List (Text × Nat)) : Text := qtext t.1 t.2 ++ moreTargets ts

theorem joinComma_targets (t : Text × Nat) (ts : List (Text × Nat)) :
    joinComma ((t :: ts).map fun x => qtext x.1 x.2) = targetText t ts := by
  rw [List.map_cons, joinComma_cons]
  simp [targetText, moreTargets, Function.comp_def]

theorem qtext_ne_nil (s : Text) (i : Nat) : qtext s i ≠ [] := by simp [qtext]

theorem head_targets {t : Text × Nat} (ht : Ident t.1) (ts : List (Text × Nat)) (rest : Text) :
    ∀ x v, targetText t ts ++ rest = x :: v → isWord x = true := by
  intro x v e
  have h := head_qtext (p := fun y => !isWord y) (fun y hy => by simp [hy]) ht t.2 (moreTargets ts ++ rest) x v
    (by rw [← e]; simp [targetText])
  simpa using h

/-- the pattern on a written line without controls -/
theorem gate_match (tag : Text) (htag : Ident tag) (P : Option Text) (hP : ∀ p, P = some p → ')' ∉ p)
    (t : Text × Nat) (ts : List (Text × Nat)) (hts : ∀ x ∈ t :: ts, Ident x.1) :
    ∃ c, Rgx.gate.search (tag ++ ' ' :: (paramText P ++ (targetText t ts ++ ";".toList))) = some ([], c) ∧
      group c 1 = some tag ∧ group c 2 = P ∧ group c 3 = some (targetText t ts) ∧ group c 5 = none ∧
      group c 8 = none := by
  obtain ⟨c0, c1, c2, h, hT, g1, g2, g3, hk⟩ := gate_front (u := []) (k := cat [sp,
      .opt (.grp 5 (cat [lit "ctl".toList,
        .grp 6 (cat [sp1, word, ch '[', num, ch ']', sp,
          .star (.grp 7 (cat [sp, word, sp, ch '[', num, ch ']']))]), sp,
        .grp 8 (cat [ch '[', .grp 9 (cat [num, .star (.grp 10 (cat [ch ',', sp, num]))]), ch ']'])])),
      sp, ch ';']) tag htag P hP (targetText t ts) ";".toList
    (head_targets (hts t (by simp)) ts _) (by simp [targetText, qtext])
    (fun c c' => ∀ n, n ≠ 4 → group c' n = group c n)
    (cat [word, ch '[', num, ch ']', sp, .star (.grp 4 (cat [ch ',', sp, word, ch '[', num, ch ']']))])
    (fun c => by
      obtain ⟨c', h1, h2⟩ := fst_star_targets ts (fun x hx => hts x (by simp [hx])) ";".toList c
        (fun x v e => by cases e; decide)
      refine ⟨c', ?_, h2⟩
      rw [targetText, List.append_assoc]
      refine fst_qudit_then (hts t (by simp)) t.2 (fst_seq (fst_nospace _ _ ?_) h1)
      cases ts with
      | nil => exact head_cons (by decide)
      | cons y ys => exact head_cons (by decide))
    (fun c => ⟨c, fst_seq (fst_nospace _ _ (head_cons (by decide))) (fst_seq
      (fst_opt_none (none_grp 5 (none_seq (none_lit _ _ _ (by decide)))))
      (fst_seq (fst_nospace _ _ (head_cons (by decide))) (fst_ch _ _ _))), fun _ _ => rfl⟩)
  have hk2 : c2 = (3, targetText t ts) :: c1 := by
    have h' : Fst (cat [sp, .opt (.grp 5 (cat [lit "ctl".toList,
        .grp 6 (cat [sp1, word, ch '[', num, ch ']', sp,
          .star (.grp 7 (cat [sp, word, sp, ch '[', num, ch ']']))]), sp,
        .grp 8 (cat [ch '[', .grp 9 (cat [num, .star (.grp 10 (cat [ch ',', sp, num]))]), ch ']'])])),
        sp, ch ';']) ";".toList ((3, targetText t ts) :: c1) [] ((3, targetText t ts) :: c1) :=
      fst_seq (fst_nospace _ _ (head_cons (by decide))) (fst_seq
      (fst_opt_none (none_grp 5 (none_seq (none_lit _ _ _ (by decide)))))
      (fst_seq (fst_nospace _ _ (head_cons (by decide))) (fst_ch _ _ _)))
    have := hk.symm.trans h'
    simpa using this
  refine ⟨c2, search_of_fst h, ?_⟩
  subst hk2
  have e1 : ∀ n, n ≠ 3 → n ≠ 4 → group ((3, targetText t ts) :: c1) n = group c0 n := by
    intro n h3 h4
    rw [group_cons_ne _ _ _ _ (Ne.symm h3), hT n h4]
  refine ⟨(e1 1 (by decide) (by decide)).trans g1, (e1 2 (by decide) (by decide)).trans g2,
    group_cons_self _ _ _, (e1 5 (by decide) (by decide)).trans (g3 5 (by decide)),
    (e1 8 (by decide) (by decide)).trans (g3 8 (by decide))⟩

/-! ### targets and parameters -/

/-- one target text, possibly after a space -/
theorem parseTarget_ok (m : PyDict (String × Nat) (Nat × Nat)) (s : String) (hs : Ident s.toList) (i : Nat)
    (site : Nat × Nat) (h : m.get? (s, i) = some site) (lead : Text) (hl : lead = [] ∨ lead = [' ']) :
    parseTarget m (lead ++ qtext s.toList i) = .ok (some site) := by
  obtain ⟨b, hb, hb1⟩ := bracketed_search i
  have hm : Rgx.qregIndexing.matchAt (lead ++ qtext s.toList i)
      = some ([], [(2, '[' :: showNat i ++ [']']), (1, s.toList)]) := by
    apply matchAt_of_fst
    have e : qtext s.toList i = s.toList ++ ('[' :: (showNat i ++ [']'])) := by simp [qtext]
    rw [e]
    refine fst_seq (t := s.toList ++ ('[' :: (showNat i ++ [']']))) (c' := []) ?_
      (fst_seq (fst_grp 1 rfl (fst_word _ _ _ hs (head_cons (by decide)))) (fst_seq
        (fst_nospace _ _ (head_cons (by decide))) (fst_grp 2 (u := '[' :: showNat i ++ [']']) (by simp)
          (fst_seq (fst_ch _ _ _) (fst_seq (fst_nospace _ _ (head_num (fun x => digit_not_space) _ _))
            (fst_seq (fst_num _ _ _ (head_cons (by decide)))
              (fst_seq (fst_nospace _ _ (head_cons (by decide))) (fst_ch _ _ _))))))))
    rcases hl with rfl | rfl
    · exact fst_nospace _ _ (head_ident (fun x => word_not_space) hs _)
    · exact fst_space _ _ (head_ident (fun x => word_not_space) hs _)
  unfold parseTarget
  rw [hm]
  simp only [lookupSite, group_cons_self, group_cons_ne _ _ _ _ (show (2 : Nat) ≠ 1 by decide),
    Option.getD_some, hb, hb1, pyInt_showNat, String.ofList_toList, bind, Except.bind, h]
  rfl

theorem comma_not_qtext {s : Text} (hs : Ident s) (i : Nat) : ',' ∉ qtext s i := by
  have h1 : ',' ∉ s := not_mem_of_class hs.2 (by decide)
  have h2 : ',' ∉ showNat i := not_mem_of_class (showNat_digit i) (by decide)
  simp [qtext, h1, h2]

/-- splitting a list written with `", "` at the commas -/
theorem split_joinComma (x : Text) (xs : List Text) (h : ∀ y ∈ x :: xs, ',' ∉ y) :
    splitChar ',' (joinComma (x :: xs)) = x :: xs.map (fun y => ' ' :: y) := by
  induction xs generalizing x with
  | nil => simpa [joinComma] using splitChar_single ',' x (h x (by simp))
  | cons y ys ih =>
    have e : joinComma (x :: y :: ys) = x ++ ',' :: (' ' :: joinComma (y :: ys)) := by simp [joinComma]
    rw [e, splitChar_append _ _ _ (h x (by simp))]
    have h' := ih y fun z hz => h z (by simp at hz ⊢; tauto)
    have hsp : splitChar ',' (' ' :: joinComma (y :: ys)) = (' ' :: y) :: ys.map (fun y => ' ' :: y) := by
      simp [splitChar, h']
    rw [hsp]
    rfl

theorem parseTargets_ok (m : PyDict (String × Nat) (Nat × Nat)) (t : String × Nat) (ts : List (String × Nat))
    (hts : ∀ x ∈ t :: ts, Ident x.1.toList) (sites : List (Nat × Nat))
    (hm : (t :: ts).map m.get? = sites.map some) :
    (splitChar ',' (targetText (t.1.toList, t.2) (ts.map fun x => (x.1.toList, x.2)))).mapM (parseTarget m)
      = .ok (sites.map some) := by
  have key : ∀ (ts : List (String × Nat)) (sites : List (Nat × Nat)), (∀ x ∈ ts, Ident x.1.toList) →
      ts.map m.get? = sites.map some →
      (ts.map fun x => ' ' :: qtext x.1.toList x.2).mapM (parseTarget m) = .ok (sites.map some) := by
    intro ts
    induction ts with
    | nil =>
      intro sites _ h
      cases sites with
      | nil => rfl
      | cons => simp at h
    | cons y ys ih =>
      intro sites hi h
      cases sites with
      | nil => simp at h
      | cons st sites =>
        simp only [List.map_cons, List.cons.injEq] at h
        simp only [List.map_cons, List.mapM_cons, ih sites (fun z hz => hi z (by simp [hz])) h.2]
        rw [show (' ' :: qtext y.1.toList y.2) = [' '] ++ qtext y.1.toList y.2 from rfl,
          parseTarget_ok m y.1 (hi y (by simp)) y.2 st h.1 [' '] (Or.inr rfl)]
        rfl
  rw [← joinComma_targets, List.map_cons, split_joinComma]
  · cases sites with
    | nil => simp at hm
    | cons st sites =>
      simp only [List.map_cons, List.cons.injEq] at hm
      have := parseTarget_ok m t.1 (hts t (by simp)) t.2 st hm.1 [] (Or.inl rfl)
      simp only [List.nil_append] at this
      simp only [List.mapM_cons, this, List.map_map, Function.comp_def]
      rw [key ts sites (fun z hz => hts z (by simp [hz])) hm.2]
      rfl
  · intro y hy
    simp only [List.map_map, Function.comp_def, List.mem_cons, List.mem_map] at hy
    rcases hy with rfl | ⟨z, hz, rfl⟩
    · exact comma_not_qtext (hts t (by simp)) _
    · exact comma_not_qtext (hts z (by simp [hz])) _

theorem hasSub_mem (sub s : Text) (h : hasSub sub s = true) : ∀ x ∈ sub, x ∈ s := by
  induction s with
  | nil =>
    intro x hx
    simp only [hasSub, List.isEmpty_iff] at h
    subst h
    exact hx
  | cons y s ih =>
    intro x hx
    simp only [hasSub, Bool.or_eq_true, List.isPrefixOf_iff_prefix] at h
    rcases h with h | h
    · exact h.subset hx
    · exact List.mem_cons_of_mem _ (ih h x hx)

theorem joinComma_mem (xs : List Text) (x : Char) (h : x ∈ joinComma xs) :
    x = ',' ∨ x = ' ' ∨ ∃ y ∈ xs, x ∈ y := by
  cases xs with
  | nil => simp [joinComma] at h
  | cons y ys =>
    rw [joinComma_cons] at h
    simp only [List.mem_append, List.mem_flatten, List.mem_map] at h
    rcases h with h | ⟨l, ⟨z, hz, rfl⟩, hx⟩
    · exact Or.inr (Or.inr ⟨y, by simp, h⟩)
    · simp only [List.mem_cons] at hx
      rcases hx with rfl | rfl | hx
      · exact Or.inl rfl
      · exact Or.inr (Or.inl rfl)
      · exact Or.inr (Or.inr ⟨z, by simp [hz], hx⟩)

theorem joinComma_head (x : Text) (xs : List Text) (hx : x ≠ []) :
    ∃ a t, joinComma (x :: xs) = a :: t ∧ a ∈ x := by
  rw [joinComma_cons]
  cases x with
  | nil => exact absurd rfl hx
  | cons a t => exact ⟨a, _, rfl, by simp⟩

theorem joinComma_last (x : Text) (xs : List Text) (h : ∀ y ∈ x :: xs, y ≠ []) (a : Char) (t : Text)
    (e : joinComma (x :: xs) = t ++ [a]) : ∃ y ∈ x :: xs, a ∈ y := by
  induction xs generalizing x t with
  | nil => exact ⟨x, by simp, by simp only [joinComma] at e; rw [e]; simp⟩
  | cons y ys ih =>
    have e' : joinComma (x :: y :: ys) = (x ++ [',', ' ']) ++ joinComma (y :: ys) := by simp [joinComma]
    rw [e'] at e
    have hne : joinComma (y :: ys) ≠ [] := by
      obtain ⟨b, u, hb, _⟩ := joinComma_head y ys (h y (by simp))
      rw [hb]; simp
    obtain ⟨w, b, hw⟩ : ∃ w b, joinComma (y :: ys) = w ++ [b] :=
      ⟨_, _, (List.dropLast_append_getLast hne).symm⟩
    rw [hw, ← List.append_assoc] at e
    have hab : b = a := by
      have := congrArg List.getLast? e
      rw [List.getLast?_concat, List.getLast?_concat] at this
      exact Option.some.inj this
    subst hab
    obtain ⟨z, hz, hbz⟩ := ih y (fun z hz => h z (by simp at hz ⊢; tauto)) w hw
    exact ⟨z, by simp at hz ⊢; tauto, hbz⟩

/-- the tuple read from a written parameter list -/
theorem parseParams_ok (F : PyFloat) (x : Text) (xs : List Text) (h : ∀ y ∈ x :: xs, Clean y) :
    parseParams F (some (joinComma (x :: xs))) = (x :: xs.map fun y => ' ' :: y).mapM F.eval := by
  have hsub : hasSub ".npy".toList (joinComma (x :: xs)) = false := by
    cases hh : hasSub ".npy".toList (joinComma (x :: xs)) with
    | false => rfl
    | true =>
      have := hasSub_mem _ _ hh 'y' (by decide)
      rcases joinComma_mem _ _ this with h' | h' | ⟨y, hy, h'⟩
      · exact absurd h' (by decide)
      · exact absurd h' (by decide)
      · exact absurd ((h y hy).2 'y' h') (by simp)
  have hstrip : stripWith (fun c => c == '(' || c == ')' || c == '[' || c == ']') (joinComma (x :: xs))
      = joinComma (x :: xs) := by
    have nb : ∀ y ∈ x :: xs, ∀ a ∈ y, (a == '(' || a == ')' || a == '[' || a == ']') = false := by
      intro y hy a ha
      have := (h y hy).2 a ha
      simp only [List.mem_cons, not_or] at this
      simp [this.2.1, this.2.2.1, this.2.2.2.1, this.2.2.2.2.1]
    apply stripWith_id
    · intro a t e
      obtain ⟨b, u, hb, hbx⟩ := joinComma_head x xs (h x (by simp)).1
      rw [hb] at e
      cases e
      exact nb x (by simp) _ hbx
    · intro a t e
      obtain ⟨y, hy, hay⟩ := joinComma_last x xs (fun y hy => (h y hy).1) a t e
      exact nb y hy a hay
  obtain ⟨b, u, hb, hbx⟩ := joinComma_head x xs (h x (by simp)).1
  have hsplit := split_joinComma x xs (fun y hy hc => absurd ((h y hy).2 ',' hc) (by simp))
  rw [hb] at hsub hstrip hsplit ⊢
  simp only [parseParams, hsub, hstrip, hsplit]
  rfl

/-- `parse_gate` on a written line without controls -/
theorem parseGate_plain (F : PyFloat) (tag : Text) (htag : Ident tag) (ps : List Text) (hps : ∀ y ∈ ps, Clean y)
    (t : String × Nat) (ts : List (String × Nat)) (hts : ∀ x ∈ t :: ts, Ident x.1.toList)
    (m : PyDict (String × Nat) (Nat × Nat)) (sites : List (Nat × Nat))
    (hm : (t :: ts).map m.get? = sites.map some) :
    parseGate F (tag ++ ' ' :: (paramText (if ps.isEmpty then none else some (joinComma ps)) ++
        (targetText (t.1.toList, t.2) (ts.map fun x => (x.1.toList, x.2)) ++ ";".toList))) m
      = (fun v => some ⟨tag, v, sites, none⟩) <$>
        (match ps with
          | [] => []
          | y :: ys => y :: ys.map fun y => ' ' :: y).mapM F.eval := by
  have hP : ∀ p, (if ps.isEmpty then none else some (joinComma ps)) = some p → ')' ∉ p := by
    intro p hp hc
    split at hp
    · cases hp
    · cases hp
      rcases joinComma_mem _ _ hc with h' | h' | ⟨y, hy, h'⟩
      · exact absurd h' (by decide)
      · exact absurd h' (by decide)
      · exact absurd ((hps y hy).2 ')' h') (by simp)
  obtain ⟨c, hc, g1, g2, g3, g5, g8⟩ := gate_match tag htag (if ps.isEmpty then none else some (joinComma ps)) hP
    (t.1.toList, t.2) (ts.map fun x => (x.1.toList, x.2)) (by
      intro x hx
      simp only [List.mem_cons, List.mem_map] at hx
      rcases hx with rfl | ⟨y, hy, rfl⟩
      · exact hts t (by simp)
      · exact hts y (by simp [hy]))
  unfold parseGate
  rw [hc]
  simp only [g1, g2, g3, g5, g8, Option.getD_some]
  have hpar : parseParams F (if ps.isEmpty then none else some (joinComma ps))
      = (match ps with
          | [] => []
          | y :: ys => y :: ys.map fun y => ' ' :: y).mapM F.eval := by
    cases ps with
    | nil => rfl
    | cons y ys => exact parseParams_ok F y ys hps
  rw [hpar, parseTargets_ok m t ts hts sites hm]
  cases (match ps with
          | [] => []
          | y :: ys => y :: ys.map fun y => ' ' :: y).mapM F.eval with
  | error e => rfl
  | ok v =>
    simp [bind, Except.bind, pure, Except.pure, Functor.map, Except.map, List.filterMap_map]

end Qudits.Qasm
