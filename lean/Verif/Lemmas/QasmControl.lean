import Verif.Lemmas.QasmProgram

/-
The gate pattern on written lines with controls.
-/
namespace Qudits.Qasm
open Re Qudits Spec

/-- further level numbers -/
def moreNums (ns : List Nat) : Text := (ns.map fun n => ',' :: ' ' :: showNat n).flatten

theorem fst_star_levels (ns : List Nat) (t : Text) (c : Caps)
    (ht : ∀ x v, t = x :: v → isDigit x = false ∧ x ≠ ',') :
    ∃ c', Fst (.star (.grp 10 (cat [ch ',', sp, num]))) (moreNums ns ++ t) c t c' ∧
      ∀ n, n ≠ 10 → group c' n = group c n := by
  induction ns generalizing c with
  | nil =>
    refine ⟨c, fst_star_stop (none_grp 10 (none_seq (none_cls ?_))), fun _ _ => rfl⟩
    intro x v e
    simpa using (ht x v e).2
  | cons n ns ih =>
    obtain ⟨c', h1, h2⟩ := ih ((10, ',' :: ' ' :: showNat n) :: c)
    have e : moreNums (n :: ns) ++ t = (',' :: ' ' :: showNat n) ++ (moreNums ns ++ t) := by simp [moreNums]
    refine ⟨c', ?_, ?_⟩
    · rw [e]
      refine fst_star_step (fst_grp 10 rfl (fst_seq (fst_ch _ _ _) (fst_seq (fst_space _ _ ?_)
        (fst_num n _ _ ?_)))) (by simp; omega) h1
      · exact head_num (fun x => digit_not_space) n _
      · cases ns with
        | nil => intro x v h; exact (ht x v (by simpa [moreNums] using h)).1
        | cons m ms => exact head_cons (by decide)
    · intro m hm
      rw [h2 m hm, group_cons_ne _ _ _ _ (Ne.symm hm)]

/-- further controls, each preceded by a space -/
def moreCtl (cs : List (Text × Nat)) : Text := (cs.map fun x => ' ' :: qtext x.1 x.2).flatten

theorem word_fails {t : Text} {c} {k : Re} :
    (Re.seq sp (Re.seq word k)).run (' ' :: '[' :: t) c = [] := by
  apply none_seq'
  intro x hx
  obtain ⟨u, hu, hsp, hc⟩ := mem_starRun_cls _ _ _ _ hx
  apply none_seq
  apply none_plus_cls
  intro y v e
  cases u with
  | nil =>
    rw [List.nil_append] at hu
    rw [← hu] at e
    cases e
    decide
  | cons a u =>
    cases u with
    | nil =>
      simp only [List.cons_append, List.nil_append, List.cons.injEq] at hu
      rw [← hu.2] at e
      cases e
      decide
    | cons b u =>
      simp only [List.cons_append, List.cons.injEq] at hu
      have h2 := hsp b (by simp)
      rw [← hu.2.1] at h2
      exact absurd h2 (by decide)

theorem fst_star_ctl (cs : List (Text × Nat)) (hcs : ∀ x ∈ cs, Ident x.1) (t : Text) (c : Caps) :
    ∃ c', Fst (.star (.grp 7 (cat [sp, word, sp, ch '[', num, ch ']']))) (moreCtl cs ++ ' ' :: '[' :: t) c
        (' ' :: '[' :: t) c' ∧ ∀ n, n ≠ 7 → group c' n = group c n := by
  induction cs generalizing c with
  | nil => exact ⟨c, fst_star_stop (none_grp 7 word_fails), fun _ _ => rfl⟩
  | cons x cs ih =>
    obtain ⟨c', h1, h2⟩ := ih (fun y hy => hcs y (by simp [hy])) ((7, ' ' :: qtext x.1 x.2) :: c)
    have e : moreCtl (x :: cs) ++ ' ' :: '[' :: t = (' ' :: qtext x.1 x.2) ++ (moreCtl cs ++ ' ' :: '[' :: t) := by
      simp [moreCtl]
    have e2 : (' ' :: qtext x.1 x.2) ++ (moreCtl cs ++ ' ' :: '[' :: t)
        = ' ' :: (x.1 ++ ('[' :: (showNat x.2 ++ (']' :: (moreCtl cs ++ ' ' :: '[' :: t))))) := by simp [qtext]
    refine ⟨c', ?_, ?_⟩
    · rw [e]
      refine fst_star_step (t := moreCtl cs ++ ' ' :: '[' :: t) (fst_grp 7 rfl ?_) (by simp) h1
      rw [e2]
      exact fst_seq (fst_space _ _ (head_ident (fun y => word_not_space) (hcs x (by simp)) _)) (fst_seq
        (fst_word _ _ _ (hcs x (by simp)) (head_cons (by decide))) (fst_seq (fst_nospace _ _ (head_cons (by decide)))
          (fst_seq (fst_ch _ _ _) (fst_seq (fst_num _ _ _ (head_cons (by decide))) (fst_ch _ _ _)))))
    · intro m hm
      rw [h2 m hm, group_cons_ne _ _ _ _ (Ne.symm hm)]

/-- the written controls -/
def ctlText (cs : List (Text × Nat)) : Text := (cs.map fun x => qtext x.1 x.2 ++ [' ']).flatten

/-- what the pattern takes as the list of controls -/
def ctlSeen : List (Text × Nat) → Text
  | [] => []
  | [x] => ' ' :: (qtext x.1 x.2 ++ [' '])
  | x :: y :: cs => ' ' :: (qtext x.1 x.2 ++ ' ' :: (qtext y.1 y.2 ++ moreCtl cs))

theorem ctlText_cons (x : Text × Nat) (cs : List (Text × Nat)) :
    ctlText (x :: cs) = qtext x.1 x.2 ++ (moreCtl cs ++ [' ']) := by
  induction cs generalizing x with
  | nil => simp [ctlText, moreCtl]
  | cons y cs ih =>
    have e : ctlText (x :: y :: cs) = qtext x.1 x.2 ++ ' ' :: ctlText (y :: cs) := by simp [ctlText]
    rw [e, ih y]
    simp [moreCtl]

/-- the control part of the pattern up to the list of levels -/
theorem fst_ctl {k : Re} (x : Text × Nat) (cs : List (Text × Nat)) (hcs : ∀ y ∈ x :: cs, Ident y.1) (t u : Text)
    (c : Caps) (T : Caps → Caps → Prop)
    (hk : ∀ c, ∃ c', Fst k ('[' :: t) c u c' ∧ T c c') :
    ∃ c1 c2, Fst (.seq (.grp 6 (cat [sp1, word, ch '[', num, ch ']', sp,
      .star (.grp 7 (cat [sp, word, sp, ch '[', num, ch ']']))])) (.seq sp k))
      (' ' :: (ctlText (x :: cs) ++ '[' :: t)) c u c2 ∧ T ((6, ctlSeen (x :: cs)) :: c1) c2 ∧
      ∀ n, n ≠ 7 → group c1 n = group c n := by
  have hx := hcs x (by simp)
  cases cs with
  | nil =>
    obtain ⟨c2, h2, hT⟩ := hk ((6, ctlSeen [x]) :: c)
    refine ⟨c, c2, ?_, hT, fun _ _ => rfl⟩
    have e : ' ' :: (ctlText [x] ++ '[' :: t) = ' ' :: (qtext x.1 x.2 ++ ' ' :: '[' :: t) := by
      simp [ctlText]
    rw [e]
    refine fst_seq (t := '[' :: t) (fst_grp 6 (u := ctlSeen [x]) (by simp [ctlSeen]) (fst_seq
      (fst_space1 _ _ (head_qtext (fun y => word_not_space) hx _ _))
      (fst_qudit_then hx _ (fst_seq (fst_space _ _ (head_cons (by decide))) (fst_star_stop ?_)))))
      (fst_seq (fst_nospace _ _ (head_cons (by decide))) h2)
    apply none_grp
    apply none_seq'
    intro y hy
    obtain ⟨v, hv, hsp, hc⟩ := mem_starRun_cls _ _ _ _ hy
    apply none_seq
    apply none_plus_cls
    intro z w ez
    cases v with
    | nil =>
      rw [List.nil_append] at hv
      rw [← hv] at ez
      cases ez
      decide
    | cons a v =>
      simp only [List.cons_append, List.cons.injEq] at hv
      have h2 := hsp a (by simp)
      rw [← hv.1] at h2
      exact absurd h2 (by decide)
  | cons y cs =>
    have hy := hcs y (by simp)
    obtain ⟨c1, h1, hg⟩ := fst_star_ctl cs (fun z hz => hcs z (by simp [hz])) t ((7, qtext y.1 y.2) :: c)
    obtain ⟨c2, h2, hT⟩ := hk ((6, ctlSeen (x :: y :: cs)) :: c1)
    refine ⟨c1, c2, ?_, hT, ?_⟩
    · have e : ' ' :: (ctlText (x :: y :: cs) ++ '[' :: t)
          = ' ' :: (qtext x.1 x.2 ++ ' ' :: (qtext y.1 y.2 ++ (moreCtl cs ++ ' ' :: '[' :: t))) := by
        rw [ctlText_cons]
        simp [moreCtl]
      rw [e]
      refine fst_seq (t := ' ' :: '[' :: t) (fst_grp 6 (u := ctlSeen (x :: y :: cs)) (by simp [ctlSeen]) (fst_seq
        (fst_space1 _ _ (head_qtext (fun y => word_not_space) hx _ _))
        (fst_qudit_then hx _ (fst_seq (fst_space _ _ (head_qtext (fun y => word_not_space) hy _ _))
          (fst_star_step (t := moreCtl cs ++ ' ' :: '[' :: t) (fst_grp 7 rfl ?_) (by simp [qtext]; omega) h1)))))
        (fst_seq (fst_space _ _ (head_cons (by decide))) h2)
      have e2 : qtext y.1 y.2 ++ (moreCtl cs ++ ' ' :: '[' :: t)
        = y.1 ++ ('[' :: (showNat y.2 ++ (']' :: (moreCtl cs ++ ' ' :: '[' :: t)))) := by simp [qtext]
      rw [e2]
      exact fst_seq (fst_nospace _ _ (head_ident (fun z => word_not_space) hy _)) (fst_seq
        (fst_word _ _ _ hy (head_cons (by decide))) (fst_seq (fst_nospace _ _ (head_cons (by decide)))
          (fst_seq (fst_ch _ _ _) (fst_seq (fst_num _ _ _ (head_cons (by decide))) (fst_ch _ _ _)))))
    · intro n hn
      rw [hg n hn, group_cons_ne _ _ _ _ (Ne.symm hn)]

/-- the written levels -/
def levelText (l : Nat) (ls : List Nat) : Text := '[' :: (showNat l ++ (moreNums ls ++ [']']))

/-- the pattern on a written line with controls -/
theorem gate_match_ctl (tag : Text) (htag : Ident tag) (P : Option Text) (hP : ∀ p, P = some p → ')' ∉ p)
    (t : Text × Nat) (ht : Ident t.1) (x : Text × Nat) (cs : List (Text × Nat)) (hcs : ∀ y ∈ x :: cs, Ident y.1)
    (l : Nat) (ls : List Nat) :
    ∃ c, Rgx.gate.search (tag ++ ' ' :: (paramText P ++ ((qtext t.1 t.2 ++ [' ']) ++ ("ctl".toList ++
        ' ' :: (ctlText (x :: cs) ++ (levelText l ls ++ ";".toList)))))) = some ([], c) ∧
      group c 1 = some tag ∧ group c 2 = P ∧ group c 3 = some (qtext t.1 t.2 ++ [' ']) ∧ (group c 5).isSome ∧
      group c 6 = some (ctlSeen (x :: cs)) ∧ group c 8 = some (levelText l ls) := by
  -- the levels
  have h8 : ∀ c : Caps, ∃ c', Fst (.grp 8 (cat [ch '[', .grp 9 (cat [num, .star (.grp 10 (cat [ch ',', sp, num]))]),
      ch ']'])) ('[' :: (showNat l ++ (moreNums ls ++ [']']) ++ ";".toList)) c ";".toList c' ∧
      (group c' 8 = some (levelText l ls) ∧ ∀ n, n < 8 → group c' n = group c n) := by
    intro c
    obtain ⟨c', h1, hg⟩ := fst_star_levels ls (']' :: ";".toList) c (fun y v e => by cases e; decide)
    refine ⟨(8, levelText l ls) :: (9, showNat l ++ moreNums ls) :: c', ?_, group_cons_self _ _ _, ?_⟩
    · have e : '[' :: (showNat l ++ (moreNums ls ++ [']']) ++ ";".toList)
          = '[' :: (showNat l ++ (moreNums ls ++ ']' :: ";".toList)) := by simp
      rw [e]
      refine fst_grp 8 (u := levelText l ls) (by simp [levelText]) (fst_seq (fst_ch _ _ _) (fst_seq
        (fst_grp 9 (u := showNat l ++ moreNums ls) (by simp) (fst_seq (fst_num _ _ _ ?_) h1)) (fst_ch _ _ _)))
      cases ls with
      | nil => exact head_cons (by decide)
      | cons a b => exact head_cons (by decide)
    · intro n hn
      rw [group_cons_ne _ _ _ _ (by omega), group_cons_ne _ _ _ _ (by omega), hg n (by omega)]
  -- from `ctl` to the end of the line
  have hk : ∀ c : Caps, ∃ c', Fst (cat [sp, .opt (.grp 5 (cat [lit "ctl".toList,
        .grp 6 (cat [sp1, word, ch '[', num, ch ']', sp,
          .star (.grp 7 (cat [sp, word, sp, ch '[', num, ch ']']))]), sp,
        .grp 8 (cat [ch '[', .grp 9 (cat [num, .star (.grp 10 (cat [ch ',', sp, num]))]), ch ']'])])),
      sp, ch ';']) ("ctl".toList ++ ' ' :: (ctlText (x :: cs) ++ (levelText l ls ++ ";".toList))) c [] c' ∧
      ((∀ n, n ≤ 3 → group c' n = group c n) ∧ (group c' 5).isSome ∧ group c' 6 = some (ctlSeen (x :: cs)) ∧
        group c' 8 = some (levelText l ls)) := by
    intro c
    obtain ⟨c1, c2, h, ⟨hT8, hT⟩, hg⟩ := fst_ctl x cs hcs (showNat l ++ (moreNums ls ++ [']']) ++ ";".toList)
      ";".toList c _ h8
    refine ⟨(5, "ctl".toList ++ ' ' :: (ctlText (x :: cs) ++ levelText l ls)) :: c2, ?_, ?_, ?_, ?_, ?_⟩
    · exact fst_seq (fst_nospace _ _ (head_cons (by decide))) (fst_seq (fst_opt (fst_grp 5
        (u := "ctl".toList ++ ' ' :: (ctlText (x :: cs) ++ levelText l ls)) (by simp) (fst_seq (fst_lit _ _ _) h)))
        (fst_seq (fst_nospace _ _ (head_cons (by decide))) (fst_ch _ _ _)))
    · intro n hn
      rw [group_cons_ne _ _ _ _ (by omega), hT n (by omega), group_cons_ne _ _ _ _ (by omega), hg n (by omega)]
    · rw [group_cons_self]; rfl
    · rw [group_cons_ne _ _ _ _ (by omega), hT 6 (by omega), group_cons_self]
    · rw [group_cons_ne _ _ _ _ (by omega), hT8]
  obtain ⟨c0, c1, c2, h, hT, g1, g2, g3, hk'⟩ := gate_front (u := []) tag htag P hP (qtext t.1 t.2 ++ [' '])
    ("ctl".toList ++ ' ' :: (ctlText (x :: cs) ++ (levelText l ls ++ ";".toList)))
    (by
      intro z v e
      have := head_qtext (p := fun y => !isWord y) (fun y hy => by simp [hy]) ht t.2
        (' ' :: ("ctl".toList ++ ' ' :: (ctlText (x :: cs) ++ (levelText l ls ++ ";".toList)))) z v
        (by rw [← e]; simp)
      simpa using this)
    (by simp)
    (fun c c' => c' = c)
    (cat [word, ch '[', num, ch ']', sp, .star (.grp 4 (cat [ch ',', sp, word, ch '[', num, ch ']']))])
    (fun c => by
      refine ⟨c, ?_, rfl⟩
      have e : qtext t.1 t.2 ++ [' '] ++ ("ctl".toList ++ ' ' :: (ctlText (x :: cs) ++ (levelText l ls ++ ";".toList)))
        = qtext t.1 t.2 ++ ' ' :: ("ctl".toList ++ ' ' :: (ctlText (x :: cs) ++ (levelText l ls ++ ";".toList))) := by
        simp
      rw [e]
      exact fst_qudit_then ht _ (fst_seq (fst_space _ _ (head_cons (by decide))) (fst_star_stop (none_grp 4
        (none_seq (none_cls (head_cons (by decide))))))))
    (fun c => by
      obtain ⟨c', h1, h2, _⟩ := hk c
      exact ⟨c', h1, h2⟩)
  subst hT
  obtain ⟨c2', h2', i1, i5, i6, i8⟩ := hk ((3, qtext t.1 t.2 ++ [' ']) :: c1)
  have : c2 = c2' := by
    have := hk'.symm.trans h2'
    simpa using this
  subst this
  refine ⟨c2, search_of_fst h, ?_, ?_, ?_, i5, i6, i8⟩
  · rw [i1 1 (by omega), group_cons_ne _ _ _ _ (by omega), g1]
  · rw [i1 2 (by omega), group_cons_ne _ _ _ _ (by omega), g2]
  · rw [i1 3 (by omega), group_cons_self]

/-! ### the found controls and levels -/

theorem indexing_fst {s : Text} (hs : Ident s) (i : Nat) (lead t : Text) (hl : lead = [] ∨ lead = [' ']) :
    Fst Rgx.qregIndexing (lead ++ (qtext s i ++ t)) [] t [(2, '[' :: showNat i ++ [']']), (1, s)] := by
  have e : qtext s i ++ t = s ++ ('[' :: (showNat i ++ ']' :: t)) := by simp [qtext]
  rw [e]
  refine fst_seq (t := s ++ ('[' :: (showNat i ++ ']' :: t))) (c' := []) ?_
    (fst_seq (fst_grp 1 rfl (fst_word _ _ _ hs (head_cons (by decide)))) (fst_seq
      (fst_nospace _ _ (head_cons (by decide))) (fst_grp 2 (u := '[' :: showNat i ++ [']']) (by simp)
        (fst_seq (fst_ch _ _ _) (fst_seq (fst_nospace _ _ (head_num (fun x => digit_not_space) _ _))
          (fst_seq (fst_num _ _ _ (head_cons (by decide)))
            (fst_seq (fst_nospace _ _ (head_cons (by decide))) (fst_ch _ _ _))))))))
  rcases hl with rfl | rfl
  · exact fst_nospace _ _ (head_ident (fun x => word_not_space) hs _)
  · exact fst_space _ _ (head_ident (fun x => word_not_space) hs _)

theorem lookup_ok (m : PyDict (String × Nat) (Nat × Nat)) (s : String) (i : Nat) (site : Nat × Nat)
    (h : m.get? (s, i) = some site) :
    lookupSite m [(2, '[' :: showNat i ++ [']']), (1, s.toList)] = .ok (some site) := by
  obtain ⟨b, hb, hb1⟩ := bracketed_search i
  simp only [lookupSite, group_cons_self, group_cons_ne _ _ _ _ (show (2 : Nat) ≠ 1 by decide),
    Option.getD_some, hb, hb1, pyInt_showNat, String.ofList_toList, bind, Except.bind, h]
  rfl

theorem parseTarget_trail (m : PyDict (String × Nat) (Nat × Nat)) (s : String) (hs : Ident s.toList) (i : Nat)
    (site : Nat × Nat) (h : m.get? (s, i) = some site) (t : Text) :
    parseTarget m (qtext s.toList i ++ t) = .ok (some site) := by
  have hm := matchAt_of_fst (indexing_fst hs i [] t (Or.inl rfl))
  rw [List.nil_append] at hm
  unfold parseTarget
  rw [hm]
  exact lookup_ok m s i site h

theorem findall_ctl (s : Text) (hs : Ident s) (i k n : Nat) (t : Text) (ht : t = [] ∨ t = [' '])
    (hn : k + 1 ≤ n) :
    Rgx.qregIndexing.findall n (moreCtl (List.replicate k (s, i)) ++ t)
      = List.replicate k [(2, '[' :: showNat i ++ [']']), (1, s)] := by
  induction k generalizing n with
  | zero =>
    obtain ⟨n, rfl⟩ : ∃ m, n = m + 1 := ⟨n - 1, by omega⟩
    have h : Rgx.qregIndexing.search t = none := by
      rcases ht with rfl | rfl <;> decide
    have e : moreCtl (List.replicate 0 (s, i)) ++ t = t := by simp [moreCtl]
    rw [e]
    simp [Re.findall, h]
  | succ k ih =>
    obtain ⟨n, rfl⟩ : ∃ m, n = m + 1 := ⟨n - 1, by omega⟩
    have e : moreCtl (List.replicate (k + 1) (s, i)) ++ t
        = [' '] ++ (qtext s i ++ (moreCtl (List.replicate k (s, i)) ++ t)) := by
      simp [moreCtl, List.replicate_succ]
    rw [e]
    simp only [Re.findall, search_of_fst (indexing_fst hs i [' '] _ (Or.inr rfl))]
    rw [if_pos (by simp), ih n (by omega), List.replicate_succ]

theorem findall_ctlSeen (s : Text) (hs : Ident s) (i k : Nat) (n : Nat) (hn : k + 2 ≤ n) :
    Rgx.qregIndexing.findall n (ctlSeen (List.replicate (k + 1) (s, i)))
      = List.replicate (k + 1) [(2, '[' :: showNat i ++ [']']), (1, s)] := by
  cases k with
  | zero =>
    have := findall_ctl s hs i 1 n [' '] (Or.inr rfl) (by omega)
    simpa [ctlSeen, moreCtl, List.replicate_succ] using this
  | succ k =>
    have := findall_ctl s hs i (k + 2) n [] (Or.inl rfl) (by omega)
    have e : ctlSeen (List.replicate (k + 1 + 1) (s, i)) = moreCtl (List.replicate (k + 2) (s, i)) ++ [] := by
      simp [ctlSeen, moreCtl, List.replicate_succ]
    rw [e, this]

theorem length_ctlSeen (s : Text) (i k : Nat) : k + 1 ≤ (ctlSeen (List.replicate (k + 1) (s, i))).length := by
  cases k with
  | zero => simp [ctlSeen, List.replicate_succ]
  | succ k =>
    have e : ctlSeen (List.replicate (k + 1 + 1) (s, i)) = moreCtl (List.replicate (k + 2) (s, i)) := by
      simp [ctlSeen, moreCtl, List.replicate_succ]
    rw [e]
    have : ∀ j, j ≤ (moreCtl (List.replicate j (s, i))).length := by
      intro j
      induction j with
      | zero => omega
      | succ j ih =>
        have e : moreCtl (List.replicate (j + 1) (s, i)) = ' ' :: (qtext s i ++ moreCtl (List.replicate j (s, i))) := by
          simp [moreCtl, List.replicate_succ]
        rw [e]
        simp only [List.length_cons, List.length_append]
        omega
    exact this (k + 2)

theorem search_skip {r : Re} {x : Char} {s : Text} (h : r.run (x :: s) [] = []) : r.search (x :: s) = r.search s := by
  simp [Re.search, matchAt_none h]

theorem digits_skip (x : Char) (hx : isDigit x = false) (s : Text) :
    (Re.grp 0 Rgx.digits).search (x :: s) = (Re.grp 0 Rgx.digits).search s :=
  search_skip (none_grp 0 (none_plus_cls (head_cons hx)))

theorem digits_hit (n : Nat) (t : Text) (ht : ∀ x v, t = x :: v → isDigit x = false) :
    (Re.grp 0 Rgx.digits).search (showNat n ++ t) = some (t, [(0, showNat n)]) :=
  search_of_fst (fst_grp 0 rfl (fst_num n t [] ht))

theorem findall_moreNums (ls : List Nat) (n : Nat) (hn : ls.length + 1 ≤ n) :
    (Re.grp 0 Rgx.digits).findall n (moreNums ls ++ [']']) = ls.map fun l => [(0, showNat l)] := by
  induction ls generalizing n with
  | nil =>
    obtain ⟨n, rfl⟩ : ∃ m, n = m + 1 := ⟨n - 1, by omega⟩
    have h : (Re.grp 0 Rgx.digits).search [']'] = none := by decide
    show (Re.grp 0 Rgx.digits).findall (n + 1) [']'] = []
    simp only [Re.findall, h]
  | cons l ls ih =>
    obtain ⟨n, rfl⟩ : ∃ m, n = m + 1 := ⟨n - 1, by omega⟩
    have e : moreNums (l :: ls) ++ [']'] = ',' :: ' ' :: (showNat l ++ (moreNums ls ++ [']'])) := by simp [moreNums]
    simp only [List.length_cons] at hn
    have hh : ∀ x v, moreNums ls ++ [']'] = x :: v → isDigit x = false := by
      cases ls with
      | nil => exact head_cons (by decide)
      | cons a b => exact head_cons (by decide)
    rw [e]
    simp only [Re.findall]
    rw [digits_skip ',' (by decide), digits_skip ' ' (by decide), digits_hit l _ hh]
    simp only
    rw [if_pos (by simp; omega), ih n (by omega)]
    rfl

theorem findall_levels (l : Nat) (ls : List Nat) (n : Nat) (hn : ls.length + 2 ≤ n) :
    (Re.grp 0 Rgx.digits).findall n (levelText l ls) = (l :: ls).map fun l => [(0, showNat l)] := by
  obtain ⟨n, rfl⟩ : ∃ m, n = m + 1 := ⟨n - 1, by omega⟩
  have hh : ∀ x v, moreNums ls ++ [']'] = x :: v → isDigit x = false := by
    cases ls with
    | nil => exact head_cons (by decide)
    | cons a b => exact head_cons (by decide)
  unfold levelText
  simp only [Re.findall]
  rw [digits_skip '[' (by decide), digits_hit l _ hh]
  simp only
  rw [if_pos (by simp), findall_moreNums ls n (by omega)]
  rfl

theorem length_levelText (l : Nat) (ls : List Nat) : ls.length + 1 ≤ (levelText l ls).length := by
  have : ls.length ≤ (moreNums ls).length := by
    induction ls with
    | nil => simp
    | cons a ls ih =>
      have e : moreNums (a :: ls) = ',' :: ' ' :: (showNat a ++ moreNums ls) := by simp [moreNums]
      rw [e]
      simp only [List.length_cons, List.length_append]
      omega
  unfold levelText
  simp only [List.length_cons, List.length_append, List.length_nil]
  omega

theorem mapM_const_ok {α β : Type} (f : α → Except PyErr β) (l : List α) (g : α → β) (h : ∀ x ∈ l, f x = .ok (g x)) :
    l.mapM f = .ok (l.map g) := by
  induction l with
  | nil => rfl
  | cons a l ih =>
    rw [List.mapM_cons, h a (by simp), ih fun x hx => h x (by simp [hx])]
    rfl

/-- reading a written line with `k + 1` controls: every control is the target -/
theorem parseGate_ctl (F : PyFloat) (tag : Text) (htag : Ident tag) (ps : List Text) (hps : ∀ y ∈ ps, Clean y)
    (s : String) (i : Nat) (hs : Ident s.toList) (k l : Nat) (ls : List Nat)
    (m : PyDict (String × Nat) (Nat × Nat)) (site : Nat × Nat) (hm : m.get? (s, i) = some site) :
    parseGate F (tag ++ ' ' :: (paramText (if ps.isEmpty then none else some (joinComma ps)) ++
        ((qtext s.toList i ++ [' ']) ++ ("ctl".toList ++ ' ' ::
          (ctlText (List.replicate (k + 1) (s.toList, i)) ++ (levelText l ls ++ ";".toList)))))) m
      = (fun v => some ⟨tag, v, [site], some ⟨List.replicate (k + 1) (site.1 : Int),
          (l :: ls).map fun n : Nat => (n : Int)⟩⟩) <$>
        (match ps with
          | [] => []
          | y :: ys => y :: ys.map fun y => ' ' :: y).mapM F.eval := by
  have hP : ∀ p, (if ps.isEmpty then none else some (joinComma ps)) = some p → ')' ∉ p := by
    intro p hp hc
    split at hp
    · cases hp
    · cases hp
      rcases joinComma_mem _ _ hc with h' | h' | ⟨y, hy, h'⟩
      · exact absurd h' (by decide)
      · exact absurd h' (by decide)
      · exact absurd ((hps y hy).2 ')' h') (by simp)
  obtain ⟨c, hc, g1, g2, g3, g5, g6, g8⟩ := gate_match_ctl tag htag (if ps.isEmpty then none else some (joinComma ps))
    hP (s.toList, i) hs (s.toList, i) (List.replicate k (s.toList, i)) (by
      intro y hy
      rcases List.mem_cons.1 hy with rfl | hy
      · exact hs
      · rw [(List.mem_replicate.1 hy).2]; exact hs) l ls
  rw [← List.replicate_succ] at hc g6
  obtain ⟨g5t, g5⟩ := Option.isSome_iff_exists.1 g5
  have hcomma : ',' ∉ qtext s.toList i ++ [' '] := by
    simp [comma_not_qtext hs i]
  have hts : (splitChar ',' (qtext s.toList i ++ [' '])).mapM (parseTarget m) = .ok [some site] := by
    rw [splitChar_single _ _ hcomma, List.mapM_cons, parseTarget_trail m s hs i site hm]
    rfl
  have hcs : (Rgx.qregIndexing.findall ((ctlSeen (List.replicate (k + 1) (s.toList, i))).length + 1)
      (ctlSeen (List.replicate (k + 1) (s.toList, i)))).mapM (lookupSite m)
      = .ok (List.replicate (k + 1) (some site)) := by
    rw [findall_ctlSeen s.toList hs i k _ (by have := length_ctlSeen s.toList i k; omega),
      mapM_const_ok (lookupSite m) _ (fun _ => some site)]
    · simp
    · intro x hx
      rw [(List.mem_replicate.1 hx).2]
      exact lookup_ok m s i site hm
  have hls : ((Re.grp 0 Rgx.digits).findall ((levelText l ls).length + 1) (levelText l ls)).mapM
      (fun d => pyInt ((group d 0).getD [])) = .ok (l :: ls) := by
    rw [findall_levels l ls _ (by have := length_levelText l ls; omega)]
    rw [List.mapM_map]
    have := mapM_const_ok (fun l : Nat => pyInt ((group [(0, showNat l)] 0).getD [])) (l :: ls) id (by
      intro x _
      simp [group_cons_self, pyInt_showNat])
    simpa [Function.comp_def] using this
  have hpar : parseParams F (if ps.isEmpty then none else some (joinComma ps))
      = (match ps with
          | [] => []
          | y :: ys => y :: ys.map fun y => ' ' :: y).mapM F.eval := by
    cases ps with
    | nil => rfl
    | cons y ys => exact parseParams_ok F y ys hps
  unfold parseGate
  rw [hc]
  simp only [g1, g2, g3, g5, g6, g8, Option.getD_some]
  rw [hpar, hts, hcs, hls]
  cases (match ps with
          | [] => []
          | y :: ys => y :: ys.map fun y => ' ' :: y).mapM F.eval with
  | error e => rfl
  | ok v =>
    simp [bind, Except.bind, pure, Except.pure, Functor.map, Except.map, List.replicate_succ]

end Qudits.Qasm
