import Verif.Spec.QasmText
import Verif.Model.Qasm
import Verif.Lemmas.Regex

/-
What the reader does with each kind of line the writer produces.
-/
namespace Qudits.Qasm
open Re Qudits

/-- `name[index]` -/
def qtext (s : Text) (i : Nat) : Text := s ++ '[' :: showNat i ++ [']']

theorem isSpace_cases {x : Char} (h : isSpace x = true) : x = ' ' ∨ x = '\t' ∨ x = '\n' ∨ x = '\r' ∨
    x = '\x0b' ∨ x = '\x0c' ∨ x = '\x1c' ∨ x = '\x1d' ∨ x = '\x1e' ∨ x = '\x1f' := by
  simpa [isSpace, or_assoc] using h

theorem space_not_word {x : Char} (h : isSpace x = true) : isWord x = false := by
  rcases isSpace_cases h with rfl | rfl | rfl | rfl | rfl | rfl | rfl | rfl | rfl | rfl <;> decide

theorem word_not_space {x : Char} (h : isWord x = true) : isSpace x = false := by
  cases hs : isSpace x
  · rfl
  · rw [space_not_word hs] at h; cases h

theorem digit_not_space {x : Char} (h : isDigit x = true) : isSpace x = false :=
  word_not_space (digit_word h)

theorem head_cons {p : Char → Bool} {y : Char} {s : Text} (h : p y = false) :
    ∀ x t, y :: s = x :: t → p x = false := by
  intro x t e
  cases e
  exact h

theorem head_append {p : Char → Bool} {u s : Text} (hne : u ≠ []) (h : ∀ x ∈ u, p x = false) :
    ∀ x t, u ++ s = x :: t → p x = false := by
  intro x t e
  cases u with
  | nil => exact absurd rfl hne
  | cons y u =>
    cases e
    exact h _ (by simp)

theorem fst_space (t : Text) (c) (ht : ∀ x v, t = x :: v → isSpace x = false) :
    Fst sp (' ' :: t) c t c := fst_star_cls [' '] t c (by decide) ht

theorem fst_nospace (t : Text) (c) (ht : ∀ x v, t = x :: v → isSpace x = false) :
    Fst sp t c t c := fst_star_cls [] t c (by simp) ht

theorem fst_space1 (t : Text) (c) (ht : ∀ x v, t = x :: v → isSpace x = false) :
    Fst sp1 (' ' :: t) c t c := fst_plus_cls [' '] t c (by simp) (by decide) ht

theorem fst_word (s t : Text) (c) (hs : Ident s) (ht : ∀ x v, t = x :: v → isWord x = false) :
    Fst word (s ++ t) c t c := fst_plus_cls s t c hs.1 hs.2 ht

theorem fst_num (n : Nat) (t : Text) (c) (ht : ∀ x v, t = x :: v → isDigit x = false) :
    Fst num (showNat n ++ t) c t c := fst_plus_cls _ t c (showNat_ne_nil n) (showNat_digit n) ht

theorem head_num {p : Char → Bool} (h : ∀ x, isDigit x = true → p x = false) (n : Nat) (s : Text) :
    ∀ x t, showNat n ++ s = x :: t → p x = false :=
  head_append (showNat_ne_nil n) fun x hx => h x (showNat_digit n x hx)

theorem head_ident {p : Char → Bool} (h : ∀ x, isWord x = true → p x = false) {u : Text} (hu : Ident u)
    (s : Text) : ∀ x t, u ++ s = x :: t → p x = false :=
  head_append hu.1 fun x hx => h x (hu.2 x hx)

theorem pyInt_showNat (n : Nat) : pyInt (showNat n) = .ok n := by
  have hs : strip (showNat n) = showNat n := by
    apply stripWith_id
    · have := head_num (p := isSpace) (fun x => digit_not_space) n []
      simpa using this
    · intro x t h
      exact digit_not_space (showNat_digit n x (by rw [h]; simp))
  have h1 : (showNat n).isEmpty = false := by
    cases h : showNat n with
    | nil => exact absurd h (showNat_ne_nil n)
    | cons => rfl
  have h2 : (showNat n).all isDigit = true := List.all_eq_true.2 (showNat_digit n)
  simp [pyInt, hs, h1, h2, ofDigits_showNat]

/-! ### register lines -/

/-- `",".join(xs)` -/
def joinBare : List Text → Text
  | [] => []
  | x :: xs => x ++ (xs.map fun y => ',' :: y).flatten

theorem joinComma_cons (x : Text) (xs : List Text) :
    joinComma (x :: xs) = x ++ (xs.map fun y => ',' :: ' ' :: y).flatten := by
  induction xs generalizing x with
  | nil => simp [joinComma]
  | cons y ys ih => simp [joinComma, ih y]

theorem filter_joinComma (xs : List Text) (h : ∀ x ∈ xs, ' ' ∉ x) :
    (joinComma xs).filter (fun c => c != ' ') = joinBare xs := by
  have hid : ∀ x : Text, ' ' ∉ x → x.filter (fun c => c != ' ') = x := by
    intro x hx
    apply List.filter_eq_self.2
    intro a ha
    simp only [bne_iff_ne, ne_eq]
    rintro rfl
    exact hx ha
  cases xs with
  | nil => rfl
  | cons x xs =>
    rw [joinComma_cons, List.filter_append, hid x (h x (by simp)), joinBare]
    congr 1
    have h' : ∀ y ∈ xs, ' ' ∉ y := fun y hy => h y (by simp [hy])
    clear h
    induction xs with
    | nil => rfl
    | cons y ys ih =>
      simp only [List.map_cons, List.flatten_cons, List.filter_append, ih fun z hz => h' z (by simp [hz])]
      congr 1
      rw [List.filter_cons_of_pos (by decide), List.filter_cons_of_neg (by decide),
        hid y (h' y (by simp))]

theorem showNat_no_space (n : Nat) : ' ' ∉ showNat n := not_mem_of_class (showNat_digit n) (by decide)

theorem fst_star_nums (ns : List Nat) (t : Text) (c)
    (ht : ∀ x v, t = x :: v → isDigit x = false ∧ x ≠ ',') :
    Fst (.star (cat [ch ',', sp, num])) ((ns.map fun n => ',' :: showNat n).flatten ++ t) c t c := by
  induction ns with
  | nil =>
    apply fst_star_stop
    apply none_seq
    apply none_cls
    intro x v e
    simpa using (ht x v e).2
  | cons n ns ih =>
    have e : ((n :: ns).map fun n => ',' :: showNat n).flatten ++ t
        = ',' :: (showNat n ++ ((ns.map fun n => ',' :: showNat n).flatten ++ t)) := by simp
    rw [e]
    refine fst_star_step (t := (ns.map fun n => ',' :: showNat n).flatten ++ t) (c' := c) ?_ ?_ ih
    · refine fst_seq (fst_ch ',' _ c) (fst_seq (fst_nospace _ c ?_) (fst_num n _ c ?_))
      · exact head_num (fun x => digit_not_space) n _
      · cases ns with
        | nil => intro x v h; exact (ht x v (by simpa using h)).1
        | cons m ms => exact head_cons (by decide)
    · simp

theorem regLine_eq (r : QReg) : regLine r = "qreg".toList ++ ' ' :: (r.label.toList ++ ' ' ::
    ('[' :: (showNat r.size ++ (']' :: '[' :: (joinBare (r.dims.map showNat) ++ ']' :: ";".toList))))) := by
  have h : ('[' :: joinComma (r.dims.map showNat) ++ [']']).filter (fun c => c != ' ')
      = '[' :: joinBare (r.dims.map showNat) ++ [']'] := by
    rw [List.cons_append, List.filter_cons_of_pos (by decide), List.filter_append, filter_joinComma]
    · rfl
    · intro x hx
      obtain ⟨n, _, rfl⟩ := List.mem_map.1 hx
      exact showNat_no_space n
  unfold regLine
  rw [h]
  simp

theorem joinBare_nums (d : Nat) (ds : List Nat) : joinBare ((d :: ds).map showNat)
    = showNat d ++ (ds.map fun n => ',' :: showNat n).flatten := by
  simp [joinBare, Function.comp_def]

/-- the pattern `qreg` on a written register line -/
theorem qreg_match (r : QReg) (hl : Ident r.label.toList) (hd : r.dims ≠ []) :
    ∃ c, Rgx.qreg.matchAt (regLine r) = some ([], c) ∧ group c 1 = some r.label.toList ∧
      group c 2 = some ('[' :: showNat r.size ++ [']']) ∧
      group c 3 = some (joinBare (r.dims.map showNat)) := by
  obtain ⟨d, ds, hds⟩ := List.exists_cons_of_ne_nil hd
  rw [regLine_eq, hds, joinBare_nums]
  refine ⟨[(3, showNat d ++ (ds.map fun n => ',' :: showNat n).flatten),
    (2, '[' :: showNat r.size ++ [']']), (1, r.label.toList)], ?_, ?_, ?_, ?_⟩
  · apply matchAt_of_fst
    refine fst_seq (fst_lit _ _ _) (fst_seq (fst_space1 _ _ ?_) (fst_seq
      (fst_grp 1 (u := r.label.toList) rfl (fst_word _ _ _ hl ?_)) (fst_seq (fst_space1 _ _ ?_) (fst_seq
      (fst_grp 2 (u := '[' :: showNat r.size ++ [']']) (t := '[' :: (showNat d ++
        (ds.map fun n => ',' :: showNat n).flatten ++ ']' :: ";".toList)) ?_ (fst_seq (fst_ch _ _ _)
          (fst_seq (fst_nospace _ _ ?_) (fst_seq (fst_num _ _ _ ?_)
            (fst_seq (fst_nospace _ _ ?_) (fst_ch _ _ _)))))) (fst_seq (fst_opt
        (fst_seq (fst_nospace _ _ ?_) (fst_seq (fst_ch _ _ _)
        (fst_seq (fst_grp 3 (u := showNat d ++ (ds.map fun n => ',' :: showNat n).flatten) rfl
          (fst_seq (t := (ds.map fun n => ',' :: showNat n).flatten ++ ']' :: ";".toList) ?_
            (fst_star_nums ds _ _ ?_))) (fst_ch _ _ _))))) (fst_ch _ _ _))))))
    · exact head_ident (fun x => word_not_space) hl _
    · exact head_cons (by decide)
    · exact head_cons (by decide)
    · simp
    · exact head_num (fun x => digit_not_space) _ _
    · exact head_cons (by decide)
    · exact head_cons (by decide)
    · exact head_cons (by decide)
    · rw [List.append_assoc]
      apply fst_num
      cases ds with
      | nil => exact head_cons (by decide)
      | cons m ms => exact head_cons (by decide)
    · intro x v e
      cases e
      decide
  · simp [group]
  · simp [group]
  · simp [group]

/-- `\[(\d+)\]` on a bracketed number -/
theorem bracketed_search (n : Nat) :
    ∃ c, Rgx.bracketed.search ('[' :: showNat n ++ [']']) = some ([], c) ∧ group c 1 = some (showNat n) := by
  refine ⟨[(1, showNat n)], ?_, by simp [group]⟩
  apply search_of_fst
  exact fst_seq (fst_ch _ _ _) (fst_seq (fst_grp 1 rfl (fst_num n _ _ (head_cons (by decide)))) (fst_ch _ _ _))

theorem mapM_pyInt (ns : List Nat) : (ns.map showNat).mapM pyInt = .ok ns := by
  induction ns with
  | nil => rfl
  | cons n ns ih =>
    simp only [List.map_cons, List.mapM_cons, pyInt_showNat, ih]
    rfl

theorem splitChar_joinBare (sep : Char) (hsep : sep = ',') (x : Text) (xs : List Text)
    (h : ∀ y ∈ x :: xs, sep ∉ y) : splitChar sep (joinBare (x :: xs)) = x :: xs := by
  subst hsep
  induction xs generalizing x with
  | nil => simpa [joinBare] using splitChar_single ',' x (h x (by simp))
  | cons y ys ih =>
    have e : joinBare (x :: y :: ys) = x ++ ',' :: joinBare (y :: ys) := by simp [joinBare]
    rw [e, splitChar_append _ _ _ (h x (by simp)), ih y fun z hz => h z (by simp at hz ⊢; tauto)]

/-- `parse_qreg` on a written register line -/
theorem parseQreg_regLine (r : QReg) (hl : Ident r.label.toList) (hd : r.dims ≠ []) (m) :
    parseQreg (regLine r) m = (some <$> addSites r.label r.dims (List.range r.size) m) := by
  obtain ⟨c, hm, h1, h2, h3⟩ := qreg_match r hl hd
  obtain ⟨b, hb, hb1⟩ := bracketed_search r.size
  obtain ⟨d, ds, hds⟩ := List.exists_cons_of_ne_nil hd
  have hsplit : splitChar ',' (joinBare (r.dims.map showNat)) = r.dims.map showNat := by
    rw [hds, List.map_cons]
    apply splitChar_joinBare _ rfl
    intro y hy
    obtain ⟨n, _, rfl⟩ := List.mem_map.1 (by simpa using hy : y ∈ (d :: ds).map showNat)
    exact not_mem_of_class (showNat_digit n) (by decide)
  have hne : ∃ x t, joinBare (r.dims.map showNat) = x :: t := by
    rw [hds, joinBare_nums]
    cases h : showNat d with
    | nil => exact absurd h (showNat_ne_nil d)
    | cons x t => exact ⟨x, _, rfl⟩
  obtain ⟨x, t, hxt⟩ := hne
  unfold parseQreg
  rw [hm]
  simp only [h1, h2, h3, Option.getD_some, hb, hb1, pyInt_showNat, hxt]
  rw [← hxt, hsplit, mapM_pyInt]
  simp only [bind, Except.bind, pure, Except.pure, String.ofList_toList]
  cases addSites r.label r.dims (List.range r.size) m <;> rfl

end Qudits.Qasm
