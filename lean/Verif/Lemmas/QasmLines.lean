import Verif.Lemmas.QasmGate
import Verif.Lemmas.Circuit

/-
Reading the written program line by line; the registers found afterwards.
-/
namespace Qudits.Qasm
open Re Qudits Spec

/-! ### single lines -/

theorem strip_line (s : Text) (x : Char) (t : Text) (hs : s = x :: t) (hx : isSpace x = false)
    (y : Char) (u : Text) (hy : s = u ++ [y]) (hys : isSpace y = false) : strip s = s := by
  apply stripWith_id
  · intro a b e
    rw [hs] at e
    cases e
    exact hx
  · intro a b e
    rw [hy] at e
    have := congrArg List.getLast? e
    rw [List.getLast?_concat, List.getLast?_concat] at this
    cases this
    exact hys

theorem not_prefix_head {a : Char} {u : Text} {x : Char} {t : Text} (h : x ≠ a) : ¬ (a :: u) <+: (x :: t) := by
  intro hp
  exact h (List.cons_prefix_cons.1 hp).1.symm

theorem nonspecial_plain (x : Char) (t : Text) (hx : x ∉ ['/', 'D', 'i']) :
    parseNonspecial (x :: t) false = (false, false) := by
  simp only [List.mem_cons, List.not_mem_nil, or_false, not_or] at hx
  have h1 : Rgx.comment.matchAt (x :: t) = none :=
    matchAt_none (none_lit _ _ _ (not_prefix_head hx.1))
  have h2 : Rgx.commentStart.matchAt (x :: t) = none :=
    matchAt_none (none_lit _ _ _ (not_prefix_head hx.1))
  have h3 : Rgx.header.matchAt (x :: t) = none := by
    apply matchAt_none
    have e1 : (Re.grp 1 (cat [lit "DITQASM".toList, sp1, ch '2', .cls (fun c => c != '\n'),
        lit "0;".toList])).run (x :: t) [] = [] :=
      none_grp 1 (none_seq (none_lit _ _ _ (not_prefix_head hx.2.1)))
    have e2 : (Re.grp 2 (cat [lit "include".toList, sp1, lit "\"qelib1".toList, .cls (fun c => c != '\n'),
        lit "inc\";".toList])).run (x :: t) [] = [] :=
      none_grp 2 (none_seq (none_lit _ _ _ (not_prefix_head hx.2.2)))
    show ((Re.grp 1 _).run (x :: t) [] ++ (Re.grp 2 _).run (x :: t) []) = []
    rw [e1, e2]
    rfl
  simp [parseNonspecial, h1, h2, h3]

theorem parseQreg_other (x : Char) (t : Text) (hx : x ≠ 'q') (m) : parseQreg (x :: t) m = .ok none := by
  have h : Rgx.qreg.matchAt (x :: t) = none :=
    matchAt_none (none_seq (none_lit _ _ _ (not_prefix_head hx)))
  simp [parseQreg, h]

theorem parseCreg_other (s : Text) (hs : ¬ "creg".toList <+: s) (m) : parseCreg s m = .ok none := by
  have h : Rgx.creg.matchAt s = none := matchAt_none (none_seq (none_lit _ _ _ hs))
  simp [parseCreg, h]

theorem ignore_other (s : Text) (h1 : ¬ "measure".toList <+: s) (h2 : ¬ "barrier".toList <+: s) :
    Rgx.ignore.matchAt s = none := by
  apply matchAt_none
  apply none_grp
  show ((lit "measure".toList).run s [] ++ (lit "barrier".toList).run s []) = []
  rw [none_lit _ _ _ h1, none_lit _ _ _ h2]
  rfl

theorem st_eq (st : PState) (hst : st.inComment = false) : ({ st with inComment := false } : PState) = st := by
  cases st
  simp only at hst
  rw [hst]

/-- a line that can only be a gate -/
def GateLike (s : Text) : Prop :=
  (∃ x t, s = x :: t ∧ x ∉ ['/', 'D', 'i', 'q'] ∧ isSpace x = false) ∧ (∃ u, s = u ++ [';']) ∧
    ¬ "creg".toList <+: s ∧ ¬ "measure".toList <+: s ∧ ¬ "barrier".toList <+: s

theorem parseLine_gate (F : PyFloat) (s : Text) (hs : GateLike s) (st : PState) (hst : st.inComment = false) :
    parseLine F st s = (do
      match ← parseGate F s st.sitemap with
      | some op => pure { st with gates := st.gates ++ [op] }
      | none => if (Rgx.error.matchAt s).isSome then .error .notImplemented else .error .syntaxError) := by
  obtain ⟨⟨x, t, hxt, hx, hsp⟩, ⟨u, hu⟩, hc, hme, hb⟩ := hs
  have hstrip : strip s = s := strip_line s x t hxt hsp ';' u hu (by decide)
  have hx' : x ∉ ['/', 'D', 'i'] := by simp only [List.mem_cons, not_or] at hx ⊢; tauto
  have hq : x ≠ 'q' := by rintro rfl; simp at hx
  unfold parseLine
  rw [hstrip, hst]
  have e1 : parseNonspecial s false = (false, false) := by rw [hxt]; exact nonspecial_plain x t hx'
  have e2 : parseQreg s st.sitemap = .ok none := by rw [hxt]; exact parseQreg_other x t hq _
  have e3 : parseCreg s st.classic = .ok none := parseCreg_other s hc _
  have e4 : Rgx.ignore.matchAt s = none := ignore_other s hme hb
  have hst' : ({ st with inComment := false } : PState) = st := st_eq st hst
  simp only [e1, hst', bind, Except.bind, e2, e3, e4]
  rfl

theorem parseLine_reg (F : PyFloat) (r : QReg) (hl : Ident r.label.toList) (hd : r.dims ≠ []) (st : PState)
    (hst : st.inComment = false) :
    parseLine F st (regLine r)
      = (fun m => { st with sitemap := m }) <$> addSites r.label r.dims (List.range r.size) st.sitemap := by
  have hstrip : strip (regLine r) = regLine r :=
    strip_line _ 'q' (regLine r).tail (by rw [regLine_eq]; rfl) (by decide) ';' (regLine r).dropLast
      (by
        have e : regLine r = ("qreg".toList ++ ' ' :: (r.label.toList ++ ' ' ::
          ('[' :: (showNat r.size ++ (']' :: '[' :: (joinBare (r.dims.map showNat) ++ [']'])))))) ++ [';'] := by
          rw [regLine_eq]; simp
        rw [e, List.dropLast_concat]) (by decide)
  have hcons : regLine r = 'q' :: (regLine r).tail := by rw [regLine_eq]; rfl
  have e1 : parseNonspecial (regLine r) false = (false, false) := by
    rw [hcons]; exact nonspecial_plain _ _ (by decide)
  have hst' : ({ st with inComment := false } : PState) = st := st_eq st hst
  unfold parseLine
  rw [hstrip, hst]
  simp only [e1, hst', parseQreg_regLine r hl hd]
  cases addSites r.label r.dims (List.range r.size) st.sitemap <;> rfl

theorem parseLine_blank (F : PyFloat) (st : PState) : parseLine F st [] = .ok st := by
  cases st
  rfl

theorem parseLine_header (F : PyFloat) (st : PState) (hst : st.inComment = false) :
    parseLine F st "DITQASM 2.0;".toList = .ok st := by
  have hst' : ({ st with inComment := false } : PState) = st := st_eq st hst
  have hstrip : strip "DITQASM 2.0;".toList = "DITQASM 2.0;".toList := by decide
  have h1 : Rgx.comment.matchAt "DITQASM 2.0;".toList = none :=
    matchAt_none (none_lit _ _ _ (by decide))
  have h2 : Rgx.commentStart.matchAt "DITQASM 2.0;".toList = none :=
    matchAt_none (none_lit _ _ _ (by decide))
  have h3 : ∃ c, Rgx.header.matchAt "DITQASM 2.0;".toList = some ([], c) :=
    ⟨_, matchAt_of_fst (fst_alt_left (fst_grp 1 (u := "DITQASM 2.0;".toList) (by simp)
      (fst_seq (fst_lit "DITQASM".toList " 2.0;".toList _) (fst_seq (fst_space1 _ _ (head_cons (by decide)))
        (fst_seq (fst_ch _ _ _) (fst_seq (fst_cls (by decide) _ _) (fst_lit "0;".toList [] _)))))))⟩
  obtain ⟨c, h3⟩ := h3
  have e : parseNonspecial "DITQASM 2.0;".toList false = (true, false) := by
    have h0 : ("DITQASM 2.0;".toList).isEmpty = false := by decide
    simp only [parseNonspecial, h1, h2, h3, h0]
    rfl
  unfold parseLine
  rw [hstrip, hst]
  simp only [e, hst']
  rfl

/-- the written declaration of the measurement register -/
def cregText (n : Nat) : Text := "creg meas[".toList ++ showNat n ++ "];".toList

theorem parseLine_creg (F : PyFloat) (n : Nat) (st : PState) (hst : st.inComment = false) :
    parseLine F st (cregText n)
      = .ok { st with classic := (List.range n).foldl (fun m i => m.set ("meas", i) m.length) st.classic } := by
  have ec : cregText n = 'c' :: ("reg meas[".toList ++ showNat n ++ "];".toList) := rfl
  have el : cregText n = ("creg meas[".toList ++ showNat n ++ "]".toList) ++ [';'] := by
    unfold cregText
    generalize showNat n = u
    simp only [List.append_assoc]; rfl
  have hstrip : strip (cregText n) = cregText n := strip_line _ _ _ ec (by decide) _ _ el (by decide)
  have hm : Rgx.creg.matchAt (cregText n) = some ([], [(2, showNat n), (1, "meas".toList)]) := by
    have e : cregText n = "creg".toList ++ ' ' :: ("meas".toList ++ '[' :: (showNat n ++ ']' :: ";".toList)) := by
      unfold cregText
      generalize showNat n = u
      simp only [List.append_assoc]; rfl
    rw [e]
    apply matchAt_of_fst
    exact fst_seq (fst_lit _ _ _) (fst_seq (fst_space1 _ _ (head_cons (by decide))) (fst_seq
      (fst_grp 1 rfl (fst_word _ _ _ ⟨by decide, by decide⟩ (head_cons (by decide))))
      (fst_seq (fst_nospace _ _ (head_cons (by decide))) (fst_seq (fst_ch _ _ _)
        (fst_seq (fst_nospace _ _ (head_num (fun x => digit_not_space) _ _))
        (fst_seq (fst_grp 2 rfl (fst_num _ _ _ (head_cons (by decide))))
        (fst_seq (fst_nospace _ _ (head_cons (by decide))) (fst_seq (fst_ch _ _ _)
          (fst_seq (fst_nospace _ _ (head_cons (by decide))) (fst_ch _ _ _))))))))))
  have e1 : parseNonspecial (cregText n) false = (false, false) := by
    rw [ec]; exact nonspecial_plain _ _ (by decide)
  have e2 : parseQreg (cregText n) st.sitemap = .ok none := by
    rw [ec]; exact parseQreg_other _ _ (by decide) _
  have hst' : ({ st with inComment := false } : PState) = st := st_eq st hst
  have e3 : parseCreg (cregText n) st.classic
      = .ok (some ((List.range n).foldl (fun m i => m.set ("meas", i) m.length) st.classic)) := by
    simp only [parseCreg, hm, group_cons_self, group_cons_ne _ _ _ _ (show (2 : Nat) ≠ 1 by decide),
      Option.getD_some, pyInt_showNat]
    rfl
  unfold parseLine
  rw [hstrip, hst]
  simp only [e1, hst', bind, Except.bind, e2, e3]
  rfl

/-- a written measure line -/
def measureText (lbl : Text) (i k : Nat) : Text :=
  "measure ".toList ++ lbl ++ '[' :: showNat i ++ "] -> meas[".toList ++ showNat k ++ "];".toList

theorem parseLine_measure (F : PyFloat) (lbl : Text) (i k : Nat) (st : PState) (hst : st.inComment = false) :
    parseLine F st (measureText lbl i k) = .ok st := by
  have ec : measureText lbl i k = 'm' :: ("easure ".toList ++ lbl ++ '[' :: showNat i ++
    "] -> meas[".toList ++ showNat k ++ "];".toList) := rfl
  have el : measureText lbl i k = ("measure ".toList ++ lbl ++ '[' :: showNat i ++ "] -> meas[".toList ++
    showNat k ++ "]".toList) ++ [';'] := by
    unfold measureText
    generalize showNat k = u
    generalize showNat i = v
    simp only [List.append_assoc, List.cons_append]; rfl
  have hstrip : strip (measureText lbl i k) = measureText lbl i k :=
    strip_line _ _ _ ec (by decide) _ _ el (by decide)
  have e1 : parseNonspecial (measureText lbl i k) false = (false, false) := by
    rw [ec]; exact nonspecial_plain _ _ (by decide)
  have e2 : parseQreg (measureText lbl i k) st.sitemap = .ok none := by
    rw [ec]; exact parseQreg_other _ _ (by decide) _
  have e3 : parseCreg (measureText lbl i k) st.classic = .ok none :=
    parseCreg_other _ (by rw [ec]; exact not_prefix_head (by decide)) _
  have hm : ∃ r, Rgx.ignore.matchAt (measureText lbl i k) = some r := by
    have e : measureText lbl i k = "measure".toList ++ (' ' :: (lbl ++ '[' :: showNat i ++
      "] -> meas[".toList ++ showNat k ++ "];".toList)) := by
      unfold measureText
      generalize showNat k = u
      generalize showNat i = v
      simp only [List.append_assoc, List.cons_append]; rfl
    rw [e]
    exact ⟨_, matchAt_of_fst (fst_grp 1 rfl (fst_alt_left (fst_lit _ _ _)))⟩
  obtain ⟨r, hm⟩ := hm
  have hst' : ({ st with inComment := false } : PState) = st := st_eq st hst
  unfold parseLine
  rw [hstrip, hst]
  simp only [e1, hst', bind, Except.bind, e2, e3, hm]
  rfl

/-! ### the site map -/

theorem addSites_ok (r : QReg) (m : PyDict (String × Nat) (Nat × Nat)) (hd : r.dims.length = r.size)
    (hfresh : ∀ i, (r.label, i) ∉ PyDict.keys m) :
    addSites r.label r.dims (List.range r.size) m = .ok (m ++ siteBlock m.length r r.size) := by
  have key : ∀ (k j : Nat), j + k = r.size →
      addSites r.label r.dims (List.range' j k) (m ++ siteBlock m.length r j)
        = .ok (m ++ siteBlock m.length r r.size) := by
    intro k
    induction k with
    | zero =>
      intro j hj
      have : j = r.size := by omega
      subst this
      rfl
    | succ k ih =>
      intro j hj
      have hlt : j < r.dims.length := by omega
      have hk : (r.label, j) ∉ PyDict.keys (m ++ siteBlock m.length r j) := by
        have := hfresh j
        simp only [PyDict.keys, List.map_append, List.mem_append, not_or] at *
        refine ⟨this, ?_⟩
        simp [siteBlock]
      simp only [List.range'_succ, addSites, List.getElem?_eq_getElem hlt]
      rw [PyDict.set_of_not_mem _ _ _ hk]
      have e : m ++ siteBlock m.length r j ++ [((r.label, j),
          ((m ++ siteBlock m.length r j).length, r.dims[j]))] = m ++ siteBlock m.length r (j + 1) := by
        simp [siteBlock, List.range_succ, List.getElem?_eq_getElem hlt]
      rw [e]
      exact ih (j + 1) (by omega)
  have := key r.size 0 (by omega)
  simpa [siteBlock, List.range_eq_range'] using this

theorem parse_regs (F : PyFloat) (pre rs : List QReg) (hl : ∀ r ∈ rs, Ident r.label.toList)
    (hne : ∀ r ∈ rs, r.size ≠ 0) (hwf : ∀ r ∈ rs, r.dims.length = r.size)
    (hnd : ((pre ++ rs).map QReg.label).Nodup) (st : PState) (hst : st.inComment = false)
    (hs : st.sitemap = siteFrom 0 pre) :
    (rs.map regLine).foldlM (parseLine F) st = .ok { st with sitemap := siteFrom 0 (pre ++ rs) } := by
  induction rs generalizing pre st with
  | nil =>
    cases st
    simp only at hs
    simp [hs, pure, Except.pure]
  | cons r rs ih =>
    have hfresh : r.label ∉ pre.map QReg.label := by
      simp only [List.map_append, List.map_cons] at hnd
      rw [List.nodup_append] at hnd
      intro hm
      exact hnd.2.2 _ hm r.label (by simp) rfl
    have hd : r.dims ≠ [] := by
      intro h
      have := hwf r (by simp)
      rw [h] at this
      exact hne r (by simp) this.symm
    have h1 := addSites_ok r st.sitemap (hwf r (by simp)) (by
      intro i h
      rw [hs] at h
      exact hfresh (keys_siteFrom _ _ _ _ h))
    have e : st.sitemap ++ siteBlock st.sitemap.length r r.size = siteFrom 0 (pre ++ [r]) := by
      rw [siteFrom_append, hs, length_siteFrom]
      simp [siteFrom]
    rw [e] at h1
    simp only [List.map_cons, List.foldlM_cons]
    rw [parseLine_reg F r (hl r (by simp)) hd st hst, h1]
    have := ih (pre ++ [r]) (fun x hx => hl x (by simp [hx])) (fun x hx => hne x (by simp [hx]))
      (fun x hx => hwf x (by simp [hx])) (by simpa using hnd) { st with sitemap := siteFrom 0 (pre ++ [r]) } hst rfl
    rw [List.append_assoc] at this
    exact this

/-! ### registers of the site map -/

/-- `registers_map` entry of a register placed at line `n` -/
def regEntry (n : Nat) (r : QReg) : String × (PyDict Nat Nat × List Nat) :=
  (r.label, ((List.range r.size).map fun i => (i, n + i), r.dims))

def entriesFrom : Nat → List QReg → PyDict String (PyDict Nat Nat × List Nat)
  | _, [] => []
  | n, r :: rs => regEntry n r :: entriesFrom (n + r.size) rs

/-- the step of `regsMap` -/
def regStep (m : PyDict String (PyDict Nat Nat × List Nat)) (e : (String × Nat) × (Nat × Nat)) :
    PyDict String (PyDict Nat Nat × List Nat) :=
  match m.get? e.1.1 with
  | none => m.set e.1.1 ([(e.1.2, e.2.1)], [e.2.2])
  | some (loc, ds) => m.set e.1.1 (loc.set e.1.2 e.2.1, ds ++ [e.2.2])

theorem get_snoc {κ ν : Type} [DecidableEq κ] (m : PyDict κ ν) (k : κ) (v : ν) (h : k ∉ PyDict.keys m) :
    PyDict.get? (m ++ [(k, v)]) k = some v := by
  rw [← PyDict.set_of_not_mem m k v h, PyDict.get?_set_self]

theorem set_snoc {κ ν : Type} [DecidableEq κ] (m : PyDict κ ν) (k : κ) (v w : ν) (h : k ∉ PyDict.keys m) :
    PyDict.set (m ++ [(k, v)]) k w = m ++ [(k, w)] := by
  induction m with
  | nil => simp [PyDict.set]
  | cons x m ih =>
    obtain ⟨a, b⟩ := x
    simp only [PyDict.keys, List.map_cons, List.mem_cons, not_or] at h
    have ha : a ≠ k := fun e => h.1 e.symm
    simp [PyDict.set, ha, ih h.2]

theorem regStep_block (r : QReg) (n : Nat) (m : PyDict String (PyDict Nat Nat × List Nat))
    (hd : r.dims.length = r.size) (hfresh : r.label ∉ PyDict.keys m) (j : Nat) (hj : j + 1 ≤ r.size) :
    (siteBlock n r (j + 1)).foldl regStep m
      = m ++ [(r.label, ((List.range (j + 1)).map fun i => (i, n + i), r.dims.take (j + 1)))] := by
  induction j with
  | zero =>
    have h0 : 0 < r.dims.length := by omega
    have hg := (PyDict.get?_eq_none_iff m r.label).2 hfresh
    simp only [siteBlock, List.range_succ, List.range_zero, List.nil_append, List.map_cons, List.map_nil,
      List.foldl_cons, List.foldl_nil, regStep, hg, PyDict.set_of_not_mem _ _ _ hfresh]
    cases hdd : r.dims with
    | nil => rw [hdd] at h0; simp at h0
    | cons a b => simp
  | succ j ih =>
    have hlt : j + 1 < r.dims.length := by omega
    have e : siteBlock n r (j + 1 + 1) = siteBlock n r (j + 1) ++ [((r.label, j + 1),
        (n + (j + 1), r.dims[j + 1]))] := by
      simp [siteBlock, List.range_succ, List.getElem?_eq_getElem hlt]
    rw [e, List.foldl_append, ih (by omega)]
    simp only [List.foldl_cons, List.foldl_nil, regStep, get_snoc _ _ _ hfresh, set_snoc _ _ _ _ hfresh]
    have hk : (j + 1) ∉ PyDict.keys ((List.range (j + 1)).map fun i => (i, n + i)) := by
      simp [PyDict.keys, Function.comp_def]
    rw [PyDict.set_of_not_mem _ _ _ hk]
    congr 4
    · rw [List.range_succ (n := j + 1), List.map_append]
      rfl
    · rw [List.take_add_one (l := r.dims) (i := j + 1), List.getElem?_eq_getElem hlt]
      rfl

theorem keys_entriesFrom (n : Nat) (rs : List QReg) :
    PyDict.keys (entriesFrom n rs) = rs.map QReg.label := by
  induction rs generalizing n with
  | nil => rfl
  | cons r rs ih =>
    have := ih (n + r.size)
    simp only [PyDict.keys] at this
    simp [entriesFrom, PyDict.keys, regEntry, this]

theorem regsMap_from (n : Nat) (rs : List QReg) (m : PyDict String (PyDict Nat Nat × List Nat))
    (hne : ∀ r ∈ rs, r.size ≠ 0) (hwf : ∀ r ∈ rs, r.dims.length = r.size)
    (hnd : (rs.map QReg.label).Nodup) (hfresh : ∀ r ∈ rs, r.label ∉ PyDict.keys m) :
    (siteFrom n rs).foldl regStep m = m ++ entriesFrom n rs := by
  induction rs generalizing n m with
  | nil => simp [siteFrom, entriesFrom]
  | cons r rs ih =>
    obtain ⟨j, hj⟩ : ∃ j, r.size = j + 1 := ⟨r.size - 1, by have := hne r (by simp); omega⟩
    have h := regStep_block r n m (hwf r (by simp)) (hfresh r (by simp)) j (by omega)
    rw [← hj] at h
    simp only [siteFrom, List.foldl_append, h, entriesFrom]
    have ht : r.dims.take r.size = r.dims := by
      rw [← hwf r (by simp)]; exact List.take_length
    rw [ht]
    simp only [List.map_cons, List.nodup_cons] at hnd
    rw [ih (n + r.size) _ (fun x hx => hne x (by simp [hx])) (fun x hx => hwf x (by simp [hx])) hnd.2]
    · simp [regEntry]
    · intro x hx hm
      simp only [PyDict.keys, List.map_append, List.mem_append, List.map_cons, List.map_nil,
        List.mem_singleton] at hm
      rcases hm with hm | hm
      · exact hfresh x (by simp [hx]) hm
      · exact hnd.1 (by rw [← hm]; exact List.mem_map_of_mem hx)

/-- registers carrying their lines -/
def placed : Nat → List QReg → List QReg
  | _, [] => []
  | n, r :: rs => { r with localSitemap := (List.range r.size).map fun i => (i, n + i) } ::
      placed (n + r.size) rs

theorem fromMap_from (rs : List QReg) (hne : ∀ r ∈ rs, r.size ≠ 0)
    (hwf : ∀ r ∈ rs, r.dims.length = r.size) (hnd : (rs.map QReg.label).Nodup) :
    fromMap (siteFrom 0 rs) = placed 0 rs := by
  have h : regsMap (siteFrom 0 rs) = entriesFrom 0 rs := by
    have := regsMap_from 0 rs [] hne hwf hnd (by simp [PyDict.keys])
    rw [List.nil_append] at this
    exact this
  unfold fromMap
  rw [h]
  generalize 0 = n
  clear h hne hwf hnd
  induction rs generalizing n with
  | nil => rfl
  | cons r rs ih =>
    simp only [entriesFrom, List.map_cons, placed, ih, regEntry]
    simp

/-! ### appending the registers -/

theorem locBlock_nil (n m : Nat) : locBlock n [] m = (List.range m).map fun i => (i, n + i) := by
  induction m with
  | zero => rfl
  | succ m ih =>
    have e : locBlock n [] (m + 1) = (locBlock n [] m).set m (n + m) := by
      simp [locBlock, List.range_succ]
    rw [e, ih, PyDict.set_of_not_mem, List.range_succ, List.map_append]
    · rfl
    · simp [PyDict.keys, Function.comp_def]

theorem set_same {κ ν : Type} [DecidableEq κ] (d : PyDict κ ν) (k : κ) (v : ν) (h : d.get? k = some v) :
    d.set k v = d := by
  induction d with
  | nil => simp [PyDict.get?] at h
  | cons x d ih =>
    obtain ⟨a, b⟩ := x
    by_cases e : a = k
    · simp only [PyDict.get?, if_pos e, Option.some.injEq] at h
      simp [PyDict.set, e, h]
    · simp only [PyDict.get?, if_neg e] at h
      simp [PyDict.set, e, ih h]

theorem locBlock_same (n m : Nat) (l : PyDict Nat Nat) (h : ∀ i < m, l.get? i = some (n + i)) :
    locBlock n l m = l := by
  induction m with
  | zero => rfl
  | succ m ih =>
    have e : locBlock n l (m + 1) = (locBlock n l m).set m (n + m) := by
      simp [locBlock, List.range_succ]
    rw [e, ih fun i hi => h i (by omega)]
    exact set_same _ _ _ (h m (by omega))

theorem get_rangeMap (n m i : Nat) (h : i < m) :
    PyDict.get? ((List.range m).map fun i => (i, n + i)) i = some (n + i) := by
  rw [← locBlock_nil]
  exact locBlock_get n [] m i h

/-- registers whose recorded lines are either empty or already those of their place -/
def Fresh : Nat → List QReg → Prop
  | _, [] => True
  | n, r :: rs => locBlock n r.localSitemap r.size = ((List.range r.size).map fun i => (i, n + i)) ∧
      Fresh (n + r.size) rs

theorem fresh_of_nil (n : Nat) (rs : List QReg) (h : ∀ r ∈ rs, r.localSitemap = []) : Fresh n rs := by
  induction rs generalizing n with
  | nil => trivial
  | cons r rs ih =>
    refine ⟨?_, ih _ fun x hx => h x (by simp [hx])⟩
    rw [h r (by simp), locBlock_nil]

theorem fresh_placed (n : Nat) (rs : List QReg) : Fresh n (placed n rs) := by
  induction rs generalizing n with
  | nil => trivial
  | cons r rs ih =>
    refine ⟨?_, ih _⟩
    apply locBlock_same
    intro i hi
    exact get_rangeMap n r.size i hi

/-- the circuit after appending registers to one without registers -/
def withRegs {γ : Type} (c : Circ γ) (rs : List QReg) : Circ γ :=
  { c with
    qregs := placed 0 rs
    numQudits := total rs
    dims := rs.flatMap QReg.dims
    sitemap := siteFrom 0 rs
    inverseSitemap := invFrom 0 rs }

theorem placed_append (n : Nat) (a b : List QReg) :
    placed n (a ++ b) = placed n a ++ placed (n + total a) b := by
  induction a generalizing n with
  | nil => simp [placed, total]
  | cons r rs ih => simp [placed, ih, total_cons, Nat.add_assoc]

theorem appendAll_from {γ : Type} (c : Circ γ) (pre rs : List QReg)
    (hwf : ∀ r ∈ rs, r.dims.length = r.size) (hnd : ((pre ++ rs).map QReg.label).Nodup)
    (hf : Fresh (total pre) rs) :
    (withRegs c pre).appendAll rs = .ok (withRegs c (pre ++ rs)) := by
  induction rs generalizing pre with
  | nil => simp [Circ.appendAll, pure, Except.pure]
  | cons r rs ih =>
    have hfresh : r.label ∉ pre.map QReg.label := by
      simp only [List.map_append, List.map_cons] at hnd
      rw [List.nodup_append] at hnd
      intro hm
      exact hnd.2.2 _ hm r.label (by simp) rfl
    have hs : ∀ i, (r.label, i) ∉ PyDict.keys (siteFrom 0 pre) := fun i h =>
      hfresh (keys_siteFrom _ _ _ _ h)
    have hi : ∀ i, total pre + i ∉ PyDict.keys (invFrom 0 pre) := fun i h => by
      have := keys_invFrom _ _ _ h; omega
    have hl := loop_ok r (total pre) r.localSitemap (siteFrom 0 pre) (invFrom 0 pre) (hwf r (by simp))
      hs hi r.size (Nat.le_refl _)
    have h1 : (withRegs c pre).append r = .ok (withRegs c (pre ++ [r])) := by
      have hn : (withRegs c pre).sitemap.length = total pre := by simp [withRegs, length_siteFrom]
      unfold Circ.append
      rw [hn]
      show (do
        let m ← (List.range r.size).foldlM (appendStep r (total pre)) ⟨r.localSitemap, siteFrom 0 pre, invFrom 0 pre⟩
        _) = _
      rw [hl]
      simp only [bind, Except.bind, pure, Except.pure, withRegs, placed_append, siteFrom_append,
        invFrom_append, total_append, total_cons, total_nil, hf.1]
      simp [placed, siteFrom, invFrom]
    have h2 := ih (pre ++ [r]) (fun x hx => hwf x (by simp [hx])) (by simpa using hnd)
      (by simpa [total_append, total_cons, total_nil] using hf.2)
    simp only [Circ.appendAll, List.foldlM_cons, h1]
    simp only [Circ.appendAll, List.append_assoc, List.singleton_append] at h2
    exact h2

end Qudits.Qasm
