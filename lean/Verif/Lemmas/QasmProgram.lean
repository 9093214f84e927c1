import Verif.Lemmas.QasmLines

/-
Reading a whole written program.
-/
namespace Qudits.Qasm
open Re Qudits Spec

/-! ### the written measure lines -/

def measList (k : Nat) (r : QReg) : List Text :=
  (List.range r.size).map fun i => measureText r.label.toList i (k + i)

def measFrom : Nat → List QReg → List Text
  | _, [] => []
  | k, r :: rs => measList k r ++ measFrom (k + r.size) rs

/-- text of a list of lines -/
def unlines (ls : List Text) : Text := (ls.map fun l => l ++ ['\n']).flatten

theorem unlines_append (a b : List Text) : unlines (a ++ b) = unlines a ++ unlines b := by
  simp [unlines]

theorem unlines_cons (a : Text) (b : List Text) : unlines (a :: b) = a ++ '\n' :: unlines b := by
  simp [unlines]

theorem unlines_nil : unlines [] = [] := rfl

theorem measureLines_ok (n : Nat) (r : QReg) (k : Nat) (h : k + r.size ≤ n) :
    measureLines n r k = .ok (unlines (measList k r), k + r.size) := by
  have key : ∀ m, m ≤ r.size → (List.range m).foldlM (fun (acc : Text × Nat) i =>
      if acc.2 < n then
        (.ok (acc.1 ++ ("measure ".toList ++ r.label.toList ++ '[' :: showNat i ++ "] -> meas[".toList ++
          showNat acc.2 ++ "];\n".toList), acc.2 + 1) : Except PyErr (Text × Nat))
      else .error .stopIteration) ([], k)
      = .ok (unlines ((List.range m).map fun i => measureText r.label.toList i (k + i)), k + m) := by
    intro m hm
    induction m with
    | zero => rfl
    | succ m ih =>
      rw [List.range_succ, List.foldlM_append, ih (by omega)]
      have hlt : k + m < n := by omega
      simp only [bind, Except.bind, List.foldlM_cons, List.foldlM_nil, if_pos hlt, pure, Except.pure,
        List.map_append, List.map_cons, List.map_nil, unlines_append, unlines_cons, unlines_nil]
      have e : ∀ z, z ++ ("measure ".toList ++ r.label.toList ++ '[' :: showNat m ++ "] -> meas[".toList ++
          showNat (k + m) ++ "];\n".toList) = z ++ measureText r.label.toList m (k + m) ++ '\n' :: [] := by
        intro z
        unfold measureText
        generalize showNat (k + m) = u
        generalize showNat m = v
        simp only [List.append_assoc, List.cons_append]
        rfl
      rw [e, List.append_assoc, Nat.add_assoc]
  exact key r.size (Nat.le_refl _)

theorem measureAll_ok (n : Nat) (rs : List QReg) (k : Nat) (t : Text) (h : k + total rs ≤ n) :
    rs.foldlM (fun (acc : Text × Nat) r => do
      let (t, k) ← measureLines n r acc.2
      pure (acc.1 ++ t, k)) (t, k) = (.ok (t ++ unlines (measFrom k rs), k + total rs) : Except PyErr _) := by
  induction rs generalizing k t with
  | nil => simp [measFrom, unlines_nil, total, pure, Except.pure]
  | cons r rs ih =>
    simp only [total_cons] at h
    simp only [List.foldlM_cons, measureLines_ok n r k (by omega), bind, Except.bind, pure, Except.pure]
    have := ih (k + r.size) (t ++ unlines (measList k r)) (by omega)
    simp only [bind, Except.bind, pure, Except.pure] at this
    rw [this]
    simp [measFrom, unlines_append, total_cons, Nat.add_assoc]

theorem measFrom_placed (k n : Nat) (rs : List QReg) : measFrom k (placed n rs) = measFrom k rs := by
  induction rs generalizing k n with
  | nil => rfl
  | cons r rs ih => simp only [placed, measFrom, ih]; rfl

theorem total_placed (n : Nat) (rs : List QReg) : total (placed n rs) = total rs := by
  induction rs generalizing n with
  | nil => rfl
  | cons r rs ih => simp only [placed, total_cons, ih]

theorem parse_measures (F : PyFloat) (k : Nat) (rs : List QReg) (st : PState) (hst : st.inComment = false) :
    (measFrom k rs).foldlM (parseLine F) st = .ok st := by
  have one : ∀ l ∈ measFrom k rs, ∃ lbl i j, l = measureText lbl i j := by
    intro l hl
    induction rs generalizing k with
    | nil => simp [measFrom] at hl
    | cons r rs ih =>
      simp only [measFrom, List.mem_append] at hl
      rcases hl with hl | hl
      · simp only [measList, List.mem_map] at hl
        obtain ⟨i, _, rfl⟩ := hl
        exact ⟨_, _, _, rfl⟩
      · exact ih _ hl
  generalize measFrom k rs = ls at one
  induction ls with
  | nil => rfl
  | cons l ls ih =>
    obtain ⟨a, b, d, rfl⟩ := one l (by simp)
    rw [List.foldlM_cons, parseLine_measure F a b d st hst]
    exact ih fun l hl => one l (by simp [hl])

/-! ### gate lines -/

theorem prefix_take {u v w : Text} (h : u <+: v ++ w) (k : Nat) (hu : k ≤ u.length) (hv : k ≤ v.length) :
    u.take k = v.take k := by
  obtain ⟨t, ht⟩ := h
  have := congrArg (List.take k) ht
  rwa [List.take_append_of_le_length hu, List.take_append_of_le_length hv] at this

theorem tag_gateLike (cls : Cls) (rest u : Text) (hu : ' ' :: rest = u ++ [';']) :
    GateLike (cls.tag.toList ++ ' ' :: rest) := by
  have hsplit : cls.tag.toList ++ ' ' :: rest = (cls.tag.toList ++ [' ']) ++ rest := by simp
  have h2 : 2 ≤ (cls.tag.toList ++ [' ']).length := by cases cls <;> decide
  refine ⟨?_, ⟨cls.tag.toList ++ u, by rw [hu]; simp⟩, ?_, ?_, ?_⟩
  · have : ∃ x t, cls.tag.toList = x :: t ∧ x ∉ ['/', 'D', 'i', 'q'] ∧ isSpace x = false := by
      cases cls <;> exact ⟨_, _, rfl, by decide, by decide⟩
    obtain ⟨x, t, e, h⟩ := this
    exact ⟨x, t ++ ' ' :: rest, by rw [e]; rfl, h⟩
  · intro hp
    rw [hsplit] at hp
    have := prefix_take hp 2 (by decide) h2
    revert this
    cases cls <;> decide
  · intro hp
    rw [hsplit] at hp
    have := prefix_take hp 2 (by decide) h2
    revert this
    cases cls <;> decide
  · intro hp
    rw [hsplit] at hp
    have := prefix_take hp 2 (by decide) h2
    revert this
    cases cls <;> decide

theorem tag_ident (cls : Cls) : Ident cls.tag.toList := by
  cases cls <;> exact ⟨by decide, by decide⟩

/-- labels of the written lines are identifiers -/
def InvIdent (inv : PyDict Nat (String × Nat)) : Prop := ∀ q s i, inv.get? q = some (s, i) → Ident s.toList

theorem newline_qtext {s : Text} (hs : Ident s) (i : Nat) : '\n' ∉ qtext s i := by
  have h1 : '\n' ∉ s := not_mem_of_class hs.2 (by decide)
  have h2 : '\n' ∉ showNat i := not_mem_of_class (showNat_digit i) (by decide)
  simp [qtext, h1, h2]

theorem showQudit_newline {inv} (hinv : InvIdent inv) (q : Int) (t : Text) (h : showQudit inv q = .ok t) :
    '\n' ∉ t := by
  unfold showQudit at h
  split at h
  · cases h
  · split at h
    · rename_i lbl i hg
      cases h
      have := newline_qtext (hinv _ _ _ hg) i
      simpa [qtext] using this
    · cases h

theorem mapM_mem {α β ε : Type} (f : α → Except ε β) (l : List α) (r : List β) (h : l.mapM f = .ok r) :
    ∀ y ∈ r, ∃ x ∈ l, f x = .ok y := by
  induction l generalizing r with
  | nil =>
    simp only [List.mapM_nil, pure, Except.pure, Except.ok.injEq] at h
    subst h
    simp
  | cons a l ih =>
    rw [List.mapM_cons] at h
    cases ha : f a with
    | error e => simp [ha, bind, Except.bind] at h
    | ok b =>
      cases hl : l.mapM f with
      | error e => simp [ha, hl, bind, Except.bind] at h
      | ok bs =>
        simp only [ha, hl, bind, Except.bind, pure, Except.pure, Except.ok.injEq] at h
        subst h
        intro y hy
        rcases List.mem_cons.1 hy with rfl | hy
        · exact ⟨a, by simp, ha⟩
        · obtain ⟨x, hx, e⟩ := ih bs hl y hy
          exact ⟨x, by simp [hx], e⟩

theorem showInt_newline (n : Int) : '\n' ∉ showInt n := by
  have h : ∀ k, '\n' ∉ showNat k := fun k => not_mem_of_class (showNat_digit k) (by decide)
  unfold showInt
  split <;> simp [h]

/-- every written gate is one line that is none of the other kinds -/
theorem gateLine_shape (F : PyFloat) {inv} (hinv : InvIdent inv) (g : QG) (hg : OneLine F g) (t : Text)
    (h : gateLine F inv g = .ok t) : ∃ l, t = l ++ ['\n'] ∧ GateLike l ∧ '\n' ∉ l := by
  unfold gateLine at h
  cases hps : showParams F g.params with
  | error e => simp [hps, bind, Except.bind] at h
  | ok ps =>
    have hn := hg ps hps
    cases hts : g.base.target.lines.mapM (showQudit inv) with
    | error e => simp [hps, hts, bind, Except.bind] at h
    | ok ts =>
      have hnt : ∀ y ∈ ts, '\n' ∉ y := by
        intro y hy
        obtain ⟨x, _, e⟩ := mapM_mem _ _ _ hts y hy
        exact showQudit_newline hinv x y e
      have hnj : '\n' ∉ joinComma ts := by
        intro hm
        rcases joinComma_mem _ _ hm with h | h | ⟨y, hy, h⟩
        · exact absurd h (by decide)
        · exact absurd h (by decide)
        · exact hnt y hy h
      have htag : '\n' ∉ g.cls.tag.toList := not_mem_of_class (tag_ident g.cls).2 (by decide)
      simp only [hps, hts, bind, Except.bind] at h
      cases hc : g.base.controls with
      | none =>
        simp only [hc, pure, Except.pure, Except.ok.injEq] at h
        refine ⟨g.cls.tag.toList ++ ' ' :: (ps ++ joinComma ts ++ [';']), ?_, ?_, ?_⟩
        · rw [← h]
          simp only [List.append_assoc, List.cons_append]
          rfl
        · exact tag_gateLike g.cls _ (' ' :: (ps ++ joinComma ts)) rfl
        · simp [htag, hn, hnj]
      | some c =>
        simp only [hc] at h
        cases hl : ts.getLast? with
        | none => simp [hl] at h
        | some last =>
          simp only [hl, pure, Except.pure, Except.ok.injEq] at h
          have hlast : '\n' ∉ last := hnt last (List.mem_of_getLast? hl)
          have hni : '\n' ∉ joinComma (c.ctrlStates.map showInt) := by
            intro hm
            rcases joinComma_mem _ _ hm with h | h | ⟨y, hy, h⟩
            · exact absurd h (by decide)
            · exact absurd h (by decide)
            · obtain ⟨z, _, rfl⟩ := List.mem_map.1 hy
              exact showInt_newline z h
          refine ⟨g.cls.tag.toList ++ ' ' :: (ps ++ joinComma ts ++ " ctl ".toList ++
            (c.indices.map fun _ => last ++ [' ']).flatten ++
            ('[' :: joinComma (c.ctrlStates.map showInt) ++ [']']) ++ [';']), ?_, ?_, ?_⟩
          · rw [← h]
            simp only [List.append_assoc, List.cons_append]
            rfl
          · refine tag_gateLike g.cls _ (' ' :: (ps ++ joinComma ts ++ " ctl ".toList ++
              (c.indices.map fun _ => last ++ [' ']).flatten ++
              ('[' :: joinComma (c.ctrlStates.map showInt) ++ [']']))) ?_
            simp only [List.append_assoc, List.cons_append]
          · have hctl : '\n' ∉ " ctl ".toList := by decide
            have hfl : '\n' ∉ (c.indices.map fun _ => last ++ [' ']).flatten := by
              intro hm
              obtain ⟨y, hy, hm⟩ := List.mem_flatten.1 hm
              obtain ⟨z, _, rfl⟩ := List.mem_map.1 hy
              simp [hlast] at hm
            simp only [List.mem_append, List.mem_cons, not_or, List.not_mem_nil, not_false_eq_true, and_true]
            exact ⟨htag, by decide, ⟨⟨⟨⟨hn, hnj⟩, hctl⟩, hfl⟩, ⟨by decide, hni⟩, by decide⟩, by decide⟩

/-- reading one gate line -/
def readGate (F : PyFloat) (m : PyDict (String × Nat) (Nat × Nat)) (l : Text) : Except PyErr Op := do
  match ← parseGate F l m with
  | some op => pure op
  | none => if (Rgx.error.matchAt l).isSome then .error .notImplemented else .error .syntaxError

theorem parse_gates (F : PyFloat) (ls : List Text) (hls : ∀ l ∈ ls, GateLike l) (st : PState)
    (hst : st.inComment = false) :
    ls.foldlM (parseLine F) st
      = (fun ops => { st with gates := st.gates ++ ops }) <$> ls.mapM (readGate F st.sitemap) := by
  induction ls generalizing st with
  | nil => cases st; simp [pure, Except.pure, Functor.map, Except.map]
  | cons l ls ih =>
    rw [List.foldlM_cons, List.mapM_cons, parseLine_gate F l (hls l (by simp)) st hst]
    have hrest := fun st hst => ih (fun x hx => hls x (by simp [hx])) st hst
    simp only [readGate, bind, Except.bind]
    cases parseGate F l st.sitemap with
    | error e => rfl
    | ok o =>
      cases o with
      | none => cases (Rgx.error.matchAt l).isSome <;> rfl
      | some op =>
        have := hrest { st with gates := st.gates ++ [op] } hst
        simp only [pure, Except.pure]
        rw [this]
        have e : (fun l => (do
            match ← parseGate F l st.sitemap with
            | some op => pure op
            | none => if (Rgx.error.matchAt l).isSome then .error .notImplemented else .error .syntaxError :
              Except PyErr Op)) = readGate F st.sitemap := rfl
        cases hm : ls.mapM (readGate F st.sitemap) with
        | error e => rfl
        | ok ops => simp [Functor.map, Except.map]

/-! ### the whole program -/

/-- classical bits declared by `creg meas[n];` -/
def measSites (n : Nat) : PyDict (String × Nat) Nat :=
  (List.range n).foldl (fun m i => m.set ("meas", i) m.length) []

/-- none of the written lines contains a line break -/
theorem program_newline (rs : List QReg) (hl : ∀ r ∈ rs, Ident r.label.toList) (n : Nat) (ls : List Text)
    (hls : ∀ l ∈ ls, '\n' ∉ l) :
    ∀ l ∈ "DITQASM 2.0;".toList :: (rs.map regLine ++ cregText n :: (ls ++ measFrom 0 rs)), '\n' ∉ l := by
  have hregnl : ∀ l ∈ rs.map regLine, '\n' ∉ l := by
    intro l hm
    obtain ⟨r, hr, rfl⟩ := List.mem_map.1 hm
    have h1 : '\n' ∉ r.label.toList := not_mem_of_class (hl r hr).2 (by decide)
    have h2 : '\n' ∉ showNat r.size := not_mem_of_class (showNat_digit _) (by decide)
    have h3 : '\n' ∉ joinComma (r.dims.map showNat) := by
      intro hm
      rcases joinComma_mem _ _ hm with h | h | ⟨y, hy, h⟩
      · exact absurd h (by decide)
      · exact absurd h (by decide)
      · obtain ⟨z, _, rfl⟩ := List.mem_map.1 hy
        exact not_mem_of_class (showNat_digit z) (by decide) h
    unfold regLine
    simp only [List.mem_append, List.mem_filter, List.mem_cons, not_or]
    refine ⟨⟨⟨⟨⟨⟨by decide, h1⟩, by decide⟩, h2⟩, by decide⟩, ?_⟩, by decide⟩
    rintro ⟨h | h, _⟩
    · rcases h with h | h
      · exact absurd h (by decide)
      · exact h3 h
    · exact absurd h (by decide)
  have hcregnl : '\n' ∉ cregText n := by
    have h2 : '\n' ∉ showNat n := not_mem_of_class (showNat_digit _) (by decide)
    unfold cregText
    simp only [List.mem_append, not_or]
    exact ⟨⟨by decide, h2⟩, by decide⟩
  have hmeasnl : ∀ k, ∀ l ∈ measFrom k rs, '\n' ∉ l := by
    clear hls hregnl
    induction rs with
    | nil => intro k l hm; simp [measFrom] at hm
    | cons r rs ih =>
      intro k l hm
      simp only [measFrom, List.mem_append] at hm
      rcases hm with hm | hm
      · simp only [measList, List.mem_map] at hm
        obtain ⟨i, _, rfl⟩ := hm
        have h1 : '\n' ∉ r.label.toList := not_mem_of_class (hl r (by simp)).2 (by decide)
        have h2 : '\n' ∉ showNat i := not_mem_of_class (showNat_digit _) (by decide)
        have h3 : '\n' ∉ showNat (k + i) := not_mem_of_class (showNat_digit _) (by decide)
        unfold measureText
        simp only [List.mem_append, List.mem_cons, not_or]
        exact ⟨⟨⟨⟨⟨by decide, h1⟩, by decide, h2⟩, by decide⟩, h3⟩, by decide⟩
      · exact ih (fun x hx => hl x (by simp [hx])) _ l hm
  intro l hm
  simp only [List.mem_cons, List.mem_append] at hm
  rcases hm with rfl | hm | rfl | hm | hm
  · decide
  · exact hregnl l hm
  · exact hcregnl
  · exact hls l hm
  · exact hmeasnl 0 l hm

theorem parse_program (F : PyFloat) (rs : List QReg) (hl : ∀ r ∈ rs, Ident r.label.toList)
    (hne : ∀ r ∈ rs, r.size ≠ 0) (hwf : ∀ r ∈ rs, r.dims.length = r.size)
    (hnd : (rs.map QReg.label).Nodup) (n : Nat) (ls : List Text) (hls : ∀ l ∈ ls, GateLike l ∧ '\n' ∉ l) :
    parse F (unlines ("DITQASM 2.0;".toList :: (rs.map regLine ++ cregText n :: (ls ++ measFrom 0 rs))))
      = (fun ops => ⟨siteFrom 0 rs, measSites n, ops, false⟩) <$> ls.mapM (readGate F (siteFrom 0 rs)) := by
  unfold parse unlines
  rw [split_lines]
  · rw [List.cons_append, List.foldlM_cons, parseLine_header F _ rfl]
    simp only [bind, Except.bind]
    rw [List.append_assoc, List.foldlM_append]
    have h1 := parse_regs F [] rs hl hne hwf (by simpa using hnd) {} rfl rfl
    rw [h1, List.nil_append]
    simp only [bind, Except.bind, List.cons_append, List.foldlM_cons]
    rw [parseLine_creg F n _ rfl]
    simp only []
    rw [List.append_assoc, List.foldlM_append, parse_gates F ls (fun l h => (hls l h).1) _ rfl]
    cases hm : ls.mapM (readGate F (siteFrom 0 rs)) with
    | error e => simp [hm, Functor.map, Except.map, bind, Except.bind]
    | ok ops =>
      simp only [hm, Functor.map, Except.map, bind, Except.bind]
      rw [List.foldlM_append, parse_measures F 0 rs _ rfl]
      simp only [bind, Except.bind, List.foldlM_cons, List.foldlM_nil, parseLine_blank]
      simp [measSites, pure, Except.pure]
  · exact program_newline rs hl n ls fun l h => (hls l h).2

/-- circuits as `append` and the gate builders make them, with their registers in order -/
structure Built {γ : Type} (c : Circ γ) (regs : List QReg) : Prop where
  qregs : c.qregs = placed 0 regs
  dims : c.dims = regs.flatMap QReg.dims
  inv : c.inverseSitemap = invFrom 0 regs
  site : c.sitemap = siteFrom 0 regs
  num : c.numQudits = total regs

theorem built_addGate {γ : Type} {c : Circ γ} {regs} (h : Built c regs) (g : γ) : Built (c.addGate g) regs :=
  ⟨h.qregs, h.dims, h.inv, h.site, h.num⟩

theorem built_addGates {γ : Type} {c : Circ γ} {regs} (h : Built c regs) (gs : List γ) :
    Built (gs.foldl Circ.addGate c) regs := by
  induction gs generalizing c with
  | nil => exact h
  | cons g gs ih => exact ih (built_addGate h g)

theorem built_appendClassic {γ : Type} {c : Circ γ} {regs} (h : Built c regs) (r : CReg) :
    Built (c.appendClassic r) regs := ⟨h.qregs, h.dims, h.inv, h.site, h.num⟩

theorem built_appendAll {γ : Type} (c : Circ γ) (regs : List QReg) (hc : c.qregs = [] ∧ c.dims = [] ∧ c.inverseSitemap = []
    ∧ c.sitemap = [] ∧ c.numQudits = 0) (hwf : ∀ r ∈ regs, r.dims.length = r.size)
    (hnd : (regs.map QReg.label).Nodup) (hf : Fresh 0 regs) :
    c.appendAll regs = .ok (withRegs c regs) := by
  have := appendAll_from c [] regs hwf (by simpa using hnd) (by simpa [total] using hf)
  rw [List.nil_append] at this
  rw [← this]
  congr 1
  cases c
  obtain ⟨h1, h2, h3, h4, h5⟩ := hc
  simp only at h1 h2 h3 h4 h5
  subst h1 h2 h3 h4 h5
  rfl

theorem invIdent_from (regs : List QReg) (hl : ∀ r ∈ regs, Ident r.label.toList)
    (hnd : (regs.map QReg.label).Nodup) (hwf : ∀ r ∈ regs, r.dims.length = r.size) : InvIdent (invFrom 0 regs) := by
  intro q s i h
  have key : ∀ n, (∃ x ∈ invFrom n regs, x.2 = (s, i)) → ∃ r ∈ regs, r.label = s := by
    clear h hl hnd hwf
    induction regs with
    | nil => rintro n ⟨x, hx, _⟩; simp [invFrom] at hx
    | cons r rs ih =>
      rintro n ⟨x, hx, e⟩
      simp only [invFrom, List.mem_append] at hx
      rcases hx with hx | hx
      · simp only [invBlock, List.mem_map] at hx
        obtain ⟨j, _, rfl⟩ := hx
        cases e
        exact ⟨r, by simp, rfl⟩
      · obtain ⟨r', hr', e'⟩ := ih _ ⟨x, hx, e⟩
        exact ⟨r', by simp [hr'], e'⟩
  have hmem : ∀ (d : PyDict Nat (String × Nat)) q v, d.get? q = some v → ∃ x ∈ d, x.2 = v := by
    intro d
    induction d with
    | nil => intro q v h; simp [PyDict.get?] at h
    | cons a d ih =>
      obtain ⟨a, b⟩ := a
      intro q v h
      by_cases e : a = q
      · simp only [PyDict.get?, if_pos e, Option.some.injEq] at h
        exact ⟨(a, b), by simp, h⟩
      · simp only [PyDict.get?, if_neg e] at h
        obtain ⟨x, hx, hv⟩ := ih q v h
        exact ⟨x, by simp [hx], hv⟩
  obtain ⟨r, hr, rfl⟩ := key 0 (hmem _ _ _ h)
  exact hl r hr

theorem mapM_split {α : Type} (f : α → Except PyErr Text) (P : Text → Prop) (l : List α) (r : List Text)
    (hf : ∀ x ∈ l, ∀ t, f x = .ok t → ∃ s, t = s ++ ['\n'] ∧ P s) (h : l.mapM f = .ok r) :
    ∃ ls : List Text, r = ls.map (fun s => s ++ ['\n']) ∧ ∀ s ∈ ls, P s := by
  have hm := mapM_mem f l r h
  clear h
  induction r with
  | nil => exact ⟨[], rfl, by simp⟩
  | cons t r ih =>
    obtain ⟨x, hx, e⟩ := hm t (by simp)
    obtain ⟨s, hs, hP⟩ := hf x hx t e
    obtain ⟨ls, hls, hPs⟩ := ih fun y hy => hm y (by simp [hy])
    exact ⟨s :: ls, by simp [hs, hls], by
      intro y hy
      rcases List.mem_cons.1 hy with rfl | hy
      · exact hP
      · exact hPs y hy⟩

/-- the circuit in which the gates read are placed -/
def readBase {γ : Type} (e : Circ γ) (regs : List QReg) (n : Nat) : Circ γ :=
  (cregFromMap (measSites n)).foldl Circ.appendClassic (withRegs e.reset regs)

theorem regLine_placed (n : Nat) (rs : List QReg) : (placed n rs).map regLine = rs.map regLine := by
  induction rs generalizing n with
  | nil => rfl
  | cons r rs ih => simp only [placed, List.map_cons, ih]; rfl

theorem dims_length (regs : List QReg) (hwf : ∀ r ∈ regs, r.dims.length = r.size) :
    (regs.flatMap QReg.dims).length = total regs := by
  induction regs with
  | nil => rfl
  | cons r rs ih =>
    rw [List.flatMap_cons, List.length_append, total_cons, hwf r (by simp), ih fun x hx => hwf x (by simp [hx])]

theorem toQasm_eq (F : PyFloat) (c : Circ QG) (regs : List QReg) (hb : Built c regs)
    (hwf : ∀ r ∈ regs, r.dims.length = r.size) (ls : List Text)
    (hg : c.instructions.mapM (gateLine F c.inverseSitemap) = .ok (ls.map fun s => s ++ ['\n'])) :
    toQasm F c = .ok (unlines ("DITQASM 2.0;".toList :: (regs.map regLine ++
      cregText (total regs) :: (ls ++ measFrom 0 regs)))) := by
  have hn : c.dims.length = total regs := by rw [hb.dims, dims_length regs hwf]
  have hq : (c.qregs.map fun r => regLine r ++ ['\n']).flatten = unlines (regs.map regLine) := by
    rw [hb.qregs, unlines, ← regLine_placed 0 regs, List.map_map]
    rfl
  unfold toQasm
  have hm := measureAll_ok c.dims.length c.qregs 0 [] (by rw [hn, hb.qregs, total_placed]; omega)
  simp only [hg, hm, bind, Except.bind, pure, Except.pure, hq] at hm ⊢
  simp only [Except.ok.injEq]
  rw [unlines_cons, unlines_append, unlines_cons, unlines_append, hb.qregs, measFrom_placed, hn]
  unfold cregText unlines
  generalize showNat (total regs) = u
  simp only [List.append_assoc, List.cons_append, List.nil_append]
  rfl

/-- the registers read are the registers written -/
theorem appendAll_read {γ : Type} (e : Circ γ) (regs : List QReg) (hne : ∀ r ∈ regs, r.size ≠ 0)
    (hwf : ∀ r ∈ regs, r.dims.length = r.size) (hnd : (regs.map QReg.label).Nodup) :
    e.reset.appendAll (fromMap (siteFrom 0 regs)) = .ok (withRegs e.reset regs) := by
  rw [fromMap_from regs hne hwf hnd]
  have hp : ∀ n, (placed n regs).map QReg.label = regs.map QReg.label := by
    clear hne hwf hnd
    induction regs with
    | nil => intro n; rfl
    | cons r rs ih => intro n; simp only [placed, List.map_cons, ih]
  have hpw : ∀ n, ∀ r ∈ placed n regs, r.dims.length = r.size := by
    clear hne hnd hp
    induction regs with
    | nil => intro n r hr; simp [placed] at hr
    | cons r rs ih =>
      intro n x hx
      simp only [placed, List.mem_cons] at hx
      rcases hx with rfl | hx
      · exact hwf r (by simp)
      · exact ih (fun y hy => hwf y (by simp [hy])) _ x hx
  rw [built_appendAll e.reset (placed 0 regs) ⟨rfl, rfl, rfl, rfl, rfl⟩ (hpw 0) (by rw [hp]; exact hnd)
    (fresh_placed 0 regs)]
  have hw : withRegs e.reset (placed 0 regs) = withRegs e.reset regs := by
    have h1 : ∀ n, placed n (placed n regs) = placed n regs := by
      clear * -
      induction regs with
      | nil => intro n; rfl
      | cons r rs ih => intro n; simp only [placed, ih]
    have h2 : ∀ n, siteFrom n (placed n regs) = siteFrom n regs := by
      clear * -
      induction regs with
      | nil => intro n; rfl
      | cons r rs ih => intro n; simp only [placed, siteFrom, ih]; rfl
    have h3 : ∀ n, invFrom n (placed n regs) = invFrom n regs := by
      clear * -
      induction regs with
      | nil => intro n; rfl
      | cons r rs ih => intro n; simp only [placed, invFrom, ih]; rfl
    have h4 : ∀ n, (placed n regs).flatMap QReg.dims = regs.flatMap QReg.dims := by
      clear * -
      induction regs with
      | nil => intro n; rfl
      | cons r rs ih => intro n; simp only [placed, List.flatMap_cons, ih]
    simp only [withRegs, h1, h2, h3, h4, total_placed]
  rw [hw]

theorem read_written (F : PyFloat) (c : Circ QG) (regs : List QReg) (hb : Built c regs)
    (hl : ∀ r ∈ regs, Ident r.label.toList) (hne : ∀ r ∈ regs, r.size ≠ 0)
    (hwf : ∀ r ∈ regs, r.dims.length = r.size) (hnd : (regs.map QReg.label).Nodup)
    (hone : ∀ g ∈ c.instructions, OneLine F g) (text : Text) (ht : toQasm F c = .ok text) :
    ∃ ls : List Text, c.instructions.mapM (gateLine F c.inverseSitemap) = .ok (ls.map fun s => s ++ ['\n']) ∧
      ∀ e : Circ QG, fromQasm F e text = (do
        let ops ← ls.mapM (readGate F (siteFrom 0 regs))
        ops.foldlM addOp (readBase e regs (total regs))) := by
  have hinv : InvIdent c.inverseSitemap := by rw [hb.inv]; exact invIdent_from regs hl hnd hwf
  cases hg : c.instructions.mapM (gateLine F c.inverseSitemap) with
  | error x => simp [toQasm, hg, bind, Except.bind] at ht
  | ok r =>
    obtain ⟨ls, rfl, hls⟩ := mapM_split _ (fun s => GateLike s ∧ '\n' ∉ s) _ _ (fun g hgm t h =>
      gateLine_shape F hinv g (hone g hgm) t h) hg
    refine ⟨ls, rfl, ?_⟩
    rw [toQasm_eq F c regs hb hwf ls hg] at ht
    cases ht
    intro e
    unfold fromQasm
    rw [parse_program F regs hl hne hwf hnd (total regs) ls hls]
    cases hm : ls.mapM (readGate F (siteFrom 0 regs)) with
    | error x => rfl
    | ok ops =>
      simp only [Functor.map, Except.map, bind, Except.bind]
      rw [appendAll_read e regs hne hwf hnd]
      rfl

/-! ### what is kept by adding gates -/

theorem built_addOp {c c' : Circ QG} {regs} (h : Built c regs) (op : Op) (e : addOp c op = .ok c') :
    Built c' regs ∧ c'.cregs = c.cregs := by
  unfold addOp at e
  split at e
  · cases e
    exact ⟨h, rfl⟩
  · split at e
    · cases e
    · rename_i cls _ _ q qs _
      cases hcb : callBuilder c.dims cls (if qs.isEmpty then .one q.1 else
          .many ((q :: qs).map fun x => ((x.1 : Nat) : Int))) op.params op.controls with
      | error x => simp only [hcb, bind, Except.bind] at e; cases e
      | ok o =>
        simp only [hcb, bind, Except.bind] at e
        cases o with
        | none =>
          simp only [pure, Except.pure, Except.ok.injEq] at e
          subst e
          exact ⟨h, rfl⟩
        | some g =>
          simp only [pure, Except.pure, Except.ok.injEq] at e
          subst e
          exact ⟨built_addGate h g, rfl⟩

theorem built_addOps {regs} (ops : List Op) {c c' : Circ QG} (h : Built c regs)
    (e : ops.foldlM addOp c = .ok c') : Built c' regs ∧ c'.cregs = c.cregs := by
  induction ops generalizing c with
  | nil =>
    cases e
    exact ⟨h, rfl⟩
  | cons op ops ih =>
    rw [List.foldlM_cons] at e
    cases ha : addOp c op with
    | error x => simp [ha, bind, Except.bind] at e
    | ok c1 =>
      simp only [ha, bind, Except.bind] at e
      obtain ⟨h1, h2⟩ := built_addOp h op ha
      obtain ⟨h3, h4⟩ := ih h1 e
      exact ⟨h3, h4.trans h2⟩

theorem built_withRegs {γ : Type} (c : Circ γ) (regs) : Built (withRegs c regs) regs := ⟨rfl, rfl, rfl, rfl, rfl⟩

theorem built_readBase {γ : Type} (e : Circ γ) (regs n) : Built (readBase e regs n) regs := by
  unfold readBase
  generalize cregFromMap (measSites n) = l
  have h : Built (withRegs e.reset regs) regs := built_withRegs _ _
  generalize withRegs e.reset regs = c at h
  induction l generalizing c with
  | nil => exact h
  | cons r l ih => exact ih _ (built_appendClassic h r)

/-! ### the classical register read -/

theorem measSites_eq (n : Nat) : measSites n = (List.range n).map fun i => (("meas", i), i) := by
  unfold measSites
  induction n with
  | zero => rfl
  | succ n ih =>
    rw [List.range_succ, List.foldl_append, ih]
    simp only [List.foldl_cons, List.foldl_nil]
    rw [PyDict.set_of_not_mem]
    · simp [List.length_map]
    · simp [PyDict.keys, Function.comp_def]

theorem cregFromMap_meas (n : Nat) : cregFromMap (measSites (n + 1)) = [⟨"meas", n + 1, []⟩] := by
  rw [measSites_eq]
  unfold cregFromMap
  have key : ∀ m, ((List.range (m + 1)).map fun i => (("meas", i), i)).foldl
      (fun (acc : PyDict String (List Nat)) (e : (String × Nat) × Nat) =>
        match acc.get? e.1.1 with
        | Option.none => acc.set e.1.1 [e.1.2]
        | some l => acc.set e.1.1 (if e.1.2 ∈ l then l else l ++ [e.1.2])) []
      = [("meas", List.range (m + 1))] := by
    intro m
    induction m with
    | zero => rfl
    | succ m ih =>
      rw [List.range_succ, List.map_append, List.foldl_append, ih]
      simp only [List.map_cons, List.map_nil, List.foldl_cons, List.foldl_nil, PyDict.get?, if_true]
      have : m + 1 ∉ List.range (m + 1) := by simp
      rw [if_neg this]
      simp [PyDict.set]
  exact (congrArg (List.map fun e : String × List Nat => (⟨e.1, e.2.length, []⟩ : CReg)) (key n)).trans (by simp)

end Qudits.Qasm
