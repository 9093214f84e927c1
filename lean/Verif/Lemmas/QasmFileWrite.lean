import Verif.Lemmas.QasmFileRead

/-
Saving custom gates and reading them from their files.
-/
namespace Qudits.Qasm
open Re Qudits Spec

variable {F : PyFloat}

theorem gateLine_eq (inv : PyDict Nat (String × Nat)) (g : QG) :
    gateLine F inv g = (do let ps ← showParams F g.params; lineOf inv g ps) := rfl

theorem loadParams_plain (fs : PyDict Text (Arr2 ℂ)) (p : Text) (hne : p ≠ [])
    (hs : hasSub ".npy".toList p = false) : loadParams F fs (some p) = RParams.nums <$> (splitChar ','
      (stripWith (fun c => c == '(' || c == ')' || c == '[' || c == ']') p)).mapM F.eval := by
  cases p with
  | nil => exact absurd rfl hne
  | cons x t =>
    simp only [loadParams]
    rw [if_neg (by rw [hs]; decide)]

/-! ### custom gate objects -/

theorem custom_fields {dims : List Nat} {cls : Cls} {t : Target} {g : QG}
    (hc : cls ∈ [Cls.cuOne, .cuTwo, .cuMulti]) (h : construct dims cls t .array none = .ok g) :
    g.cls = cls ∧ g.params = .array ∧ g.base.target = t ∧ g.base.controls = none ∧ t.lines ≠ [] ∧
      ∀ x ∈ g.base.name.toList, x ≠ '/' ∧ x ≠ ')' ∧ x ≠ '\n' := by
  have hdig : ∀ k, ∀ x ∈ showNat k, x ≠ '/' ∧ x ≠ ')' ∧ x ≠ '\n' := by
    intro k x hx
    have := showNat_digit k x hx
    refine ⟨?_, ?_, ?_⟩ <;> rintro rfl <;> revert this <;> decide
  have hname : ∀ {name ty b}, Gate.init dims name ty t none = .ok b → b.name = name := by
    intro name ty b h
    unfold Gate.init at h
    simp only [pure_bind] at h
    obtain ⟨lr, _, h⟩ := bind_ok h
    cases h
    rfl
  have hmany : ∀ pre : String, (∀ x ∈ pre.toList, x ≠ '/' ∧ x ≠ ')' ∧ x ≠ '\n') → ∀ ds,
      ∀ x ∈ (nameN pre ds).toList, x ≠ '/' ∧ x ≠ ')' ∧ x ≠ '\n' := by
    intro pre hpre ds x hx
    simp only [nameN, String.toList_append, String.toList_ofList, List.mem_append, List.mem_cons,
      List.not_mem_nil, or_false] at hx
    rcases hx with hx | (rfl | hx) | rfl
    · exact hpre x hx
    · decide
    · rcases joinComma_mem _ _ hx with rfl | rfl | ⟨y, hy, hx⟩
      · decide
      · decide
      · obtain ⟨z, _, rfl⟩ := List.mem_map.1 hy
        exact hdig z x hx
    · decide
  simp only [List.mem_cons, List.not_mem_nil, or_false] at hc
  rcases hc with rfl | rfl | rfl <;> simp only [construct] at h
  · obtain ⟨d, _, h⟩ := bind_ok h
    obtain ⟨b, hb, h⟩ := bind_ok h
    cases h
    obtain ⟨h1, h2, _, _, h5⟩ := init_none hb
    refine ⟨rfl, rfl, h1, h2, h5, ?_⟩
    intro x hx
    rw [hname hb] at hx
    simp only [name1, String.toList_append, String.toList_ofList, List.mem_append] at hx
    rcases hx with hx | hx
    · revert x
      decide
    · exact hdig d x hx
  · obtain ⟨d, _, h⟩ := bind_ok h
    obtain ⟨b, hb, h⟩ := bind_ok h
    cases h
    obtain ⟨h1, h2, _, _, h5⟩ := init_none hb
    refine ⟨rfl, rfl, h1, h2, h5, ?_⟩
    intro x hx
    rw [hname hb] at hx
    exact hmany "CUt" (by decide) d x hx
  · obtain ⟨d, _, h⟩ := bind_ok h
    obtain ⟨b, hb, h⟩ := bind_ok h
    cases h
    obtain ⟨h1, h2, _, _, h5⟩ := init_none hb
    refine ⟨rfl, rfl, h1, h2, h5, ?_⟩
    intro x hx
    rw [hname hb] at hx
    exact hmany "CUm" (by decide) d x hx

/-! ### their files -/

/-- the file of a custom gate -/
def npyName (name key : Text) : Text := name ++ '_' :: key ++ ".npy".toList

theorem npy_part {name key : Text} (hn : ∀ x ∈ name, x ≠ '/') (hk : '/' ∉ key) : Part (npyName name key) := by
  refine ⟨?_, ?_, ?_⟩
  · simp [npyName]
  · intro e
    have := congrArg List.length e
    simp [npyName] at this
    omega
  · intro h
    simp only [npyName, List.mem_append, List.mem_cons] at h
    rcases h with (h | h | h) | h
    · exact hn _ h rfl
    · exact absurd h (by decide)
    · exact hk h
    · exact absurd h (by decide)

theorem npy_inj {pre n n' k k' : Text} (hl : k.length = k'.length) (h : pre ++ npyName n k = pre ++ npyName n' k') :
    k = k' := by
  have h1 := List.append_cancel_left h
  have h2 := List.append_cancel_right h1
  have h3 := List.append_inj_right' h2 (by simp [hl])
  exact (List.cons.inj h3).2

/-! ### their lines -/

theorem targets_ok (regs : List QReg) (qs : List Int) (h : ∀ q ∈ qs, 0 ≤ q ∧ q.toNat < total regs) :
    ∃ ts, qs.mapM (showQudit (invFrom 0 regs)) = .ok ts := by
  apply mapM_exists
  intro q hq
  exact showQudit_ok regs q (h q hq).1 (h q hq).2

/-- the line of an uncontrolled gate with the text `p` in parentheses -/
theorem paren_line {regs : List QReg} (hr : GoodRegs regs) (g : QG) (hc : g.base.controls = none)
    (hne : g.base.target.lines ≠ []) (hq : ∀ q ∈ g.base.target.lines, 0 ≤ q ∧ q.toNat < total regs)
    (p : Text) (h1 : ')' ∉ p) (h2 : '\n' ∉ p) :
    ∃ (l : Text) (sites : List (Nat × Nat)),
      lineOf (invFrom 0 regs) g ('(' :: p ++ ") ".toList) = .ok (l ++ ['\n']) ∧ GateLike l ∧ '\n' ∉ l ∧
      sites.map (fun x => ((x.1 : Nat) : Int)) = g.base.target.lines ∧
      ∀ (F : PyFloat) (fs : PyDict Text (Arr2 ℂ)), readGateF F fs (siteFrom 0 regs) l
        = (fun v => ⟨g.cls.tag.toList, v, sites, none⟩) <$> loadParams F fs (some p) := by
  obtain ⟨ts, hts⟩ := targets_ok regs _ hq
  obtain ⟨ps, sites, rfl, hid, hm, hs⟩ := showQudits_from regs hr.ident hr.names _ _ hts
  cases ps with
  | nil =>
    cases sites with
    | nil => exact absurd hs.symm hne
    | cons a b => simp at hm
  | cons x ps =>
    have hj : joinComma ((x :: ps).map fun x => qtext x.1.toList x.2)
        = targetText (x.1.toList, x.2) (ps.map fun x => (x.1.toList, x.2)) := by
      have := joinComma_targets (x.1.toList, x.2) (ps.map fun x => (x.1.toList, x.2))
      rw [← this]
      simp [Function.comp_def]
    have hnt : '\n' ∉ targetText (x.1.toList, x.2) (ps.map fun x => (x.1.toList, x.2)) := by
      rw [← hj]
      intro hm
      rcases joinComma_mem _ _ hm with h | h | ⟨y, hy, h⟩
      · exact absurd h (by decide)
      · exact absurd h (by decide)
      · obtain ⟨z, hz, rfl⟩ := List.mem_map.1 hy
        exact newline_qtext (hid z hz) _ h
    have htag : '\n' ∉ g.cls.tag.toList := not_mem_of_class (tag_ident g.cls).2 (by decide)
    refine ⟨g.cls.tag.toList ++ ' ' :: (paramText (some p) ++ (targetText (x.1.toList, x.2)
      (ps.map fun x => (x.1.toList, x.2)) ++ ";".toList)), sites, ?_, ?_, ?_, hs, ?_⟩
    · unfold lineOf
      rw [hts, hc]
      simp only [bind, Except.bind, pure, Except.pure, Except.ok.injEq, hj, paramText, List.append_assoc,
        List.cons_append]
      rfl
    · exact tag_gateLike g.cls _ (' ' :: (paramText (some p) ++ targetText (x.1.toList, x.2)
        (ps.map fun x => (x.1.toList, x.2)))) (by simp)
    · simp only [paramText, List.mem_append, List.mem_cons, not_or]
      exact ⟨htag, by decide, ⟨⟨by decide, h2⟩, by decide⟩, hnt, by decide⟩
    · intro F fs
      obtain ⟨c, hc, g1, g2, g3, g5, g8⟩ := gate_match g.cls.tag.toList (tag_ident g.cls) (some p)
        (by intro p' e; cases e; exact h1) (x.1.toList, x.2) (ps.map fun x => (x.1.toList, x.2)) (by
          intro y hy
          rcases List.mem_cons.1 hy with rfl | hy
          · exact hid x (by simp)
          · obtain ⟨z, hz, rfl⟩ := List.mem_map.1 hy
            exact hid z (by simp [hz]))
      have hpt := parseTargets_ok (siteFrom 0 regs) x ps hid sites hm
      unfold readGateF parseGateF
      rw [hc]
      simp only [g1, g2, g3, g5, g8, Option.getD_some]
      cases hv : loadParams F fs (some p) with
      | error e => rfl
      | ok v =>
        simp only [bind, Except.bind] at hpt ⊢
        rw [hpt]
        simp [pure, Except.pure, Functor.map, Except.map, List.filterMap_map]

/-- adding a custom gate read from its file -/
theorem addOpF_custom {dims : List Nat} {g : FGate} (hg : CustomGate dims g) {a : Arr2 ℂ}
    (ha : a.rows * a.cols ≠ 0) {sites : List (Nat × Nat)}
    (hs : sites.map (fun x => ((x.1 : Nat) : Int)) = g.gate.base.target.lines) (c : Circ FGate) (hd : c.dims = dims) :
    addOpF c ⟨g.gate.cls.tag.toList, .data a, sites, none⟩ = .ok (c.addGate ⟨g.gate, some a⟩) := by
  obtain ⟨t, hb⟩ := hg.built
  obtain ⟨_, hpar, ht, _, hne, _⟩ := custom_fields hg.cls hb
  obtain ⟨_, name, ty, c', hi, hc', hlin⟩ := construct_inv hb
  have hform : (∃ q, t = .one q) ∨ ((∃ qs, t = .many qs) ∧ 2 ≤ t.lines.length) := by
    rcases hlin with ⟨d, hd, _⟩ | ⟨ds, hd, hsingle⟩
    · obtain ⟨q, rfl, _⟩ := oneLine_inv hd
      exact Or.inl ⟨q, rfl⟩
    · obtain ⟨qs, rfl, _⟩ := manyLines_inv hd
      right
      refine ⟨⟨qs, rfl⟩, ?_⟩
      rcases hg.several with h | h
      · rw [h] at hsingle
        exact absurd hsingle (by decide)
      · rw [ht] at h; exact h
  rw [ht] at hs
  have hk : g.gate.cls.known = true := by
    have := hg.cls
    revert this
    cases g.gate.cls <;> decide
  cases hsites : sites with
  | nil =>
    rw [hsites] at hs
    exact absurd hs.symm hne
  | cons q qs =>
    have htr := target_read t sites q qs hsites hs hform
    have hcall : callBuilderF dims g.gate.cls t (.data a) none = .ok (some ⟨g.gate, some a⟩) := by
      have hw : withData a g.gate = ⟨g.gate, some a⟩ := by
        unfold withData
        rw [hpar]
      unfold callBuilderF
      simp only [if_neg ha]
      have hcl := hg.cls
      simp only [List.mem_cons, List.not_mem_nil, or_false] at hcl
      rcases hcl with e | e | e <;> rw [e] at hb ⊢ <;> simp only [hb, Functor.map, Except.map, hw]
    unfold addOpF
    simp only [get_tag _ hk, htr, hd, hcall]
    rfl

theorem custom_targets {dims : List Nat} {g : FGate} (hg : MatrixGate dims g) {n : Nat} (hn : dims.length = n) :
    ∀ q ∈ g.gate.base.target.lines, 0 ≤ q ∧ q.toNat < n := by
  obtain ⟨t, hb⟩ := hg.built
  obtain ⟨_, _, ht, _, _, _⟩ := custom_fields hg.cls hb
  intro q hq
  have h0 := hg.lines q hq
  rw [ht] at hq
  exact ⟨h0, by rw [← hn]; exact built_lines hb q hq h0⟩

/-- what saving a custom gate writes: the line, and the file it names -/
theorem custom_written {regs : List QReg} (hr : GoodRegs regs) {dims : List Nat} (hn : dims.length = total regs)
    {g : FGate} (hg : MatrixGate dims g) {dir : Text} (hd : GoodDir dir) (keys : Nat → Text) (k : Nat)
    (hk : ∀ x ∈ keys k, x.isAlpha = true) {a : Arr2 ℂ} (ha : g.data = some a) :
    ∃ (l : Text) (sites : List (Nat × Nat)), GateLike l ∧ '\n' ∉ l ∧
      (∀ F fs, paramPart F dir keys g k fs = .ok ('(' :: (dirPrefix dir ++ npyName g.gate.base.name.toList (keys k))
        ++ ") ".toList, k + 1, fs.set (dirPrefix dir ++ npyName g.gate.base.name.toList (keys k)) a)) ∧
      lineOf (invFrom 0 regs) g.gate ('(' :: (dirPrefix dir ++ npyName g.gate.base.name.toList (keys k))
        ++ ") ".toList) = .ok (l ++ ['\n']) ∧
      sites.map (fun x => ((x.1 : Nat) : Int)) = g.gate.base.target.lines ∧
      ∀ F fs b, PyDict.get? fs (dirPrefix dir ++ npyName g.gate.base.name.toList (keys k)) = some b →
        readGateF F fs (siteFrom 0 regs) l = .ok ⟨g.gate.cls.tag.toList, .data b, sites, none⟩ := by
  obtain ⟨t, hb⟩ := hg.built
  obtain ⟨_, hpar, ht, hcn, hnl, hname⟩ := custom_fields hg.cls hb
  have hkey : ∀ x ∈ keys k, x ≠ '/' ∧ x ≠ ')' ∧ x ≠ '\n' := by
    intro x hx
    have := hk x hx
    refine ⟨?_, ?_, ?_⟩ <;> rintro rfl <;> revert this <;> decide
  have hpart : Part (npyName g.gate.base.name.toList (keys k)) :=
    npy_part (fun x hx => (hname x hx).1) (fun h => (hkey _ h).1 rfl)
  have hmem : ∀ x ∈ dirPrefix dir ++ npyName g.gate.base.name.toList (keys k), x ≠ ')' ∧ x ≠ '\n' := by
    intro x hx
    rcases List.mem_append.1 hx with h | h
    · rcases dirPrefix_mem dir x h with rfl | h
      · decide
      · exact ⟨fun e => hd.paren (e ▸ h), fun e => hd.newline (e ▸ h)⟩
    · simp only [npyName, List.mem_append, List.mem_cons] at h
      rcases h with (h | rfl | h) | h
      · exact (hname x h).2
      · decide
      · exact (hkey x h).2
      · clear hx
        revert x
        decide
  obtain ⟨l, sites, hl, hgl, hnl', hs, hread⟩ := paren_line hr g.gate hcn (by rw [ht]; exact hnl)
    (custom_targets hg hn) _ (fun h => (hmem _ h).1 rfl) (fun h => (hmem _ h).2 rfl)
  refine ⟨l, sites, hgl, hnl', ?_, hl, hs, ?_⟩
  · intro F fs
    unfold paramPart
    rw [hpar, ha]
    have hde : dir.isEmpty = false := by
      cases dir with
      | nil => exact absurd rfl hd.nonempty
      | cons a b => rfl
    simp only [customData, hde, Bool.false_eq_true, if_false]
    have : joinPath dir (g.gate.base.name.toList ++ '_' :: keys k ++ ".npy".toList)
        = dirPrefix dir ++ npyName g.gate.base.name.toList (keys k) := joinPath_file dir _ hpart
    rw [this]
  · intro F fs b hb'
    have hload : loadParams F fs (some (dirPrefix dir ++ npyName g.gate.base.name.toList (keys k)))
        = .ok (.data b) := by
      have hsub : hasSub ".npy".toList (dirPrefix dir ++ npyName g.gate.base.name.toList (keys k)) = true := by
        unfold npyName
        rw [← List.append_assoc]
        exact hasSub_suffix _ _ (by decide)
      revert hb' hsub
      generalize dirPrefix dir ++ npyName g.gate.base.name.toList (keys k) = p
      intro hb' hsub
      cases p with
      | nil => exact absurd hsub (by decide)
      | cons x s => simp only [loadParams, hsub, if_true, hb']
    rw [hread F fs, hload]
    rfl

/-! ### plain gates -/

theorem plain_written (hF : Laws F) {regs : List QReg} (hr : GoodRegs regs) {dims : List Nat}
    (hn : dims.length = total regs) {g : FGate} (hg : Plain F dims g.gate) (hdata : g.data = none) (dir : Text)
    (keys : Nat → Text) :
    ∃ l ps, GateLike l ∧ '\n' ∉ l ∧ (∀ k fs, paramPart F dir keys g k fs = .ok (ps, k, fs)) ∧
      lineOf (invFrom 0 regs) g.gate ps = .ok (l ++ ['\n']) ∧
      ∃ g', FSame g g' ∧ ∀ fs, ∃ op, readGateF F fs (siteFrom 0 regs) l = .ok op ∧
        ∀ c : Circ FGate, c.dims = dims → addOpF c op = .ok (c.addGate g') := by
  obtain ⟨t, ht⟩ := gateLine_ok regs hn hg.toReadable
  have hone := oneLine_of hF g.gate (Or.inl hg.numbers)
  obtain ⟨l, rfl, hgl, hnl⟩ := gateLine_shape F (invIdent_from regs hr.ident hr.names hr.dims) g.gate hone t ht
  obtain ⟨op, hop, hadd⟩ := read_step hF hr hg.toReadable ht
  rw [gateLine_eq] at ht
  obtain ⟨ps, hps, hl⟩ := bind_ok ht
  have hk : g.gate.cls.known = true := by
    have := hg.cls
    revert this
    cases g.gate.cls <;> decide
  have h0 := hadd ({ dims := dims } : Circ QG) rfl
  simp only [hk, if_true] at h0
  obtain ⟨g', ha, hrb⟩ := h0
  refine ⟨l, ps, hgl, hnl, ?_, hl, ⟨g', none⟩, ⟨?_, by rw [hdata]⟩, ?_⟩
  · intro k fs
    unfold paramPart
    have harr : g.gate.params ≠ .array := by
      intro e
      have := hg.numbers
      rw [e] at this
      exact this
    split
    · rename_i h1 h2
      exact absurd h1 harr
    · rw [hps]
      rfl
  · refine ⟨hrb.1, hrb.2.1, ?_⟩
    rw [hrb.2.2]
    have hc := hg.cls
    have hdef := hg.default
    unfold readAttrs
    revert hc hdef
    cases g.gate.cls <;> simp <;> intro hx <;> exact hx.symm
  · intro fs
    exact ⟨_, readGateF_of hop, fun c hc => addOpF_nums ha c hc⟩

/-! ### all gates -/

theorem writeGates_nil (inv : PyDict Nat (String × Nat)) (dir : Text) (keys : Nat → Text) (k : Nat)
    (fs : PyDict Text (Arr2 ℂ)) : writeGates F inv dir keys [] k fs = .ok (unlines [], fs) := rfl

theorem writeGates_cons {inv : PyDict Nat (String × Nat)} {dir : Text} {keys : Nat → Text} {g : FGate}
    {gs : List FGate} {k k' : Nat} {fs fs1 fs2 : PyDict Text (Arr2 ℂ)} {ps l : Text} {ls : List Text}
    (h1 : paramPart F dir keys g k fs = .ok (ps, k', fs1)) (h2 : lineOf inv g.gate ps = .ok (l ++ ['\n']))
    (h3 : writeGates F inv dir keys gs k' fs1 = .ok (unlines ls, fs2)) :
    writeGates F inv dir keys (g :: gs) k fs = .ok (unlines (l :: ls), fs2) := by
  unfold writeGates
  rw [h1]
  show (lineOf inv g.gate ps >>= fun l => writeGates F inv dir keys gs k' fs1 >>= fun r => pure (l ++ r.1, r.2)) = _
  rw [h2, h3]
  show Except.ok (l ++ ['\n'] ++ unlines ls, fs2) = _
  rw [unlines_cons, List.append_assoc]
  rfl

theorem write_read (hF : Laws F) {regs : List QReg} (hr : GoodRegs regs) {dims : List Nat}
    (hn : dims.length = total regs) {dir : Text} (hd : GoodDir dir) {keys : Nat → Text} {N : Nat}
    (hk : GoodKeys keys N) (gs : List FGate) (hg : ∀ g ∈ gs, Saveable F dims g) :
    ∀ k fs, k + gs.length ≤ N → ∃ ls fs', writeGates F (invFrom 0 regs) dir keys gs k fs = .ok (unlines ls, fs') ∧
      (∀ l ∈ ls, GateLike l ∧ '\n' ∉ l) ∧
      (∀ p, (∀ j n, k ≤ j → j < N → p ≠ dirPrefix dir ++ npyName n (keys j)) →
        PyDict.get? fs' p = PyDict.get? fs p) ∧
      ∀ fs'' : PyDict Text (Arr2 ℂ), (∀ p a, PyDict.get? fs' p = some a → PyDict.get? fs'' p = some a) →
      ∃ ops, ls.mapM (readGateF F fs'' (siteFrom 0 regs)) = .ok ops ∧ ∀ c : Circ FGate, c.dims = dims →
        ∃ gs', ops.foldlM addOpF c = .ok (gs'.foldl Circ.addGate c) ∧ List.Forall₂ FSame gs gs' := by
  induction gs with
  | nil =>
    intro k fs _
    exact ⟨[], fs, rfl, by simp, fun _ _ => rfl, fun _ _ => ⟨[], rfl, fun c _ => ⟨[], rfl, .nil⟩⟩⟩
  | cons g gs ih =>
    intro k fs hN
    simp only [List.length_cons] at hN
    have ih := ih fun x hx => hg x (by simp [hx])
    rcases hg g (by simp) with ⟨hp, hdata⟩ | hc
    · obtain ⟨l, ps, hgl, hnl, hpp, hline, g', hsame, hread⟩ := plain_written hF hr hn hp hdata dir keys
      obtain ⟨ls, fs', hw, hls, hfr, hops⟩ := ih k fs (by omega)
      refine ⟨l :: ls, fs', ?_, ?_, hfr, ?_⟩
      · exact writeGates_cons (hpp k fs) hline hw
      · intro x hx
        rcases List.mem_cons.1 hx with rfl | hx
        · exact ⟨hgl, hnl⟩
        · exact hls x hx
      · intro fs'' hfs
        obtain ⟨ops, hops, hadd⟩ := hops fs'' hfs
        obtain ⟨op, hop, hop'⟩ := hread fs''
        refine ⟨op :: ops, by rw [List.mapM_cons, hop, hops]; rfl, ?_⟩
        intro c hcd
        obtain ⟨gs', h1, h2⟩ := hadd (c.addGate g') hcd
        refine ⟨g' :: gs', ?_, .cons hsame h2⟩
        rw [List.foldlM_cons, hop' c hcd]
        exact h1
    · obtain ⟨a, ha, hane⟩ := hc.data
      obtain ⟨l, sites, hgl, hnl, hpp, hline, hs, hread⟩ := custom_written hr hn hc.toMatrixGate hd keys k
        (hk.letters k).2 ha
      obtain ⟨ls, fs', hw, hls, hfr, hops⟩ := ih (k + 1)
        (fs.set (dirPrefix dir ++ npyName g.gate.base.name.toList (keys k)) a) (by omega)
      have hget : PyDict.get? fs' (dirPrefix dir ++ npyName g.gate.base.name.toList (keys k)) = some a := by
        rw [hfr, PyDict.get?_set_self]
        intro j n hj hjN e
        have := npy_inj (by rw [(hk.letters k).1, (hk.letters j).1]) e
        have := hk.distinct k j (by omega) hjN this
        omega
      refine ⟨l :: ls, fs', ?_, ?_, ?_, ?_⟩
      · exact writeGates_cons (hpp F fs) hline hw
      · intro x hx
        rcases List.mem_cons.1 hx with rfl | hx
        · exact ⟨hgl, hnl⟩
        · exact hls x hx
      · intro p hp
        rw [hfr p fun j n hj hjN => hp j n (by omega) hjN, PyDict.get?_set_ne]
        exact fun e => hp k _ (Nat.le_refl _) (by omega) e.symm
      · intro fs'' hfs
        obtain ⟨ops, hops, hadd⟩ := hops fs'' hfs
        have hop := hread F fs'' a (hfs _ _ hget)
        refine ⟨_ :: ops, by rw [List.mapM_cons, hop, hops]; rfl, ?_⟩
        intro c hcd
        obtain ⟨gs', h1, h2⟩ := hadd (c.addGate ⟨g.gate, some a⟩) hcd
        refine ⟨⟨g.gate, some a⟩ :: gs', ?_, .cons ⟨⟨rfl, rfl, rfl⟩, ha.symm⟩ h2⟩
        rw [List.foldlM_cons, addOpF_custom hc hane hs c hcd]
        exact h1

/-! ### the whole circuit -/

theorem toQasmAt_eq (c : Circ FGate) (regs : List QReg) (hb : Built c regs)
    (hwf : ∀ r ∈ regs, r.dims.length = r.size) (dir : Text) (keys : Nat → Text) (fs fs' : PyDict Text (Arr2 ℂ))
    (ls : List Text) (hg : writeGates F c.inverseSitemap dir keys c.instructions 0 fs = .ok (unlines ls, fs')) :
    toQasmAt F dir keys c fs = .ok (unlines ("DITQASM 2.0;".toList :: (regs.map regLine ++
      cregText (total regs) :: (ls ++ measFrom 0 regs))), fs') := by
  have hn : c.dims.length = total regs := by rw [hb.dims, dims_length regs hwf]
  have hq : (c.qregs.map fun r => regLine r ++ ['\n']).flatten = unlines (regs.map regLine) := by
    rw [hb.qregs, unlines, ← regLine_placed 0 regs, List.map_map]
    rfl
  unfold toQasmAt
  have hm := measureAll_ok c.dims.length c.qregs 0 [] (by rw [hn, hb.qregs, total_placed]; omega)
  simp only [hg, hm, bind, Except.bind, pure, Except.pure, hq] at hm ⊢
  simp only [Except.ok.injEq, Prod.mk.injEq, and_true]
  rw [unlines_cons, unlines_append, unlines_cons, unlines_append, hb.qregs, measFrom_placed, hn]
  unfold cregText
  generalize showNat (total regs) = u
  simp only [List.append_assoc, List.cons_append, List.nil_append]
  rfl

/-- reading a written program -/
theorem fromQasmF_eq {regs : List QReg} (hr : GoodRegs regs) (fs : PyDict Text (Arr2 ℂ)) (ls : List Text)
    (hls : ∀ l ∈ ls, GateLike l ∧ '\n' ∉ l) (e : Circ FGate) :
    fromQasmF F fs e (unlines ("DITQASM 2.0;".toList :: (regs.map regLine ++
      cregText (total regs) :: (ls ++ measFrom 0 regs)))) = (do
        let ops ← ls.mapM (readGateF F fs (siteFrom 0 regs))
        ops.foldlM addOpF (readBase e regs (total regs))) := by
  unfold fromQasmF
  rw [parse_programF regs hr.ident hr.size hr.dims hr.names (total regs) ls hls]
  cases hm : ls.mapM (readGateF F fs (siteFrom 0 regs)) with
  | error x => rfl
  | ok ops =>
    simp only [Functor.map, Except.map, bind, Except.bind]
    rw [appendAll_read e regs hr.size hr.dims hr.names]
    rfl

/-- saving and loading, given what is written and how the lines are read -/
theorem save_load {regs : List QReg} (hr : GoodRegs regs) (c : Circ FGate) (hb : Built c regs) (dir : Text)
    (keys : Nat → Text) (disk : Disk) (name : Text) (ls : List Text) (fs' : PyDict Text (Arr2 ℂ))
    (hls : ∀ l ∈ ls, GateLike l ∧ '\n' ∉ l)
    (hw : writeGates F (invFrom 0 regs) dir keys c.instructions 0 disk.arrays = .ok (unlines ls, fs')) :
    ∃ path disk', saveToFile F keys disk c name dir = .ok (path, disk') ∧ disk'.arrays = fs' ∧
      ∀ disk'' : Disk, disk''.texts.get? path = disk'.texts.get? path → ∀ e : Circ FGate,
      loadFromFile F disk'' e path = (do
        let ops ← ls.mapM (readGateF F disk''.arrays (siteFrom 0 regs))
        ops.foldlM addOpF (readBase e regs (total regs))) := by
  have ht := toQasmAt_eq (F := F) c regs hb hr.dims dir keys disk.arrays fs' ls (by rw [hb.inv]; exact hw)
  refine ⟨joinPath dir (name ++ ".qasm".toList), ⟨fs', disk.texts.set
    (joinPath dir (name ++ ".qasm".toList)) (unlines ("DITQASM 2.0;".toList ::
      (regs.map regLine ++ cregText (total regs) :: (ls ++ measFrom 0 regs))))⟩, ?_, rfl, ?_⟩
  · unfold saveToFile
    rw [ht]
    rfl
  · intro disk'' hd e
    unfold loadFromFile
    rw [normPath_join, hd]
    simp only [PyDict.get?_set_self]
    exact fromQasmF_eq hr _ ls hls e

end Qudits.Qasm
