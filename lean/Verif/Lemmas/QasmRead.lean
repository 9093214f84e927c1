import Verif.Lemmas.QasmControl

/-
What the reader makes of each written gate.
-/
namespace Qudits.Qasm
open Re Qudits Spec

theorem bind_ok {α β : Type} {x : Except PyErr α} {f : α → Except PyErr β} {y : β} (h : (x >>= f) = .ok y) :
    ∃ a, x = .ok a ∧ f a = .ok y := by
  cases x with
  | error e => cases h
  | ok a => exact ⟨a, rfl, h⟩

/-! ### the written line -/

/-- the texts of the parameters -/
def paramTexts (F : PyFloat) : PArg → List Text
  | .none => []
  | .list l => l.map (showPVal F)
  | .array => ["custom_data".toList]
  | _ => []

theorem showInt_clean (n : Int) : Clean (showInt n) := by
  have hd : ∀ k, Clean (showNat k) := by
    intro k
    refine ⟨showNat_ne_nil k, ?_⟩
    intro x hx hm
    have := showNat_digit k x hx
    simp only [List.mem_cons, List.not_mem_nil, or_false] at hm
    rcases hm with rfl | rfl | rfl | rfl | rfl | rfl | rfl <;> revert this <;> decide
  cases n with
  | ofNat k => exact hd k
  | negSucc k =>
    refine ⟨by simp [showInt], ?_⟩
    intro x hx
    simp only [showInt, List.mem_cons] at hx
    rcases hx with rfl | hx
    · decide
    · exact (hd (k + 1)).2 x hx

theorem paramTexts_clean {F : PyFloat} (hF : Laws F) (p : PArg) (hp : Numbers F p ∨ p = .array) :
    ∀ y ∈ paramTexts F p, Clean y := by
  intro y hy
  rcases hp with hp | rfl
  · cases p with
    | list l =>
      simp only [paramTexts, List.mem_map] at hy
      obtain ⟨v, hv, rfl⟩ := hy
      obtain ⟨x, hx, hf⟩ := hp v hv
      cases v with
      | int n => exact showInt_clean n
      | flt z =>
        simp only [PVal.value, Option.some.injEq] at hx
        subst hx
        exact hF.clean z hf
      | str s => simp [PVal.value] at hx
    | none => simp [paramTexts] at hy
    | tuple l => exact absurd hp (by simp [Numbers])
    | array => exact absurd hp (by simp [Numbers])
    | ctl => exact absurd hp (by simp [Numbers])
  · simp only [paramTexts, List.mem_singleton] at hy
    subst hy
    exact ⟨by decide, by decide⟩

theorem showParams_eq {F : PyFloat} (p : PArg) (hp : Numbers F p ∨ p = .array) :
    showParams F p = .ok (paramText (if (paramTexts F p).isEmpty then none else some (joinComma (paramTexts F p)))) := by
  rcases hp with hp | rfl
  · cases p with
    | list l =>
      cases l with
      | nil => rfl
      | cons v l =>
        simp only [showParams, paramTexts, List.map_cons, List.isEmpty_cons, if_false, paramText]
        rfl
    | none => rfl
    | tuple l => exact absurd hp (by simp [Numbers])
    | array => exact absurd hp (by simp [Numbers])
    | ctl => exact absurd hp (by simp [Numbers])
  · rfl

theorem oneLine_of {F : PyFloat} (hF : Laws F) (g : QG) (hp : Numbers F g.params ∨ g.params = .array) :
    OneLine F g := by
  intro t ht
  rw [showParams_eq g.params hp, Except.ok.injEq] at ht
  subst ht
  split
  · simp [paramText]
  · have : '\n' ∉ joinComma (paramTexts F g.params) := by
      intro hm
      rcases joinComma_mem _ _ hm with h | h | ⟨y, hy, h⟩
      · exact absurd h (by decide)
      · exact absurd h (by decide)
      · exact (paramTexts_clean hF g.params hp y hy).2 _ h (by decide)
    simp only [paramText, List.mem_append, List.mem_cons, not_or]
    exact ⟨⟨by decide, this⟩, by decide⟩

/-- the values read from the parameters -/
noncomputable def paramVals : PArg → List (Option ℝ)
  | .list l => l.map PVal.value
  | _ => []

theorem eval_params {F : PyFloat} (hF : Laws F) (p : PArg) (hp : Numbers F p) :
    (match paramTexts F p with
      | [] => []
      | y :: ys => y :: ys.map fun y => ' ' :: y).mapM F.eval = .ok (paramVals p) := by
  cases p with
  | none => rfl
  | list l =>
    have one : ∀ v, (∃ x, PVal.value v = some x ∧ F.isFloat x) → F.eval (showPVal F v) = .ok (PVal.value v) ∧
        F.eval (' ' :: showPVal F v) = .ok (PVal.value v) := by
      rintro v ⟨x, hx, hf⟩
      cases v with
      | int n =>
        simp only [PVal.value, Option.some.injEq] at hx
        subst hx
        exact hF.int n hf
      | flt z =>
        simp only [PVal.value, Option.some.injEq] at hx
        subst hx
        exact hF.float z hf
      | str s => simp [PVal.value] at hx
    cases l with
    | nil => rfl
    | cons v l =>
      simp only [paramTexts, List.map_cons, List.mapM_cons, (one v (hp v (by simp))).1]
      have : ((l.map (showPVal F)).map fun y => ' ' :: y).mapM F.eval = .ok (l.map PVal.value) := by
        rw [List.map_map, List.mapM_map]
        exact mapM_const_ok _ l PVal.value fun v hv => (one v (hp v (by simp [hv]))).2
      rw [this]
      rfl
  | tuple l => exact absurd hp (by simp [Numbers])
  | array => exact absurd hp (by simp [Numbers])
  | ctl => exact absurd hp (by simp [Numbers])

theorem eval_array {F : PyFloat} (hF : Laws F) : ∃ e,
    (match paramTexts F .array with
      | [] => []
      | y :: ys => y :: ys.map fun y => ' ' :: y).mapM F.eval = .error e := by
  obtain ⟨e, he⟩ := hF.name
  refine ⟨e, ?_⟩
  simp only [paramTexts, List.map_nil, List.mapM_cons, he]
  rfl

/-! ### written lines of the register -/

theorem showQudit_from (regs : List QReg) (hl : ∀ r ∈ regs, Ident r.label.toList)
    (hnd : (regs.map QReg.label).Nodup) (q : Int) (t : Text) (h : showQudit (invFrom 0 regs) q = .ok t) :
    0 ≤ q ∧ ∃ (s : String) (i d : Nat), t = qtext s.toList i ∧ Ident s.toList ∧
      PyDict.get? (siteFrom 0 regs) (s, i) = some (q.toNat, d) := by
  unfold showQudit at h
  split at h
  · cases h
  · rename_i hq
    refine ⟨by omega, ?_⟩
    split at h
    · rename_i lbl i hg
      cases h
      have hk : q.toNat ∈ PyDict.keys (invFrom 0 regs) := by
        by_contra hn
        rw [(PyDict.get?_eq_none_iff _ _).2 hn] at hg
        cases hg
      have hlt := keys_invFrom 0 regs _ hk
      obtain ⟨k, hk, j, hj, e⟩ := line_covered regs q.toNat (by omega)
      have hi := get_invFrom 0 regs k hk j hj
      have hs := get_siteFrom 0 regs hnd k hk j hj
      rw [Nat.zero_add, ← e] at hi hs
      rw [hi] at hg
      cases hg
      exact ⟨regs[k].label, i, _, by simp [qtext], hl _ (List.getElem_mem hk), hs⟩
    · cases h

theorem showQudit_ok (regs : List QReg) (q : Int) (h0 : 0 ≤ q) (h1 : q.toNat < total regs) :
    ∃ t, showQudit (invFrom 0 regs) q = .ok t := by
  obtain ⟨k, hk, j, hj, e⟩ := line_covered regs q.toNat h1
  have hi := get_invFrom 0 regs k hk j hj
  rw [Nat.zero_add, ← e] at hi
  unfold showQudit
  rw [if_neg (by omega), hi]
  exact ⟨_, rfl⟩

theorem showQudits_from (regs : List QReg) (hl : ∀ r ∈ regs, Ident r.label.toList)
    (hnd : (regs.map QReg.label).Nodup) (qs : List Int) (ts : List Text)
    (h : qs.mapM (showQudit (invFrom 0 regs)) = .ok ts) :
    ∃ (ps : List (String × Nat)) (sites : List (Nat × Nat)), ts = ps.map (fun x => qtext x.1.toList x.2) ∧
      (∀ x ∈ ps, Ident x.1.toList) ∧ ps.map (PyDict.get? (siteFrom 0 regs)) = sites.map some ∧
      sites.map (fun x => ((x.1 : Nat) : Int)) = qs := by
  induction qs generalizing ts with
  | nil =>
    simp only [List.mapM_nil, pure, Except.pure, Except.ok.injEq] at h
    subst h
    exact ⟨[], [], rfl, by simp, rfl, rfl⟩
  | cons q qs ih =>
    rw [List.mapM_cons] at h
    obtain ⟨t, ht, h⟩ := bind_ok h
    obtain ⟨ts', hts, h⟩ := bind_ok h
    cases h
    obtain ⟨h0, s, i, d, rfl, hs, hg⟩ := showQudit_from regs hl hnd q t ht
    obtain ⟨ps, sites, rfl, hid, hm, hq⟩ := ih ts' hts
    refine ⟨(s, i) :: ps, (q.toNat, d) :: sites, rfl, ?_, ?_, ?_⟩
    · intro x hx
      rcases List.mem_cons.1 hx with rfl | hx
      · exact hs
      · exact hid x hx
    · simp [hg, hm]
    · simp only [List.map_cons, hq]
      congr 1
      omega

/-- reading the line of a gate without controls -/
theorem read_plain {F : PyFloat} (hF : Laws F) (regs : List QReg) (hl : ∀ r ∈ regs, Ident r.label.toList)
    (hnd : (regs.map QReg.label).Nodup) (g : QG) (hp : Numbers F g.params ∨ g.params = .array)
    (hc : g.base.controls = none) (hne : g.base.target.lines ≠ []) (l : Text)
    (h : gateLine F (invFrom 0 regs) g = .ok (l ++ ['\n'])) :
    ∃ sites : List (Nat × Nat), sites.map (fun x => ((x.1 : Nat) : Int)) = g.base.target.lines ∧
      readGate F (siteFrom 0 regs) l = (fun v => ⟨g.cls.tag.toList, v, sites, none⟩) <$>
        (match paramTexts F g.params with
          | [] => []
          | y :: ys => y :: ys.map fun y => ' ' :: y).mapM F.eval := by
  unfold gateLine at h
  rw [showParams_eq g.params hp] at h
  obtain ⟨pt, hpt, h⟩ := bind_ok h
  rw [Except.ok.injEq] at hpt
  subst hpt
  obtain ⟨ts, hts, h⟩ := bind_ok h
  rw [hc] at h
  obtain ⟨ps, sites, rfl, hid, hm, hq⟩ := showQudits_from regs hl hnd _ _ hts
  refine ⟨sites, hq, ?_⟩
  cases ps with
  | nil =>
    cases sites with
    | nil => exact absurd hq.symm hne
    | cons a b => simp at hm
  | cons p ps =>
    have hj : joinComma ((p :: ps).map fun x => qtext x.1.toList x.2)
        = targetText (p.1.toList, p.2) (ps.map fun x => (x.1.toList, x.2)) := by
      have := joinComma_targets (p.1.toList, p.2) (ps.map fun x => (x.1.toList, x.2))
      rw [← this]
      simp [Function.comp_def]
    simp only [pure, Except.pure, Except.ok.injEq] at h
    have hline : l = g.cls.tag.toList ++ ' ' :: (paramText (if (paramTexts F g.params).isEmpty then none
        else some (joinComma (paramTexts F g.params))) ++ (targetText (p.1.toList, p.2)
          (ps.map fun x => (x.1.toList, x.2)) ++ ";".toList)) := by
      rw [hj] at h
      have e : (";\n".toList : Text) = ";".toList ++ ['\n'] := rfl
      rw [e, ← List.append_assoc] at h
      have := List.append_cancel_right h
      rw [← this]
      simp
    rw [hline]
    have := parseGate_plain F g.cls.tag.toList (tag_ident g.cls) (paramTexts F g.params)
      (paramTexts_clean hF g.params hp) p ps hid (siteFrom 0 regs) sites hm
    unfold readGate
    rw [this]
    cases (match paramTexts F g.params with
          | [] => []
          | y :: ys => y :: ys.map fun y => ' ' :: y).mapM F.eval with
    | error e => rfl
    | ok v => rfl

/-- reading the line of a gate with controls: the target is read as each control -/
theorem read_ctl {F : PyFloat} (hF : Laws F) (regs : List QReg) (hl : ∀ r ∈ regs, Ident r.label.toList)
    (hnd : (regs.map QReg.label).Nodup) (g : QG) (hp : Numbers F g.params ∨ g.params = .array) (q : Int)
    (hq : g.base.target = .one q) (cd : ControlData) (hc : g.base.controls = some cd) (hi : cd.indices ≠ [])
    (hs : cd.ctrlStates ≠ []) (hpos : ∀ x ∈ cd.ctrlStates, 0 ≤ x) (l : Text)
    (h : gateLine F (invFrom 0 regs) g = .ok (l ++ ['\n'])) :
    ∃ d : Nat, 0 ≤ q ∧ readGate F (siteFrom 0 regs) l = (fun v => ⟨g.cls.tag.toList, v, [(q.toNat, d)],
        some ⟨List.replicate cd.indices.length q, cd.ctrlStates⟩⟩) <$>
        (match paramTexts F g.params with
          | [] => []
          | y :: ys => y :: ys.map fun y => ' ' :: y).mapM F.eval := by
  unfold gateLine at h
  rw [showParams_eq g.params hp, hq] at h
  obtain ⟨pt, hpt, h⟩ := bind_ok h
  rw [Except.ok.injEq] at hpt
  subst hpt
  simp only [Target.lines] at h
  obtain ⟨ts, hts, h⟩ := bind_ok h
  rw [List.mapM_cons] at hts
  obtain ⟨t, ht, hts⟩ := bind_ok hts
  have hts : [t] = ts := Except.ok.inj hts
  subst hts
  obtain ⟨h0, s, i, d, rfl, hid, hg⟩ := showQudit_from regs hl hnd q t ht
  refine ⟨d, h0, ?_⟩
  rw [hc] at h
  simp only [List.getLast?_singleton, pure, Except.pure, Except.ok.injEq] at h
  obtain ⟨k, hk⟩ : ∃ k, cd.indices.length = k + 1 := ⟨cd.indices.length - 1, by
    have := List.length_pos_iff.2 hi; omega⟩
  obtain ⟨a, as, has⟩ := List.exists_cons_of_ne_nil hs
  have hfl : (cd.indices.map fun _ => qtext s.toList i ++ [' ']).flatten
      = ctlText (List.replicate (k + 1) (s.toList, i)) := by
    unfold ctlText
    rw [List.map_const', hk, List.map_replicate]
  have hnat : ∀ x ∈ cd.ctrlStates, showInt x = showNat x.toNat := by
    intro x hx
    have := hpos x hx
    cases x with
    | ofNat n => rfl
    | negSucc n => exact absurd this (by simp)
  have hlev : '[' :: joinComma (cd.ctrlStates.map showInt) ++ [']']
      = levelText a.toNat (as.map Int.toNat) := by
    have e : cd.ctrlStates.map showInt = cd.ctrlStates.map fun x => showNat x.toNat :=
      List.map_congr_left hnat
    rw [e, has, List.map_cons, joinComma_cons]
    simp [levelText, moreNums, Function.comp_def]
  have hline : l = g.cls.tag.toList ++ ' ' :: (paramText (if (paramTexts F g.params).isEmpty then none
      else some (joinComma (paramTexts F g.params))) ++ ((qtext s.toList i ++ [' ']) ++ ("ctl".toList ++ ' ' ::
          (ctlText (List.replicate (k + 1) (s.toList, i)) ++ (levelText a.toNat (as.map Int.toNat) ++ ";".toList))))) := by
    have e : (";\n".toList : Text) = ";".toList ++ ['\n'] := rfl
    have hl2 := h
    rw [hlev] at hl2
    have e1 : (cd.indices.map fun _ => qtext s.toList i ++ [' ']).flatten = _ := hfl
    simp only [joinComma] at hl2
    rw [e1, e, ← List.append_assoc] at hl2
    have := List.append_cancel_right hl2
    rw [← this]
    have e3 : (" ctl ".toList : Text) = ' ' :: ("ctl".toList ++ [' ']) := rfl
    rw [e3]
    simp only [List.append_assoc, List.cons_append, List.nil_append]
  have := parseGate_ctl F g.cls.tag.toList (tag_ident g.cls) (paramTexts F g.params)
    (paramTexts_clean hF g.params hp) s i hid k a.toNat (as.map Int.toNat) (siteFrom 0 regs) (q.toNat, d) hg
  rw [hline]
  unfold readGate
  rw [this]
  have hq' : ((q.toNat : Nat) : Int) = q := by omega
  have hst : (a.toNat :: as.map Int.toNat).map (fun n : Nat => (n : Int)) = cd.ctrlStates := by
    rw [has]
    simp only [List.map_cons, List.map_map]
    congr 1
    · have := hpos a (by rw [has]; simp)
      omega
    · have : ∀ x ∈ as, ((fun n : Nat => (n : Int)) ∘ Int.toNat) x = id x := by
        intro x hx
        have := hpos x (by rw [has]; simp [hx])
        simp only [Function.comp, id]
        omega
      rw [List.map_congr_left this, List.map_id]
  simp only [hq', hst, hk]
  cases (match paramTexts F g.params with
        | [] => []
        | y :: ys => y :: ys.map fun y => ' ' :: y).mapM F.eval with
  | error e => rfl
  | ok v => rfl

end Qudits.Qasm
