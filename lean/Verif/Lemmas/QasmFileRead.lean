import Verif.Lemmas.QasmPath
import Verif.Spec.QasmFile

/-
Reading a program whose gates may name matrix files.
-/
namespace Qudits.Qasm
open Re Qudits Spec

variable {F : PyFloat} {fs : PyDict Text (Arr2 ℂ)}

/-! ### lines that are not gates -/

theorem parseLine_step {st st' : PState} {l : Text} (h : parseLine F st l = .ok st') (ops : List OpF) :
    (∃ g, st'.gates = st.gates ++ [g]) ∨
      (st'.gates = st.gates ∧ parseLineF F fs (st, ops) l = .ok (st', ops)) := by
  unfold parseLine at h
  unfold parseLineF
  generalize strip l = line at h ⊢
  cases hp : parseNonspecial line st.inComment with
  | mk skip ic =>
  simp only [hp] at h ⊢
  cases skip with
  | true =>
    right
    simp only [if_true, pure, Except.pure, Except.ok.injEq] at h ⊢
    subst h
    exact ⟨rfl, rfl⟩
  | false =>
    simp only [Bool.false_eq_true, if_false] at h ⊢
    cases hq : parseQreg line st.sitemap with
    | error e => simp only [hq, bind, Except.bind] at h; cases h
    | ok o =>
      simp only [hq, bind, Except.bind] at h ⊢
      cases o with
      | some m =>
        right
        simp only [pure, Except.pure, Except.ok.injEq] at h ⊢
        subst h
        exact ⟨rfl, rfl⟩
      | none =>
        simp only at h ⊢
        cases hc : parseCreg line st.classic with
        | error e => simp only [hc] at h; cases h
        | ok o =>
          simp only [hc] at h ⊢
          cases o with
          | some m =>
            right
            simp only [pure, Except.pure, Except.ok.injEq] at h ⊢
            subst h
            exact ⟨rfl, rfl⟩
          | none =>
            simp only at h ⊢
            cases hi : (Rgx.ignore.matchAt line).isSome with
            | true =>
              right
              simp only [hi, if_true, pure, Except.pure, Except.ok.injEq] at h ⊢
              subst h
              exact ⟨rfl, rfl⟩
            | false =>
              left
              simp only [hi, Bool.false_eq_true, if_false] at h
              cases hg : parseGate F line st.sitemap with
              | error e => simp only [hg] at h; cases h
              | ok o =>
                simp only [hg] at h
                cases o with
                | none =>
                  simp only at h
                  split at h <;> cases h
                | some op =>
                  simp only [pure, Except.pure, Except.ok.injEq] at h
                  subst h
                  exact ⟨op, rfl⟩

theorem parseLines_grow (ls : List Text) (st st' : PState) (h : ls.foldlM (parseLine F) st = .ok st') :
    st.gates.length ≤ st'.gates.length := by
  induction ls generalizing st with
  | nil => cases h; exact Nat.le_refl _
  | cons l ls ih =>
    rw [List.foldlM_cons] at h
    obtain ⟨s1, h1, h2⟩ := bind_ok h
    have := ih s1 h2
    rcases parseLine_step (fs := []) h1 [] with ⟨g, hg⟩ | ⟨hg, _⟩
    · rw [hg] at this
      simp at this
      omega
    · rw [hg] at this
      exact this

/-- lines that add no gate are read in the same way -/
theorem parseLinesF_of (ls : List Text) (st st' : PState) (ops : List OpF)
    (h : ls.foldlM (parseLine F) st = .ok st') (hg : st'.gates = st.gates) :
    ls.foldlM (parseLineF F fs) (st, ops) = .ok (st', ops) := by
  induction ls generalizing st with
  | nil => cases h; rfl
  | cons l ls ih =>
    rw [List.foldlM_cons] at h ⊢
    obtain ⟨s1, h1, h2⟩ := bind_ok h
    have hgrow := parseLines_grow ls s1 st' h2
    rcases parseLine_step (fs := fs) h1 ops with ⟨g, hg1⟩ | ⟨hg1, h1'⟩
    · exfalso
      rw [hg1, hg] at hgrow
      simp at hgrow
    · rw [h1']
      exact ih s1 h2 (hg.trans hg1.symm)

/-! ### gate lines -/

theorem parseLineF_gate (s : Text) (hs : GateLike s) (st : PState) (hst : st.inComment = false) (ops : List OpF) :
    parseLineF F fs (st, ops) s = (do
      match ← parseGateF F fs s st.sitemap with
      | some op => pure (st, ops ++ [op])
      | none => if (Rgx.error.matchAt s).isSome then .error .notImplemented else .error .syntaxError) := by
  obtain ⟨⟨x, t, hxt, hx, hsp⟩, ⟨u, hu⟩, hc, hme, hb⟩ := hs
  have hstrip : strip s = s := strip_line s x t hxt hsp ';' u hu (by decide)
  have hx' : x ∉ ['/', 'D', 'i'] := by simp only [List.mem_cons, not_or] at hx ⊢; tauto
  have hq : x ≠ 'q' := by rintro rfl; simp at hx
  unfold parseLineF
  rw [hstrip]
  simp only [hst]
  have e1 : parseNonspecial s false = (false, false) := by rw [hxt]; exact nonspecial_plain x t hx'
  have e2 : parseQreg s st.sitemap = .ok none := by rw [hxt]; exact parseQreg_other x t hq _
  have e3 : parseCreg s st.classic = .ok none := parseCreg_other s hc _
  have e4 : Rgx.ignore.matchAt s = none := ignore_other s hme hb
  have hst' : ({ st with inComment := false } : PState) = st := st_eq st hst
  simp only [e1, hst', bind, Except.bind, e2, e3, e4]
  rfl

/-- reading one gate line -/
def readGateF (F : PyFloat) (fs : PyDict Text (Arr2 ℂ)) (m : PyDict (String × Nat) (Nat × Nat)) (l : Text) :
    Except PyErr OpF := do
  match ← parseGateF F fs l m with
  | some op => pure op
  | none => if (Rgx.error.matchAt l).isSome then .error .notImplemented else .error .syntaxError

theorem parse_gatesF (ls : List Text) (hls : ∀ l ∈ ls, GateLike l) (st : PState)
    (hst : st.inComment = false) (ops : List OpF) :
    ls.foldlM (parseLineF F fs) (st, ops)
      = (fun o => (st, ops ++ o)) <$> ls.mapM (readGateF F fs st.sitemap) := by
  induction ls generalizing ops with
  | nil => simp [pure, Except.pure, Functor.map, Except.map]
  | cons l ls ih =>
    rw [List.foldlM_cons, List.mapM_cons, parseLineF_gate l (hls l (by simp)) st hst]
    have hrest := fun ops => ih (fun x hx => hls x (by simp [hx])) ops
    simp only [readGateF, bind, Except.bind]
    cases parseGateF F fs l st.sitemap with
    | error e => rfl
    | ok o =>
      cases o with
      | none => cases (Rgx.error.matchAt l).isSome <;> rfl
      | some op =>
        have := hrest (ops ++ [op])
        simp only [pure, Except.pure]
        rw [this]
        have e : (fun l => (do
            match ← parseGateF F fs l st.sitemap with
            | some op => pure op
            | none => if (Rgx.error.matchAt l).isSome then .error .notImplemented else .error .syntaxError :
              Except PyErr OpF)) = readGateF F fs st.sitemap := rfl
        cases hm : ls.mapM (readGateF F fs st.sitemap) with
        | error e => rfl
        | ok o => simp [Functor.map, Except.map]

theorem parse_programF (rs : List QReg) (hl : ∀ r ∈ rs, Ident r.label.toList)
    (hne : ∀ r ∈ rs, r.size ≠ 0) (hwf : ∀ r ∈ rs, r.dims.length = r.size)
    (hnd : (rs.map QReg.label).Nodup) (n : Nat) (ls : List Text) (hls : ∀ l ∈ ls, GateLike l ∧ '\n' ∉ l) :
    parseF F fs (unlines ("DITQASM 2.0;".toList :: (rs.map regLine ++ cregText n :: (ls ++ measFrom 0 rs))))
      = (fun ops => (⟨siteFrom 0 rs, measSites n, [], false⟩, ops)) <$>
          ls.mapM (readGateF F fs (siteFrom 0 rs)) := by
  have hfront : ("DITQASM 2.0;".toList :: (rs.map regLine ++ [cregText n])).foldlM (parseLine F) {}
      = .ok (⟨siteFrom 0 rs, measSites n, [], false⟩ : PState) := by
    rw [List.foldlM_cons, parseLine_header F _ rfl]
    simp only [bind, Except.bind]
    rw [List.foldlM_append]
    have h1 := parse_regs F [] rs hl hne hwf (by simpa using hnd) {} rfl rfl
    rw [h1, List.nil_append]
    simp only [bind, Except.bind, List.foldlM_cons]
    rw [parseLine_creg F n _ rfl]
    rfl
  have hback : (measFrom 0 rs ++ [[]]).foldlM (parseLine F) (⟨siteFrom 0 rs, measSites n, [], false⟩ : PState)
      = .ok ⟨siteFrom 0 rs, measSites n, [], false⟩ := by
    rw [List.foldlM_append, parse_measures F 0 rs _ rfl]
    simp only [bind, Except.bind, List.foldlM_cons, List.foldlM_nil, parseLine_blank]
    rfl
  unfold parseF unlines
  rw [split_lines _ (program_newline rs hl n ls fun l h => (hls l h).2)]
  have hshape : "DITQASM 2.0;".toList :: (rs.map regLine ++ cregText n :: (ls ++ measFrom 0 rs)) ++ [[]]
      = ("DITQASM 2.0;".toList :: (rs.map regLine ++ [cregText n])) ++ (ls ++ (measFrom 0 rs ++ [[]])) := by simp
  rw [hshape, List.foldlM_append, parseLinesF_of _ _ _ [] hfront rfl]
  simp only [bind, Except.bind]
  rw [List.foldlM_append, parse_gatesF ls (fun l h => (hls l h).1) _ rfl]
  cases hm : ls.mapM (readGateF F fs (siteFrom 0 rs)) with
  | error e => simp [hm, Functor.map, Except.map, bind, Except.bind]
  | ok ops =>
    simp only [hm, Functor.map, Except.map, bind, Except.bind, List.nil_append]
    exact parseLinesF_of _ _ _ ops hback rfl

/-! ### gates without files -/

theorem loadParams_of {P : Option Text} {v : List (Option ℝ)} (h : parseParams F P = .ok v) :
    loadParams F fs P = .ok (.nums v) := by
  cases P with
  | none => cases h; rfl
  | some s =>
    cases s with
    | nil => cases h; rfl
    | cons x t =>
      simp only [parseParams] at h
      simp only [loadParams]
      by_cases hn : hasSub ".npy".toList (x :: t) = true
      · rw [if_pos hn] at h; cases h
      · rw [if_neg hn] at h ⊢
        rw [h]
        rfl

/-- a gate that is read without files is read in the same way with files -/
theorem readGateF_of {m : PyDict (String × Nat) (Nat × Nat)} {l : Text} {op : Op}
    (h : readGate F m l = .ok op) :
    readGateF F fs m l = .ok ⟨op.name, .nums op.params, op.qudits, op.controls⟩ := by
  unfold readGate at h
  unfold readGateF
  obtain ⟨o, ho, h⟩ := bind_ok h
  cases o with
  | none =>
    simp only at h
    split at h <;> cases h
  | some op' =>
    cases h
    unfold parseGate at ho
    unfold parseGateF
    cases hs : Rgx.gate.search l with
    | none => rw [hs] at ho; cases ho
    | some r =>
      obtain ⟨r1, c⟩ := r
      rw [hs] at ho
      simp only at ho ⊢
      obtain ⟨v, hv, ho⟩ := bind_ok ho
      obtain ⟨qs, hqs, ho⟩ := bind_ok ho
      rw [loadParams_of hv, hqs]
      cases h5 : group c 5 with
      | none =>
        rw [h5] at ho
        cases h8 : group c 8 with
        | none =>
          rw [h8] at ho
          cases ho
          rfl
        | some t =>
          rw [h8] at ho
          obtain ⟨_, hctl, ho⟩ := bind_ok ho
          cases hctl
          obtain ⟨lev, hlev, ho⟩ := bind_ok ho
          cases ho
          simp only [bind, Except.bind, pure, Except.pure]
          rw [hlev]
      | some t5 =>
        rw [h5] at ho
        obtain ⟨ctl, hctl, ho⟩ := bind_ok ho
        cases h8 : group c 8 with
        | none =>
          rw [h8] at ho
          cases ho
          simp only [bind, Except.bind, pure, Except.pure]
          rw [hctl]
        | some t =>
          rw [h8] at ho
          obtain ⟨lev, hlev, ho⟩ := bind_ok ho
          cases ho
          simp only [bind, Except.bind, pure, Except.pure]
          rw [hctl]
          simp only []
          rw [hlev]

/-- adding a gate read without files -/
theorem addOpF_nums {c : Circ QG} {op : Op} {g : QG} (h : addOp c op = .ok (c.addGate g)) (cF : Circ FGate)
    (hd : cF.dims = c.dims) :
    addOpF cF ⟨op.name, .nums op.params, op.qudits, op.controls⟩ = .ok (cF.addGate ⟨g, none⟩) := by
  have hne : c.addGate g ≠ c := by
    intro e
    have := congrArg Circ.numberGates e
    simp [Circ.addGate] at this
  unfold addOp at h
  unfold addOpF
  simp only
  cases hk : qasmSet.get? (String.ofList op.name) with
  | none => rw [hk] at h; exact absurd (Except.ok.inj h).symm hne
  | some cls =>
    rw [hk] at h
    simp only at h ⊢
    cases hq : op.qudits with
    | nil => rw [hq] at h; cases h
    | cons q qs =>
      rw [hq] at h
      simp only at h ⊢
      obtain ⟨o, ho, h⟩ := bind_ok h
      simp only [callBuilderF, hd, ho]
      cases o with
      | none => exact absurd (Except.ok.inj h).symm hne
      | some g' =>
        have h := Except.ok.inj h
        have : g' = g := by
          have := congrArg Circ.instructions h
          simpa [Circ.addGate] using this
        subst this
        rfl

end Qudits.Qasm
