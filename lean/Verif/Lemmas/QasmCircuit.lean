import Verif.Lemmas.QasmBuild

/-
Writing and reading a whole circuit.
-/
namespace Qudits.Qasm
open Re Qudits Spec

theorem get_tag (cls : Cls) (h : cls.known = true) : qasmSet.get? (String.ofList cls.tag.toList) = some cls := by
  cases cls <;> first | rfl | cases h

theorem get_tag_unknown (cls : Cls) (h : cls.known = false) : qasmSet.get? (String.ofList cls.tag.toList) = none := by
  cases cls <;> first | rfl | cases h

theorem numbers_eval {F : PyFloat} {g : QG} (h : Numbers F g.params) : Numbers F g.params ∨ g.params = .array := Or.inl h

/-- the target as the reader assembles it -/
theorem target_read (t : Target) (sites : List (Nat × Nat)) (q : Nat × Nat) (qs : List (Nat × Nat))
    (hs : sites = q :: qs) (h : sites.map (fun x => ((x.1 : Nat) : Int)) = t.lines)
    (ht : (∃ q, t = .one q) ∨ ((∃ qs, t = .many qs) ∧ 2 ≤ t.lines.length)) :
    (if qs.isEmpty then Target.one (q.1 : Int) else .many ((q :: qs).map fun x => ((x.1 : Nat) : Int))) = t := by
  subst hs
  rcases ht with ⟨q', rfl⟩ | ⟨⟨qs', rfl⟩, h2⟩
  · simp only [Target.lines, List.map_cons] at h
    cases qs with
    | nil => simpa using h
    | cons a b => simp at h
  · simp only [Target.lines] at h h2
    cases qs with
    | nil => rw [← h] at h2; simp at h2
    | cons a b => rw [← h]; rfl

theorem read_step {F : PyFloat} (hF : Laws F) {regs : List QReg} (hr : GoodRegs regs) {dims : List Nat} {g : QG}
    (hg : Readable F dims g) {l : Text} (h : gateLine F (invFrom 0 regs) g = .ok (l ++ ['\n'])) :
    ∃ op, readGate F (siteFrom 0 regs) l = .ok op ∧ ∀ c : Circ QG, c.dims = dims →
      if g.cls.known then ∃ g', addOp c op = .ok (c.addGate g') ∧ ReadBack g g' else addOp c op = .ok c := by
  obtain ⟨t, p, hb⟩ := hg.built
  obtain ⟨_, name, ty, c', hi, hc', hlin⟩ := construct_inv hb
  have hc' : c' = none := by rcases hc' with h | h <;> exact h
  subst hc'
  obtain ⟨ht, hcn, hdims, _, hne⟩ := init_none hi
  obtain ⟨sites, hs, hread⟩ := read_plain hF regs hr.ident hr.names g (Or.inl hg.numbers) hcn (by rw [ht]; exact hne) l h
  rw [eval_params hF g.params hg.numbers] at hread
  refine ⟨_, hread, ?_⟩
  intro c hcd
  cases hk : g.cls.known with
  | false => simp only [Bool.false_eq_true, if_false]; simp only [addOp, get_tag_unknown _ hk]
  | true =>
    simp only [if_true]
    have hkind : g.cls ∈ [.h, .x, .z, .s, .csum, .randu, .cx, .ls, .ms] ∨
        (g.cls ∈ [.r, .rz, .rh, .virtrz, .pm] ∧ ∃ l, l ≠ [] ∧ g.params = .list l) := by
      rcases hg.kind with h | h | h
      · left
        revert h hk
        cases g.cls <;> decide
      · exact Or.inr h
      · left
        have := h.1
        revert this hk
        cases g.cls <;> decide
    obtain ⟨g', hcall, hrb⟩ := callBuilder_read hb hg.numbers hkind
    refine ⟨g', ?_, hrb⟩
    have hform : (∃ q, t = .one q) ∨ ((∃ qs, t = .many qs) ∧ 2 ≤ t.lines.length) := by
      rcases hlin with ⟨d, hd, _⟩ | ⟨ds, hd, hsingle⟩
      · obtain ⟨q, rfl, _⟩ := oneLine_inv hd
        exact Or.inl ⟨q, rfl⟩
      · obtain ⟨qs, rfl, _⟩ := manyLines_inv hd
        right
        refine ⟨⟨qs, rfl⟩, ?_⟩
        rcases hg.kind with h | h | h
        · exfalso
          revert h hsingle
          cases g.cls <;> decide
        · exfalso
          have := h.1
          revert this hsingle
          cases g.cls <;> decide
        · rw [ht] at h; exact h.2
    rw [ht] at hs
    cases hsites : sites with
    | nil =>
      rw [hsites] at hs
      exact absurd hs.symm hne
    | cons q qs =>
      have htr := target_read t sites q qs hsites hs hform
      unfold addOp
      simp only [get_tag _ hk, htr, hcd, hcall]
      rfl

theorem read_steps {F : PyFloat} (hF : Laws F) {regs : List QReg} (hr : GoodRegs regs) {dims : List Nat}
    (gs : List QG) (hg : ∀ g ∈ gs, Readable F dims g) (ls : List Text)
    (h : gs.mapM (gateLine F (invFrom 0 regs)) = .ok (ls.map fun s => s ++ ['\n'])) :
    ∃ ops, ls.mapM (readGate F (siteFrom 0 regs)) = .ok ops ∧ ∀ c : Circ QG, c.dims = dims →
      ∃ c' gs', ops.foldlM addOp c = .ok c' ∧ c'.instructions = c.instructions ++ gs' ∧
        c'.numberGates = c.numberGates + gs'.length ∧
        List.Forall₂ ReadBack (gs.filter fun g => g.cls.known) gs' := by
  induction gs generalizing ls with
  | nil =>
    have : ls = [] := by
      simp only [List.mapM_nil, pure, Except.pure, Except.ok.injEq] at h
      cases ls with
      | nil => rfl
      | cons a b => simp at h
    subst this
    exact ⟨[], rfl, fun c _ => ⟨c, [], rfl, by simp, by simp, .nil⟩⟩
  | cons g gs ih =>
    rw [List.mapM_cons] at h
    obtain ⟨t, ht, h⟩ := bind_ok h
    obtain ⟨ts, hts, h⟩ := bind_ok h
    have h := Except.ok.inj h
    cases ls with
    | nil => simp at h
    | cons l ls =>
      simp only [List.map_cons, List.cons.injEq] at h
      obtain ⟨rfl, rfl⟩ := h
      obtain ⟨op, hop, hadd⟩ := read_step hF hr (hg g (by simp)) ht
      obtain ⟨ops, hops, hfold⟩ := ih (fun x hx => hg x (by simp [hx])) ls hts
      refine ⟨op :: ops, ?_, ?_⟩
      · rw [List.mapM_cons, hop, hops]
        rfl
      · intro c hc
        have := hadd c hc
        cases hk : g.cls.known with
        | false =>
          simp only [hk, Bool.false_eq_true, if_false] at this
          obtain ⟨c', gs', h1, h2, h3, h4⟩ := hfold c hc
          refine ⟨c', gs', ?_, h2, h3, ?_⟩
          · rw [List.foldlM_cons, this]; exact h1
          · rw [List.filter_cons_of_neg (by simp [hk])]; exact h4
        | true =>
          simp only [hk, if_true] at this
          obtain ⟨g', ha, hrb⟩ := this
          obtain ⟨c', gs', h1, h2, h3, h4⟩ := hfold (c.addGate g') hc
          refine ⟨c', g' :: gs', ?_, ?_, ?_, ?_⟩
          · rw [List.foldlM_cons, ha]; exact h1
          · rw [h2]; simp [Circ.addGate]
          · rw [h3]; simp [Circ.addGate]; omega
          · rw [List.filter_cons_of_pos (by simp [hk])]; exact .cons hrb h4

theorem gateLine_ok {F : PyFloat} (regs : List QReg) {dims : List Nat} (hd : dims.length = total regs) {g : QG}
    (hg : Readable F dims g) : ∃ t, gateLine F (invFrom 0 regs) g = .ok t := by
  obtain ⟨t, p, hb⟩ := hg.built
  obtain ⟨_, name, ty, c', hi, hc', hlin⟩ := construct_inv hb
  have hc' : c' = none := by rcases hc' with h | h <;> exact h
  subst hc'
  obtain ⟨ht, hcn, _, _, _⟩ := init_none hi
  have hm : ∃ ts, g.base.target.lines.mapM (showQudit (invFrom 0 regs)) = .ok ts := by
    rw [ht]
    have : ∀ q ∈ t.lines, ∃ s, showQudit (invFrom 0 regs) q = .ok s := by
      intro q hq
      have h0 := hg.lines q (by rw [ht]; exact hq)
      exact showQudit_ok regs q h0 (by rw [← hd]; exact built_lines hb q hq h0)
    generalize t.lines = qs at this
    induction qs with
    | nil => exact ⟨[], rfl⟩
    | cons q qs ih =>
      obtain ⟨s, hs⟩ := this q (by simp)
      obtain ⟨ss, hss⟩ := ih fun x hx => this x (by simp [hx])
      exact ⟨s :: ss, by rw [List.mapM_cons, hs, hss]; rfl⟩
  obtain ⟨ts, hts⟩ := hm
  unfold gateLine
  rw [showParams_eq g.params (Or.inl hg.numbers), hts, hcn]
  exact ⟨_, rfl⟩

theorem mapM_exists {α β : Type} (f : α → Except PyErr β) (l : List α) (h : ∀ x ∈ l, ∃ y, f x = .ok y) :
    ∃ r, l.mapM f = .ok r := by
  induction l with
  | nil => exact ⟨[], rfl⟩
  | cons a l ih =>
    obtain ⟨y, hy⟩ := h a (by simp)
    obtain ⟨r, hr⟩ := ih fun x hx => h x (by simp [hx])
    exact ⟨y :: r, by rw [List.mapM_cons, hy, hr]; rfl⟩

/-- the circuit of the theorems: registers, then classical registers, then gates -/
theorem built_circuit {γ : Type} {regs : List QReg} (hr : GoodRegs regs) {c : Circ γ} (h : Circ.empty.appendAll regs = .ok c)
    (cs : List CReg) (gs : List γ) : Built (gs.foldl Circ.addGate (cs.foldl Circ.appendClassic c)) regs ∧
      (gs.foldl Circ.addGate (cs.foldl Circ.appendClassic c)).instructions = gs ∧ c.dims = regs.flatMap QReg.dims ∧
      SameRegisters c (gs.foldl Circ.addGate (cs.foldl Circ.appendClassic c)) := by
  have h' := built_appendAll (Circ.empty : Circ γ) regs ⟨rfl, rfl, rfl, rfl, rfl⟩ hr.dims hr.names
    (fresh_of_nil 0 regs hr.fresh)
  rw [h'] at h
  cases h
  have hcl : ∀ (cs : List CReg) (c : Circ γ), SameRegisters c (cs.foldl Circ.appendClassic c) ∧
      (cs.foldl Circ.appendClassic c).instructions = c.instructions := by
    intro cs
    induction cs with
    | nil => intro c; exact ⟨⟨rfl, rfl, rfl, rfl, rfl⟩, rfl⟩
    | cons r cs ih =>
      intro c
      obtain ⟨⟨a1, a2, a3, a4, a5⟩, b⟩ := ih (c.appendClassic r)
      exact ⟨⟨a1, a2, a3, a4, a5⟩, b⟩
  have hgs : ∀ (gs : List γ) (c : Circ γ), SameRegisters c (gs.foldl Circ.addGate c) ∧
      (gs.foldl Circ.addGate c).instructions = c.instructions ++ gs := by
    intro gs
    induction gs with
    | nil => intro c; exact ⟨⟨rfl, rfl, rfl, rfl, rfl⟩, by simp⟩
    | cons r gs ih =>
      intro c
      obtain ⟨⟨a1, a2, a3, a4, a5⟩, b⟩ := ih (c.addGate r)
      refine ⟨⟨a1, a2, a3, a4, a5⟩, ?_⟩
      rw [List.foldl_cons, b]
      simp [Circ.addGate]
  obtain ⟨⟨a1, a2, a3, a4, a5⟩, b⟩ := hcl cs (withRegs (Circ.empty : Circ γ) regs)
  obtain ⟨⟨e1, e2, e3, e4, e5⟩, f⟩ := hgs gs (cs.foldl Circ.appendClassic (withRegs (Circ.empty : Circ γ) regs))
  refine ⟨⟨e1.trans a1, e5.trans a5, e3.trans a3, e2.trans a2, e4.trans a4⟩, ?_, rfl,
    ⟨e1.trans a1, e2.trans a2, e3.trans a3, e4.trans a4, e5.trans a5⟩⟩
  rw [f, b]
  rfl

theorem readBase_plain {γ : Type} (e : Circ γ) (regs : List QReg) (n : Nat) :
    (readBase e regs n).instructions = [] ∧ (readBase e regs n).numberGates = 0 := by
  unfold readBase
  generalize cregFromMap (measSites n) = l
  have h : (withRegs e.reset regs).instructions = [] ∧ (withRegs e.reset regs).numberGates = 0 := ⟨rfl, rfl⟩
  generalize withRegs e.reset regs = c at h
  induction l generalizing c with
  | nil => exact h
  | cons r l ih => exact ih _ h

theorem readBase_cregs {γ : Type} (e : Circ γ) (regs : List QReg) (n : Nat) :
    (readBase e regs (n + 1)).cregs.map (fun r => (r.label, r.size)) = [("meas", n + 1)] := by
  unfold readBase
  rw [cregFromMap_meas]
  rfl

/-! ### circuits that cannot be read -/

theorem fold_error (regs : List QReg) (ops : List Op) (op : Op) (hm : op ∈ ops)
    (h : ∀ c : Circ QG, Built c regs → ∃ e, addOp c op = .error e) (c : Circ QG) (hc : Built c regs) :
    ∃ e, ops.foldlM addOp c = .error e := by
  induction ops generalizing c with
  | nil => simp at hm
  | cons o ops ih =>
    rw [List.foldlM_cons]
    cases ha : addOp c o with
    | error e => exact ⟨e, rfl⟩
    | ok c1 =>
      rcases List.mem_cons.1 hm with rfl | hm
      · obtain ⟨e, he⟩ := h c hc
        rw [he] at ha
        cases ha
      · exact ih hm c1 (built_addOp hc o ha).1

/-- one unreadable gate makes the whole program unreadable -/
theorem read_poison {F : PyFloat} {regs : List QReg} (hr : GoodRegs regs) {c : Circ QG} (hb : Built c regs)
    (hone : ∀ g ∈ c.instructions, OneLine F g) (g : QG) (hg : g ∈ c.instructions)
    (hbad : ∀ l, gateLine F (invFrom 0 regs) g = .ok (l ++ ['\n']) →
      (∃ e, readGate F (siteFrom 0 regs) l = .error e) ∨
      ∃ op, readGate F (siteFrom 0 regs) l = .ok op ∧ ∀ c : Circ QG, Built c regs → ∃ e, addOp c op = .error e)
    (text : Text) (ht : toQasm F c = .ok text) (e : Circ QG) : ∃ err, fromQasm F e text = .error err := by
  obtain ⟨ls, hls, hread⟩ := read_written F c regs hb hr.ident hr.size hr.dims hr.names hone text ht
  rw [hread e]
  rw [hb.inv] at hls
  obtain ⟨t, htm, hline⟩ := mapM_all _ _ _ hls g hg
  obtain ⟨l, hl, rfl⟩ := List.mem_map.1 htm
  cases hm : ls.mapM (readGate F (siteFrom 0 regs)) with
  | error e => exact ⟨e, rfl⟩
  | ok ops =>
    obtain ⟨op, hop, hrd⟩ := mapM_all _ _ _ hm l hl
    rcases hbad l hline with ⟨e', he⟩ | ⟨op', he, hadd⟩
    · rw [he] at hrd; cases hrd
    · rw [he] at hrd
      cases hrd
      exact fold_error regs ops op hop hadd _ (built_readBase e regs _)

/-- controls on the target itself are refused -/
theorem init_self {dims : List Nat} {name : String} {q : Int} {k : Nat} {ls : List Int} (hk : k ≠ 0) (hl : ls ≠ []) :
    Gate.init dims name .single (.one q) (some ⟨List.replicate k q, ls⟩) = .error .indexError := by
  unfold Gate.init Gate.control
  have h1 : ¬((List.replicate k q).length = 0 ∨ ls.length = 0) := by
    simp only [List.length_replicate, not_or]
    exact ⟨hk, fun e => hl (List.length_eq_zero_iff.1 e)⟩
  simp only [if_neg h1]
  have h2 : ¬ (GateType.single ≠ GateType.single) := by simp
  rw [if_neg h2]
  split
  · rfl
  · have h3 : (List.replicate k q).any (fun i => decide (i ∈ (Target.one q).lines)) = true := by
      simp only [List.any_eq_true, decide_eq_true_eq]
      exact ⟨q, List.mem_replicate.2 ⟨hk, rfl⟩, by simp [Target.lines]⟩
    rw [if_pos h3]
    rfl

theorem call_self {dims : List Nat} {cls : Cls} {q : Int} {k : Nat} {ls : List Int} {v : List (Option ℝ)}
    (hk : k ≠ 0) (hl : ls ≠ [])
    (hcls : cls ∈ [.h, .x, .z, .s] ∨ (cls ∈ [.r, .rz, .rh, .virtrz, .pm] ∧ v.isEmpty = false)) :
    ∃ e, callBuilder dims cls (.one q) v (some ⟨List.replicate k q, ls⟩) = .error e := by
  have herr : ∀ {α β : Type} (x : Except PyErr α) (f : α → Except PyErr β), (∀ a, ∃ e, f a = .error e) →
      ∃ e, (x >>= f) = .error e := by
    intro α β x f h
    cases x with
    | error e => exact ⟨e, rfl⟩
    | ok a => exact h a
  have hmap : ∀ {α β : Type} (f : α → β) (x : Except PyErr α), (∃ e, x = .error e) → ∃ e, f <$> x = .error e := by
    rintro α β f x ⟨e, rfl⟩
    exact ⟨e, rfl⟩
  simp only [List.mem_cons, List.not_mem_nil, or_false] at hcls
  rcases hcls with (rfl | rfl | rfl | rfl) | ⟨rfl | rfl | rfl | rfl | rfl, hv⟩
  · cases hv : v.isEmpty with
    | false => exact ⟨_, by simp only [callBuilder, hv]; rfl⟩
    | true =>
      simp only [callBuilder, hv]
      apply hmap
      unfold construct
      apply herr
      intro d
      rw [init_self hk hl]
      exact ⟨_, rfl⟩
  · cases hv : v.isEmpty with
    | false => exact ⟨_, by simp only [callBuilder, hv]; rfl⟩
    | true =>
      simp only [callBuilder, hv]
      apply hmap
      unfold construct
      apply herr
      intro d
      rw [init_self hk hl]
      exact ⟨_, rfl⟩
  · cases hv : v.isEmpty with
    | false => exact ⟨_, by simp only [callBuilder, hv]; rfl⟩
    | true =>
      simp only [callBuilder, hv]
      apply hmap
      unfold construct
      apply herr
      intro d
      rw [init_self hk hl]
      exact ⟨_, rfl⟩
  · cases hv : v.isEmpty with
    | false => exact ⟨_, by simp only [callBuilder, hv]; rfl⟩
    | true =>
      simp only [callBuilder, hv]
      apply hmap
      unfold construct
      apply herr
      intro d
      apply herr
      intro _
      rw [init_self hk hl]
      exact ⟨_, rfl⟩
  all_goals
    simp only [callBuilder, hv]
  · apply hmap
    unfold construct
    apply herr
    intro d
    rw [init_self hk hl]
    exact ⟨_, rfl⟩
  · apply hmap
    unfold construct
    apply herr
    intro d
    rw [init_self hk hl]
    exact ⟨_, rfl⟩
  · apply hmap
    unfold construct
    apply herr
    intro d
    rw [init_self hk hl]
    exact ⟨_, rfl⟩
  · apply hmap
    unfold construct
    apply herr
    intro d
    rw [init_self hk hl]
    exact ⟨_, rfl⟩
  · exact ⟨_, rfl⟩

end Qudits.Qasm
