import Verif.Lemmas.QasmCircuit
import Verif.Lemmas.GateArrays
import Mathlib.Analysis.Real.Pi.Bounds

/-
C46, C47: what QASM export followed by import preserves, and what it loses.
-/
namespace Qudits.Qasm
open Re Qudits Spec

variable {F : PyFloat} {regs : List QReg} {c₀ : Circ QG}

theorem built_grow (hr : GoodRegs regs) (h : Circ.empty.appendAll regs = .ok c₀) (cs : List CReg) (gs : List QG) :
    Built (grow c₀ cs gs) regs ∧ (grow c₀ cs gs).instructions = gs ∧ c₀.dims = regs.flatMap QReg.dims ∧
      SameRegisters c₀ (grow c₀ cs gs) := built_circuit hr h cs gs

/-! ### C46: registers -/

/-- **C46.** Whatever gates and classical registers a circuit has: if it can be exported and the text can
be read, then the circuit read has the same quantum registers (labels, sizes, dimensions) on the same
lines, whichever circuit object reads it. -/
theorem C46_roundtrip (hr : GoodRegs regs) (h0 : Circ.empty.appendAll regs = .ok c₀) (cs : List CReg)
    (gs : List QG) (hone : ∀ g ∈ gs, OneLine F g) (text : Text) (ht : toQasm F (grow c₀ cs gs) = .ok text)
    (e c' : Circ QG) (hread : fromQasm F e text = .ok c') : SameRegisters (grow c₀ cs gs) c' := by
  obtain ⟨hb, hi, _, _⟩ := built_grow hr h0 cs gs
  obtain ⟨ls, _, hf⟩ := read_written F (grow c₀ cs gs) regs hb hr.ident hr.size hr.dims hr.names
    (fun g hg => hone g (by rw [← hi]; exact hg)) text ht
  rw [hf e] at hread
  obtain ⟨ops, _, hread⟩ := bind_ok hread
  have hb' := (built_addOps ops (built_readBase e regs _) hread).1
  exact ⟨hb'.qregs.trans hb.qregs.symm, hb'.site.trans hb.site.symm, hb'.inv.trans hb.inv.symm,
    hb'.num.trans hb.num.symm, hb'.dims.trans hb.dims.symm⟩

/-- **C46.** A circuit without gates can always be exported and read back, with the same registers and no
gates. -/
theorem C46_registers (hr : GoodRegs regs) (h0 : Circ.empty.appendAll regs = .ok c₀) (cs : List CReg) :
    ∃ text, toQasm F (grow c₀ cs []) = .ok text ∧ ∀ e : Circ QG, ∃ c', fromQasm F e text = .ok c' ∧
      SameRegisters (grow c₀ cs []) c' ∧ c'.instructions = [] := by
  obtain ⟨hb, hi, _, _⟩ := built_grow hr h0 cs []
  have ht := toQasm_eq F (grow c₀ cs []) regs hb hr.dims [] (by
    show List.mapM _ (grow c₀ cs []).instructions = _
    have : (grow c₀ cs []).instructions = [] := hi
    rw [this]; rfl)
  refine ⟨_, ht, fun e => ?_⟩
  obtain ⟨ls, hls, hf⟩ := read_written F (grow c₀ cs []) regs hb hr.ident hr.size hr.dims hr.names
    (fun g hg => by
      have : (grow c₀ cs []).instructions = [] := hi
      rw [this] at hg; cases hg) _ ht
  have hnil : ls = [] := by
    have : (grow c₀ cs []).instructions = [] := hi
    rw [this] at hls
    simp only [List.mapM_nil, pure, Except.pure, Except.ok.injEq] at hls
    cases ls with
    | nil => rfl
    | cons a b => simp at hls
  subst hnil
  have hok : fromQasm F e _ = .ok (readBase e regs (total regs)) := hf e
  refine ⟨_, hok, ?_, (readBase_plain e regs _).1⟩
  exact C46_roundtrip hr h0 cs [] (by simp) _ ht e _ hok

/-- **C46.** Classical registers are lost: the circuit read has exactly one classical register, `meas`, with
one bit per qudit, whatever classical registers the circuit had. -/
theorem C46_classical_violated (hr : GoodRegs regs) (hne : regs ≠ []) (h0 : Circ.empty.appendAll regs = .ok c₀)
    (cs : List CReg) (gs : List QG) (hone : ∀ g ∈ gs, OneLine F g) (text : Text)
    (ht : toQasm F (grow c₀ cs gs) = .ok text) (e c' : Circ QG) (hread : fromQasm F e text = .ok c') :
    c'.cregs.map (fun r => (r.label, r.size)) = [("meas", c₀.dims.length)] := by
  obtain ⟨hb, hi, hd, _⟩ := built_grow hr h0 cs gs
  obtain ⟨ls, _, hf⟩ := read_written F (grow c₀ cs gs) regs hb hr.ident hr.size hr.dims hr.names
    (fun g hg => hone g (by rw [← hi]; exact hg)) text ht
  rw [hf e] at hread
  obtain ⟨ops, _, hread⟩ := bind_ok hread
  rw [(built_addOps ops (built_readBase e regs _) hread).2, hd, dims_length regs hr.dims]
  cases hn : total regs with
  | zero =>
    exfalso
    cases regs with
    | nil => exact hne rfl
    | cons r rs =>
      rw [total_cons] at hn
      exact hr.size r (by simp) (by omega)
  | succ n => exact readBase_cregs e regs n

/-- **C46.** A register without qudits is exported as a line the reader refuses. -/
theorem C46_empty_violated : ∃ (c : Circ QG), Circ.empty.appendAll [⟨"q", 0, [], []⟩] = .ok c ∧
    toQasm F c = .ok "DITQASM 2.0;\nqreg q [0][];\ncreg meas[0];\n".toList ∧
    ∀ e, fromQasm F e "DITQASM 2.0;\nqreg q [0][];\ncreg meas[0];\n".toList = .error .syntaxError := by
  refine ⟨_, rfl, rfl, ?_⟩
  intro e
  rfl

/-! ### C47: gates -/

/-- **C47.** A circuit of gates made by the builders, without controls and with numbers as parameters, is
exported and read; the circuit read has the gates as `ReadBack` describes, in the same order, without the
noise gates. -/
theorem C47_readback (hF : Laws F) (hr : GoodRegs regs) (h0 : Circ.empty.appendAll regs = .ok c₀) (cs : List CReg)
    (gs : List QG) (hg : ∀ g ∈ gs, Readable F c₀.dims g) :
    ∃ text, toQasm F (grow c₀ cs gs) = .ok text ∧ ∀ e : Circ QG, ∃ c', fromQasm F e text = .ok c' ∧
      List.Forall₂ ReadBack (gs.filter fun g => g.cls.known) c'.instructions ∧
      c'.numberGates = c'.instructions.length := by
  obtain ⟨hb, hi, hd, _⟩ := built_grow hr h0 cs gs
  have hi : (grow c₀ cs gs).instructions = gs := hi
  have hone : ∀ g ∈ gs, OneLine F g := fun g h => oneLine_of hF g (Or.inl (hg g h).numbers)
  have hlen : c₀.dims.length = total regs := by rw [hd, dims_length regs hr.dims]
  obtain ⟨ts, hts⟩ := mapM_exists (gateLine F (invFrom 0 regs)) gs fun g h => gateLine_ok regs hlen (hg g h)
  have hinv := invIdent_from regs hr.ident hr.names hr.dims
  obtain ⟨ls, hls, _⟩ := mapM_split (gateLine F (invFrom 0 regs)) (fun _ => True) gs ts (by
    intro g hgm t ht
    obtain ⟨s, hs, _⟩ := gateLine_shape F hinv g (hone g hgm) t ht
    exact ⟨s, hs, trivial⟩) hts
  have ht := toQasm_eq F (grow c₀ cs gs) regs hb hr.dims ls (by rw [hi, hb.inv, hts, hls])
  refine ⟨_, ht, fun e => ?_⟩
  obtain ⟨ls', hls', hf⟩ := read_written F (grow c₀ cs gs) regs hb hr.ident hr.size hr.dims hr.names
    (fun g h => hone g (by rw [← hi]; exact h)) _ ht
  rw [hi, hb.inv] at hls'
  obtain ⟨ops, hops, hfold⟩ := read_steps hF hr gs hg ls' hls'
  obtain ⟨c', gs', h1, h2, h3, h4⟩ := hfold (readBase e regs (total regs)) (by
    rw [(built_readBase e regs _).dims, hd])
  obtain ⟨hp1, hp2⟩ := readBase_plain e regs (total regs)
  refine ⟨c', ?_, ?_, ?_⟩
  · rw [hf e, hops]; exact h1
  · rw [h2, hp1]; exact h4
  · rw [h2, h3, hp1, hp2]; simp

theorem same_of_readBack {dims : List Nat} {g g' : QG} (hg : Plain F dims g) (h : ReadBack g g') : Same g g' := by
  refine ⟨h.1, h.2.1, ?_⟩
  rw [h.2.2]
  have hc := hg.cls
  have hdef := hg.default
  unfold readAttrs
  revert hc hdef
  cases g.cls <;> simp <;> intro hx <;> exact hx.symm

/-- **C47 (partial).** A circuit of Hadamard, shift, clock, phase, controlled-sum, LS and MS gates and of
controlled exchanges with default parameters is exported, and read back as a circuit with the same gate
objects in the same order on the same registers. The full claim, for every gate class, every parameter,
controls and adjoints, is false: see the `_violated` theorems below. -/
theorem C47_roundtrip_partial (hF : Laws F) (hr : GoodRegs regs) (h0 : Circ.empty.appendAll regs = .ok c₀)
    (cs : List CReg) (gs : List QG) (hg : ∀ g ∈ gs, Plain F c₀.dims g) :
    ∃ text, toQasm F (grow c₀ cs gs) = .ok text ∧ ∀ e : Circ QG, ∃ c', fromQasm F e text = .ok c' ∧
      List.Forall₂ Same gs c'.instructions ∧ c'.numberGates = gs.length ∧ SameRegisters c₀ c' := by
  have hread : ∀ g ∈ gs, Readable F c₀.dims g := fun g h => (hg g h).toReadable
  obtain ⟨text, ht, hf⟩ := C47_readback hF hr h0 cs gs hread
  refine ⟨text, ht, fun e => ?_⟩
  obtain ⟨c', h1, h2, h3⟩ := hf e
  have hfil : gs.filter (fun g => g.cls.known) = gs := by
    apply List.filter_eq_self.2
    intro g h
    have := (hg g h).cls
    revert this
    cases g.cls <;> simp [Cls.known]
  rw [hfil] at h2
  have hreg := C46_roundtrip hr h0 cs gs (fun g h => oneLine_of hF g (Or.inl (hread g h).numbers)) text ht e c' h1
  obtain ⟨_, _, _, a1, a2, a3, a4, a5⟩ := built_grow hr h0 cs gs
  refine ⟨c', h1, ?_, ?_, ?_⟩
  · clear h1 h3 hreg hfil hread hf ht a1 a2 a3 a4 a5
    clear * - h2 hg
    generalize c'.instructions = gs' at h2
    induction h2 with
    | nil => exact .nil
    | cons hab _ ih =>
      exact .cons (same_of_readBack (hg _ (by simp)) hab) (ih fun g h => hg g (by simp [h]))
  · rw [h3, h2.length_eq]
  · exact ⟨hreg.1.trans a1, hreg.2.1.trans a2, hreg.2.2.1.trans a3, hreg.2.2.2.1.trans a4, hreg.2.2.2.2.trans a5⟩

/-- Gates that are the same have the same matrix. -/
theorem C47_same_array (g g' : QG) (h : Same g g') : g'.array = g.array := by
  unfold QG.array
  rw [h.1, h.2.1, h.2.2]

/-! ### what is lost -/

theorem array_never {α : Type} (x : Except PyErr α) (f : α → Except PyErr (Arr2 ℂ)) (hf : ∀ a m, f a ≠ .ok m)
    (m : Arr2 ℂ) : (x >>= f) ≠ .ok m := by
  intro h
  obtain ⟨a, _, h⟩ := bind_ok h
  exact hf a m h

/-- **C47.** A rotation R, Rz or Rh read back has no matrix any more: `to_matrix` raises. -/
theorem C47_rotation_violated (g g' : QG) (hg : g.cls ∈ [.r, .rz, .rh]) (h : ReadBack g g') (m : Arr2 ℂ) :
    g'.array ≠ .ok m := by
  obtain ⟨hc, hb, ha⟩ := h
  have hr : readAttrs g = .two {} := by
    revert hg
    unfold readAttrs
    cases g.cls <;> simp
  rw [hr] at ha
  rw [← hc] at hg
  unfold QG.array
  rw [ha]
  simp only [List.mem_cons, List.not_mem_nil, or_false] at hg
  cases hq : g'.base.target with
  | many qs => rcases hg with e | e | e <;> rw [e] <;> simp
  | one q =>
    rcases hg with e | e | e <;> rw [e] <;> refine array_never _ _ ?_ m <;> intro d m
    · unfold rArray
      refine array_never _ _ (fun m1 m => ?_) m
      refine array_never _ _ (fun m2 m => ?_) m
      simp [gellMann, bind, Except.bind]
    · simp [rzArray, rInit, needInt, needFlt, checkLevels, bind, Except.bind]
    · simp [rhArray, rInit, needInt, needFlt, checkLevels, bind, Except.bind]

/-- **C47.** A virtual rotation read back is the identity, whatever its level and angle. -/
theorem C47_virtrz_violated (g g' : QG) (hg : g.cls = .virtrz) (h : ReadBack g g') (m : Arr2 ℂ)
    (hm : g'.array = .ok m) : ∃ d, m.rows = d ∧ m.cols = d ∧ ∀ i < d, ∀ j < d, m.at' i j = if i = j then 1 else 0 := by
  obtain ⟨hc, hb, ha⟩ := h
  have hr : readAttrs g = .two {} := by unfold readAttrs; rw [hg]
  rw [hr] at ha
  rw [hg] at hc
  unfold QG.array at hm
  rw [ha, hc] at hm
  cases hq : g'.base.target with
  | many qs => rw [hq] at hm; cases hm
  | one q =>
    rw [hq] at hm
    obtain ⟨d, _, hm⟩ := bind_ok hm
    unfold virtRzArray at hm
    simp only [Int.toNat_zero, Complex.ofReal_zero, mul_zero, Complex.exp_zero, one_mul] at hm
    unfold Arr2.set at hm
    split at hm
    · cases hm
      refine ⟨d, rfl, rfl, ?_⟩
      intro i hi j hj
      show (if i = 0 ∧ j = 0 then _ else _) = _
      by_cases h0 : i = 0 ∧ j = 0
      · rw [if_pos h0, h0.1, h0.2]; simp [Arr2.identity]
      · rw [if_neg h0]; simp [Arr2.identity]
    · cases hm

/-- **C47.** A permutation gate read back has lost its permutation: `to_matrix` raises AttributeError. -/
theorem C47_perm_violated (g g' : QG) (q : Int) (hq : g.base.target = .one q) (hg : g.cls = .pm) (h : ReadBack g g') :
    g'.array = .error .attributeError := by
  obtain ⟨hc, hb, ha⟩ := h
  have hr : readAttrs g = .perm none := by unfold readAttrs; rw [hg]
  unfold QG.array
  rw [ha, hr, hc, hg, hb, hq]

/-- **C47.** A controlled exchange read back has the default levels, control level and angle, whatever it
was exported with. -/
theorem C47_cex_violated (g g' : QG) (hg : g.cls = .cx) (h : ReadBack g g') : g'.attrs = .cex {} := by
  obtain ⟨hc, hb, ha⟩ := h
  rw [ha]
  unfold readAttrs
  rw [hg]

/-- **C47.** Noise gates vanish: a circuit of noise gates is read back as a circuit without gates. -/
theorem C47_noise_violated (hF : Laws F) (hr : GoodRegs regs) (h0 : Circ.empty.appendAll regs = .ok c₀)
    (cs : List CReg) (gs : List QG) (hg : ∀ g ∈ gs, Readable F c₀.dims g ∧ g.cls ∈ [.noiseX, .noiseY]) :
    ∃ text, toQasm F (grow c₀ cs gs) = .ok text ∧ ∀ e : Circ QG, ∃ c', fromQasm F e text = .ok c' ∧
      c'.instructions = [] := by
  obtain ⟨text, ht, hf⟩ := C47_readback hF hr h0 cs gs fun g h => (hg g h).1
  refine ⟨text, ht, fun e => ?_⟩
  obtain ⟨c', h1, h2, _⟩ := hf e
  refine ⟨c', h1, ?_⟩
  have : gs.filter (fun g => g.cls.known) = [] := by
    apply List.filter_eq_nil_iff.2
    intro g h
    have := (hg g h).2
    revert this
    cases g.cls <;> simp [Cls.known]
  rw [this] at h2
  exact List.forall₂_nil_left_iff.1 h2

/-- the adjoint of a gate object -/
def QG.dag (g : QG) : QG := { g with base := g.base.dag }

/-- **C47.** The adjoint mark is not written: a circuit and the circuit of the adjoint gates are exported as
the same text. -/
theorem C47_dagger_violated (cs : List CReg) (gs : List QG) :
    toQasm F (grow c₀ cs (gs.map QG.dag)) = toQasm F (grow c₀ cs gs) := by
  have key : ∀ (gs : List QG) (c c' : Circ QG), c'.qregs = c.qregs → c'.dims = c.dims →
      c'.inverseSitemap = c.inverseSitemap →
      c'.instructions.mapM (gateLine F c.inverseSitemap) = c.instructions.mapM (gateLine F c.inverseSitemap) →
      toQasm F ((gs.map QG.dag).foldl Circ.addGate c') = toQasm F (gs.foldl Circ.addGate c) := by
    intro gs
    induction gs with
    | nil =>
      intro c c' h1 h2 h3 h4
      simp only [List.map_nil, List.foldl_nil]
      unfold toQasm
      rw [h1, h2, h3, h4]
    | cons g gs ih =>
      intro c c' h1 h2 h3 h4
      refine ih (c.addGate g) (c'.addGate g.dag) h1 h2 h3 ?_
      show List.mapM _ (c'.instructions ++ [g.dag]) = List.mapM _ (c.instructions ++ [g])
      have hd : gateLine F c.inverseSitemap g.dag = gateLine F c.inverseSitemap g := rfl
      rw [List.mapM_append, List.mapM_append]
      have h4' : c'.instructions.mapM (gateLine F (c.addGate g).inverseSitemap) =
        c.instructions.mapM (gateLine F (c.addGate g).inverseSitemap) := h4
      have hd' : [g.dag].mapM (gateLine F (c.addGate g).inverseSitemap) =
        [g].mapM (gateLine F (c.addGate g).inverseSitemap) := by
        rw [List.mapM_cons, List.mapM_cons]; rfl
      rw [h4', hd']
  exact key gs (cs.foldl Circ.appendClassic c₀) (cs.foldl Circ.appendClassic c₀) rfl rfl rfl rfl

/-- **C47.** A circuit with a controlled gate (of one of the classes that accept controls) is exported to a
text which cannot be read: the target is written in place of the control lines. -/
theorem C47_control_violated (hF : Laws F) (hr : GoodRegs regs) (h0 : Circ.empty.appendAll regs = .ok c₀)
    (cs : List CReg) (gs : List QG) (hone : ∀ g ∈ gs, OneLine F g) (g : QG) (hg : g ∈ gs)
    (t : Target) (p : PArg) (c cd : ControlData) (hb : construct c₀.dims g.cls t p (some c) = .ok g)
    (hc : g.base.controls = some cd) (hpos : ∀ l ∈ cd.ctrlStates, 0 ≤ l)
    (hcls : g.cls ∈ [.h, .x, .z, .s] ∨
      (g.cls ∈ [.r, .rz, .rh, .virtrz, .pm] ∧ ∃ l, l ≠ [] ∧ g.params = .list l ∧ Numbers F (.list l)) ∨
      (g.cls = .cuOne ∧ g.params = .array))
    (text : Text) (ht : toQasm F (grow c₀ cs gs) = .ok text) (e : Circ QG) :
    ∃ err, fromQasm F e text = .error err := by
  obtain ⟨hbt, hi, hd, _⟩ := built_grow hr h0 cs gs
  have hi : (grow c₀ cs gs).instructions = gs := hi
  obtain ⟨_, name, ty, c', hin, hc', hlin⟩ := construct_inv hb
  have hcc : c' = some c := by
    rcases hc' with h | h
    · exact h
    · subst h
      rw [(init_none hin).2.1] at hc
      cases hc
  subst hcc
  obtain ⟨htg, hcdc, hne1, hne2⟩ := init_some hin hc
  subst hcdc
  have hsingle : g.cls.single = true := by
    rcases hcls with h | ⟨h, _⟩ | ⟨h, _⟩
    · revert h; cases g.cls <;> simp [Cls.single]
    · revert h; cases g.cls <;> simp [Cls.single]
    · rw [h]; rfl
  have hq : ∃ q, t = .one q := by
    rcases hlin with ⟨d, hd, _⟩ | ⟨_, _, h⟩
    · obtain ⟨q, hq, _⟩ := oneLine_inv hd; exact ⟨q, hq⟩
    · rw [hsingle] at h; cases h
  obtain ⟨q, rfl⟩ := hq
  have hkn : g.cls.known = true := by
    rcases hcls with h | ⟨h, _⟩ | ⟨h, _⟩
    · revert h; cases g.cls <;> simp [Cls.known]
    · revert h; cases g.cls <;> simp [Cls.known]
    · rw [h]; rfl
  refine read_poison hr hbt (by rw [hi]; exact hone) g (by rw [hi]; exact hg) ?_ text ht e
  intro l hl
  rcases hcls with h | ⟨h, pl, hpl, hgp, hnum⟩ | ⟨h, hgp⟩
  · have hgp : g.params = .none := by
      revert hb h
      obtain ⟨cls, b, ps, at'⟩ := g
      intro hb h
      simp only [List.mem_cons, List.not_mem_nil, or_false] at h
      simp only at hb
      rcases h with rfl | rfl | rfl | rfl <;> simp only [construct] at hb <;>
        (obtain ⟨_, _, hb⟩ := bind_ok hb
         obtain ⟨_, _, hb⟩ := bind_ok hb
         first
           | (cases hb; rfl)
           | (obtain ⟨_, _, hb⟩ := bind_ok hb; cases hb; rfl))
    have hnum : Numbers F g.params := by rw [hgp]; trivial
    obtain ⟨d, h0q, hrd⟩ := read_ctl hF regs hr.ident hr.names g (Or.inl hnum) q htg cd hc hne1 hne2 hpos l hl
    rw [eval_params hF g.params hnum] at hrd
    right
    refine ⟨_, hrd, ?_⟩
    intro c _
    obtain ⟨er, her⟩ := call_self (dims := c.dims) (q := q) (k := cd.indices.length) (ls := cd.ctrlStates)
      (v := paramVals g.params) (fun e => hne1 (List.length_eq_zero_iff.1 e)) hne2 (Or.inl h)
    refine ⟨er, ?_⟩
    unfold addOp
    simp only [get_tag _ hkn, List.isEmpty_nil, if_true]
    rw [Int.toNat_of_nonneg h0q, her]
    rfl
  · have hnum' : Numbers F g.params := by rw [hgp]; exact hnum
    obtain ⟨d, h0q, hrd⟩ := read_ctl hF regs hr.ident hr.names g (Or.inl hnum') q htg cd hc hne1 hne2 hpos l hl
    rw [eval_params hF g.params hnum'] at hrd
    right
    refine ⟨_, hrd, ?_⟩
    intro c _
    obtain ⟨er, her⟩ := call_self (dims := c.dims) (q := q) (k := cd.indices.length) (ls := cd.ctrlStates)
      (v := paramVals g.params) (fun e => hne1 (List.length_eq_zero_iff.1 e)) hne2
      (Or.inr ⟨h, by rw [hgp]; exact paramVals_ne hpl⟩)
    refine ⟨er, ?_⟩
    unfold addOp
    simp only [get_tag _ hkn, List.isEmpty_nil, if_true]
    rw [Int.toNat_of_nonneg h0q, her]
    rfl
  · left
    obtain ⟨d, h0q, hrd⟩ := read_ctl hF regs hr.ident hr.names g (Or.inr hgp) q htg cd hc hne1 hne2 hpos l hl
    obtain ⟨er, her⟩ := eval_array hF
    rw [hgp, her] at hrd
    exact ⟨er, hrd⟩

/-- **C47.** A circuit with a custom gate given by a matrix is exported to a text which cannot be read. -/
theorem C47_custom_violated (hF : Laws F) (hr : GoodRegs regs) (h0 : Circ.empty.appendAll regs = .ok c₀)
    (cs : List CReg) (gs : List QG) (hone : ∀ g ∈ gs, OneLine F g) (g : QG) (hg : g ∈ gs)
    (t : Target) (hcls : g.cls ∈ [.cuOne, .cuTwo, .cuMulti]) (hb : construct c₀.dims g.cls t .array none = .ok g)
    (text : Text) (ht : toQasm F (grow c₀ cs gs) = .ok text) (e : Circ QG) :
    ∃ err, fromQasm F e text = .error err := by
  obtain ⟨hbt, hi, hd, _⟩ := built_grow hr h0 cs gs
  have hi : (grow c₀ cs gs).instructions = gs := hi
  obtain ⟨_, name, ty, c', hin, hc', hlin⟩ := construct_inv hb
  have hcc : c' = none := by rcases hc' with h | h <;> exact h
  subst hcc
  obtain ⟨htg, hcn, _, _, hne⟩ := init_none hin
  have hgp : g.params = .array := by
    revert hb hcls
    obtain ⟨cls, b, ps, at'⟩ := g
    intro hcls hb
    simp only [List.mem_cons, List.not_mem_nil, or_false] at hcls
    simp only at hb
    rcases hcls with rfl | rfl | rfl <;> simp only [construct] at hb <;>
      (obtain ⟨_, _, hb⟩ := bind_ok hb
       obtain ⟨_, _, hb⟩ := bind_ok hb
       cases hb; rfl)
  refine read_poison hr hbt (by rw [hi]; exact hone) g (by rw [hi]; exact hg) ?_ text ht e
  intro l hl
  left
  obtain ⟨sites, _, hrd⟩ := read_plain hF regs hr.ident hr.names g (Or.inr hgp) hcn (by rw [htg]; exact hne) l hl
  obtain ⟨er, her⟩ := eval_array hF
  rw [hgp, her] at hrd
  exact ⟨er, hrd⟩

/-! ### non-vacuity -/

/-- reading an integer, with one leading space allowed -/
noncomputable def evalInt : Text → Except PyErr (Option ℝ)
  | ' ' :: '-' :: t => (fun n : Nat => some (-(n : ℝ))) <$> pyInt t
  | ' ' :: t => (fun n : Nat => some (n : ℝ)) <$> pyInt t
  | '-' :: t => (fun n : Nat => some (-(n : ℝ))) <$> pyInt t
  | t => (fun n : Nat => some (n : ℝ)) <$> pyInt t

open Classical in
/-- a number format in which the floats are the integers -/
noncomputable def intFloat : PyFloat where
  isFloat x := ∃ n : Int, x = n
  text x := if h : ∃ n : Int, x = n then showInt h.choose else []
  eval := evalInt

theorem evalInt_showInt (n : Int) : evalInt (showInt n) = .ok (some (n : ℝ)) ∧
    evalInt (' ' :: showInt n) = .ok (some (n : ℝ)) := by
  cases n with
  | ofNat k =>
    have hd := showNat_digit k
    have hp := pyInt_showNat k
    have hne := showNat_ne_nil k
    show evalInt (showNat k) = _ ∧ evalInt (' ' :: showNat k) = _
    revert hd hp hne
    generalize showNat k = u
    intro hd hp hne
    cases u with
    | nil => exact absurd rfl hne
    | cons a u =>
      have h1 : a ≠ ' ' := by rintro rfl; exact absurd (hd ' ' (by simp)) (by decide)
      have h2 : a ≠ '-' := by rintro rfl; exact absurd (hd '-' (by simp)) (by decide)
      constructor
      · unfold evalInt
        split
        · rename_i e; cases e; exact absurd rfl h1
        · rename_i e; cases e; exact absurd rfl h1
        · rename_i e; cases e; exact absurd rfl h2
        · rw [hp]; simp [Functor.map, Except.map]
      · unfold evalInt
        split
        · rename_i e; cases e; exact absurd rfl h2
        · rename_i e; cases e; rw [hp]; simp [Functor.map, Except.map]
        · rename_i e; cases e
        · rename_i e1 e2 e3; exact absurd rfl (e2 _)
  | negSucc k =>
    have hp := pyInt_showNat (k + 1)
    show evalInt ('-' :: showNat (k + 1)) = _ ∧ evalInt (' ' :: '-' :: showNat (k + 1)) = _
    generalize showNat (k + 1) = u at hp
    refine ⟨?_, ?_⟩
    · show (fun n : Nat => some (-(n : ℝ))) <$> pyInt u = _
      rw [hp]; simp [Functor.map, Except.map, Int.negSucc_eq]
    · show (fun n : Nat => some (-(n : ℝ))) <$> pyInt u = _
      rw [hp]; simp [Functor.map, Except.map, Int.negSucc_eq]

theorem laws_intFloat : Laws intFloat := by
  have ht : ∀ x, intFloat.isFloat x → ∃ n : Int, x = n ∧ intFloat.text x = showInt n := by
    intro x h
    refine ⟨h.choose, h.choose_spec, ?_⟩
    exact dif_pos h
  refine ⟨?_, ?_, ?_, ?_⟩
  · intro x h
    obtain ⟨n, _, e⟩ := ht x h
    rw [e]
    exact showInt_clean n
  · intro x h
    obtain ⟨n, hx, e⟩ := ht x h
    rw [e, hx]
    exact evalInt_showInt n
  · intro n _
    exact evalInt_showInt n
  · exact ⟨.valueError, rfl⟩

/-- three registers of different sizes and dimensions -/
def exRegs : List QReg := [⟨"a", 2, [2, 3], []⟩, ⟨"b_1", 1, [3], []⟩]

theorem good_exRegs : GoodRegs exRegs := by
  refine ⟨?_, ?_, ?_, ?_, ?_⟩
  · intro r hr
    simp only [exRegs, List.mem_cons, List.not_mem_nil, or_false] at hr
    rcases hr with rfl | rfl
    · exact ⟨by decide, by decide⟩
    · exact ⟨by decide, by decide⟩
  · decide
  · decide
  · decide
  · decide

/-- the circuit on these registers -/
noncomputable def exCirc : Circ QG := withRegs Circ.empty exRegs

theorem exCirc_ok : Circ.empty.appendAll exRegs = .ok exCirc := by rfl

/-- a Hadamard on line 1, a controlled sum of lines 2 and 0, a default controlled exchange of lines 0 and 1,
an LS gate with angle 1 on lines 1 and 2 -/
noncomputable def exGates : List QG :=
  [⟨.h, ⟨[2, 3, 3], "H3", .single, .one 1, none, false, false⟩, .none, .plain⟩,
   ⟨.csum, ⟨[2, 3, 3], "CSum[3, 2]", .two, .many [2, 0], none, false, true⟩, .none, .plain⟩,
   ⟨.cx, ⟨[2, 3, 3], "CEx[2, 3]", .two, .many [0, 1], none, false, false⟩,
     .list [.int 0, .int 1, .int 1, .flt 0], .cex {}⟩,
   ⟨.ls, ⟨[2, 3, 3], "LS[3, 3]", .two, .many [1, 2], none, false, false⟩, .list [.flt 1], .angle (some 1)⟩]

theorem plain_exGates : ∀ g ∈ exGates, Plain intFloat exCirc.dims g := by
  have h0 : intFloat.isFloat 0 := ⟨0, by simp⟩
  have h1 : intFloat.isFloat 1 := ⟨1, by simp⟩
  have hang : angleInit 1 = .ok 1 := by
    unfold angleInit
    rw [if_pos]
    have := Real.pi_gt_three
    constructor <;> linarith
  intro g hg
  simp only [exGates, List.mem_cons, List.not_mem_nil, or_false] at hg
  rcases hg with rfl | rfl | rfl | rfl
  · refine ⟨⟨⟨.one 1, .none, rfl⟩, by simp [Target.lines], trivial, by simp⟩, by simp, by simp⟩
  · refine ⟨⟨⟨.many [2, 0], .none, rfl⟩, by simp [Target.lines], trivial, by simp [Target.lines]⟩, by simp, by simp⟩
  · refine ⟨⟨⟨.many [0, 1], .none, rfl⟩, by simp [Target.lines], ?_, by simp [Target.lines]⟩, by simp, by simp⟩
    intro v hv
    simp only [List.mem_cons, List.not_mem_nil, or_false] at hv
    rcases hv with rfl | rfl | rfl | rfl
    · exact ⟨0, by simp [PVal.value], h0⟩
    · exact ⟨1, by simp [PVal.value], h1⟩
    · exact ⟨1, by simp [PVal.value], h1⟩
    · exact ⟨0, by simp [PVal.value], h0⟩
  · refine ⟨⟨⟨.many [1, 2], .list [.flt 1], ?_⟩, by simp [Target.lines], ?_, by simp [Target.lines]⟩, by simp, by simp⟩
    · show (do
        let a ← angleAttr (.list [.flt 1])
        pure (⟨.ls, ⟨[2, 3, 3], "LS[3, 3]", .two, .many [1, 2], none, false, false⟩, .list [.flt 1], a⟩ : QG) :
          Except PyErr QG) = _
      simp only [angleAttr, firstNumber, List.head?_cons, bind, Except.bind, hang]
      rfl
    · intro v hv
      simp only [List.mem_cons, List.not_mem_nil, or_false] at hv
      subst hv
      exact ⟨1, by simp [PVal.value], h1⟩

example : ∃ text, toQasm intFloat (grow exCirc [⟨"c", 2, []⟩] exGates) = .ok text ∧ ∀ e : Circ QG, ∃ c',
    fromQasm intFloat e text = .ok c' ∧ List.Forall₂ Same exGates c'.instructions ∧
      c'.numberGates = 4 ∧ SameRegisters exCirc c' :=
  C47_roundtrip_partial laws_intFloat good_exRegs exCirc_ok _ exGates plain_exGates

/-- a rotation of levels 0 and 2 on line 1 -/
noncomputable def exRot : QG :=
  ⟨.r, ⟨[2, 3, 3], "R3", .single, .one 1, none, false, false⟩, .list [.int 0, .int 2, .flt 1, .flt 0],
    .two { levA := 0, levB := 2, theta := regulateTheta 1, phi := 0 }⟩

/-- a noise gate on line 2 -/
noncomputable def exNoise : QG :=
  ⟨.noiseX, ⟨[2, 3, 3], "NoiseX3", .single, .one 2, none, false, false⟩, .list [.int 1, .int 2],
    .two { levA := 1, levB := 2 }⟩

theorem readable_exRot : Readable intFloat exCirc.dims exRot := by
  refine ⟨⟨.one 1, .list [.int 0, .int 2, .flt 1, .flt 0], rfl⟩, by simp [exRot, Target.lines], ?_,
    Or.inr (Or.inl ⟨by simp [exRot], _, by simp, rfl⟩)⟩
  intro v hv
  simp only [List.mem_cons, List.not_mem_nil, or_false] at hv
  rcases hv with rfl | rfl | rfl | rfl
  · exact ⟨0, by simp [PVal.value], 0, by simp⟩
  · exact ⟨2, by simp [PVal.value], 2, by simp⟩
  · exact ⟨1, by simp [PVal.value], 1, by simp⟩
  · exact ⟨0, by simp [PVal.value], 0, by simp⟩

theorem readable_exNoise : Readable intFloat exCirc.dims exNoise := by
  refine ⟨⟨.one 2, .list [.int 1, .int 2], rfl⟩, by simp [exNoise, Target.lines], ?_, Or.inl (by simp [exNoise])⟩
  intro v hv
  simp only [List.mem_cons, List.not_mem_nil, or_false] at hv
  rcases hv with rfl | rfl
  · exact ⟨1, by simp [PVal.value], 1, by simp⟩
  · exact ⟨2, by simp [PVal.value], 2, by simp⟩

/-- The circuit with one rotation and one noise gate comes back with a rotation that has no matrix and
without the noise gate. -/
example : ∃ text, toQasm intFloat (grow exCirc [] [exRot, exNoise]) = .ok text ∧ ∀ e : Circ QG, ∃ c' g',
    fromQasm intFloat e text = .ok c' ∧ c'.instructions = [g'] ∧ ∀ m, g'.array ≠ .ok m := by
  obtain ⟨text, ht, hf⟩ := C47_readback laws_intFloat good_exRegs exCirc_ok [] [exRot, exNoise] (by
    intro g hg
    simp only [List.mem_cons, List.not_mem_nil, or_false] at hg
    rcases hg with rfl | rfl
    · exact readable_exRot
    · exact readable_exNoise)
  refine ⟨text, ht, fun e => ?_⟩
  obtain ⟨c', h1, h2, _⟩ := hf e
  have hfil : [exRot, exNoise].filter (fun g => g.cls.known) = [exRot] := rfl
  rw [hfil] at h2
  obtain ⟨g', t, hab, ht', hi⟩ := List.forall₂_cons_left_iff.1 h2
  rw [List.forall₂_nil_left_iff.1 ht'] at hi
  exact ⟨c', g', h1, hi, C47_rotation_violated exRot g' (by simp [exRot]) hab⟩

example : ∃ text, toQasm intFloat (grow exCirc [] [exNoise]) = .ok text ∧ ∀ e : Circ QG, ∃ c',
    fromQasm intFloat e text = .ok c' ∧ c'.instructions = [] :=
  C47_noise_violated laws_intFloat good_exRegs exCirc_ok [] [exNoise] (by
    intro g hg
    rw [List.mem_singleton] at hg
    subst hg
    exact ⟨readable_exNoise, by simp [exNoise]⟩)

/-- a shift on line 1 controlled by level 1 of line 0 -/
noncomputable def exCtl : QG :=
  ⟨.x, ⟨[2, 3, 3], "X3", .two, .one 1, some ⟨[0], [1]⟩, false, false⟩, .none, .plain⟩

example : ∃ text, toQasm intFloat (grow exCirc [] [exCtl]) = .ok text ∧
    ∀ e, ∃ err, fromQasm intFloat e text = .error err := by
  refine ⟨_, rfl, fun e => ?_⟩
  refine C47_control_violated laws_intFloat good_exRegs exCirc_ok [] [exCtl] ?_ exCtl (by simp) (.one 1) .none
    ⟨[0], [1]⟩ ⟨[0], [1]⟩ rfl rfl (by simp) (Or.inl (by simp [exCtl])) _ rfl e
  intro g hg
  rw [List.mem_singleton] at hg
  subst hg
  exact oneLine_of laws_intFloat _ (Or.inl trivial)

/-- a custom gate on lines 0 and 1 -/
noncomputable def exCustom : QG :=
  ⟨.cuTwo, ⟨[2, 3, 3], "CUt[2, 3]", .two, .many [0, 1], none, false, false⟩, .array, .custom true⟩

example : ∃ text, toQasm intFloat (grow exCirc [] [exCustom]) = .ok text ∧
    ∀ e, ∃ err, fromQasm intFloat e text = .error err := by
  refine ⟨_, rfl, fun e => ?_⟩
  refine C47_custom_violated laws_intFloat good_exRegs exCirc_ok [] [exCustom] ?_ exCustom (by simp) (.many [0, 1])
    (by simp [exCustom]) rfl _ rfl e
  intro g hg
  rw [List.mem_singleton] at hg
  subst hg
  exact oneLine_of laws_intFloat _ (Or.inr rfl)

end Qudits.Qasm
