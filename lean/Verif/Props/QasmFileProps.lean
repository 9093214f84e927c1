import Verif.Lemmas.QasmFileWrite

/-
C89: what saving a circuit to a file and loading it preserves.
-/
namespace Qudits.Qasm
open Re Qudits Spec

variable {F : PyFloat} {regs : List QReg} {c₀ : Circ FGate}

theorem addGates_fields (gs : List FGate) (c : Circ FGate) :
    (gs.foldl Circ.addGate c).instructions = c.instructions ++ gs ∧
      (gs.foldl Circ.addGate c).numberGates = c.numberGates + gs.length := by
  induction gs generalizing c with
  | nil => simp
  | cons g gs ih =>
    obtain ⟨h1, h2⟩ := ih (c.addGate g)
    rw [List.foldl_cons, h1, h2]
    simp only [Circ.addGate, List.append_assoc, List.singleton_append, List.length_cons]
    exact ⟨trivial, by push_cast; omega⟩

/-- a circuit of gates read into the registers of the circuit written -/
theorem loaded_fields (hb : c₀.qregs = placed 0 regs ∧ c₀.sitemap = siteFrom 0 regs ∧
      c₀.inverseSitemap = invFrom 0 regs ∧ c₀.numQudits = total regs ∧ c₀.dims = regs.flatMap QReg.dims)
    (e : Circ FGate) (gs' : List FGate) :
    (gs'.foldl Circ.addGate (readBase e regs (total regs))).instructions = gs' ∧
      (gs'.foldl Circ.addGate (readBase e regs (total regs))).numberGates = gs'.length ∧
      SameRegisters c₀ (gs'.foldl Circ.addGate (readBase e regs (total regs))) := by
  obtain ⟨hp1, hp2⟩ := readBase_plain e regs (total regs)
  obtain ⟨h1, h2⟩ := addGates_fields gs' (readBase e regs (total regs))
  have h3 := built_addGates (built_readBase e regs (total regs)) gs'
  obtain ⟨b1, b2, b3, b4, b5⟩ := hb
  refine ⟨by rw [h1, hp1]; simp, by rw [h2, hp2]; simp, ?_⟩
  exact ⟨h3.qregs.trans b1.symm, h3.site.trans b2.symm, h3.inv.trans b3.symm, h3.num.trans b4.symm,
    h3.dims.trans b5.symm⟩

theorem start_fields (hr : GoodRegs regs) (h0 : Circ.empty.appendAll regs = .ok c₀) :
    c₀.qregs = placed 0 regs ∧ c₀.sitemap = siteFrom 0 regs ∧ c₀.inverseSitemap = invFrom 0 regs ∧
      c₀.numQudits = total regs ∧ c₀.dims = regs.flatMap QReg.dims := by
  have h' := built_appendAll (Circ.empty : Circ FGate) regs ⟨rfl, rfl, rfl, rfl, rfl⟩ hr.dims hr.names
    (fresh_of_nil 0 regs hr.fresh)
  rw [h'] at h0
  cases h0
  exact ⟨rfl, rfl, rfl, rfl, rfl⟩

/-- **C89 (partial).** A circuit of the gates that survive an export and of custom gates is saved, whatever is
on the disk and whatever the file is called, and loading the returned path gives the same gate objects with
the same matrices in the same order on the same registers — in any circuit object, and also after other
files were written, as long as the files of this circuit are as they were. Assumed: the letters drawn for the
custom gates are different, and the directory name is not empty and has neither a closing parenthesis nor a
line break. Without these the claim fails: see the `_violated` theorems below; the gates that do not survive
are those of C47. -/
theorem C89_roundtrip_partial (hF : Laws F) (hr : GoodRegs regs) (h0 : Circ.empty.appendAll regs = .ok c₀)
    (cs : List CReg) (gs : List FGate) (hg : ∀ g ∈ gs, Saveable F c₀.dims g) (dir : Text) (hd : GoodDir dir)
    (keys : Nat → Text) (hk : GoodKeys keys gs.length) (disk : Disk) (name : Text) :
    ∃ path disk', saveToFile F keys disk (grow c₀ cs gs) name dir = .ok (path, disk') ∧
      ∀ disk'' : Disk, disk''.texts.get? path = disk'.texts.get? path →
        (∀ p a, disk'.arrays.get? p = some a → disk''.arrays.get? p = some a) →
        ∀ e : Circ FGate, ∃ c', loadFromFile F disk'' e path = .ok c' ∧
          List.Forall₂ FSame gs c'.instructions ∧ c'.numberGates = gs.length ∧ SameRegisters c₀ c' := by
  obtain ⟨hb, hi, hdim, _⟩ := built_circuit hr h0 cs gs
  have hn : c₀.dims.length = total regs := by rw [hdim, dims_length regs hr.dims]
  obtain ⟨ls, fs', hw, hls, _, hread⟩ := write_read hF hr hn hd hk gs hg 0 disk.arrays (by omega)
  obtain ⟨path, disk', hs, harr, hload⟩ := save_load hr (grow c₀ cs gs) hb dir keys disk name ls fs' hls
    (by have : (grow c₀ cs gs).instructions = gs := hi
        rw [this]; exact hw)
  refine ⟨path, disk', hs, ?_⟩
  intro disk'' ht ha e
  rw [harr] at ha
  obtain ⟨ops, hops, hadd⟩ := hread disk''.arrays ha
  obtain ⟨gs', h1, h2⟩ := hadd (readBase e regs (total regs)) (by rw [(built_readBase e regs _).dims, hdim])
  obtain ⟨f1, f2, f3⟩ := loaded_fields (start_fields hr h0) e gs'
  refine ⟨_, ?_, by rw [f1]; exact h2, by rw [f2, ← h2.length_eq], f3⟩
  rw [hload disk'' ht e, hops]
  exact h1

/-- **C89.** Two custom gates of the same name for which the same letters are drawn: the second file
overwrites the first, and both gates are loaded with the matrix of the second. -/
theorem C89_collision_violated (hr : GoodRegs regs) (h0 : Circ.empty.appendAll regs = .ok c₀) (cs : List CReg)
    (g g' : FGate) (hg : CustomGate c₀.dims g) (hg' : CustomGate c₀.dims g')
    (hname : g'.gate.base.name = g.gate.base.name) (dir : Text) (hd : GoodDir dir) (keys : Nat → Text)
    (hk : GoodKeys keys 0) (hsame : keys 1 = keys 0) (disk : Disk) (name : Text) :
    ∃ path disk', saveToFile F keys disk (grow c₀ cs [g, g']) name dir = .ok (path, disk') ∧
      ∀ e : Circ FGate, ∃ c', loadFromFile F disk' e path = .ok c' ∧
        c'.instructions = [⟨g.gate, g'.data⟩, g'] := by
  obtain ⟨hb, hi, hdim, _⟩ := built_circuit hr h0 cs [g, g']
  have hn : c₀.dims.length = total regs := by rw [hdim, dims_length regs hr.dims]
  obtain ⟨a, ha, hane⟩ := hg.data
  obtain ⟨a', ha', hane'⟩ := hg'.data
  obtain ⟨l, s, hgl, hnl, hpp, hline, hsl, hread⟩ := custom_written hr hn hg.toMatrixGate hd keys 0 (hk.letters 0).2 ha
  obtain ⟨l', s', hgl', hnl', hpp', hline', hsl', hread'⟩ := custom_written hr hn hg'.toMatrixGate hd keys 1
    (hk.letters 1).2 ha'
  rw [hname, hsame] at hpp' hline' hread'
  have hw := writeGates_cons (hpp F disk.arrays) hline (writeGates_cons (hpp' F _) hline' (writeGates_nil _ _ _ _ _))
  obtain ⟨path, disk', hs, harr, hload⟩ := save_load hr (grow c₀ cs [g, g']) hb dir keys disk name [l, l'] _ (by
    intro x hx
    simp only [List.mem_cons, List.not_mem_nil, or_false] at hx
    rcases hx with rfl | rfl
    · exact ⟨hgl, hnl⟩
    · exact ⟨hgl', hnl'⟩) (by
    have : (grow c₀ cs [g, g']).instructions = [g, g'] := hi
    rw [this]; exact hw)
  refine ⟨path, disk', hs, fun e => ?_⟩
  have hget := PyDict.get?_set_self ((disk.arrays.set (dirPrefix dir ++ npyName g.gate.base.name.toList (keys 0)) a))
    (dirPrefix dir ++ npyName g.gate.base.name.toList (keys 0)) a'
  rw [← harr] at hget
  have hop := hread F disk'.arrays a' hget
  have hop' := hread' F disk'.arrays a' hget
  have hdims : (readBase e regs (total regs)).dims = c₀.dims := by rw [(built_readBase e regs _).dims, hdim]
  refine ⟨((readBase e regs (total regs)).addGate ⟨g.gate, some a'⟩).addGate ⟨g'.gate, some a'⟩, ?_, ?_⟩
  · rw [hload disk' rfl e]
    simp only [List.mapM_cons, List.mapM_nil, hop, hop', bind, Except.bind, pure, Except.pure,
      List.foldlM_cons, List.foldlM_nil, addOpF_custom hg hane' hsl _ hdims,
      addOpF_custom hg' hane' hsl' (Circ.addGate _ _) hdims]
  · show (readBase e regs (total regs)).instructions ++ [_] ++ [_] = _
    rw [(readBase_plain e regs (total regs)).1, ha']
    cases g'
    simp only at ha'
    subst ha'
    rfl

/-- **C89.** With an empty directory name no matrix is written and the file cannot be loaded. -/
theorem C89_empty_directory_violated (hF : Laws F) (hr : GoodRegs regs) (h0 : Circ.empty.appendAll regs = .ok c₀)
    (cs : List CReg) (g : FGate) (hg : CustomGate c₀.dims g) (keys : Nat → Text) (disk : Disk) (name : Text) :
    ∃ path disk', saveToFile F keys disk (grow c₀ cs [g]) name [] = .ok (path, disk') ∧
      disk'.arrays = disk.arrays ∧ ∀ e : Circ FGate, ∃ err, loadFromFile F disk' e path = .error err := by
  obtain ⟨hb, hi, hdim, _⟩ := built_circuit hr h0 cs [g]
  have hn : c₀.dims.length = total regs := by rw [hdim, dims_length regs hr.dims]
  obtain ⟨a, ha, hane⟩ := hg.data
  obtain ⟨t, hbt⟩ := hg.built
  obtain ⟨_, hpar, ht, hcn, hne, _⟩ := custom_fields hg.cls hbt
  obtain ⟨l, sites, hl, hgl, hnl, _, hread⟩ := paren_line hr g.gate hcn (by rw [ht]; exact hne)
    (custom_targets hg.toMatrixGate hn) "custom_data".toList (by decide) (by decide)
  have hpp : paramPart F [] keys g 0 disk.arrays = .ok ('(' :: "custom_data".toList ++ ") ".toList, 0, disk.arrays) := by
    unfold paramPart
    rw [hpar, ha]
    rfl
  obtain ⟨path, disk', hs, harr, hload⟩ := save_load hr (grow c₀ cs [g]) hb [] keys disk name [l] _ (by
    intro x hx
    simp only [List.mem_singleton] at hx
    subst hx
    exact ⟨hgl, hnl⟩) (by
    have : (grow c₀ cs [g]).instructions = [g] := hi
    rw [this]
    exact writeGates_cons hpp hl (writeGates_nil _ _ _ _ _))
  refine ⟨path, disk', hs, harr, fun e => ?_⟩
  obtain ⟨err, he⟩ := hF.name
  refine ⟨err, ?_⟩
  have hlp : loadParams F disk'.arrays (some "custom_data".toList) = .error err := by
    have h1 : hasSub ".npy".toList "custom_data".toList = false := by decide
    have h2 : splitChar ',' (stripWith (fun c => c == '(' || c == ')' || c == '[' || c == ']') "custom_data".toList)
        = ["custom_data".toList] := by decide
    rw [loadParams_plain _ _ (by decide) h1, h2]
    simp only [List.mapM_cons, he]
    rfl
  rw [hload disk' rfl e]
  simp only [List.mapM_cons, hread F disk'.arrays, hlp, Functor.map, Except.map, bind, Except.bind]

/-- **C89.** A custom gate for several lines may be put on a single line; such a circuit is saved, but loading it
calls the builder with a number in place of the list of lines and raises a TypeError. -/
theorem C89_single_line_violated (hr : GoodRegs regs) (h0 : Circ.empty.appendAll regs = .ok c₀) (cs : List CReg)
    (g : FGate) (hg : MatrixGate c₀.dims g) (hmany : g.gate.cls ≠ .cuOne)
    (hone : g.gate.base.target.lines.length = 1) (dir : Text) (hd : GoodDir dir)
    (keys : Nat → Text) (hk : GoodKeys keys 0) (disk : Disk) (name : Text) :
    ∃ path disk', saveToFile F keys disk (grow c₀ cs [g]) name dir = .ok (path, disk') ∧
      ∀ e : Circ FGate, loadFromFile F disk' e path = .error .typeError := by
  obtain ⟨hb, hi, hdim, _⟩ := built_circuit hr h0 cs [g]
  have hn : c₀.dims.length = total regs := by rw [hdim, dims_length regs hr.dims]
  obtain ⟨a, ha, hane⟩ := hg.data
  obtain ⟨l, s, hgl, hnl, hpp, hline, hsl, hread⟩ := custom_written hr hn hg hd keys 0 (hk.letters 0).2 ha
  obtain ⟨path, disk', hs, harr, hload⟩ := save_load hr (grow c₀ cs [g]) hb dir keys disk name [l] _ (by
    intro x hx
    simp only [List.mem_singleton] at hx
    subst hx
    exact ⟨hgl, hnl⟩) (by
    have : (grow c₀ cs [g]).instructions = [g] := hi
    rw [this]
    exact writeGates_cons (hpp F disk.arrays) hline (writeGates_nil _ _ _ _ _))
  refine ⟨path, disk', hs, fun e => ?_⟩
  have hget := PyDict.get?_set_self disk.arrays (dirPrefix dir ++ npyName g.gate.base.name.toList (keys 0)) a
  rw [← harr] at hget
  have hop := hread F disk'.arrays a hget
  rw [hload disk' rfl e]
  simp only [List.mapM_cons, List.mapM_nil, hop, bind, Except.bind, pure, Except.pure, List.foldlM_cons]
  have hlen : s.length = 1 := by rw [← hone, ← hsl, List.length_map]
  obtain ⟨q, rfl⟩ := List.length_eq_one_iff.1 hlen
  have hk' : g.gate.cls.known = true := by
    have := hg.cls
    revert this
    cases g.gate.cls <;> decide
  unfold addOpF
  simp only [get_tag _ hk', List.isEmpty_nil, if_true]
  have hcall : ∀ dims q, callBuilderF dims g.gate.cls (.one q) (.data a) none = .error .typeError := by
    intro dims q
    unfold callBuilderF
    simp only [if_neg hane]
    have hcl := hg.cls
    simp only [List.mem_cons, List.not_mem_nil, or_false] at hcl
    rcases hcl with e | e | e
    · exact absurd e hmany
    · rw [e]; rfl
    · rw [e]; rfl
  rw [hcall]
  rfl

/-! ### concrete cases -/

/-- a custom gate on the first line of a circuit of qubits -/
def exGate : QG := ⟨.cuOne, ⟨[2], "CUo2", .single, .one 0, none, false, false⟩, .array, .custom true⟩

/-- a custom gate on the second line of a circuit of two qubits -/
def exGate₁ : QG := ⟨.cuOne, ⟨[2, 2], "CUo2", .single, .one 1, none, false, false⟩, .array, .custom true⟩

/-- the text written for the first in the directory `a)b` -/
def exText : Text :=
  "DITQASM 2.0;\nqreg q [1][2];\ncreg meas[1];\ncuone (a)b/CUo2_aaaa.npy) q[0];\nmeasure q[0] -> meas[0];\n".toList

/-- the text written for the second, with the registers `q` and `qq` -/
def exText₁ : Text :=
  ("DITQASM 2.0;\nqreg q [1][2];\nqreg qq [1][2];\ncreg meas[2];\ncuone (a)b/CUo2_aaaa.npy) qq[0];\n"
    ++ "measure q[0] -> meas[0];\nmeasure qq[0] -> meas[1];\n").toList

set_option maxRecDepth 100000 in
theorem saved_q (a : Arr2 ℂ) (disk : Disk) : ∃ disk',
    saveToFile F (fun _ => "aaaa".toList) disk
      (grow (withRegs Circ.empty [⟨"q", 1, [2], []⟩]) [] [⟨exGate, some a⟩]) "x".toList "a)b".toList
        = .ok ("a)b/x.qasm".toList, disk') ∧
      disk'.texts = disk.texts.set "a)b/x.qasm".toList exText := by
  refine ⟨_, rfl, ?_⟩
  have : joinPath "a)b".toList ("x".toList ++ ".qasm".toList) = "a)b/x.qasm".toList := by decide
  simp only [this]
  congr 1
  with_unfolding_all rfl

set_option maxRecDepth 100000 in
theorem saved_qq (a : Arr2 ℂ) (disk : Disk) : ∃ disk',
    saveToFile F (fun _ => "aaaa".toList) disk
      (grow (withRegs Circ.empty [⟨"q", 1, [2], []⟩, ⟨"qq", 1, [2], []⟩]) [] [⟨exGate₁, some a⟩])
        "x".toList "a)b".toList = .ok ("a)b/x.qasm".toList, disk') ∧
      disk'.texts = disk.texts.set "a)b/x.qasm".toList exText₁ := by
  refine ⟨_, rfl, ?_⟩
  have : joinPath "a)b".toList ("x".toList ++ ".qasm".toList) = "a)b/x.qasm".toList := by decide
  simp only [this]
  congr 1
  with_unfolding_all rfl

set_option maxRecDepth 100000 in
theorem load_q (fs : PyDict Text (Arr2 ℂ)) (e : Circ FGate) :
    fromQasmF F fs e exText = .error .syntaxError := by rfl

set_option maxRecDepth 100000 in
theorem load_qq (fs : PyDict Text (Arr2 ℂ)) (e : Circ FGate) :
    fromQasmF F fs e exText₁ = .ok (readBase e [⟨"q", 1, [2], []⟩, ⟨"qq", 1, [2], []⟩] 2) := by
  with_unfolding_all rfl

/-- **C89.** A directory name with a closing parenthesis ends the parameter too early. A circuit with one
custom gate on the register `q` is saved, and the file is refused. -/
theorem C89_parenthesis_violated (a : Arr2 ℂ) (disk : Disk) :
    ∃ c disk', Circ.empty.appendAll [⟨"q", 1, [2], []⟩] = .ok c ∧
      construct c.dims .cuOne (.one 0) .array none = .ok exGate ∧
      saveToFile F (fun _ => "aaaa".toList) disk (grow c [] [⟨exGate, some a⟩]) "x".toList "a)b".toList
        = .ok ("a)b/x.qasm".toList, disk') ∧
      ∀ e, loadFromFile F disk' e "a)b/x.qasm".toList = .error .syntaxError := by
  have hn : normPath "a)b/x.qasm".toList = "a)b/x.qasm".toList := by decide
  obtain ⟨disk', h1, h2⟩ := saved_q (F := F) a disk
  refine ⟨_, disk', rfl, rfl, h1, fun e => ?_⟩
  unfold loadFromFile
  rw [hn, h2]
  simp only [PyDict.get?_set_self]
  exact load_q _ e

/-- **C89.** With two registers `q` and `qq` and the gate on `qq`, what follows the parenthesis is taken for
an unknown gate named `q` on the register `q`: loading succeeds with a circuit that has lost the gate. -/
theorem C89_parenthesis_lost_violated (a : Arr2 ℂ) (disk : Disk) :
    ∃ c disk', Circ.empty.appendAll [⟨"q", 1, [2], []⟩, ⟨"qq", 1, [2], []⟩] = .ok c ∧
      construct c.dims .cuOne (.one 1) .array none = .ok exGate₁ ∧
      saveToFile F (fun _ => "aaaa".toList) disk (grow c [] [⟨exGate₁, some a⟩]) "x".toList "a)b".toList
        = .ok ("a)b/x.qasm".toList, disk') ∧
      ∀ e, ∃ c', loadFromFile F disk' e "a)b/x.qasm".toList = .ok c' ∧ c'.instructions = [] := by
  have hn : normPath "a)b/x.qasm".toList = "a)b/x.qasm".toList := by decide
  obtain ⟨disk', h1, h2⟩ := saved_qq (F := F) a disk
  refine ⟨withRegs Circ.empty [⟨"q", 1, [2], []⟩, ⟨"qq", 1, [2], []⟩], disk', rfl,
    (by rfl : construct [2, 2] .cuOne (.one 1) .array none = .ok exGate₁), h1, fun e => ?_⟩
  unfold loadFromFile
  rw [hn, h2]
  simp only [PyDict.get?_set_self]
  exact ⟨_, load_qq _ e, (readBase_plain e _ 2).1⟩

/-- two different matrices on one qubit, saved in the current directory -/
example (hF : Laws F) (a b : Arr2 ℂ) (ha : a.rows * a.cols ≠ 0) (hb : b.rows * b.cols ≠ 0) (disk : Disk) :
    ∃ c₀ path disk', Circ.empty.appendAll [⟨"q", 1, [2], []⟩] = .ok c₀ ∧
      saveToFile F (fun k => if k = 0 then "abcd".toList else "wxyz".toList) disk
        (grow c₀ [] [⟨exGate, some a⟩, ⟨exGate, some b⟩]) "x".toList ".".toList = .ok (path, disk') ∧
      ∀ e : Circ FGate, ∃ c', loadFromFile F disk' e path = .ok c' ∧
        List.Forall₂ FSame [⟨exGate, some a⟩, ⟨exGate, some b⟩] c'.instructions := by
  have hr : GoodRegs [⟨"q", 1, [2], []⟩] := by
    constructor <;> simp [Ident]
    decide
  have hc : ∀ a : Arr2 ℂ, a.rows * a.cols ≠ 0 → CustomGate [2] ⟨exGate, some a⟩ := fun a ha =>
    { built := ⟨.one 0, rfl⟩, cls := List.mem_cons_self, lines := (by decide : ∀ q ∈ [(0 : Int)], 0 ≤ q), data := ⟨a, rfl, ha⟩, several := Or.inl rfl }
  refine ⟨withRegs Circ.empty [⟨"q", 1, [2], []⟩], ?_⟩
  obtain ⟨path, disk', h1, h2⟩ := C89_roundtrip_partial (F := F) (c₀ := withRegs Circ.empty [⟨"q", 1, [2], []⟩]) hF hr rfl
    [] [⟨exGate, some a⟩, ⟨exGate, some b⟩] (by
      intro g hg
      simp only [List.mem_cons, List.not_mem_nil, or_false] at hg
      rcases hg with rfl | rfl
      · exact Or.inr (hc a ha)
      · exact Or.inr (hc b hb)) ".".toList ⟨by decide, by decide, by decide⟩
    (fun k => if k = 0 then "abcd".toList else "wxyz".toList) ⟨by
      intro i
      by_cases h : i = 0
      · simp only [h, if_true]; decide
      · simp only [if_neg h]; decide, by
      intro i j hi hj
      simp only [List.length_cons, List.length_nil] at hi hj
      have : i = 0 ∨ i = 1 := by omega
      have : j = 0 ∨ j = 1 := by omega
      rcases ‹i = 0 ∨ i = 1› with rfl | rfl <;> rcases ‹j = 0 ∨ j = 1› with rfl | rfl <;> decide⟩ disk "x".toList
  refine ⟨path, disk', rfl, h1, fun e => ?_⟩
  obtain ⟨c', h3, h4, _⟩ := h2 disk' rfl (fun _ _ h => h) e
  exact ⟨c', h3, h4⟩

end Qudits.Qasm
