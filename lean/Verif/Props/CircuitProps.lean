import Verif.Lemmas.Circuit

/-
C01 (register layout) and C02 (instruction list editing).
-/
namespace Qudits
open Spec

variable {γ : Type}

/-- **C01.** Appending well-formed registers (as many dimensions as lines) with distinct labels to an
empty circuit succeeds and lays them out contiguously: `num_qudits` and `dimensions` are the sum and
the concatenation; `(label, i)` resolves to `(line, dim)` exactly when the layout says so; the recorded
dimension is `circuit.dimensions[line]`; the inverse map undoes the forward map; every line is used;
each register's own index map agrees. -/
theorem C01_append_layout (regs : List QReg) (hwf : ∀ r ∈ regs, r.dims.length = r.size)
    (hnd : (regs.map QReg.label).Nodup) :
    ∃ c : Circ γ, Circ.empty.appendAll regs = .ok c ∧
      c.numQudits = total regs ∧
      c.dims = regs.flatMap QReg.dims ∧
      (∀ lbl i line dim, c.sitemap.get? (lbl, i) = some (line, dim) ↔ Placed regs lbl i line dim) ∧
      (∀ lbl i line dim, c.sitemap.get? (lbl, i) = some (line, dim) →
        c.dims[line]? = some dim ∧ c.inverseSitemap.get? line = some (lbl, i)) ∧
      (∀ line, line < c.numQudits ↔
        ∃ lbl i dim, c.sitemap.get? (lbl, i) = some (line, dim)) ∧
      (∀ k (h : k < regs.length) (h' : k < c.qregs.length) i, i < regs[k].size →
        c.qregs[k].localSitemap.get? i = some (offset regs k + i)) := by
  obtain ⟨c, h1, h2⟩ := laid_all (Circ.empty : Circ γ) [] regs laid_empty hwf (by simpa using hnd)
  simp only [List.nil_append] at h2
  have hplaced : ∀ lbl i line dim, c.sitemap.get? (lbl, i) = some (line, dim) ↔
      Placed regs lbl i line dim := by
    intro lbl i line dim
    constructor
    · intro hg
      rw [h2.site] at hg
      have hmem : (lbl, i) ∈ PyDict.keys (siteFrom 0 regs) := by
        apply Classical.byContradiction
        intro hn
        rw [(PyDict.get?_eq_none_iff _ _).2 hn] at hg
        cases hg
      have key : ∀ (n : Nat) (rs : List QReg), (lbl, i) ∈ PyDict.keys (siteFrom n rs) →
          ∃ k, ∃ h : k < rs.length, rs[k].label = lbl ∧ i < rs[k].size := by
        intro n rs
        induction rs generalizing n with
        | nil => simp [siteFrom, PyDict.keys]
        | cons r rs ih =>
          intro h
          simp only [siteFrom, PyDict.keys, List.map_append, List.mem_append] at h
          rcases h with h | h
          · simp [siteBlock] at h
            exact ⟨0, by simp, by simp [h.2], by simpa using h.1⟩
          · obtain ⟨k, hk, e1, e2⟩ := ih _ h
            exact ⟨k + 1, by simpa using hk, by simpa using e1, by simpa using e2⟩
      obtain ⟨k, hk, e1, e2⟩ := key 0 regs hmem
      have := get_siteFrom 0 regs hnd k hk i e2
      rw [e1] at this
      rw [this] at hg
      have hlt : i < regs[k].dims.length := by rw [hwf _ (List.getElem_mem hk)]; exact e2
      simp [List.getElem?_eq_getElem hlt] at hg
      exact ⟨k, hk, e1, e2, by omega, by rw [List.getElem?_eq_getElem hlt, hg.2]⟩
    · rintro ⟨k, hk, e1, e2, e3, e4⟩
      rw [h2.site, ← e1, get_siteFrom 0 regs hnd k hk i e2]
      simp [e3, e4]
  refine ⟨c, h1, h2.num, h2.dims, hplaced, ?_, ?_, h2.loc⟩
  · intro lbl i line dim hg
    obtain ⟨k, hk, e1, e2, e3, e4⟩ := (hplaced _ _ _ _).1 hg
    subst e3
    refine ⟨by rw [h2.dims, get_flatMap regs hwf k hk i e2, e4], ?_⟩
    have := get_invFrom 0 regs k hk i e2
    rw [h2.inv, ← e1, ← this]; congr 1; omega
  · intro line
    rw [h2.num]
    constructor
    · intro hl
      obtain ⟨k, hk, i, hi, e⟩ := line_covered regs line hl
      have hlt : i < regs[k].dims.length := by rw [hwf _ (List.getElem_mem hk)]; exact hi
      exact ⟨regs[k].label, i, regs[k].dims[i], (hplaced _ _ _ _).2
        ⟨k, hk, rfl, hi, e, List.getElem?_eq_getElem hlt⟩⟩
    · rintro ⟨lbl, i, dim, hg⟩
      obtain ⟨k, hk, -, hi, e, -⟩ := (hplaced _ _ _ _).1 hg
      have : ∀ (rs : List QReg) (k : Nat) (hk : k < rs.length), offset rs k + rs[k].size ≤ total rs := by
        intro rs
        induction rs with
        | nil => intro k hk; simp at hk
        | cons r rs ih =>
          intro k hk
          cases k with
          | zero => simp [offset, total_cons]
          | succ k =>
            have := ih k (by simpa using hk)
            rw [offset_succ, total_cons]; simp only [List.getElem_cons_succ]; omega
      have := this regs k hk
      omega

/-- C01, "earlier registers never move": appending more registers leaves every resolved line alone. -/
theorem C01_append_stable (pre post : List QReg)
    (hwf : ∀ r ∈ pre ++ post, r.dims.length = r.size)
    (hnd : ((pre ++ post).map QReg.label).Nodup) :
    ∃ c c' : Circ γ, Circ.empty.appendAll pre = .ok c ∧ Circ.empty.appendAll (pre ++ post) = .ok c' ∧
      ∀ key v, c.sitemap.get? key = some v → c'.sitemap.get? key = some v := by
  have hnd' : (pre.map QReg.label).Nodup := by
    rw [List.map_append, List.nodup_append] at hnd; exact hnd.1
  obtain ⟨c, a1, -, -, a4, -⟩ := C01_append_layout (γ := γ) pre
    (fun r hr => hwf r (by simp [hr])) hnd'
  obtain ⟨c', b1, -, -, b4, -⟩ := C01_append_layout (γ := γ) (pre ++ post) hwf hnd
  refine ⟨c, c', a1, b1, ?_⟩
  rintro ⟨lbl, i⟩ ⟨line, dim⟩ h
  obtain ⟨k, hk, e1, e2, e3, e4⟩ := (a4 _ _ _ _).1 h
  refine (b4 _ _ _ _).2 ⟨k, by simp; omega, ?_, ?_, ?_, ?_⟩
  · rw [List.getElem_append_left hk]; exact e1
  · rw [List.getElem_append_left hk]; exact e2
  · rw [e3]; simp [offset, List.take_append_of_le_length (Nat.le_of_lt hk)]
  · rw [List.getElem_append_left hk]; exact e4

/-- A register with fewer dimensions than lines is rejected with `IndexError`. -/
theorem C01_append_short_dims (c : Circ γ) (r : QReg) (h : r.dims.length < r.size) :
    c.append r = .error .indexError := by
  simp [Circ.append, loop_error r _ _ h, bind, Except.bind]

/-- The distinct-label hypothesis of C01 is needed: re-using a label makes the site map lose lines. -/
theorem C01_duplicate_label_violated :
    ∃ c : Circ Nat, Circ.empty.appendAll [QReg.mk' "q" 1 none, QReg.mk' "q" 1 none, QReg.mk' "r" 1 none]
        = .ok c ∧ c.numQudits = 3 ∧ c.inverseSitemap.get? 2 = none ∧
      c.sitemap.get? ("q", 0) = some (1, 2) ∧ c.sitemap.get? ("r", 0) = some (1, 2) := by
  refine ⟨_, rfl, ?_⟩
  decide

example : (([⟨"q", 2, [2, 3], []⟩, ⟨"a", 1, [5], []⟩] : List QReg).map QReg.label).Nodup ∧
    (∀ r ∈ ([⟨"q", 2, [2, 3], []⟩, ⟨"a", 1, [5], []⟩] : List QReg), r.dims.length = r.size) ∧
    ∃ c : Circ Nat, Circ.empty.appendAll [⟨"q", 2, [2, 3], []⟩, ⟨"a", 1, [5], []⟩] = .ok c ∧
      c.sitemap.get? ("a", 0) = some (2, 5) ∧ c.inverseSitemap.get? 1 = some ("q", 1) := by
  refine ⟨by decide, by decide, _, rfl, ?_⟩
  decide

/-- The circuit operation behind an edit. -/
def Spec.Edit.onCirc : Edit γ → Circ γ → Circ γ
  | .add g, c => c.addGate g
  | .replace i seq, c => c.replaceGate i seq
  | .overwrite seq, c => c.setInstructions seq
  | .clear, c => c.reset

/-- All edits of a history refer to existing gates. -/
def Spec.validHistory : List (Edit γ) → List γ → Prop
  | [], _ => True
  | e :: es, l => e.valid l ∧ validHistory es (e.onList l)

/-- **C02.** After any history of edits (each `replace_gate` naming an existing gate) starting from an
empty circuit, the instruction list is the result of the same edits on a plain list and the gate
counter is its length. -/
theorem C02_instruction_history (es : List (Edit γ)) (hv : validHistory es []) :
    let c := es.foldl (fun c e => e.onCirc c) (Circ.empty : Circ γ)
    c.instructions = es.foldl (fun l e => e.onList l) [] ∧
    c.numberGates = (c.instructions.length : Int) := by
  have key : ∀ (es : List (Edit γ)) (c : Circ γ), c.numberGates = (c.instructions.length : Int) →
      validHistory es c.instructions →
      (es.foldl (fun c e => e.onCirc c) c).instructions
          = es.foldl (fun l e => e.onList l) c.instructions ∧
      (es.foldl (fun c e => e.onCirc c) c).numberGates
          = ((es.foldl (fun c e => e.onCirc c) c).instructions.length : Int) := by
    intro es
    induction es with
    | nil => intro c h _; exact ⟨rfl, h⟩
    | cons e es ih =>
      intro c h hv
      obtain ⟨hv1, hv2⟩ := hv
      simp only [List.foldl_cons]
      have hstep : (e.onCirc c).instructions = e.onList c.instructions ∧
          (e.onCirc c).numberGates = ((e.onCirc c).instructions.length : Int) := by
        cases e with
        | add g => simp [Edit.onCirc, Edit.onList, Circ.addGate, h]
        | overwrite seq => simp [Edit.onCirc, Edit.onList, Circ.setInstructions]
        | clear => simp [Edit.onCirc, Edit.onList, Circ.reset, Circ.empty]
        | replace i seq =>
          simp only [Edit.valid] at hv1
          have e1 : sliceBound c.instructions.length (i : Int) = i := by
            simp only [sliceBound]; split <;> omega
          have e2 : sliceBound c.instructions.length ((i : Int) + 1) = i + 1 := by
            simp only [sliceBound]; split <;> omega
          have e3 : max i (i + 1) = i + 1 := by omega
          simp only [Edit.onCirc, Edit.onList, Circ.replaceGate, sliceAssign, e1, e2, e3, true_and]
          simp only [List.length_append, List.length_take, List.length_drop]
          omega
      rw [← hstep.1]
      exact ih _ hstep.2 (by rw [hstep.1]; exact hv2)
  exact key es Circ.empty rfl hv

/-- Outside the hypothesis of C02: with index `-1` (Python's "last gate") `replace_gate` inserts
before the last gate instead of replacing it, and the counter is then wrong. -/
theorem C02_replace_negative_violated :
    let c : Circ Nat := ((Circ.empty.addGate 10).addGate 20).replaceGate (-1) [30]
    c.instructions = [10, 30, 20] ∧ c.numberGates = 2 := by decide

/-- Outside the hypothesis of C02: an index past the end appends and the counter is then wrong. -/
theorem C02_replace_out_of_range_violated :
    let c : Circ Nat := (Circ.empty.addGate 10).replaceGate 5 [30]
    c.instructions = [10, 30] ∧ c.numberGates = 1 := by decide

example : validHistory ([.add 1, .add 2, .replace 0 [7, 8], .overwrite [4, 5, 6], .replace 2 [], .add 9] :
    List (Edit Nat)) [] ∧
    ([.add 1, .add 2, .replace 0 [7, 8], .overwrite [4, 5, 6], .replace 2 [], .add 9] :
      List (Edit Nat)).foldl (fun l e => e.onList l) [] = [4, 5, 9] := by
  refine ⟨?_, rfl⟩
  simp [validHistory, Edit.valid, Edit.onList]

end Qudits
