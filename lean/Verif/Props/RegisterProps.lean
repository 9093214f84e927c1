import Verif.Lemmas.Bits

/-
C90: numbering of classical bits, indexing registers, and `reset`.
-/
namespace Qudits
open Spec

variable {γ : Type}

/-- **C90.** Appending classical registers with distinct labels to a circuit without classical registers numbers
their bits one after the other: `num_cl` is the number of bits, `(label, i)` is found in `classic_site_map` exactly
when it is a bit, with its number, `cl_inverse_sitemap` is the inverse, all numbers below `num_cl` are used, and each
register can be indexed by its bits. Nothing else of the circuit is changed. -/
theorem C90_bits (c : Circ γ) (hc : c.cregs = [] ∧ c.numCl = 0 ∧ c.classicSitemap = [] ∧ c.clInverseSitemap = [])
    (regs : List CReg) (hnd : (regs.map CReg.label).Nodup) (hf : ∀ r ∈ regs, r.localSitemap = []) :
    ∃ c', c' = regs.foldl Circ.appendClassic c ∧
      c'.numCl = bitTotal regs ∧
      (∀ lbl i n, c'.classicSitemap.get? (lbl, i) = some n ↔ BitPlaced regs lbl i n) ∧
      (∀ n lbl i, c'.clInverseSitemap.get? n = some (lbl, i) ↔ BitPlaced regs lbl i n) ∧
      (∀ n, n < c'.numCl ↔ ∃ lbl i, c'.clInverseSitemap.get? n = some (lbl, i)) ∧
      c'.cregs.length = regs.length ∧
      (∀ k (h : k < regs.length) (h' : k < c'.cregs.length), c'.cregs[k].label = regs[k].label ∧
        c'.cregs[k].size = regs[k].size ∧ Indexed (bitOffset regs k) regs[k].size c'.cregs[k].getItem) ∧
      c = { c' with
        cregs := c.cregs
        numCl := c.numCl
        classicSitemap := c.classicSitemap
        clInverseSitemap := c.clInverseSitemap } := by
  obtain ⟨h1, h2, h3, h4⟩ := hc
  have h0 : BitsLaid c [] := by
    refine ⟨by rw [h2]; rfl, by rw [h3]; rfl, ?_, ?_, by rw [h1], ?_, ?_⟩
    · intro lbl i n
      rw [h3]
      simp [PyDict.get?, BitPlaced]
    · intro n lbl i
      rw [h4]
      simp [PyDict.get?, BitPlaced]
    · intro k h
      simp at h
    · intro k h
      simp at h
  have h := bitsLaid_all c [] regs h0 hnd
  rw [List.nil_append] at h
  refine ⟨_, rfl, h.num, h.site, h.inv, ?_, h.count, ?_, ?_⟩
  · intro n
    rw [h.num]
    constructor
    · intro hn
      have key : ∀ (rs : List CReg) (n : Nat), n < bitTotal rs → ∃ k, ∃ hk : k < rs.length, ∃ i, i < rs[k].size ∧
          n = bitOffset rs k + i := by
        intro rs
        induction rs with
        | nil => intro n hn; simp [bitTotal] at hn
        | cons r rs ih =>
          intro n hn
          by_cases hlt : n < r.size
          · exact ⟨0, by simp, n, hlt, by simp [bitOffset]⟩
          · have : n - r.size < bitTotal rs := by simp [bitTotal] at hn ⊢; omega
            obtain ⟨k, hk, i, hi, e⟩ := ih _ this
            refine ⟨k + 1, by simpa using hk, i, by simpa using hi, ?_⟩
            simp [bitOffset] at e ⊢
            omega
      obtain ⟨k, hk, i, hi, e⟩ := key regs n hn
      exact ⟨regs[k].label, i, (h.inv _ _ _).2 ⟨k, hk, rfl, hi, e⟩⟩
    · rintro ⟨lbl, i, hg⟩
      exact bitPlaced_lt ((h.inv _ _ _).1 hg)
  · intro k hk hk'
    refine ⟨(h.same k hk hk').1, (h.same k hk hk').2, ?_⟩
    apply indexed_getItem
    intro i
    rw [h.loc k hk hk' i, hf _ (List.getElem_mem hk)]
    rfl
  · have key : ∀ (rs : List CReg) (c : Circ γ), ∃ a b d e, rs.foldl Circ.appendClassic c =
        { c with cregs := a, numCl := b, classicSitemap := d, clInverseSitemap := e } := by
      intro rs
      induction rs with
      | nil => intro c; exact ⟨_, _, _, _, rfl⟩
      | cons r rs ih =>
        intro c
        obtain ⟨a, b, d, e, h⟩ := ih (c.appendClassic r)
        exact ⟨a, b, d, e, h⟩
    obtain ⟨a, b, d, e, h⟩ := key regs c
    rw [h]

/-- **C90.** The same for the lines of quantum registers (their numbering is C01). -/
theorem C90_lines (regs : List QReg) (hwf : ∀ r ∈ regs, r.dims.length = r.size) (hnd : (regs.map QReg.label).Nodup)
    (hf : ∀ r ∈ regs, r.localSitemap = []) :
    ∃ c : Circ γ, Circ.empty.appendAll regs = .ok c ∧ c.qregs.length = regs.length ∧
      ∀ k (h : k < regs.length) (h' : k < c.qregs.length), Indexed (offset regs k) regs[k].size c.qregs[k].getItem := by
  refine ⟨_, Qasm.built_appendAll _ regs ⟨rfl, rfl, rfl, rfl, rfl⟩ hwf hnd (Qasm.fresh_of_nil 0 regs hf), ?_, ?_⟩
  · have key : ∀ n (rs : List QReg), (Qasm.placed n rs).length = rs.length := by
      intro n rs
      induction rs generalizing n with
      | nil => rfl
      | cons r rs ih => simp [Qasm.placed, ih]
    exact key 0 regs
  · intro k hk hk'
    apply indexed_getItem
    intro i
    have := placed_getElem 0 regs k hk hk'
    rw [Nat.zero_add] at this
    rw [show ((Qasm.withRegs Circ.empty regs : Circ γ)).qregs[k].localSitemap = _ from this, range_map_get?]

/-- **C90.** After `reset` a circuit is as good as new, whatever it was: registers and gates appended to it give what
they give on a new circuit, except that `mappings` stays. -/
theorem C90_reset (c : Circ γ) (qs : List QReg) (cs : List CReg) (gs : List γ) :
    (do let d ← c.reset.appendAll qs
        pure (gs.foldl Circ.addGate (cs.foldl Circ.appendClassic d))) =
      (do let d ← Circ.empty.appendAll qs
          pure { gs.foldl Circ.addGate (cs.foldl Circ.appendClassic d) with mappings := c.mappings }) := by
  have hq : ∀ (qs : List QReg) (d : Circ γ) (m : Option (List (List Nat))), ({ d with mappings := m } : Circ γ).appendAll qs =
      (fun e : Circ γ => { e with mappings := m }) <$> d.appendAll qs := by
    intro qs
    induction qs with
    | nil => intro d m; rfl
    | cons r qs ih =>
      intro d m
      unfold Circ.appendAll at ih ⊢
      rw [List.foldlM_cons, List.foldlM_cons]
      simp only [Circ.append]
      cases h : (List.range r.size).foldlM (appendStep r d.sitemap.length) ⟨r.localSitemap, d.sitemap, d.inverseSitemap⟩ with
      | error e => rfl
      | ok v =>
        simp only [bind, Except.bind, pure, Except.pure] at ih ⊢
        exact ih ⟨d.numberGates, d.instructions, d.qregs ++ [⟨r.label, r.size, r.dims, v.loc⟩], d.cregs, v.site, v.inv,
          d.classicSitemap, d.clInverseSitemap, d.numCl, d.numQudits + r.size, d.dims ++ r.dims, d.mappings⟩ m
  have hcl : ∀ (cs : List CReg) (d : Circ γ) (m : Option (List (List Nat))),
      cs.foldl Circ.appendClassic ({ d with mappings := m } : Circ γ) = { cs.foldl Circ.appendClassic d with mappings := m } := by
    intro cs
    induction cs with
    | nil => intro d m; rfl
    | cons r cs ih => intro d m; exact ih (d.appendClassic r) m
  have hg : ∀ (gs : List γ) (d : Circ γ) (m : Option (List (List Nat))),
      gs.foldl Circ.addGate ({ d with mappings := m } : Circ γ) = { gs.foldl Circ.addGate d with mappings := m } := by
    intro gs
    induction gs with
    | nil => intro d m; rfl
    | cons r gs ih => intro d m; exact ih (d.addGate r) m
  rw [show c.reset = { (Circ.empty : Circ γ) with mappings := c.mappings } from rfl, hq]
  cases (Circ.empty : Circ γ).appendAll qs with
  | error e => rfl
  | ok d => exact congrArg Except.ok (by rw [hcl, hg])

/-- **C90.** A label that is used twice: the bits of the first register are gone from the map, two bits have the same
number, and the numbers go out of step with `num_cl`. -/
theorem C90_duplicate_violated :
    ∃ c : Circ Nat, c = [⟨"c", 1, []⟩, ⟨"c", 1, []⟩, ⟨"d", 1, []⟩].foldl Circ.appendClassic Circ.empty ∧
      c.numCl = 3 ∧ c.clInverseSitemap.get? 2 = none ∧
      c.classicSitemap.get? ("c", 0) = some 1 ∧ c.classicSitemap.get? ("d", 0) = some 1 :=
  ⟨_, rfl, by decide⟩

/-- **C90.** A register is not indexed as a sequence: whatever its lines, a negative index and a slice with a bound
left out raise, and the step of a slice is ignored. -/
theorem C90_sequence_violated (start size : Nat) (m : PyDict Nat Nat)
    (hm : ∀ i, m.get? i = if i < size then some (start + i) else none) :
    getItem m (.int (-1)) = .error .keyError ∧
      (∀ b s, getItem m (.slice none b s) = .error .typeError) ∧
      (∀ a s, getItem m (.slice a none s) = .error .typeError) ∧
      ∀ a b : Nat, b ≤ size → ∀ s, getItem m (.slice (some a) (some b) (some s)) =
        .ok (.many ((List.range' a (b - a)).map (start + ·))) := by
  obtain ⟨_, h2, h3, _⟩ := indexed_getItem hm
  refine ⟨h2 _ (Or.inl (by decide)), fun _ _ => rfl, ?_, fun a b hb s => h3 a b hb⟩
  intro a s
  cases a <;> rfl

/-- two registers of two bits and one bit -/
example : ∃ c : Circ Nat, c = [⟨"c", 2, []⟩, ⟨"d", 1, []⟩].foldl Circ.appendClassic Circ.empty ∧
    c.numCl = 3 ∧ c.classicSitemap.get? ("d", 0) = some 2 ∧ c.clInverseSitemap.get? 1 = some ("c", 1) ∧
    ((c.cregs[0]?).map fun r => r.getItem (.slice (some 0) (some 2) none)) = some (.ok (.many [0, 1])) :=
  ⟨_, rfl, by decide⟩

/-- the third line of a circuit is the first of its second register -/
example : ∃ c : Circ Nat, Circ.empty.appendAll [⟨"q", 2, [2, 3], []⟩, ⟨"a", 1, [5], []⟩] = .ok c ∧
    ((c.qregs[1]?).map fun r => r.getItem (.int 0)) = some (.ok (.one 2)) :=
  ⟨_, rfl, by decide⟩

end Qudits
