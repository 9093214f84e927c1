import Verif.Model.Circuit
import Verif.Spec.Layout

namespace Qudits
open Spec

variable {γ : Type}

/-- entries written for one register placed at line `n` -/
def siteBlock (n : Nat) (r : QReg) (m : Nat) : PyDict (String × Nat) (Nat × Nat) :=
  (List.range m).map fun i => ((r.label, i), (n + i, r.dims.getD i 0))

def invBlock (n : Nat) (r : QReg) (m : Nat) : PyDict Nat (String × Nat) :=
  (List.range m).map fun i => (n + i, (r.label, i))

def locBlock (n : Nat) (l : PyDict Nat Nat) (m : Nat) : PyDict Nat Nat :=
  (List.range m).foldl (fun d i => d.set i (n + i)) l

def siteFrom : Nat → List QReg → PyDict (String × Nat) (Nat × Nat)
  | _, [] => []
  | n, r :: rs => siteBlock n r r.size ++ siteFrom (n + r.size) rs

def invFrom : Nat → List QReg → PyDict Nat (String × Nat)
  | _, [] => []
  | n, r :: rs => invBlock n r r.size ++ invFrom (n + r.size) rs

theorem total_nil : total [] = 0 := rfl
theorem total_cons (r : QReg) (rs) : total (r :: rs) = r.size + total rs := by simp [total]
theorem total_append (a b) : total (a ++ b) = total a + total b := by simp [total]

theorem siteFrom_append (n : Nat) (a b : List QReg) :
    siteFrom n (a ++ b) = siteFrom n a ++ siteFrom (n + total a) b := by
  induction a generalizing n with
  | nil => simp [siteFrom, total]
  | cons r rs ih => simp [siteFrom, ih, total_cons, Nat.add_assoc]

theorem invFrom_append (n : Nat) (a b : List QReg) :
    invFrom n (a ++ b) = invFrom n a ++ invFrom (n + total a) b := by
  induction a generalizing n with
  | nil => simp [invFrom, total]
  | cons r rs ih => simp [invFrom, ih, total_cons, Nat.add_assoc]

theorem length_siteFrom (n : Nat) (a : List QReg) : (siteFrom n a).length = total a := by
  induction a generalizing n with
  | nil => simp [siteFrom, total]
  | cons r rs ih => simp [siteFrom, ih, total_cons, siteBlock]

theorem loop_ok (r : QReg) (n : Nat) (loc site inv) (hdims : r.dims.length = r.size)
    (hs : ∀ i, (r.label, i) ∉ PyDict.keys site) (hi : ∀ i, n + i ∉ PyDict.keys inv)
    (m : Nat) (hm : m ≤ r.size) :
    (List.range m).foldlM (appendStep r n) ⟨loc, site, inv⟩
      = Except.ok ⟨locBlock n loc m, site ++ siteBlock n r m, inv ++ invBlock n r m⟩ := by
  induction m with
  | zero => simp [locBlock, siteBlock, invBlock, pure, Except.pure]
  | succ m ih =>
    rw [List.range_succ, List.foldlM_append, ih (by omega)]
    have hlt : m < r.dims.length := by omega
    have h1 : (r.label, m) ∉ PyDict.keys (site ++ siteBlock n r m) := by
      have := hs m
      simp only [PyDict.keys, List.map_append, List.mem_append, not_or] at *
      refine ⟨this, ?_⟩
      simp [siteBlock]
    have h2 : n + m ∉ PyDict.keys (inv ++ invBlock n r m) := by
      have := hi m
      simp only [PyDict.keys, List.map_append, List.mem_append, not_or] at *
      refine ⟨this, ?_⟩
      simp [invBlock]
    simp only [bind, Except.bind, List.foldlM, appendStep, List.getElem?_eq_getElem hlt]
    rw [PyDict.set_of_not_mem _ _ _ h1, PyDict.set_of_not_mem _ _ _ h2]
    simp [locBlock, siteBlock, invBlock, List.range_succ, pure, Except.pure,
      List.getElem?_eq_getElem hlt]

theorem loop_error (r : QReg) (n : Nat) (st : AppendMaps) (hdims : r.dims.length < r.size) :
    (List.range r.size).foldlM (appendStep r n) st = Except.error .indexError := by
  have key : ∀ (l : List Nat) (st : AppendMaps), r.dims.length ∈ l →
      l.foldlM (appendStep r n) st = Except.error .indexError := by
    intro l
    induction l with
    | nil => simp
    | cons a l ih =>
      intro st hmem
      simp only [List.foldlM, bind, Except.bind]
      by_cases ha : a < r.dims.length
      · have : r.dims.length ∈ l := by
          rcases List.mem_cons.1 hmem with h | h
          · omega
          · exact h
        simp only [appendStep, List.getElem?_eq_getElem ha]
        exact ih _ this
      · have : r.dims[a]? = none := by simp; omega
        simp [appendStep, this]
  exact key _ _ (by simp; exact hdims)

theorem keys_siteFrom (n : Nat) (a : List QReg) (lbl : String) (i : Nat)
    (h : (lbl, i) ∈ PyDict.keys (siteFrom n a)) : lbl ∈ a.map QReg.label := by
  induction a generalizing n with
  | nil => simp [siteFrom, PyDict.keys] at h
  | cons r rs ih =>
    simp only [siteFrom, PyDict.keys, List.map_append, List.mem_append] at h
    rcases h with h | h
    · simp [siteBlock] at h
      simp [h.2]
    · have := ih _ h
      simp at this ⊢
      exact Or.inr this

theorem keys_invFrom (n : Nat) (a : List QReg) (j : Nat)
    (h : j ∈ PyDict.keys (invFrom n a)) : j < n + total a := by
  induction a generalizing n with
  | nil => simp [invFrom, PyDict.keys] at h
  | cons r rs ih =>
    simp only [invFrom, PyDict.keys, List.map_append, List.mem_append] at h
    rw [total_cons]
    rcases h with h | h
    · simp [invBlock] at h
      omega
    · have := ih _ h
      omega

/-- Invariant of the append history. -/
structure Laid (c : Circ γ) (regs : List QReg) : Prop where
  site : c.sitemap = siteFrom 0 regs
  inv : c.inverseSitemap = invFrom 0 regs
  num : c.numQudits = total regs
  dims : c.dims = regs.flatMap QReg.dims
  len : c.qregs.length = regs.length
  loc : ∀ k (h : k < regs.length) (h' : k < c.qregs.length) i, i < regs[k].size →
    c.qregs[k].localSitemap.get? i = some (offset regs k + i)

theorem laid_empty : Laid (Circ.empty : Circ γ) [] := by
  refine ⟨rfl, rfl, rfl, rfl, rfl, ?_⟩
  intro k h; simp at h

theorem locBlock_get (n : Nat) (l : PyDict Nat Nat) (m i : Nat) (h : i < m) :
    (locBlock n l m).get? i = some (n + i) := by
  induction m with
  | zero => omega
  | succ m ih =>
    have e : locBlock n l (m + 1) = (locBlock n l m).set m (n + m) := by
      simp [locBlock, List.range_succ]
    rw [e]
    by_cases hi : i = m
    · subst hi; exact PyDict.get?_set_self _ _ _
    · rw [PyDict.get?_set_ne _ _ _ _ (fun h => hi h.symm)]
      exact ih (by omega)

theorem laid_append (c : Circ γ) (regs : List QReg) (r : QReg) (hc : Laid c regs)
    (hdims : r.dims.length = r.size) (hfresh : r.label ∉ regs.map QReg.label) :
    ∃ c', c.append r = .ok c' ∧ Laid c' (regs ++ [r]) ∧
      c'.instructions = c.instructions ∧ c'.numberGates = c.numberGates := by
  have hn : c.sitemap.length = total regs := by rw [hc.site, length_siteFrom]
  have hs : ∀ i, (r.label, i) ∉ PyDict.keys c.sitemap := by
    intro i h; rw [hc.site] at h
    exact hfresh (keys_siteFrom _ _ _ _ h)
  have hi : ∀ i, total regs + i ∉ PyDict.keys c.inverseSitemap := by
    intro i h; rw [hc.inv] at h
    have := keys_invFrom _ _ _ h; omega
  have hl := loop_ok r (total regs) r.localSitemap c.sitemap c.inverseSitemap hdims hs hi r.size
    (Nat.le_refl _)
  have hap : c.append r = .ok { c with
      qregs := c.qregs ++ [{ r with localSitemap := locBlock (total regs) r.localSitemap r.size }]
      numQudits := c.numQudits + r.size
      dims := c.dims ++ r.dims
      sitemap := c.sitemap ++ siteBlock (total regs) r r.size
      inverseSitemap := c.inverseSitemap ++ invBlock (total regs) r r.size } := by
    simp only [Circ.append, hn, hl, bind, Except.bind, pure, Except.pure]
  refine ⟨_, hap, ?_, rfl, rfl⟩
  refine ⟨?_, ?_, ?_, ?_, ?_, ?_⟩
  · simp [siteFrom_append, hc.site, siteFrom]
  · simp [invFrom_append, hc.inv, invFrom]
  · simp [hc.num, total_append, total_cons, total_nil]
  · simp [hc.dims]
  · simp [hc.len]
  · intro k h h' i hik
    by_cases hk : k < regs.length
    · have hk' : k < c.qregs.length := by rw [hc.len]; exact hk
      have e1 : (regs ++ [r])[k] = regs[k] := List.getElem_append_left hk
      rw [e1] at hik
      have := hc.loc k hk hk' i hik
      simp only [List.getElem_append_left hk']
      rw [this]
      simp [offset, List.take_append_of_le_length (Nat.le_of_lt hk)]
    · have hk2 : k = regs.length := by simp at h; omega
      subst hk2
      simp at hik
      have e2 : (regs ++ [r]).take regs.length = regs := by simp
      have hlen := hc.len
      simp only [offset, e2]
      simp only [hlen.symm]
      simp only [List.getElem_concat_length]
      exact locBlock_get _ _ _ _ hik

theorem get_block (n : Nat) (r : QReg) (m i : Nat) (rest : PyDict (String × Nat) (Nat × Nat))
    (h : i < m) :
    PyDict.get? (siteBlock n r m ++ rest) (r.label, i) = some (n + i, r.dims.getD i 0) := by
  have key : ∀ (l : List Nat), i ∈ l →
      PyDict.get? ((l.map fun i => ((r.label, i), (n + i, r.dims.getD i 0))) ++ rest) (r.label, i)
        = some (n + i, r.dims.getD i 0) := by
    intro l
    induction l with
    | nil => simp
    | cons a l ih =>
      intro hm
      by_cases ha : a = i
      · subst ha; simp [PyDict.get?]
      · have : i ∈ l := by
          rcases List.mem_cons.1 hm with h | h
          · exact absurd h.symm ha
          · exact h
        simpa [PyDict.get?, ha] using ih this
  exact key _ (by simp [h])

theorem get_append_not_mem {κ ν : Type} [DecidableEq κ] (a b : PyDict κ ν) (k : κ)
    (h : k ∉ PyDict.keys a) : PyDict.get? (a ++ b) k = PyDict.get? b k := by
  induction a with
  | nil => rfl
  | cons hd tl ih =>
    obtain ⟨k', v'⟩ := hd
    simp only [PyDict.keys, List.map_cons, List.mem_cons, not_or] at h
    have : ¬ k' = k := fun e => h.1 e.symm
    simpa [PyDict.get?, this] using ih h.2

theorem get_inv_block (n : Nat) (r : QReg) (m i : Nat) (rest : PyDict Nat (String × Nat))
    (h : i < m) : PyDict.get? (invBlock n r m ++ rest) (n + i) = some (r.label, i) := by
  have key : ∀ (l : List Nat), i ∈ l →
      PyDict.get? ((l.map fun i => (n + i, (r.label, i))) ++ rest) (n + i) = some (r.label, i) := by
    intro l
    induction l with
    | nil => simp
    | cons a l ih =>
      intro hm
      by_cases ha : a = i
      · subst ha; simp [PyDict.get?]
      · have : i ∈ l := by
          rcases List.mem_cons.1 hm with h | h
          · exact absurd h.symm ha
          · exact h
        simpa [PyDict.get?, ha] using ih this
  exact key _ (by simp [h])

theorem offset_succ (r : QReg) (rs : List QReg) (k : Nat) :
    offset (r :: rs) (k + 1) = r.size + offset rs k := by simp [offset]

theorem get_siteFrom (n : Nat) (regs : List QReg) (hnd : (regs.map QReg.label).Nodup)
    (k : Nat) (h : k < regs.length) (i : Nat) (hi : i < regs[k].size) :
    PyDict.get? (siteFrom n regs) (regs[k].label, i)
      = some (n + offset regs k + i, regs[k].dims.getD i 0) := by
  induction regs generalizing n k with
  | nil => simp at h
  | cons r rs ih =>
    cases k with
    | zero => simp at hi ⊢; simpa [siteFrom, offset] using get_block n r r.size i _ hi
    | succ k =>
      simp only [List.map_cons, List.nodup_cons] at hnd
      have hk : k < rs.length := by simpa using h
      have hne : r.label ≠ rs[k].label := by
        intro e; exact hnd.1 (by rw [e]; exact List.mem_map_of_mem (List.getElem_mem hk))
      have hnm : (rs[k].label, i) ∉ PyDict.keys (siteBlock n r r.size) := by
        simp only [PyDict.keys, siteBlock, List.map_map, List.mem_map]
        rintro ⟨j, _, hj⟩
        simp at hj
        exact hne hj.1
      simp only [siteFrom, List.getElem_cons_succ]
      rw [get_append_not_mem _ _ _ hnm, ih (n + r.size) hnd.2 k hk hi, offset_succ]
      congr 2; omega

theorem get_invFrom (n : Nat) (regs : List QReg) (k : Nat) (h : k < regs.length) (i : Nat)
    (hi : i < regs[k].size) :
    PyDict.get? (invFrom n regs) (n + offset regs k + i) = some (regs[k].label, i) := by
  induction regs generalizing n k with
  | nil => simp at h
  | cons r rs ih =>
    cases k with
    | zero => simp at hi ⊢; simpa [invFrom, offset] using get_inv_block n r r.size i _ hi
    | succ k =>
      have hk : k < rs.length := by simpa using h
      have hnm : n + offset (r :: rs) (k + 1) + i ∉ PyDict.keys (invBlock n r r.size) := by
        simp only [PyDict.keys, invBlock, List.map_map, List.mem_map, offset_succ]
        rintro ⟨j, hj1, hj⟩
        simp at hj hj1
        omega
      simp only [invFrom, List.getElem_cons_succ]
      rw [get_append_not_mem _ _ _ hnm]
      have := ih (n + r.size) k hk hi
      rw [offset_succ]
      rw [← this]; congr 1; omega

theorem line_covered (regs : List QReg) (line : Nat) (h : line < total regs) :
    ∃ k, ∃ hk : k < regs.length, ∃ i, i < regs[k].size ∧ line = offset regs k + i := by
  induction regs generalizing line with
  | nil => simp [total] at h
  | cons r rs ih =>
    rw [total_cons] at h
    by_cases hl : line < r.size
    · exact ⟨0, by simp, line, by simpa using hl, by simp [offset]⟩
    · obtain ⟨k, hk, i, hi, e⟩ := ih (line - r.size) (by omega)
      exact ⟨k + 1, by simpa using hk, i, by simpa using hi, by rw [offset_succ]; omega⟩

theorem get_flatMap (regs : List QReg) (hwf : ∀ r ∈ regs, r.dims.length = r.size) (k : Nat)
    (h : k < regs.length) (i : Nat) (hi : i < regs[k].size) :
    (regs.flatMap QReg.dims)[offset regs k + i]? = regs[k].dims[i]? := by
  induction regs generalizing k with
  | nil => simp at h
  | cons r rs ih =>
    have hr := hwf r (by simp)
    cases k with
    | zero => 
      simp only [List.getElem_cons_zero] at hi ⊢
      have : i < r.dims.length := by omega
      simp [offset, List.getElem?_append_left this]
    | succ k =>
      have hk : k < rs.length := by simpa using h
      rw [offset_succ, List.flatMap_cons, List.getElem?_append_right (by omega)]
      have := ih (fun x hx => hwf x (by simp [hx])) k hk hi
      simp only [List.getElem_cons_succ]
      rw [← this]; congr 1; omega

theorem laid_all (c : Circ γ) (pre rs : List QReg) (hc : Laid c pre)
    (hwf : ∀ r ∈ rs, r.dims.length = r.size) (hnd : ((pre ++ rs).map QReg.label).Nodup) :
    ∃ c', c.appendAll rs = .ok c' ∧ Laid c' (pre ++ rs) := by
  induction rs generalizing c pre with
  | nil => exact ⟨c, rfl, by simpa using hc⟩
  | cons r rs ih =>
    have hfresh : r.label ∉ pre.map QReg.label := by
      simp only [List.map_append, List.map_cons] at hnd
      rw [List.nodup_append] at hnd
      intro hm
      exact hnd.2.2 _ hm r.label (by simp) rfl
    obtain ⟨c1, h1, h2, -⟩ := laid_append c pre r hc (hwf r (by simp)) hfresh
    obtain ⟨c2, h3, h4⟩ := ih c1 (pre ++ [r]) h2 (fun x hx => hwf x (by simp [hx]))
      (by simpa using hnd)
    refine ⟨c2, ?_, by simpa using h4⟩
    simp only [Circ.appendAll, List.foldlM, h1, bind, Except.bind]
    exact h3

end Qudits
