import Verif.Spec.Bits
import Verif.Lemmas.QasmProgram

/-
Lemmas for C90: what the loop of `append_classic` writes, and indexing.
-/
namespace Qudits
open Spec

theorem foldl_set_bits_get? {κ ν : Type} [DecidableEq κ] (f : Nat → κ) (g : Nat → ν) (hf : Function.Injective f) (m : Nat)
    (d : PyDict κ ν) (k : κ) (v : ν) :
    ((List.range m).foldl (fun d i => d.set (f i) (g i)) d).get? k = some v ↔
      (∃ i, i < m ∧ f i = k ∧ g i = v) ∨ ((∀ i, i < m → f i ≠ k) ∧ d.get? k = some v) := by
  induction m with
  | zero => simp
  | succ m ih =>
    rw [List.range_succ, List.foldl_append, List.foldl_cons, List.foldl_nil]
    by_cases hk : f m = k
    · subst hk
      rw [PyDict.get?_set_self]
      constructor
      · intro h
        exact Or.inl ⟨m, by omega, rfl, Option.some.inj h⟩
      · rintro (⟨i, _, h1, h2⟩ | ⟨h, _⟩)
        · rw [← hf h1, h2]
        · exact absurd rfl (h m (by omega))
    · rw [PyDict.get?_set_ne _ _ _ _ hk, ih]
      constructor
      · rintro (⟨i, h0, h1, h2⟩ | ⟨h0, h1⟩)
        · exact Or.inl ⟨i, by omega, h1, h2⟩
        · refine Or.inr ⟨fun i hi => ?_, h1⟩
          by_cases him : i = m
          · rw [him]; exact hk
          · exact h0 i (by omega)
      · rintro (⟨i, h0, h1, h2⟩ | ⟨h0, h1⟩)
        · have : i ≠ m := fun e => hk (e ▸ h1)
          exact Or.inl ⟨i, by omega, h1, h2⟩
        · exact Or.inr ⟨fun i hi => h0 i (by omega), h1⟩

theorem foldl_set_bits_length {κ ν : Type} [DecidableEq κ] (f : Nat → κ) (g : Nat → ν) (hf : Function.Injective f) (m : Nat)
    (d : PyDict κ ν) (h : ∀ i, i < m → d.get? (f i) = none) :
    ((List.range m).foldl (fun d i => d.set (f i) (g i)) d).length = d.length + m := by
  induction m with
  | zero => simp
  | succ m ih =>
    rw [List.range_succ, List.foldl_append, List.foldl_cons, List.foldl_nil]
    have hn : f m ∉ PyDict.keys ((List.range m).foldl (fun d i => d.set (f i) (g i)) d) := by
      rw [← PyDict.get?_eq_none_iff, Option.eq_none_iff_forall_ne_some]
      intro v hv
      rw [foldl_set_bits_get? f g hf] at hv
      rcases hv with ⟨i, h1, h2, _⟩ | ⟨_, h2⟩
      · exact absurd (hf h2) (by omega)
      · rw [h m (by omega)] at h2; exact nomatch h2
    rw [PyDict.set_of_not_mem _ _ _ hn, List.length_append, ih fun i hi => h i (by omega)]
    simp only [List.length_cons, List.length_nil]
    omega

/-- the classical part of a circuit after registers were appended -/
structure BitsLaid {γ : Type} (c : Circ γ) (regs : List CReg) : Prop where
  num : c.numCl = bitTotal regs
  len : c.classicSitemap.length = bitTotal regs
  site : ∀ lbl i n, c.classicSitemap.get? (lbl, i) = some n ↔ BitPlaced regs lbl i n
  inv : ∀ n lbl i, c.clInverseSitemap.get? n = some (lbl, i) ↔ BitPlaced regs lbl i n
  count : c.cregs.length = regs.length
  same : ∀ k (h : k < regs.length) (h' : k < c.cregs.length), c.cregs[k].label = regs[k].label ∧ c.cregs[k].size = regs[k].size
  loc : ∀ k (h : k < regs.length) (h' : k < c.cregs.length) i, c.cregs[k].localSitemap.get? i =
    if i < regs[k].size then some (bitOffset regs k + i) else regs[k].localSitemap.get? i

theorem bitTotal_append (a b : List CReg) : bitTotal (a ++ b) = bitTotal a + bitTotal b := by simp [bitTotal]

theorem bitOffset_append_left {a b : List CReg} {k : Nat} (h : k ≤ a.length) : bitOffset (a ++ b) k = bitOffset a k := by
  simp [bitOffset, List.take_append_of_le_length h]

theorem bitOffset_length (a b : List CReg) : bitOffset (a ++ b) a.length = bitTotal a := by
  simp [bitOffset, bitTotal]

theorem bitPlaced_append_one (regs : List CReg) (r : CReg) (lbl : String) (i n : Nat) :
    BitPlaced (regs ++ [r]) lbl i n ↔ BitPlaced regs lbl i n ∨ (r.label = lbl ∧ i < r.size ∧ n = bitTotal regs + i) := by
  constructor
  · rintro ⟨k, hk, h1, h2, h3⟩
    by_cases hlt : k < regs.length
    · left
      rw [List.getElem_append_left hlt] at h1 h2
      rw [bitOffset_append_left (by omega)] at h3
      exact ⟨k, hlt, h1, h2, h3⟩
    · have : k = regs.length := by simp at hk; omega
      subst this
      right
      rw [List.getElem_append_right (by omega)] at h1 h2
      simp only [Nat.sub_self, List.getElem_cons_zero] at h1 h2
      rw [bitOffset_length] at h3
      exact ⟨h1, h2, h3⟩
  · rintro (⟨k, hk, h1, h2, h3⟩ | ⟨h1, h2, h3⟩)
    · refine ⟨k, by simp; omega, ?_, ?_, ?_⟩
      · rw [List.getElem_append_left hk]; exact h1
      · rw [List.getElem_append_left hk]; exact h2
      · rw [bitOffset_append_left (by omega)]; exact h3
    · refine ⟨regs.length, by simp, ?_, ?_, ?_⟩
      · rw [List.getElem_append_right (by omega)]; simpa using h1
      · rw [List.getElem_append_right (by omega)]; simpa using h2
      · rw [bitOffset_length]; exact h3

theorem bitOffset_size_le (regs : List CReg) (k : Nat) (h : k < regs.length) :
    bitOffset regs k + regs[k].size ≤ bitTotal regs := by
  unfold bitOffset bitTotal
  conv_rhs => rw [← List.take_append_drop k regs, List.drop_eq_getElem_cons h]
  simp only [List.map_append, List.map_cons, List.sum_append, List.sum_cons]
  omega

theorem bitPlaced_lt {regs : List CReg} {lbl : String} {i n : Nat} (h : BitPlaced regs lbl i n) : n < bitTotal regs := by
  obtain ⟨k, hk, _, h2, h3⟩ := h
  have := bitOffset_size_le regs k hk
  omega

theorem bitPlaced_mem {regs : List CReg} {lbl : String} {i n : Nat} (h : BitPlaced regs lbl i n) :
    lbl ∈ regs.map CReg.label := by
  obtain ⟨k, hk, h1, _⟩ := h
  rw [← h1]
  exact List.mem_map_of_mem (List.getElem_mem hk)

theorem bitsLaid_append {γ : Type} {c : Circ γ} {regs : List CReg} (h : BitsLaid c regs) (r : CReg)
    (hr : r.label ∉ regs.map CReg.label) : BitsLaid (c.appendClassic r) (regs ++ [r]) := by
  have hinj : Function.Injective fun i : Nat => (r.label, i) := fun a b hab => (Prod.mk.inj hab).2
  have hinj' : Function.Injective fun i : Nat => c.classicSitemap.length + i := fun a b hab => by
    simp only at hab
    omega
  constructor
  · simp only [Circ.appendClassic, h.num, bitTotal_append]; simp [bitTotal]
  · simp only [Circ.appendClassic]
    rw [foldl_set_bits_length _ _ hinj, h.len, bitTotal_append]
    · simp [bitTotal]
    · intro i _
      rw [Option.eq_none_iff_forall_ne_some]
      intro v hv
      exact hr (bitPlaced_mem ((h.site _ _ _).1 hv))
  · intro lbl i n
    simp only [Circ.appendClassic]
    rw [foldl_set_bits_get? _ _ hinj, bitPlaced_append_one, h.site, h.len]
    constructor
    · rintro (⟨j, h1, h2, h3⟩ | ⟨_, h2⟩)
      · cases h2; exact Or.inr ⟨rfl, h1, h3.symm⟩
      · exact Or.inl h2
    · rintro (h2 | ⟨h1, h2, h3⟩)
      · right
        refine ⟨fun j _ e => ?_, h2⟩
        cases e
        exact hr (bitPlaced_mem h2)
      · exact Or.inl ⟨i, h2, by rw [h1], h3.symm⟩
  · intro n lbl i
    simp only [Circ.appendClassic]
    rw [foldl_set_bits_get? _ _ hinj', bitPlaced_append_one, h.inv, h.len]
    constructor
    · rintro (⟨j, h1, h2, h3⟩ | ⟨_, h2⟩)
      · cases h3; exact Or.inr ⟨rfl, h1, h2.symm⟩
      · exact Or.inl h2
    · rintro (h2 | ⟨h1, h2, h3⟩)
      · right
        refine ⟨fun j _ e => ?_, h2⟩
        have := bitPlaced_lt h2
        omega
      · exact Or.inl ⟨i, h2, h3.symm, by rw [h1]⟩
  · simp [Circ.appendClassic, h.count]
  · intro k hk hk'
    simp only [Circ.appendClassic]
    by_cases hlt : k < regs.length
    · rw [List.getElem_append_left (by rw [h.count]; exact hlt), List.getElem_append_left hlt]
      exact h.same k hlt _
    · have : k = regs.length := by simp at hk; omega
      subst this
      rw [List.getElem_append_right (by rw [h.count]), List.getElem_append_right (by omega)]
      simp [h.count]
  · intro k hk hk' i
    simp only [Circ.appendClassic]
    by_cases hlt : k < regs.length
    · rw [List.getElem_append_left (by rw [h.count]; exact hlt)]
      simp only [List.getElem_append_left hlt, bitOffset_append_left (Nat.le_of_lt hlt)]
      exact h.loc k hlt _ i
    · have : k = regs.length := by simp at hk; omega
      subst this
      rw [List.getElem_append_right (by rw [h.count])]
      simp only [h.count, Nat.sub_self, List.getElem_cons_zero]
      have e : (regs ++ [r])[regs.length] = r := by simp
      rw [e, bitOffset_length]
      apply Option.ext
      intro v
      have hid : Function.Injective fun i : Nat => i := fun _ _ e => e
      rw [foldl_set_bits_get? _ _ hid, h.len]
      split_ifs with hi
      · constructor
        · rintro (⟨j, h1, h2, h3⟩ | ⟨h1, _⟩)
          · rw [← h2, h3]
          · exact absurd rfl (h1 i hi)
        · intro hv
          exact Or.inl ⟨i, hi, rfl, Option.some.inj hv⟩
      · constructor
        · rintro (⟨j, h1, h2, h3⟩ | ⟨_, h2⟩)
          · omega
          · exact h2
        · intro hv
          exact Or.inr ⟨fun j hj e => hi (by omega), hv⟩

theorem bitsLaid_all {γ : Type} (c : Circ γ) (pre regs : List CReg) (h : BitsLaid c pre)
    (hnd : ((pre ++ regs).map CReg.label).Nodup) : BitsLaid (regs.foldl Circ.appendClassic c) (pre ++ regs) := by
  induction regs generalizing c pre with
  | nil => simpa using h
  | cons r rs ih =>
    rw [List.foldl_cons]
    have hfresh : r.label ∉ pre.map CReg.label := by
      simp only [List.map_append, List.map_cons] at hnd
      rw [List.nodup_append] at hnd
      intro hm
      exact hnd.2.2 _ hm r.label (by simp) rfl
    have := ih (c.appendClassic r) (pre ++ [r]) (bitsLaid_append h r hfresh) (by simpa using hnd)
    simpa using this

/-! ### indexing -/

theorem siteAt_ok {m : PyDict Nat Nat} {start size : Nat}
    (hm : ∀ i, m.get? i = if i < size then some (start + i) else none) (i : Nat) (h : i < size) :
    siteAt m i = .ok (start + i) := by
  simp [siteAt, hm, h]

theorem siteAt_error {m : PyDict Nat Nat} {start size : Nat}
    (hm : ∀ i, m.get? i = if i < size then some (start + i) else none) (i : Int) (h : i < 0 ∨ (size : Int) ≤ i) :
    siteAt m i = .error .keyError := by
  unfold siteAt
  split_ifs with h0
  · have : ¬ i.toNat < size := by omega
    simp [hm, this]
  · rfl

theorem mapM_error_bits {α β ε : Type} (f : α → Except ε β) (e : ε) (l : List α) (hall : ∀ x ∈ l, f x = .error e ∨ ∃ y, f x = .ok y)
    (hex : ∃ x ∈ l, f x = .error e) : l.mapM f = .error e := by
  induction l with
  | nil => obtain ⟨x, hx, _⟩ := hex; simp at hx
  | cons a l ih =>
    rw [List.mapM_cons]
    rcases hall a (by simp) with ha | ⟨y, ha⟩
    · rw [ha]; rfl
    · rw [ha]
      have : l.mapM f = .error e := by
        refine ih (fun x hx => hall x (by simp [hx])) ?_
        obtain ⟨x, hx, hx2⟩ := hex
        rcases List.mem_cons.1 hx with rfl | hx
        · rw [ha] at hx2; exact nomatch hx2
        · exact ⟨x, hx, hx2⟩
      simp only [bind, Except.bind, this]

theorem mapM_ok_bits {α β ε : Type} (f : α → Except ε β) (g : α → β) (l : List α) (h : ∀ x ∈ l, f x = .ok (g x)) :
    l.mapM f = .ok (l.map g) := by
  induction l with
  | nil => rfl
  | cons a l ih =>
    rw [List.mapM_cons, h a (by simp), ih fun x hx => h x (by simp [hx])]
    rfl

theorem mem_pyRange {a b i : Int} : i ∈ pyRange a b ↔ a ≤ i ∧ i < b := by
  unfold pyRange
  rw [List.mem_map]
  constructor
  · rintro ⟨k, hk, rfl⟩
    rw [List.mem_range] at hk
    omega
  · rintro ⟨h1, h2⟩
    exact ⟨(i - a).toNat, by rw [List.mem_range]; omega, by omega⟩

theorem indexed_getItem {m : PyDict Nat Nat} {start size : Nat}
    (hm : ∀ i, m.get? i = if i < size then some (start + i) else none) : Indexed start size (getItem m) := by
  refine ⟨?_, ?_, ?_, ?_⟩
  · intro i hi
    simp only [getItem, siteAt_ok hm i hi]
    rfl
  · intro i hi
    simp only [getItem, siteAt_error hm i hi]
    rfl
  · intro a b hb
    have : (pyRange a b).mapM (siteAt m) = .ok ((pyRange a b).map fun i => start + i.toNat) := by
      apply mapM_ok_bits
      intro x hx
      rw [mem_pyRange] at hx
      obtain ⟨y, rfl⟩ := Int.eq_ofNat_of_zero_le (show 0 ≤ x by omega)
      exact siteAt_ok hm y (by omega)
    simp only [getItem, this]
    have e : (pyRange a b).map (fun i => start + i.toNat) = (List.range' a (b - a)).map (start + ·) := by
      rw [pyRange, List.map_map, List.range'_eq_map_range, List.map_map]
      have : ((b : Int) - a).toNat = b - a := by omega
      rw [this]
      apply List.map_congr_left
      intro k _
      simp only [Function.comp]
      omega
    rw [e]
    rfl
  · intro a b hab hout s
    have : (pyRange a b).mapM (siteAt m) = .error .keyError := by
      apply mapM_error_bits
      · intro x _
        by_cases hx : x < 0 ∨ (size : Int) ≤ x
        · exact Or.inl (siteAt_error hm x hx)
        · obtain ⟨y, rfl⟩ := Int.eq_ofNat_of_zero_le (show 0 ≤ x by omega)
          exact Or.inr ⟨_, siteAt_ok hm y (by omega)⟩
      · rcases hout with h | h
        · exact ⟨a, mem_pyRange.2 ⟨by omega, hab⟩, siteAt_error hm a (Or.inl h)⟩
        · exact ⟨b - 1, mem_pyRange.2 ⟨by omega, by omega⟩, siteAt_error hm _ (Or.inr (by omega))⟩
    simp only [getItem, this]
    rfl

theorem placed_getElem (n : Nat) (regs : List QReg) (k : Nat) (h : k < regs.length) (h' : k < (Qasm.placed n regs).length) :
    (Qasm.placed n regs)[k].localSitemap = (List.range regs[k].size).map fun i => (i, n + offset regs k + i) := by
  induction regs generalizing n k with
  | nil => simp at h
  | cons r rs ih =>
    cases k with
    | zero => simp [Qasm.placed, offset]
    | succ k =>
      simp only [Qasm.placed, List.getElem_cons_succ]
      rw [ih (n + r.size) k (by simpa using h)]
      have : n + r.size + offset rs k = n + offset (r :: rs) (k + 1) := by simp [offset]; omega
      rw [this]

theorem range_map_get? (n size i : Nat) :
    PyDict.get? ((List.range size).map fun i => (i, n + i)) i = if i < size then some (n + i) else none := by
  have key : ∀ s l, PyDict.get? ((List.range' s l).map fun i => (i, n + i)) i =
      if s ≤ i ∧ i < s + l then some (n + i) else none := by
    intro s l
    induction l generalizing s with
    | zero =>
      rw [if_neg (by omega)]; rfl
    | succ l ih =>
      rw [List.range'_succ, List.map_cons, PyDict.get?]
      by_cases hs : s = i
      · rw [if_pos hs, if_pos (by omega), hs]
      · rw [if_neg hs, ih]
        by_cases h : s + 1 ≤ i ∧ i < s + 1 + l
        · rw [if_pos h, if_pos (by omega)]
        · rw [if_neg h, if_neg (by omega)]
  rw [List.range_eq_range', key]
  simp

end Qudits
