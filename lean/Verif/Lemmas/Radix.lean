import Verif.Spec.Radix
import Verif.Model.MatrixFactory
import Mathlib.Data.List.ProdSigma
import Mathlib.Tactic.Ring
import Mathlib.Tactic.Linarith

namespace Qudits
open Spec

namespace Spec

theorem Levels.length {dims ls : List Nat} (h : Levels dims ls) : ls.length = dims.length :=
  List.Forall₂.length_eq h

theorem index_lt {dims ls : List Nat} (h : Levels dims ls) : index dims ls < dims.prod := by
  induction h with
  | nil => simp [index]
  | @cons l d ls ds hl _ ih =>
    simp only [index, List.prod_cons]
    calc l * ds.prod + index ds ls < l * ds.prod + ds.prod := by omega
      _ = (l + 1) * ds.prod := by ring
      _ ≤ d * ds.prod := Nat.mul_le_mul_right _ hl

theorem index_inj {dims : List Nat} : ∀ {a b : List Nat}, Levels dims a → Levels dims b →
    index dims a = index dims b → a = b := by
  induction dims with
  | nil => intro a b ha hb _; cases ha; cases hb; rfl
  | cons d ds ih =>
    intro a b ha hb h
    cases ha with
    | @cons l1 _ t1 _ h1 ha =>
    cases hb with
    | @cons l2 _ t2 _ h2 hb =>
    simp only [index] at h
    have i1 := index_lt ha
    have i2 := index_lt hb
    have hpos : 0 < ds.prod := by omega
    have e1 : (l1 * ds.prod + index ds t1) / ds.prod = l1 := by
      rw [Nat.mul_comm, Nat.mul_add_div hpos, Nat.div_eq_of_lt i1, Nat.add_zero]
    have e2 : (l2 * ds.prod + index ds t2) / ds.prod = l2 := by
      rw [Nat.mul_comm, Nat.mul_add_div hpos, Nat.div_eq_of_lt i2, Nat.add_zero]
    have hl : l1 = l2 := by rw [← e1, ← e2, h]
    subst hl
    rw [ih ha hb (by omega)]

theorem index_surj {dims : List Nat} : ∀ {k : Nat}, k < dims.prod → ∃ ls, Levels dims ls ∧ index dims ls = k := by
  induction dims with
  | nil => intro k hk; refine ⟨[], List.Forall₂.nil, ?_⟩; simp at hk; simp [index, hk]
  | cons d ds ih =>
    intro k hk
    rw [List.prod_cons] at hk
    have hpos : 0 < ds.prod := by
      rcases Nat.eq_zero_or_pos ds.prod with h | h
      · rw [h] at hk; simp at hk
      · exact h
    obtain ⟨ls, h1, h2⟩ := ih (k := k % ds.prod) (Nat.mod_lt _ hpos)
    refine ⟨(k / ds.prod) :: ls, List.Forall₂.cons ?_ h1, ?_⟩
    · exact Nat.div_lt_of_lt_mul (by rw [Nat.mul_comm]; exact hk)
    · simp only [index, h2]
      rw [Nat.mul_comm]; exact Nat.div_add_mod k ds.prod

theorem index_append {d1 d2 l1 l2 : List Nat} (h : l1.length = d1.length) :
    index (d1 ++ d2) (l1 ++ l2) = index d1 l1 * d2.prod + index d2 l2 := by
  induction d1 generalizing l1 with
  | nil =>
    have : l1 = [] := List.length_eq_zero_iff.1 h
    subst this; simp [index]
  | cons d ds ih =>
    cases l1 with
    | nil => simp at h
    | cons l ls =>
      simp only [List.cons_append, index]
      rw [ih (by simpa using h), List.prod_append]
      ring

theorem Levels.append {d1 d2 l1 l2 : List Nat} (h1 : Levels d1 l1) (h2 : Levels d2 l2) :
    Levels (d1 ++ d2) (l1 ++ l2) := List.rel_append h1 h2

theorem Levels.split {d1 d2 l : List Nat} (h : Levels (d1 ++ d2) l) :
    ∃ l1 l2, l = l1 ++ l2 ∧ Levels d1 l1 ∧ Levels d2 l2 := by
  induction d1 generalizing l with
  | nil => exact ⟨[], l, rfl, List.Forall₂.nil, h⟩
  | cons d ds ih =>
    cases h with
    | cons hl ht =>
      obtain ⟨l1, l2, rfl, h1, h2⟩ := ih ht
      exact ⟨_ :: l1, l2, rfl, List.Forall₂.cons hl h1, h2⟩

end Spec

theorem itProduct_length {β : Type} (ls : List (List β)) :
    (itProduct ls).length = (ls.map List.length).prod := by
  induction ls with
  | nil => rfl
  | cons l ls ih =>
    simp only [itProduct, List.length_flatMap, List.length_map, List.map_cons, List.prod_cons, ih]
    simp [List.sum_replicate]

theorem itProduct_site_length (dims : List Nat) : (itProduct (siteLogics dims)).length = dims.prod := by
  rw [itProduct_length, siteLogics, List.map_map]
  congr 1
  calc dims.map (List.length ∘ List.range) = dims.map id := by
        refine List.map_congr_left ?_; intro a _; simp
    _ = dims := List.map_id _

theorem flatMap_getElem? {β γ : Type} (f : β → List γ) (k : Nat) (l : List β)
    (hlen : ∀ x ∈ l, (f x).length = k) (i j : Nat) (hj : j < k) :
    (l.flatMap f)[i * k + j]? = (l[i]?).bind fun x => (f x)[j]? := by
  induction l generalizing i with
  | nil => simp
  | cons a t ih =>
    rw [List.flatMap_cons]
    have ha := hlen a (by simp)
    cases i with
    | zero =>
      rw [Nat.zero_mul, Nat.zero_add, List.getElem?_append_left (by omega)]
      simp
    | succ i =>
      rw [List.getElem?_append_right (by rw [ha, Nat.add_mul]; omega)]
      rw [ha, show (i + 1) * k + j - k = i * k + j by rw [Nat.add_mul]; omega]
      rw [ih (fun x hx => hlen x (List.mem_cons_of_mem _ hx))]
      simp

theorem itProduct_getElem? {dims ls : List Nat} (h : Levels dims ls) :
    (itProduct (siteLogics dims))[index dims ls]? = some ls := by
  induction h with
  | nil => rfl
  | @cons l d ls ds hl ht ih =>
    simp only [siteLogics, List.map_cons, itProduct, index]
    rw [flatMap_getElem? _ ds.prod]
    · rw [List.getElem?_range hl]
      simp only [Option.bind_some, List.getElem?_map]
      simp only [siteLogics] at ih
      rw [ih]; rfl
    · intro x _
      rw [List.length_map]
      exact itProduct_site_length ds
    · exact index_lt ht

theorem itProduct_mem {dims ls : List Nat} : ls ∈ itProduct (siteLogics dims) ↔ Levels dims ls := by
  induction dims generalizing ls with
  | nil =>
    simp only [siteLogics, List.map_nil, itProduct, List.mem_singleton]
    constructor
    · rintro rfl; exact List.Forall₂.nil
    · intro h; cases h; rfl
  | cons d ds ih =>
    simp only [siteLogics, List.map_cons, itProduct, List.mem_flatMap, List.mem_range, List.mem_map]
    constructor
    · rintro ⟨x, hx, t, ht, rfl⟩
      exact List.Forall₂.cons hx (ih.1 ht)
    · intro h
      cases h with
      | @cons l _ t _ hl ht => exact ⟨_, hl, _, ih.2 ht, rfl⟩

theorem itProduct_nodup (dims : List Nat) : (itProduct (siteLogics dims)).Nodup := by
  rw [List.nodup_iff_injective_getElem]
  intro i j h
  have hi : i.1 < dims.prod := lt_of_lt_of_eq i.2 (itProduct_site_length dims)
  have hj : j.1 < dims.prod := lt_of_lt_of_eq j.2 (itProduct_site_length dims)
  obtain ⟨a, ha, hai⟩ := index_surj hi
  obtain ⟨b, hb, hbj⟩ := index_surj hj
  have e1 := itProduct_getElem? ha
  have e2 := itProduct_getElem? hb
  simp only [hai, hbj] at e1 e2
  rw [List.getElem?_eq_getElem i.2] at e1
  rw [List.getElem?_eq_getElem j.2] at e2
  have : a = b := by
    have h' : (itProduct (siteLogics dims))[i.1] = (itProduct (siteLogics dims))[j.1] := h
    rw [h', e2] at e1
    exact (Option.some.inj e1).symm
  ext
  rw [← hai, ← hbj, this]

theorem stateIndex_eq {dims ls : List Nat} (h : Levels dims ls) :
    stateIndex (itProduct (siteLogics dims)) ls = .ok (index dims ls) := by
  have hg := itProduct_getElem? h
  have hlt : index dims ls < (itProduct (siteLogics dims)).length := by
    rw [itProduct_site_length]; exact index_lt h
  rw [List.getElem?_eq_getElem hlt] at hg
  have he := Option.some.inj hg
  have hidx : (itProduct (siteLogics dims)).idxOf ls = index dims ls := by
    have := (itProduct_nodup dims).idxOf_getElem (index dims ls) hlt
    rw [he] at this; exact this
  unfold stateIndex
  have : (itProduct (siteLogics dims)).idxOf? ls = some (index dims ls) := by
    rw [List.idxOf?_eq_some_iff]
    refine ⟨hlt, ?_, ?_⟩
    · exact he
    · intro j hj hc
      have hjl : j < (itProduct (siteLogics dims)).length := by omega
      have := (itProduct_nodup dims).idxOf_getElem j hjl
      have hc' : (itProduct (siteLogics dims))[j] = ls := by simpa using hc
      rw [hc', hidx] at this
      omega
  rw [this]

theorem indexState_eq {dims ls : List Nat} (h : Levels dims ls) :
    indexState (itProduct (siteLogics dims)) (index dims ls) = .ok ls := by
  unfold indexState
  rw [itProduct_getElem? h]

end Qudits
