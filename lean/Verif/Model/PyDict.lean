/-
A Python `dict` restricted to the operations used by the modelled code:
insertion-ordered association list, assignment overwrites in place or appends.
-/
namespace Qudits

/-- Insertion-ordered dictionary. -/
abbrev PyDict (κ : Type) (ν : Type) := List (κ × ν)

namespace PyDict

variable {κ ν : Type} [DecidableEq κ]

/-- `d[k] = v` -/
def set (d : PyDict κ ν) (k : κ) (v : ν) : PyDict κ ν :=
  match d with
  | [] => [(k, v)]
  | (k', v') :: rest => if k' = k then (k', v) :: rest else (k', v') :: set rest k v

/-- `d.get(k)` -/
def get? (d : PyDict κ ν) (k : κ) : Option ν :=
  match d with
  | [] => none
  | (k', v') :: rest => if k' = k then some v' else get? rest k

/-- `list(d.keys())` -/
def keys (d : PyDict κ ν) : List κ := d.map Prod.fst

theorem get?_set_self (d : PyDict κ ν) (k : κ) (v : ν) : (d.set k v).get? k = some v := by
  induction d with
  | nil => simp [set, get?]
  | cons hd tl ih =>
    obtain ⟨k', v'⟩ := hd
    by_cases h : k' = k
    · simp [set, get?, h]
    · simp [set, get?, h, ih]

theorem get?_set_ne (d : PyDict κ ν) (k k₂ : κ) (v : ν) (hk : k ≠ k₂) :
    (d.set k v).get? k₂ = d.get? k₂ := by
  induction d with
  | nil => simp [set, get?, hk]
  | cons hd tl ih =>
    obtain ⟨k', v'⟩ := hd
    by_cases h : k' = k
    · subst h; simp [set, get?, hk]
    · by_cases h2 : k' = k₂
      · subst h2; simp [set, get?, h]
      · simp [set, get?, h, h2, ih]

theorem get?_eq_none_iff (d : PyDict κ ν) (k : κ) : d.get? k = none ↔ k ∉ d.keys := by
  induction d with
  | nil => simp [get?, keys]
  | cons hd tl ih =>
    obtain ⟨k', v'⟩ := hd
    by_cases h : k' = k
    · simp [get?, keys, h]
    · have h' : ¬ k = k' := fun e => h e.symm
      simp only [keys] at ih
      simp [get?, keys, h, h', ih]

theorem set_of_not_mem (d : PyDict κ ν) (k : κ) (v : ν) (h : k ∉ d.keys) :
    d.set k v = d ++ [(k, v)] := by
  induction d with
  | nil => simp [set]
  | cons hd tl ih =>
    obtain ⟨k', v'⟩ := hd
    simp only [keys, List.map_cons, List.mem_cons, not_or] at h
    have h' : ¬ k' = k := fun e => h.1 e.symm
    simp [set, h', ih h.2]

theorem keys_set_of_mem (d : PyDict κ ν) (k : κ) (v : ν) (h : k ∈ d.keys) :
    (d.set k v).keys = d.keys := by
  induction d with
  | nil => simp [keys] at h
  | cons hd tl ih =>
    obtain ⟨k', v'⟩ := hd
    by_cases e : k' = k
    · simp [set, keys, e]
    · simp only [keys, List.map_cons, List.mem_cons] at h
      rcases h with h | h
      · exact absurd h.symm e
      · have := ih h
        simp only [keys] at this
        simp [set, keys, e, this]

theorem keys_set_of_not_mem (d : PyDict κ ν) (k : κ) (v : ν) (h : k ∉ d.keys) :
    (d.set k v).keys = d.keys ++ [k] := by
  rw [set_of_not_mem d k v h]; simp [keys]

theorem mem_keys_set (d : PyDict κ ν) (k k₂ : κ) (v : ν) :
    k₂ ∈ (d.set k v).keys ↔ k₂ = k ∨ k₂ ∈ d.keys := by
  by_cases h : k ∈ d.keys
  · rw [keys_set_of_mem d k v h]
    constructor
    · exact Or.inr
    · rintro (rfl | h') <;> assumption
  · rw [keys_set_of_not_mem d k v h]
    simp [or_comm]

theorem keys_nodup_set (d : PyDict κ ν) (k : κ) (v : ν) (h : d.keys.Nodup) :
    (d.set k v).keys.Nodup := by
  by_cases hk : k ∈ d.keys
  · rw [keys_set_of_mem d k v hk]; exact h
  · rw [keys_set_of_not_mem d k v hk]
    rw [List.nodup_append]
    refine ⟨h, by simp, ?_⟩
    intro a ha b hb
    simp at hb
    subst hb
    intro e; subst e; exact hk ha

end PyDict
end Qudits
