import Verif.Lemmas.Radix

namespace Qudits
open Spec

theorem kronVec_length (a b : List Int) : (kronVec a b).length = a.length * b.length := by
  simp [kronVec, List.length_flatMap, List.map_const', List.sum_replicate]

theorem kronVec_getElem? (a b : List Int) (i j : Nat) (hi : i < a.length) (hj : j < b.length) :
    (kronVec a b)[i * b.length + j]? = some (a[i] * b[j]) := by
  unfold kronVec
  rw [flatMap_getElem? _ b.length a (by simp) i j hj]
  simp [hi, hj]

/-- `v` is the unit vector of length `N` with its 1 at position `k`. -/
def IsUnit (v : List Int) (N k : Nat) : Prop :=
  v.length = N ∧ k < N ∧ ∀ i, i < N → v[i]? = some (if i = k then 1 else 0)

theorem isUnit_kron {a b : List Int} {N M k l : Nat} (ha : IsUnit a N k) (hb : IsUnit b M l) :
    IsUnit (kronVec a b) (N * M) (k * M + l) := by
  obtain ⟨la, hk, ea⟩ := ha
  obtain ⟨lb, hl, eb⟩ := hb
  refine ⟨by rw [kronVec_length, la, lb], ?_, ?_⟩
  · calc k * M + l < k * M + M := by omega
      _ = (k + 1) * M := by ring
      _ ≤ N * M := Nat.mul_le_mul_right _ hk
  · intro i hi
    have hM : 0 < M := by omega
    have h1 : i / M < N := Nat.div_lt_of_lt_mul (by rw [Nat.mul_comm]; exact hi)
    have h2 : i % M < M := Nat.mod_lt _ hM
    have h1' : i / M < a.length := by omega
    have h2' : i % M < b.length := by omega
    have := kronVec_getElem? a b (i / M) (i % M) h1' h2'
    rw [lb, Nat.div_add_mod' i M] at this
    rw [this]
    have e1 := ea _ h1
    have e2 := eb _ h2
    rw [List.getElem?_eq_getElem h1'] at e1
    rw [List.getElem?_eq_getElem h2'] at e2
    rw [Option.some.inj e1, Option.some.inj e2]
    by_cases h : i = k * M + l
    · subst h
      have d1 : (k * M + l) / M = k := by
        rw [Nat.mul_comm, Nat.mul_add_div hM, Nat.div_eq_of_lt hl, Nat.add_zero]
      have d2 : (k * M + l) % M = l := by
        rw [Nat.mul_comm, Nat.mul_add_mod, Nat.mod_eq_of_lt hl]
      simp [d1, d2]
    · rw [if_neg h]
      by_cases hq : i / M = k
      · have : i % M ≠ l := by
          intro hm
          apply h
          rw [← Nat.div_add_mod' i M, hq, hm]
        simp [this]
      · simp [hq]

theorem isUnit_basis (d l : Nat) (h : l < d) : ∃ v, basisVec d l = .ok v ∧ IsUnit v d l := by
  refine ⟨_, by simp [basisVec, h]; rfl, by simp, h, ?_⟩
  intro i hi
  rw [List.getElem?_set]
  by_cases hil : l = i
  · subst hil; simp [h]
  · rw [if_neg hil]
    simp [hi, Ne.symm hil]

theorem basisVecs_ok {dims ls : List Nat} (h : Levels dims ls) :
    ∃ vs, basisVecs ls dims = .ok vs ∧ vs.length = ls.length ∧
      ∀ (acc : List Int) (N k : Nat), IsUnit acc N k →
        IsUnit (vs.foldl kronVec acc) (N * dims.prod) (k * dims.prod + index dims ls) := by
  induction h with
  | nil => exact ⟨[], rfl, rfl, fun acc N k h => by simpa [index] using h⟩
  | @cons l d ls ds hl _ ih =>
    obtain ⟨vs, h1, h2, h3⟩ := ih
    obtain ⟨v, hv, hu⟩ := isUnit_basis d l hl
    refine ⟨v :: vs, ?_, by simp [h2], ?_⟩
    · simp only [basisVecs, hv, h1, bind, Except.bind, pure, Except.pure]
    · intro acc N k hacc
      have := h3 _ _ _ (isUnit_kron hacc hu)
      simp only [List.foldl_cons, List.prod_cons, index]
      rw [show N * (d * ds.prod) = N * d * ds.prod by ring,
        show k * (d * ds.prod) + (l * ds.prod + index ds ls) = (k * d + l) * ds.prod + index ds ls by ring]
      exact this

end Qudits
