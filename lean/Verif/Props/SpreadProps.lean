import Verif.Lemmas.Spread
/- C84: spreading an excitation over two, three or five lines. -/
namespace Qudits.DD
open Spec Matrix Classical

variable {n : Nat} {d : Fin n → Nat} {H : Hashes}

/-- `spread2`, `spread3`, `spread5`: on distinct lines, of which all but the first have as many levels as there are lines and the first has two, three or
five levels, a state that has the lines in the ground state, or the first line excited, becomes the state with the excitation spread evenly over all
the lines; whatever the other lines are. -/
theorem C84_spread_partial (hpos : ∀ i, 0 < d i) {k : Nat} (hk : k = 2 ∨ k = 3 ∨ k = 5) (ls : Fin k → Fin n) (hinj : Function.Injective ls)
    (first : Fin k) (hfirst : (first : Nat) = 0) (hd : ∀ j, j ≠ first → d (ls j) = k)
    (h0 : d (ls first) = 2 ∨ d (ls first) = 3 ∨ d (ls first) = 5) (e : Edge (regs d)) (he : Proper .vec (regs d) e)
    (hsupp : ∀ x, vecOf d e x ≠ 0 → Ground ls x ∨ Excited ls first x) {t : Tables} (ht : Reachable H t) :
    ∃ r t', spread H k (regs d) (List.ofFn fun j => (ls j : Nat)) e t = .ok (r, t') ∧ Reachable H t' ∧ Proper .vec (regs d) r ∧
      SpreadOf ls first (vecOf d e) (vecOf d r) := by
  have hk2 : 2 ≤ k := by omega
  have hk7 : k ≤ 7 := by omega
  have hk0 : 0 < k := by rcases hk with h | h | h <;> rw [h] <;> decide
  have hf : first = ⟨0, hk0⟩ := Fin.ext hfirst
  subst hf
  obtain ⟨L, hLk, hL, hdL, hlines⟩ := list_fun ls hinj hk0
  have hL0 : L 0 = ls ⟨0, hk0⟩ := hLk 0 hk0
  have hd' : ∀ j < k, j ≠ 0 → d (L j) = k := by
    intro j hj hj0
    rw [hLk j hj]
    exact hd _ fun h => hj0 (congrArg Fin.val h)
  rw [← hL0] at h0
  obtain ⟨a, b, hab, ha, hb, ha', hb'⟩ := minusPlus_ok hpos (L 0) (L 1) (fun h => absurd (hL 1 0 (by omega) (by omega) h) (by omega)) h0
  obtain ⟨r, t', cH, h1, h2, h3, h4, h5⟩ := spread_run hpos L k hk2 hk7 hL hd' (by omega) _ hlines a b hab ha hb e he t ht
  refine ⟨r, t', h1, h2, h3, ?_⟩
  rw [ha', hb'] at h5
  replace h5 : vecOf d r = total d L k cH (vecOf d e) := h5
  rw [h5]
  exact spread_total ls ⟨0, hk0⟩ rfl L hLk hk2 hL hdL hd' cH h4 _ hsupp

/-- Three qutrits and a qubit, with the lines in the order 3, 0, 2: line 3 is excited and the qubit, line 1, is at level 1. -/
example : ∃ e r t', makeBasisState (regs ![3, 2, 3, 3]) [1, 0, 1, 0] = .ok e ∧
    spread H 3 (regs ![3, 2, 3, 3]) [3, 0, 2] e Tables.empty = .ok (r, t') ∧
    ∀ x : Reg ![3, 2, 3, 3], (∀ i, (x i : Nat) = ![0, 1, 1, 0] i) → vecOf ![3, 2, 3, 3] r x = ((1 / Real.sqrt (3 : Nat) : ℝ) : ℂ) := by
  let s : Reg ![3, 2, 3, 3] := fun i => ⟨![0, 1, 0, 1] i, by revert i; decide⟩
  obtain ⟨e, he, hp, hv⟩ := C16_basis_state s
  have hs : Excited (d := ![3, 2, 3, 3]) ![(3 : Fin 4), 0, 2] 0 s := by unfold Excited; decide
  obtain ⟨r, t', h1, _, _, _, h5, _⟩ := C84_spread_partial (H := H) (d := ![3, 2, 3, 3]) (by decide) (k := 3) (by decide) ![(3 : Fin 4), 0, 2] (by decide) 0 rfl
    (by decide) (by decide) e hp (fun x hx => by
      rw [hv] at hx
      have : x = s := by by_contra h; exact hx (if_neg h)
      rw [this]
      exact Or.inr hs) .new
  refine ⟨e, r, t', he, h1, fun x hx => ?_⟩
  rw [h5 2 x s (by intro i; rw [hx]; revert i; decide) hs (by
    intro q hq
    apply Fin.ext
    rw [hx]
    revert q
    decide), hv, if_pos rfl, mul_one]

/-- On a first line of any other dimension the result is the zero vector, whatever the state is. -/
theorem C84_other_dimension_violated (hpos : ∀ i, 0 < d i) {k : Nat} (hk : k = 2 ∨ k = 3 ∨ k = 5) (ls : Fin k → Fin n)
    (hinj : Function.Injective ls) (first : Fin k) (hfirst : (first : Nat) = 0) (hd : ∀ j, j ≠ first → d (ls j) = k)
    (h0 : d (ls first) = 4 ∨ 5 < d (ls first)) (e : Edge (regs d)) (he : Proper .vec (regs d) e) {t : Tables} (ht : Reachable H t) :
    ∃ r t', spread H k (regs d) (List.ofFn fun j => (ls j : Nat)) e t = .ok (r, t') ∧ vecOf d r = 0 := by
  have hk0 : 0 < k := by rcases hk with h | h | h <;> rw [h] <;> decide
  have hf : first = ⟨0, hk0⟩ := Fin.ext hfirst
  subst hf
  obtain ⟨L, hLk, hL, hdL, hlines⟩ := list_fun ls hinj hk0
  have hL0 : L 0 = ls ⟨0, hk0⟩ := hLk 0 hk0
  have hd' : ∀ j < k, j ≠ 0 → d (L j) = k := by
    intro j hj hj0
    rw [hLk j hj]
    exact hd _ fun h => hj0 (congrArg Fin.val h)
  rw [← hL0] at h0
  obtain ⟨r, t', cH, h1, h2, h3, h4, h5⟩ := spread_run hpos L k (by omega) (by omega) hL hd' (by omega) _ hlines none none
    (minusPlus_none (L 0) (L 1) (by omega)) (proper_none _) (proper_none _) e he t ht
  refine ⟨r, t', h1, ?_⟩
  have hz : matOf d (none : Edge (regs d)) = 0 := by
    funext x y
    exact entry_none ..
  rw [h5, hz, Matrix.zero_mulVec, steps_zero]

/-- A ququart and a qubit, the ququart excited: the state is lost. -/
example : ∃ e r t', makeBasisState (regs ![4, 2]) [0, 1] = .ok e ∧ e ≠ none ∧
    spread H 2 (regs ![4, 2]) [0, 1] e Tables.empty = .ok (r, t') ∧ vecOf ![4, 2] r = 0 := by
  let s : Reg ![4, 2] := fun i => ⟨![1, 0] i, by revert i; decide⟩
  obtain ⟨e, he, hp, hv⟩ := C16_basis_state s
  obtain ⟨r, t', h1, h2⟩ := C84_other_dimension_violated (H := H) (d := ![4, 2]) (by decide) (k := 2) (by decide) ![(0 : Fin 2), 1] (by decide) 0 rfl
    (by decide) (by decide) e hp .new
  refine ⟨e, r, t', he, ?_, h1, h2⟩
  rintro rfl
  have := hv s
  rw [if_pos rfl] at this
  exact zero_ne_one this

/-- Too few lines are rejected. -/
theorem C84_few_lines (k : Nat) (ds : List Nat) (lines : List Nat) (hk : lines.length < k) (e : Edge ds) (t : Tables) :
    ∀ r t', spread H k ds lines e t ≠ .ok (r, t') := by
  intro r t' h
  exact few_lines k ds lines hk e t r t' h

example (e : Edge [3, 3, 3]) : ∀ r t', spread H 3 [3, 3, 3] [0, 1] e Tables.empty ≠ .ok (r, t') := C84_few_lines 3 _ _ (by decide) e _

end Qudits.DD
