import Verif.Lemmas.VarSplit
import Mathlib.Tactic.NormNum

/-
Properties C43 (splitting of parameter vectors, bounds) and C44 (search for the number of layers).
-/
namespace Qudits
open Variational

/-! ### C43 -/

/-- C43: for two lines that are not both trivial, `params_splitter` accepts exactly the vectors that fill `k` layers for some
`k`, and returns exactly the list of consecutive chunks of the lengths `d0² - 1, d1² - 1, d0² - 1, …` whose concatenation is
the vector. -/
theorem C43_split {β : Type} (d0 d1 : Nat) (hd : 0 < (d0 ^ 2 - 1) + (d1 ^ 2 - 1)) (params : List β) (chunks : List (List β)) :
    paramsSplitter params [d0, d1] = .ok chunks ↔
      ∃ k, chunks.flatten = params ∧ chunks.map List.length = (List.replicate k [d0 ^ 2 - 1, d1 ^ 2 - 1]).flatten := by
  unfold paramsSplitter
  simp only
  rw [if_neg (by omega)]
  constructor
  · intro h
    by_cases hm : params.length % ((d0 ^ 2 - 1) + (d1 ^ 2 - 1)) ≠ 0
    · rw [if_pos hm] at h; cases h
    · rw [if_neg hm] at h
      have hc := Except.ok.inj h
      have hl : params.length = params.length / ((d0 ^ 2 - 1) + (d1 ^ 2 - 1)) * ((d0 ^ 2 - 1) + (d1 ^ 2 - 1)) :=
        (Nat.div_mul_cancel (Nat.dvd_of_mod_eq_zero (not_not.1 hm))).symm
      have := chunks_spec (d0 ^ 2 - 1) (d1 ^ 2 - 1) _ params hl
      exact ⟨_, by rw [← hc]; exact this.1, by rw [← hc]; exact this.2⟩
  · rintro ⟨k, h1, h2⟩
    have hl : params.length = k * ((d0 ^ 2 - 1) + (d1 ^ 2 - 1)) := by
      rw [← h1, List.length_flatten, h2, lengths_flatten]
    have hm : ¬ params.length % ((d0 ^ 2 - 1) + (d1 ^ 2 - 1)) ≠ 0 := by
      rw [hl]; simp
    have hk : params.length / ((d0 ^ 2 - 1) + (d1 ^ 2 - 1)) = k := by
      rw [hl, Nat.mul_div_cancel _ hd]
    rw [if_neg hm, hk]
    congr 1
    have := chunks_spec (d0 ^ 2 - 1) (d1 ^ 2 - 1) k params hl
    exact flatten_inj _ _ (this.1.trans h1.symm) (this.2.trans h2.symm)

/-- C43: every other input is refused; vectors of another length and dimension lists that are not pairs with ValueError, two
lines of one level with ZeroDivisionError. -/
theorem C43_refused {β : Type} (params : List β) (dims : List Nat) :
    (dims.length ≠ 2 → paramsSplitter params dims = .error .valueError) ∧
    (paramsSplitter params [1, 1] = .error .zeroDivisionError) ∧
    (∀ d0 d1, 0 < (d0 ^ 2 - 1) + (d1 ^ 2 - 1) → (¬ ((d0 ^ 2 - 1) + (d1 ^ 2 - 1)) ∣ params.length) →
      paramsSplitter params [d0, d1] = .error .valueError) := by
  refine ⟨?_, rfl, ?_⟩
  · intro h
    match dims with
    | [] => rfl
    | [_] => rfl
    | [_, _] => exact absurd rfl h
    | _ :: _ :: _ :: _ => rfl
  · intro d0 d1 hp h
    unfold paramsSplitter
    simp only
    rw [if_neg (by omega), if_pos]
    intro h0
    exact h (Nat.dvd_of_mod_eq_zero h0)

/-- C43: for every number of layers the bounds have the layout of the parameters: they split into one chunk per local gate of the
`layers + 1` blocks of entangling gates (`layers + 2` pairs of local gates), and in the chunk of a line of dimension `d` the
entry `r * d + c` is `(0, 2π)` on the diagonal, `(0, π)` below and `(0, π/2)` above it. -/
theorem C43_bounds (d0 d1 layers : Nat) (h0 : 0 < d0) (h1 : 0 < d1) (hd : 0 < (d0 ^ 2 - 1) + (d1 ^ 2 - 1)) :
    ∃ bounds chunks, returnBounds d0 d1 layers = .ok bounds ∧ paramsSplitter bounds [d0, d1] = .ok chunks ∧
      chunks.length = 2 * (layers + 2) ∧
      ∀ i (hi : i < chunks.length), ∀ d, d = (if i % 2 = 0 then d0 else d1) →
        chunks[i].length = d ^ 2 - 1 ∧
        ∀ r c, r < d → c < d → r * d + c < d ^ 2 - 1 →
          chunks[i][r * d + c]? =
            some (if r = c then ((0 : ℝ), 2 * Real.pi) else if c < r then (0, Real.pi) else (0, Real.pi / 2)) := by
  set line0 := (List.range (d0 ^ 2 - 1)).map fun i => kind bound1 bound2 bound3 (i / d0) (i % d0) with hl0
  set line1 := (List.range (d1 ^ 2 - 1)).map fun i => kind bound1 bound2 bound3 (i / d1) (i % d1) with hl1
  have hb : returnBounds d0 d1 layers = .ok (List.replicate (layers + 2) (line0 ++ line1)).flatten := by
    unfold returnBounds
    simp only [boundsAssigner_ok _ _ _ _ _ h0, boundsAssigner_ok _ _ _ _ _ h1, bind, Except.bind, pure, Except.pure]
    rw [foldl_two, List.nil_append]
  have hlen0 : line0.length = d0 ^ 2 - 1 := by rw [hl0, List.length_map, List.length_range]
  have hlen1 : line1.length = d1 ^ 2 - 1 := by rw [hl1, List.length_map, List.length_range]
  have hfl : ∀ k, ((List.replicate k [line0, line1]).flatten).flatten = (List.replicate k (line0 ++ line1)).flatten := by
    intro k
    induction k with
    | zero => rfl
    | succ k ih =>
      rw [List.replicate_succ, List.replicate_succ, List.flatten_cons, List.flatten_append, ih, List.flatten_cons]
      simp
  have hln : ∀ k, ((List.replicate k [line0, line1]).flatten).map List.length =
      (List.replicate k [d0 ^ 2 - 1, d1 ^ 2 - 1]).flatten := by
    intro k
    induction k with
    | zero => rfl
    | succ k ih =>
      rw [List.replicate_succ, List.replicate_succ, List.flatten_cons, List.map_append, ih, List.flatten_cons]
      simp [hlen0, hlen1]
  have hget : ∀ k i, i < 2 * k → ((List.replicate k [line0, line1]).flatten)[i]? =
      some (if i % 2 = 0 then line0 else line1) := by
    intro k
    induction k with
    | zero => intro i hi; omega
    | succ k ih =>
      intro i hi
      rw [List.replicate_succ, List.flatten_cons]
      match i with
      | 0 => rfl
      | 1 => rfl
      | i + 2 =>
        rw [List.getElem?_append_right (by simp)]
        simp only [List.length_cons, List.length_nil, Nat.zero_add, Nat.reduceAdd, Nat.add_sub_cancel]
        rw [ih i (by omega), Nat.add_mod_right]
  have hkind : ∀ d, 0 < d → ∀ r c, r < d → c < d → r * d + c < d ^ 2 - 1 →
      ((List.range (d ^ 2 - 1)).map fun i => kind bound1 bound2 bound3 (i / d) (i % d))[r * d + c]? =
        some (if r = c then ((0 : ℝ), 2 * Real.pi) else if c < r then (0, Real.pi) else (0, Real.pi / 2)) := by
    intro d hd0 r c hr hc h
    rw [List.getElem?_map, List.getElem?_range h]
    have e1 : (r * d + c) / d = r := by
      rw [Nat.mul_comm, Nat.mul_add_div hd0, Nat.div_eq_of_lt hc, Nat.add_zero]
    have e2 : (r * d + c) % d = c := by rw [Nat.mul_comm, Nat.mul_add_mod, Nat.mod_eq_of_lt hc]
    simp only [Option.map_some, e1, e2, kind, bound1, bound2, bound3, gt_iff_lt]
  refine ⟨_, (List.replicate (layers + 2) [line0, line1]).flatten, hb,
    (C43_split d0 d1 hd _ _).2 ⟨layers + 2, hfl _, hln _⟩, ?_, ?_⟩
  · simp [Nat.mul_comm]
  · intro i hi d hdd
    have hi' : i < 2 * (layers + 2) := by simpa [Nat.mul_comm] using hi
    have hg := hget (layers + 2) i hi'
    rw [List.getElem?_eq_getElem hi] at hg
    have hg' := Option.some.inj hg
    rw [hg']
    by_cases hpar : i % 2 = 0
    · rw [if_pos hpar] at hdd ⊢
      subst hdd
      exact ⟨hlen0, hkind d h0⟩
    · rw [if_neg hpar] at hdd ⊢
      subst hdd
      exact ⟨hlen1, hkind d h1⟩

/-- one layer of two lines with two and three levels -/
example : paramsSplitter [1, 2, 3, 4, 5, 6, 7, 8, 9, 10, 11] [2, 3] = .ok [[1, 2, 3], [4, 5, 6, 7, 8, 9, 10, 11]] := by
  decide

example : ∃ bounds, returnBounds 2 3 1 = .ok bounds ∧ bounds.length = 33 := by
  obtain ⟨b, cs, h1, h2, h3, h4⟩ := C43_bounds 2 3 1 (by decide) (by decide) (by decide)
  refine ⟨b, h1, ?_⟩
  obtain ⟨k, hk1, hk2⟩ := (C43_split 2 3 (by decide) b cs).1 h2
  have hk : k = 3 := by
    have := congrArg List.length hk2
    simp [h3] at this
    omega
  subst hk
  rw [← hk1, List.length_flatten, hk2]
  rfl

/-! ### C44 -/

/-- C44: if more layers never hurt, the search returns the least number of layers within the limit that meets the tolerance, with the
error and parameters found for it. -/
theorem C44_least {β : Type} (run : Nat → ℝ × β) (empty : β) (tol : ℝ) (maxLayer k : Nat)
    (hmono : ∀ i j : Nat, i ≤ j → (run i).1 ≤ tol → (run j).1 ≤ tol)
    (hk : (run k).1 ≤ tol) (hle : k ≤ maxLayer) (hleast : ∀ j < k, tol < (run j).1) :
    binarySearchCompile run empty tol maxLayer = .ok (k, (((run k).1 : ℝ) : WithTop ℝ), (run k).2) := by
  unfold binarySearchCompile
  rw [if_neg (by omega)]
  congr 1
  exact searchLoop_least run tol hmono 0 maxLayer _ 0 k (le_refl _) hk hleast (by omega) (by exact_mod_cast hle)

/-- C44: whatever the runs return, the result is either a run within the limit that meets the tolerance, or (only if some run
failed) infinite error with the empty vector. If no run meets the tolerance it is the latter. -/
theorem C44_sound {β : Type} (run : Nat → ℝ × β) (empty : β) (tol : ℝ) (maxLayer : Nat) :
    ∃ r, binarySearchCompile run empty tol maxLayer = .ok r ∧
      ((∃ k, k ≤ maxLayer ∧ (run k).1 ≤ tol ∧ r = (k, (((run k).1 : ℝ) : WithTop ℝ), (run k).2)) ∨
        (r.2 = (⊤, empty) ∧ tol < (run (maxLayer / 2)).1)) ∧
      ((∀ k ≤ maxLayer, tol < (run k).1) → r.2 = (⊤, empty)) := by
  refine ⟨(searchLoop run tol 0 maxLayer (((maxLayer : Int) / 2).toNat, ⊤, empty) 0).1, ?_, ?_, ?_⟩
  · unfold binarySearchCompile
    rw [if_neg (by omega)]
  · rcases searchLoop_sound run tol 0 maxLayer (((maxLayer : Int) / 2).toNat, ⊤, empty) 0 (le_refl _) with h | ⟨k, _, h2, h3, h4⟩
    · right
      refine ⟨by rw [h], ?_⟩
      by_contra hcon
      have hcon := not_lt.1 hcon
      unfold searchLoop at h
      rw [dif_pos (by omega)] at h
      simp only at h
      have hmid : ((0 : Int) + ((maxLayer : Int) - 0) / 2).toNat = maxLayer / 2 := by omega
      rw [hmid, if_neg (not_lt.2 hcon)] at h
      rcases searchLoop_sound run tol 0 ((0 : Int) + ((maxLayer : Int) - 0) / 2 - 1)
        (maxLayer / 2, (((run (maxLayer / 2)).1 : ℝ) : WithTop ℝ), (run (maxLayer / 2)).2) (0 + 1) (le_refl _) with h' | ⟨j, _, _, _, h'⟩
      · rw [h'] at h
        have := congrArg (fun x => x.2.1) h
        exact WithTop.coe_ne_top this
      · rw [h'] at h
        have := congrArg (fun x => x.2.1) h
        exact WithTop.coe_ne_top this
    · left
      exact ⟨k, by exact_mod_cast h2, h3, h4⟩
  · intro hno
    rcases searchLoop_sound run tol 0 maxLayer (((maxLayer : Int) / 2).toNat, ⊤, empty) 0 (le_refl _) with h | ⟨k, _, h2, h3, _⟩
    · rw [h]
    · exact absurd h3 (not_le.2 (hno k (by exact_mod_cast h2)))

/-- C44: the number of runs is at most the number of binary digits of `maxLayer + 1`. -/
theorem C44_trials {β : Type} (run : Nat → ℝ × β) (empty : β) (tol : ℝ) (maxLayer : Nat) :
    (searchLoop run tol 0 maxLayer (((maxLayer : Int) / 2).toNat, ⊤, empty) 0).2 ≤ Nat.log 2 (maxLayer + 1) + 1 := by
  have := searchLoop_counter run tol (Nat.log 2 (maxLayer + 1) + 1) 0 maxLayer (((maxLayer : Int) / 2).toNat, ⊤, empty) 0
    (by
      have h := Nat.lt_pow_succ_log_self (b := 2) (by norm_num) (maxLayer + 1)
      have e : ((maxLayer : Int) + 1 - 0).toNat = maxLayer + 1 := by omega
      rw [e]; exact h)
  simpa using this

/-- C44: a negative limit is refused. -/
theorem C44_negative {β : Type} (run : Nat → ℝ × β) (empty : β) (tol : ℝ) (maxLayer : Int) (h : maxLayer < 0) :
    binarySearchCompile run empty tol maxLayer = .error .valueError := by
  unfold binarySearchCompile; rw [if_pos h]

/-- error halves with every layer; tolerance 1/5, at most six layers: three are found -/
example : binarySearchCompile (fun k => ((1 / 2 : ℝ) ^ k, k)) 0 (1 / 5) (6 : Nat) =
    .ok (3, (((1 / 2 : ℝ) ^ 3 : ℝ) : WithTop ℝ), 3) := by
  apply C44_least (fun k => ((1 / 2 : ℝ) ^ k, k)) 0 (1 / 5) 6 3
  · intro i j hij h
    exact le_trans (pow_le_pow_of_le_one (by norm_num) (by norm_num) hij) h
  · norm_num
  · norm_num
  · intro j hj
    have : j = 0 ∨ j = 1 ∨ j = 2 := by omega
    rcases this with rfl | rfl | rfl <;> norm_num

end Qudits
