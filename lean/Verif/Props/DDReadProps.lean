import Verif.Lemmas.DDNodeBound
import Verif.Props.DDProps
/-
C95: reading a whole matrix diagram, entries by strings of digits, and the number of nodes.
-/
namespace Qudits
open Spec DD Classical

variable {n : Nat} {d : Fin n → Nat}

/-- C95: `getVectorizedMatrix` returns all entries: the digit of line `i` is `d i * row + column` in base `d i * d i`, the last line
being the most significant one. -/
theorem C95_vectorized (hd : ∀ i, 0 < d i) (e : Edge (regs d)) (hp : Proper .mat (regs d) e) :
    ∃ v, getVectorizedMatrix (regs d) e = .ok v ∧ v.length = (List.ofFn fun i => d i * d i).prod ∧
      ∀ x y : Reg d, v[index (List.ofFn fun i => d i * d i).reverse (List.ofFn fun i => d i * (x i : Nat) + (y i : Nat)).reverse]? =
        some (matOf d e x y) := by
  have hpos : ∀ k ∈ regs d, 0 < k := by
    intro k hk
    obtain ⟨i, rfl⟩ := List.mem_ofFn.1 (List.mem_reverse.1 hk)
    exact hd i
  unfold getVectorizedMatrix
  rw [foldl_sq, Nat.one_mul]
  obtain ⟨v, h0, h1, _, h3⟩ := readOutM_ok (regs d) e 1 0 (List.replicate (sq (regs d)).prod 0) hpos hp (by simp) (by
    intro j _ hj
    rw [List.getElem?_replicate, if_pos (by omega)])
  rw [Nat.zero_add] at h0
  refine ⟨v, h0, ?_, fun x y => ?_⟩
  · rw [h1, List.length_replicate, sq_regs, List.prod_reverse]
  · have := h3 _ (levels_flat _ _ _ (levels_top x) (levels_top y))
    rw [Nat.zero_add, mul_one, sq_regs, flat_regs] at this
    rw [this]
    unfold matOf entry
    rw [flat_regs]

/-- C95: the string whose character number `i` is the level of line `i` (what follows is ignored) gives the amplitude. -/
theorem C95_string_vector (e : Edge (regs d)) (hp : Proper .vec (regs d) e) (x : Reg d) (rest : List Int) :
    getValueByString (regs d) e ((List.ofFn fun i => 48 + ((x i : Nat) : Int)) ++ rest) = .ok (vecOf d e x) := by
  rw [getValueByString_eq, valueByString_ok (regs d) .vec e 1 (top x) _ rest hp, one_mul]
  · rfl
  · have h : (regs d).map (arity .vec) = regs d := by
      rw [show arity .vec = id from funext fun k => Nat.mul_one k, List.map_id]
    rw [h]
    exact levels_top x
  · unfold top
    rw [List.reverse_reverse, List.map_ofFn]
    rfl

/-- C95: for a matrix, character number `i` is `d i * row + column` of line `i`. -/
theorem C95_string_matrix (e : Edge (regs d)) (hp : Proper .mat (regs d) e) (x y : Reg d) (rest : List Int) :
    getValueByString (regs d) e ((List.ofFn fun i => 48 + ((d i * (x i : Nat) + (y i : Nat) : Nat) : Int)) ++ rest) =
      .ok (matOf d e x y) := by
  rw [getValueByString_eq, valueByString_ok (regs d) .mat e 1 (flat (regs d) (top x) (top y)) _ rest hp, one_mul]
  · rfl
  · exact levels_flat _ _ _ (levels_top x) (levels_top y)
  · rw [flat_regs, List.reverse_reverse, List.map_ofFn]
    rfl

/-- C95: a string with fewer characters than lines throws, for every diagram but the zero one. -/
theorem C95_string_short (e : Edge (regs d)) (hn : e ≠ none) (path : List Int) (h : path.length < n) :
    getValueByString (regs d) e path = .error .outOfRange := by
  have hl : (regs d).length = n := regs_length d
  rw [getValueByString_eq]
  generalize regs d = ds at *
  rcases e with _ | ⟨w, m⟩
  · exact absurd rfl hn
  cases ds with
  | nil => exact absurd hl (by simp; omega)
  | cons c ds => exact valueByString_short c ds w m 1 path (by rw [hl]; exact h)

/-- C95: the number returned by `nodeCount`, started on an empty set, is the number of different nodes of the diagram (the terminal
included), for vectors and matrices; the set then holds these nodes. -/
theorem C95_count (e : Edge (regs d)) :
    (nodeCount (regs d) e ∅).1 = (nodesOf e).ncard ∧ ∀ a, a ∈ (nodeCount (regs d) e ∅).2 ↔ a ∈ nodesOf e := by
  obtain ⟨h1, h2⟩ := nodeCount_ok (regs d) e ∅ (by intro a ha; exact absurd ha (by simp)) (by simp)
  have hset : (nodesOf e : Set Ptr) = ↑(nodeSet (regs d) e) := by
    ext b
    rw [Finset.mem_coe]
    exact (mem_nodeSet (regs d) e b).symm
  rw [h1, h2, hset, Finset.sdiff_empty, Finset.empty_union, Set.ncard_coe_finset]
  exact ⟨rfl, fun a => Finset.mem_coe.symm⟩

/-- C95: a state with `k` amplitudes that are not zero has at least one node per line and at most `k` of them, besides the
terminal. -/
theorem C95_count_bounds (e : Edge (regs d)) (hp : Proper .vec (regs d) e) (hn : e ≠ none) :
    n + 1 ≤ (nodeCount (regs d) e ∅).1 ∧
      (nodeCount (regs d) e ∅).1 ≤ {x : Reg d | vecOf d e x ≠ 0}.ncard * n + 1 := by
  obtain ⟨_, h2⟩ := nodeCount_ok (regs d) e ∅ (by intro a ha; exact absurd ha (by simp)) (by simp)
  have hsupp : {x : Reg d | vecOf d e x ≠ 0}.ncard = (supp (regs d) e).card := by
    rw [← Set.ncard_image_of_injective _ top_injective, ← Set.ncard_coe_finset]
    congr 1
    ext p
    rw [Finset.mem_coe, mem_supp (regs d) e p hp]
    constructor
    · rintro ⟨x, hx, rfl⟩
      exact ⟨levels_top x, hx⟩
    · rintro ⟨h1, h2⟩
      obtain ⟨x, rfl⟩ := top_surjective h1
      exact ⟨x, h2, rfl⟩
  rw [h2, hsupp, Finset.sdiff_empty]
  refine ⟨?_, ?_⟩
  · have := nodeSet_lower (regs d) .vec e hp hn
    rwa [regs_length] at this
  · have h3 := nodeSet_upper (regs d) .vec e hp
    rw [regs_length] at h3
    have h4 := Finset.card_sdiff_add_card_eq_card (Finset.singleton_subset_iff.2 (term_mem_nodeSet (regs d) .vec e hp))
    rw [Finset.card_singleton] at h4
    omega

/-- C95: a basis state has one node per line and the terminal. -/
theorem C95_count_basis (s : Reg d) :
    ∃ e, makeBasisState (regs d) (List.ofFn fun i => (s i : Nat)).reverse = .ok e ∧ (nodeCount (regs d) e ∅).1 = n + 1 := by
  obtain ⟨e, he, hp, hv⟩ := C16_basis_state s
  have hset : {x : Reg d | vecOf d e x ≠ 0} = {s} := by
    ext x
    rw [Set.mem_ofPred_eq, hv, Set.mem_singleton_iff]
    by_cases h : x = s
    · simp [h]
    · simp [h]
  have hn : e ≠ none := by
    rintro rfl
    have h1 : s ∈ {x : Reg d | vecOf d none x ≠ 0} := hset.symm ▸ Set.mem_singleton s
    exact h1 (by unfold vecOf; rw [val_none])
  obtain ⟨h1, h2⟩ := C95_count_bounds e hp hn
  rw [hset, Set.ncard_singleton, Nat.one_mul] at h2
  exact ⟨e, he, le_antisymm h2 h1⟩

/-- A gate on a mixed register: all of its entries, by string too. -/
example : ∃ (d : Fin 3 → Nat) (e : Edge (regs d)), Proper .mat (regs d) e ∧ e ≠ none ∧
    ∃ v, getVectorizedMatrix (regs d) e = .ok v ∧ v.length = 576 ∧
      getValueByString (regs d) e [48, 48 + 3 * 1 + 2, 48 + 4 * 3 + 3] = .ok 5 := by
  obtain ⟨e, _, hp, _, hv⟩ := C17_makeGateDD (d := ![2, 3, 4]) 1 (List.replicate 9 5) (by simp) [] (fun i => ⟨0, by fin_cases i <;> decide⟩)
    (by decide) (by decide)
  let x : Reg ![2, 3, 4] := fun i => ⟨if i = 1 then 1 else if i = 2 then 3 else 0, by fin_cases i <;> decide⟩
  let y : Reg ![2, 3, 4] := fun i => ⟨if i = 1 then 2 else if i = 2 then 3 else 0, by fin_cases i <;> decide⟩
  have hxy : matOf ![2, 3, 4] e x y = 5 := by
    rw [hv]
    unfold controlled embed1
    rw [if_pos (by simp), if_pos]
    · rfl
    · intro i hi
      exact Fin.ext (by simp [x, y, hi])
  have hn : e ≠ none := by
    rintro rfl
    unfold matOf entry at hxy
    rw [val_none] at hxy
    exact absurd hxy (by norm_num)
  obtain ⟨v, h1, h2, _⟩ := C95_vectorized (by intro i; fin_cases i <;> decide) e hp
  refine ⟨_, e, hp, hn, v, h1, h2.trans rfl, ?_⟩
  rw [← hxy, ← C95_string_matrix e hp x y []]
  rfl

/-- The bounds on a state of any register: for the zero state both are equal. -/
example (hd : ∀ i, 0 < d i) : (nodeCount (regs d) (makeZeroState (regs d)) ∅).1 = n + 1 := by
  obtain ⟨hp, hv⟩ := C16_zero_state hd
  let s : Reg d := fun i => ⟨0, hd i⟩
  have hset : {x : Reg d | vecOf d (makeZeroState (regs d)) x ≠ 0} = {s} := by
    ext x
    rw [Set.mem_ofPred_eq, hv, Set.mem_singleton_iff]
    by_cases h : ∀ i, (x i : Nat) = 0
    · rw [if_pos h]
      exact ⟨fun _ => funext fun i => Fin.ext (h i), fun _ => one_ne_zero⟩
    · rw [if_neg h]
      refine ⟨fun h' => absurd rfl h', fun h' => absurd ?_ h⟩
      rw [h']
      exact fun _ => rfl
  have hn : makeZeroState (regs d) ≠ none := by
    intro h0
    have h1 : s ∈ {x : Reg d | vecOf d (makeZeroState (regs d)) x ≠ 0} := hset.symm ▸ Set.mem_singleton s
    exact h1 (by unfold vecOf; rw [h0, val_none])
  obtain ⟨h1, h2⟩ := C95_count_bounds _ hp hn
  rw [hset, Set.ncard_singleton, Nat.one_mul] at h2
  exact le_antisymm h2 h1

end Qudits
