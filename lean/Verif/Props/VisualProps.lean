import Verif.Lemmas.PartialTrace
import Verif.Lemmas.Counts
import Mathlib.LinearAlgebra.Matrix.PosDef
import Mathlib.Analysis.Complex.Order
import Mathlib.Data.Fin.VecNotation
/-
C48 (partial traces), C49 (histograms), C50 (undoing a relabelling), C63 (density matrices from shots).
-/
namespace Qudits
open Spec Visual
open scoped ComplexOrder

variable {n : Nat}

/-- a basis state of two lines -/
def twoLv {a b : Nat} (x : Fin a) (y : Fin b) : Reg ![a, b] := fun i => match i with
  | ⟨0, _⟩ => x
  | ⟨1, _⟩ => y

/-! ### C48 -/

/-- C48. Keeping different lines, in whatever order they are listed, `partial_trace` returns the array of the reduced state of these
lines (the kept lines in ascending order). -/
theorem C48_reduced (d : Fin n → Nat) (keep : List (Fin n)) (hnd : keep.Nodup) (rho : Arr2 ℂ)
    (hr : rho.rows = ∏ i, d i) (hc : rho.cols = ∏ i, d i) :
    ∃ B, partialTrace rho (keep.map fun i : Fin n => ((i : Nat) : Int)) (List.ofFn d) = .ok B ∧
      B.rows = ∏ i ∈ keep.toFinset, d i ∧ B.cols = ∏ i ∈ keep.toFinset, d i ∧
      onLines d keep.toFinset B.at' = reduced d keep.toFinset (opOf d rho) :=
  partialTrace_ok d keep hnd rho hr hc

/-- C48. The reduced state has the trace of the state. -/
theorem C48_trace (d : Fin n → Nat) (S : Finset (Fin n)) (rho : Matrix (Reg d) (Reg d) ℂ) :
    (reduced d S rho).trace = rho.trace := by
  unfold Matrix.trace
  rw [← (splitEquiv d S).sum_comp, Fintype.sum_prod_type]
  apply Finset.sum_congr rfl
  intro v _
  exact reduced_eq d S rho v v

/-- C48. The reduced state depends linearly on the state. -/
theorem C48_linear (d : Fin n → Nat) (S : Finset (Fin n)) (a b : ℂ) (rho sigma : Matrix (Reg d) (Reg d) ℂ) :
    reduced d S (a • rho + b • sigma) = a • reduced d S rho + b • reduced d S sigma := by
  ext v w
  rw [Matrix.add_apply, Matrix.smul_apply, Matrix.smul_apply, reduced_eq, reduced_eq, reduced_eq]
  simp only [Matrix.add_apply, Matrix.smul_apply, Finset.sum_add_distrib, Finset.smul_sum]

/-- C48. The reduced state of a Hermitian operator is Hermitian. -/
theorem C48_hermitian (d : Fin n → Nat) (S : Finset (Fin n)) (rho : Matrix (Reg d) (Reg d) ℂ) (h : rho.IsHermitian) :
    (reduced d S rho).IsHermitian := by
  ext v w
  rw [Matrix.conjTranspose_apply, reduced_eq, reduced_eq, star_sum]
  apply Finset.sum_congr rfl
  intro u _
  exact h.apply _ _

/-- C48. The reduced state of a positive operator is positive. -/
theorem C48_positive (d : Fin n → Nat) (S : Finset (Fin n)) (rho : Matrix (Reg d) (Reg d) ℂ) (h : rho.PosSemidef) :
    (reduced d S rho).PosSemidef := by
  have e : reduced d S rho = ∑ u : SubLv (LvOf d) Sᶜ, rho.submatrix (fun v => join d S v u) (fun v => join d S v u) := by
    ext v w
    rw [reduced_eq, Matrix.sum_apply]
    rfl
  rw [e]
  exact Matrix.posSemidef_sum _ (fun u _ => h.submatrix _)

/-- C48. Keeping every line returns the state itself. -/
theorem C48_all (d : Fin n → Nat) (rho : Matrix (Reg d) (Reg d) ℂ) (x y : Reg d) :
    reduced d Finset.univ rho (restr Finset.univ x) (restr Finset.univ y) = rho x y := by
  rw [reduced_eq]
  have : ∀ (z : Reg d) (u : SubLv (LvOf d) (Finset.univ)ᶜ), join d Finset.univ (restr Finset.univ z) u = z := by
    intro z u; funext i; simp [join, restr]
  simp only [this]
  have : IsEmpty { i : Fin n // i ∈ (Finset.univ : Finset (Fin n))ᶜ } := ⟨fun i => by have := i.2; simp at this⟩
  rw [Finset.sum_const, Finset.card_univ, Fintype.card_eq_one_iff_nonempty_unique.2 ⟨inferInstance⟩, one_smul]

/-- C48. Measuring an observable on the kept lines gives the same mean in the reduced state as in the whole state. -/
theorem C48_expectation (d : Fin n → Nat) (S : Finset (Fin n)) (rho : Matrix (Reg d) (Reg d) ℂ)
    (m : Matrix (SubLv (LvOf d) S) (SubLv (LvOf d) S) ℂ) :
    (embed S m * rho).trace = (m * reduced d S rho).trace := by
  have h1 : (embed S m * rho).trace = ∑ v, ∑ u, ∑ w, m v w * rho (join d S w u) (join d S v u) := by
    unfold Matrix.trace
    rw [← (splitEquiv d S).sum_comp, Fintype.sum_prod_type]
    apply Finset.sum_congr rfl
    intro v _
    apply Finset.sum_congr rfl
    intro u _
    rw [Matrix.diag_apply, Matrix.mul_apply, ← (splitEquiv d S).sum_comp, Fintype.sum_prod_type]
    apply Finset.sum_congr rfl
    intro w _
    rw [Finset.sum_eq_single u]
    · change embed S m (join d S v u) (join d S w u) * rho (join d S w u) (join d S v u) = _
      have : embed S m (join d S v u) (join d S w u) = m v w := by
        unfold embed
        rw [if_pos ((agree_join d S v w u u).2 rfl), restr_join, restr_join]
      rw [this]
    · intro t _ ht
      change embed S m (join d S v u) (join d S w t) * rho (join d S w t) (join d S v u) = _
      have : embed S m (join d S v u) (join d S w t) = 0 := by
        unfold embed
        rw [if_neg (fun e => ht ((agree_join d S v w u t).1 e).symm)]
      rw [this, zero_mul]
    · intro hn; exact absurd (Finset.mem_univ _) hn
  rw [h1]
  unfold Matrix.trace
  apply Finset.sum_congr rfl
  intro v _
  rw [Matrix.diag_apply, Matrix.mul_apply, Finset.sum_comm]
  apply Finset.sum_congr rfl
  intro w _
  rw [reduced_eq, Finset.mul_sum]

/-- C48, in terms of the returned array: from a density matrix (Hermitian, positive, of trace one) `partial_trace` makes a density
matrix. -/
theorem C48_density (d : Fin n → Nat) (keep : List (Fin n)) (hnd : keep.Nodup) (rho : Arr2 ℂ)
    (hr : rho.rows = ∏ i, d i) (hc : rho.cols = ∏ i, d i) (hpos : (rho.toM (∏ i, d i)).PosSemidef)
    (htr : ∑ k ∈ Finset.range (∏ i, d i), rho.at' k k = 1) :
    ∃ B N, partialTrace rho (keep.map fun i : Fin n => ((i : Nat) : Int)) (List.ofFn d) = .ok B ∧
      B.rows = N ∧ B.cols = N ∧ (B.toM N).PosSemidef ∧ ∑ k ∈ Finset.range N, B.at' k k = 1 := by
  obtain ⟨B, h1, h2, h3, h4⟩ := partialTrace_ok d keep hnd rho hr hc
  refine ⟨B, _, h1, h2, h3, ?_, ?_⟩
  · have hp : (opOf d rho).PosSemidef := hpos.submatrix (idxEquiv d)
    have := C48_positive d keep.toFinset _ hp
    rw [← h4, onLines_eq] at this
    have h5 := this.submatrix (subIdxEquiv d keep.toFinset).symm
    rw [Matrix.submatrix_submatrix] at h5
    simpa using h5
  · have ht := C48_trace d keep.toFinset (opOf d rho)
    rw [← h4] at ht
    have e1 : (onLines d keep.toFinset B.at').trace = ∑ k ∈ Finset.range (∏ i ∈ keep.toFinset, d i), B.at' k k := by
      rw [Finset.sum_range, ← (subIdxEquiv d keep.toFinset).sum_comp]
      rfl
    have e2 : (opOf d rho).trace = ∑ k ∈ Finset.range (∏ i, d i), rho.at' k k := by
      rw [Finset.sum_range, ← (idxEquiv d).sum_comp]
      rfl
    rw [← e1, ht, e2, htr]

/-- C48. A line outside the register is refused. -/
theorem C48_range (rho : Arr2 ℂ) (keep : List Int) (dims : List Nat) (q : Int) (hq : q ∈ keep)
    (h : q < -(dims.length : Int) ∨ (dims.length : Int) ≤ q) : partialTrace rho keep dims = .error .indexError := by
  have hb : npGet dims q = .error .indexError := by
    unfold npGet
    by_cases h0 : q < 0
    · simp only [if_pos h0]; rw [if_neg]; omega
    · simp only [if_neg h0]; rw [if_neg]; omega
  have := mapM_bad (npGet dims) .indexError keep (by
    intro x _
    unfold npGet
    generalize (if x < 0 then x + (dims.length : Int) else x) = j
    by_cases hj : 0 ≤ j ∧ j < dims.length
    · exact Or.inl ⟨_, if_pos hj⟩
    · exact Or.inr (if_neg hj)) q hq hb
  unfold partialTrace
  rw [this]
  rfl

/-- C48. An array that does not have the size of the register is refused. -/
theorem C48_size (rho : Arr2 ℂ) (keep : List Int) (dims : List Nat) (h : rho.rows * rho.cols ≠ dims.prod * dims.prod)
    (hk : ∀ q ∈ keep, 0 ≤ q ∧ q < dims.length) : partialTrace rho keep dims = .error .valueError := by
  have : keep.mapM (npGet dims) = .ok (keep.map fun q => dims.getD q.toNat 0) := by
    apply mapM_ok
    intro q hq
    unfold npGet
    have := hk q hq
    simp only [if_neg (show ¬ q < 0 by omega)]
    rw [if_pos this]
  unfold partialTrace
  simp only [this, bind, Except.bind]
  rw [if_pos (by rw [List.prod_append]; exact h)]
  rfl

/-- C48. A negative line number, which numpy accepts when it reads the dimensions, does not keep the line counted from the end: here the
call is refused with ValueError. -/
theorem C48_negative (rho : Arr2 ℂ) (hr : rho.rows = 6) (hc : rho.cols = 6) :
    partialTrace rho [-1] [2, 3] = .error .valueError := by
  unfold partialTrace
  have h1 : [(-1 : Int)].mapM (npGet [2, 3]) = .ok [3] := by decide
  simp only [h1, bind, Except.bind]
  rw [if_neg (by rw [hr, hc]; decide)]
  have h2 : (List.range [2, 3].length ++ (List.range [2, 3].length).map fun i =>
      if ((i : Nat) : Int) ∈ [(-1 : Int)] then [2, 3].length + i else i) = [0, 1, 0, 1] := by decide
  rw [h2, if_pos]
  · rfl
  · simp only [einsum]
    have h3 : (labelsWith (· == 1) [0, 1, 0, 1]) = [] := by decide
    rw [h3]
    decide

/-- two lines of two and three levels, keeping the second -/
example : ∃ B, partialTrace (⟨6, 6, fun r c => ((10 * r + c : Nat) : ℂ)⟩) [1] [2, 3] = .ok B ∧ B.rows = 3 ∧ B.cols = 3 := by
  obtain ⟨B, h1, h2, h3, _⟩ := C48_reduced (n := 2) ![2, 3] [1] (by decide) ⟨6, 6, fun r c => ((10 * r + c : Nat) : ℂ)⟩
    (by decide) (by decide)
  exact ⟨B, h1, h2.trans (by decide), h3.trans (by decide)⟩

/-! ### C49 -/

/-- C49. One label per basis state, in the order of the basis states: the label of a state is the numerals of its levels. -/
theorem C49_labels (d : Fin n → Nat) (x : Reg d) :
    (stateLabels (List.ofFn d)).length = ∏ i, d i ∧
      (stateLabels (List.ofFn d))[idx d x]? = some ((List.ofFn fun i => Nat.toDigits 10 (x i : Nat)).flatten) := by
  refine ⟨by rw [labels_length, List.prod_ofFn], ?_⟩
  unfold stateLabels idx
  rw [List.getElem?_map, itProduct_getElem? (levels_ofFn d x), Option.map_some, label_fold, List.nil_append,
    List.flatMap_def, List.map_ofFn]
  rfl

/-- C49. The labels are different as long as no line has more than ten levels. -/
theorem C49_distinct_partial (dims : List Nat) (hd : ∀ x ∈ dims, x ≤ 10) : (stateLabels dims).Nodup := labels_nodup dims hd

/-- C49 is violated with more than ten levels: in the register with two lines of twelve levels, levels (1, 11) and (11, 1) are two basis
states with the same label "111". -/
theorem C49_labels_violated : (stateLabels [12, 12])[23]? = some ['1', '1', '1'] ∧
    (stateLabels [12, 12])[133]? = some ['1', '1', '1'] ∧ ¬ (stateLabels [12, 12]).Nodup := by
  have h1 : (stateLabels [12, 12])[23]? = some ['1', '1', '1'] := by
    have := (C49_labels (n := 2) ![12, 12] (twoLv 1 11)).2
    exact this
  have h2 : (stateLabels [12, 12])[133]? = some ['1', '1', '1'] := by
    have := (C49_labels (n := 2) ![12, 12] (twoLv 11 1)).2
    exact this
  refine ⟨h1, h2, ?_⟩
  intro hn
  obtain ⟨b1, e1⟩ := List.getElem?_eq_some_iff.1 h1
  obtain ⟨b2, e2⟩ := List.getElem?_eq_some_iff.1 h2
  have := (List.nodup_iff_injective_getElem.1 hn) (a₁ := ⟨23, b1⟩) (a₂ := ⟨133, b2⟩) (by simp only [e1, e2])
  simp at this

/-- C49. Without recorded mappings the histogram of a list of shots has one bin per basis state and the bin of a basis state counts the
shots with its index. -/
theorem C49_bins (d : Fin n → Nat) (l : List Nat) :
    ∃ r, plotCounts (.list l) (List.ofFn d) none = .ok r ∧ r.length = ∏ i, d i ∧
      ∀ x, r[idx d x]? = some (l.count (idx d x) : ℝ) := by
  refine ⟨(List.range (∏ i, d i)).map fun i => (l.count i : ℝ), ?_, by simp, ?_⟩
  · unfold plotCounts
    simp only [labels_length, List.prod_ofFn, counts_mapM, bind, Except.bind, remapResult]
  · intro x
    rw [List.getElem?_map, List.getElem?_range (idx_lt d x)]
    rfl

/-- C49. With recorded mappings the histogram has the same bins in another order. -/
theorem C49_bins_mapped (d : Fin (n + 1) → Nat) (m : (i : Fin (n + 1)) → Equiv.Perm (Fin (d i))) (l : List Nat) :
    ∃ r, plotCounts (.list l) (List.ofFn d) (some (mappingLists d m)) = .ok r ∧ r.length = ∏ i, d i ∧
      ∀ x, r[idx d (relabel d m x)]? = some (l.count (idx d x) : ℝ) := by
  obtain ⟨r, h1, h2, h3⟩ := remap_ok d m ((List.range (∏ i, d i)).map fun i => (l.count i : ℝ)) (by simp)
  refine ⟨r, ?_, h2, ?_⟩
  · unfold plotCounts
    simp only [labels_length, List.prod_ofFn, counts_mapM, bind, Except.bind]
    exact h1
  · intro x
    rw [h3, List.getElem?_map, List.getElem?_range (idx_lt d x)]
    rfl

/-- C49. When every shot is the index of a basis state, the bins sum to the number of shots, whatever mappings are recorded. -/
theorem C49_total (d : Fin (n + 1) → Nat) (m : (i : Fin (n + 1)) → Equiv.Perm (Fin (d i))) (l : List Nat)
    (hl : ∀ s ∈ l, s < ∏ i, d i) (mp : Option (List (List Nat))) (hm : mp = none ∨ mp = some (mappingLists d m)) :
    ∃ r, plotCounts (.list l) (List.ofFn d) mp = .ok r ∧ r.sum = (l.length : ℝ) := by
  have total : ∀ (r : List ℝ) (e : Reg d ≃ Reg d), r.length = ∏ i, d i →
      (∀ x, r[idx d (e x)]? = some (l.count (idx d x) : ℝ)) → r.sum = (l.length : ℝ) := by
    intro r e hlen hr
    rw [← count_sum l _ hl, range_sum, Finset.sum_range, ← (idxEquiv d).sum_comp, ← Fin.sum_univ_getElem,
      ← (finCongr hlen).symm.sum_comp, ← (idxEquiv d).sum_comp, ← e.sum_comp]
    apply Finset.sum_congr rfl
    intro x _
    have := (List.getElem?_eq_some_iff.1 (hr x)).2
    exact this
  rcases hm with rfl | rfl
  · obtain ⟨r, h1, h2, h3⟩ := C49_bins d l
    exact ⟨r, h1, total r (Equiv.refl _) h2 h3⟩
  · obtain ⟨r, h1, h2, h3⟩ := C49_bins_mapped d m l
    exact ⟨r, h1, total r (relabelEquiv d m) h2 h3⟩

/-- C49 is violated for shots in a numpy array, which the annotation of `plot_counts` allows: AttributeError for every register. -/
theorem C49_array_violated (d : Fin n → Nat) (h : ∀ i, 0 < d i) (l : List Nat) (mp : Option (List (List Nat))) :
    plotCounts (.ndarray l) (List.ofFn d) mp = .error .attributeError := by
  have hp : 0 < ∏ i, d i := Finset.prod_pos fun i _ => h i
  obtain ⟨k, hk⟩ : ∃ k, ∏ i, d i = k + 1 := ⟨_, (Nat.succ_pred_eq_of_pos hp).symm⟩
  unfold plotCounts
  simp only [labels_length, List.prod_ofFn, hk, List.range_succ_eq_map, List.mapM_cons]
  rfl

example : ∃ r, plotCounts (.list [0, 5, 5, 2]) [2, 3] none = .ok r ∧ r.length = 6 ∧ r[5]? = some 2 ∧ r[1]? = some 0 := by
  obtain ⟨r, h1, h2, h3⟩ := C49_bins (n := 2) ![2, 3] [0, 5, 5, 2]
  refine ⟨r, h1, h2.trans (by decide), ?_, ?_⟩
  · have := h3 (twoLv 1 2)
    have hc : List.count (idx ![2, 3] (twoLv 1 2)) [0, 5, 5, 2] = 2 := by decide
    rw [hc] at this
    exact this.trans (by norm_num)
  · have := h3 (twoLv 0 1)
    have hc : List.count (idx ![2, 3] (twoLv 0 1)) [0, 5, 5, 2] = 0 := by decide
    rw [hc] at this
    exact this.trans (by norm_num)

/-! ### C50 -/

/-- C50. What `remap_result` does with mappings that are permutations: the entry of a basis state moves to the basis state it is mapped
to. -/
theorem C50_moves (d : Fin (n + 1) → Nat) (m : (i : Fin (n + 1)) → Equiv.Perm (Fin (d i))) (v : List ℝ)
    (hv : v.length = ∏ i, d i) :
    ∃ r, remapResult v (List.ofFn d) (some (mappingLists d m)) = .ok r ∧ r.length = ∏ i, d i ∧
      ∀ x, r[idx d (relabel d m x)]? = v[idx d x]? := remap_ok d m v hv

/-- C50. Without recorded mappings the result is returned as it is. -/
theorem C50_none (v : List ℝ) (dims : List Nat) : remapResult v dims none = .ok v ∧ remapResult v dims (some []) = .ok v :=
  ⟨rfl, rfl⟩

/-- C50 holds exactly for mappings that are their own inverses: then, and only then, the result lists for every logical basis state the
entry of the physical state it was mapped to. -/
theorem C50_logical_partial (d : Fin (n + 1) → Nat) (m : (i : Fin (n + 1)) → Equiv.Perm (Fin (d i))) (hd : ∀ i, 0 < d i) :
    (∀ v : List ℝ, v.length = ∏ i, d i → ∃ r, remapResult v (List.ofFn d) (some (mappingLists d m)) = .ok r ∧
      ∀ x, r[idx d x]? = v[idx d (relabel d m x)]?) ↔ ∀ i k, m i (m i k) = k := by
  constructor
  · intro h
    have key : ∀ x : Reg d, relabel d m (relabel d m x) = x := by
      intro x
      let v : List ℝ := (List.range (∏ i, d i)).map fun k : Nat => (k : ℝ)
      have hv : v.length = ∏ i, d i := by simp [v]
      obtain ⟨r, h1, h2⟩ := h v hv
      obtain ⟨r', h3, _, h4⟩ := remap_ok d m v hv
      rw [h1] at h3
      cases h3
      have e := (h2 (relabel d m x)).symm.trans (h4 x)
      have hval : ∀ y, v[idx d y]? = some (idx d y : ℝ) := by
        intro y
        simp only [v]
        rw [List.getElem?_map, List.getElem?_range (idx_lt d y)]
        rfl
      rw [hval, hval] at e
      exact idx_injective d (by exact_mod_cast Option.some.inj e)
    intro i k
    have := congrFun (key (fun j => if h : j = i then h ▸ k else ⟨0, hd j⟩)) i
    simpa [relabel] using this
  · intro h v hv
    obtain ⟨r, h1, _, h3⟩ := remap_ok d m v hv
    refine ⟨r, h1, ?_⟩
    intro x
    have := h3 (relabel d m x)
    have e : relabel d m (relabel d m x) = x := by funext i; exact h i (x i)
    rw [e] at this
    exact this

/-- the placement [3, 2, 4, 1, 0] of the level graph in test/python/core/test_level_graph.py -/
def testPlacement : Equiv.Perm (Fin 5) where
  toFun := ![3, 2, 4, 1, 0]
  invFun := ![4, 3, 1, 0, 2]
  left_inv := by decide
  right_inv := by decide

/-- C50 is violated for one line of five levels with the placement [3, 2, 4, 1, 0] (a placement of the project's own tests): the compiled
circuit leaves the logical state 0 in the physical level 3, and reading the result through the mapping reports it as logical state 1. -/
theorem C50_direction_violated :
    ∃ r, remapResult ([0, 0, 0, 1, 0] : List ℝ) [5] (some [[3, 2, 4, 1, 0]]) = .ok r ∧ r[1]? = some (1 : ℝ) ∧ r[0]? = some 0 := by
  obtain ⟨r, h1, _, h3⟩ := C50_moves (n := 0) ![5] (fun i => match i with | ⟨0, _⟩ => testPlacement) [0, 0, 0, 1, 0] (by decide)
  refine ⟨r, h1, ?_, ?_⟩
  · have := h3 (fun i => match i with | ⟨0, _⟩ => (3 : Fin 5))
    exact this
  · have := h3 (fun i => match i with | ⟨0, _⟩ => (4 : Fin 5))
    exact this

/-! ### C63 -/

/-- C63. On registers of at least two lines with at most ten levels, the density matrix made from a non-empty list of shots is diagonal
and holds the share of the shots with each index. -/
theorem C63_diagonal_partial (d : Fin n → Nat) (results : List Nat) (hn : 2 ≤ n) (hd : ∀ i, d i ≤ 10) (hr : results ≠ []) :
    ∃ B, densityFromCounts results (List.ofFn d) = .ok B ∧ B.rows = ∏ i, d i ∧ B.cols = ∏ i, d i ∧
      ∀ x y, opOf d B x y = if x = y then (results.count (idx d x) : ℝ) / (results.length : ℝ) else 0 := by
  obtain ⟨B, h1, h2, h3, h4⟩ := density_ok results (List.ofFn d) (by simpa using hn)
    (by intro x hx; rw [List.mem_ofFn] at hx; obtain ⟨i, rfl⟩ := hx; exact hd i) hr
  rw [List.prod_ofFn] at h2 h3 h4
  refine ⟨B, h1, h2, h3, ?_⟩
  intro x y
  unfold opOf
  rw [h4 _ _ (idx_lt d x) (idx_lt d y)]
  by_cases h : x = y
  · rw [if_pos h, if_pos (by rw [h])]
  · rw [if_neg h, if_neg (fun e => h (idx_injective d e))]

/-- C63. Its trace is one when every shot is the index of a basis state. -/
theorem C63_trace_partial (d : Fin n → Nat) (results : List Nat) (hn : 2 ≤ n) (hd : ∀ i, d i ≤ 10) (hr : results ≠ [])
    (hl : ∀ s ∈ results, s < ∏ i, d i) :
    ∃ B, densityFromCounts results (List.ofFn d) = .ok B ∧ (opOf d B).trace = 1 := by
  obtain ⟨B, h1, _, _, h4⟩ := C63_diagonal_partial d results hn hd hr
  refine ⟨B, h1, ?_⟩
  unfold Matrix.trace
  simp only [Matrix.diag_apply, h4, if_true]
  have hne : (results.length : ℝ) ≠ 0 := by
    simpa using hr
  have : (∑ x : Reg d, (results.count (idx d x) : ℝ)) = (results.length : ℝ) := by
    rw [← count_sum results _ hl, range_sum, Finset.sum_range, ← (idxEquiv d).sum_comp]
    rfl
  rw [← Finset.sum_div, this, div_self hne]

/-- C63 is violated on one line: AttributeError for every list of shots. -/
theorem C63_single_violated (results : List Nat) (d : Nat) (h0 : 0 < d) (hd : d ≤ 10) (hr : results ≠ []) :
    densityFromCounts results [d] = .error .attributeError := density_single results d h0 hd hr

/-- C63 is violated as soon as some line has more than ten levels: IndexError for every list of shots. -/
theorem C63_wide_violated (results dims : List Nat) (hp : ∀ x ∈ dims, 0 < x) (hw : ∃ x ∈ dims, 10 < x) (hr : results ≠ []) :
    densityFromCounts results dims = .error .indexError := density_wide results dims hp hw hr

/-- C63. No shots at all are refused. -/
theorem C63_empty (d : Fin (n + 1) → Nat) (h : ∀ i, 0 < d i) :
    densityFromCounts [] (List.ofFn d) = .error .zeroDivisionError := by
  have hp : 0 < ∏ i, d i := Finset.prod_pos fun i _ => h i
  unfold densityFromCounts
  rw [if_neg (by rw [List.ofFn_succ]; simp)]
  simp only [List.prod_ofFn, bind, Except.bind]
  rw [if_pos ⟨rfl, by omega⟩]
  rfl

example : ∃ B, densityFromCounts [0, 5, 5, 2] [2, 3] = .ok B ∧ (opOf ![2, 3] B).trace = 1 :=
  C63_trace_partial (n := 2) ![2, 3] [0, 5, 5, 2] (by decide) (by decide) (by decide) (by decide)

end Qudits
