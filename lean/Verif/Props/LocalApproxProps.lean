import Verif.Lemmas.LocalApprox
/-! # The approximation node by node and the counts of nodes (C93) -/
namespace Qudits
open Spec MicroDD RetrieveState

open Classical in
/-- `dd_approximation` on the tree of a vector. An amplitude becomes 0 exactly if on its way some part has less than the share `tol` of the
probability of the part directly above it; every other amplitude stays as it is. The tree is normalised again. Every line has at least two
levels. -/
theorem C93_amplitudes (dims : List Nat) (data : List ℂ) (hd : ∀ d ∈ dims, 2 ≤ d) (hlen : data.length = dims.prod) (tol : ℝ) :
    ∃ t, create dims data = .ok t ∧ Normal dims (ddApprox tol dims.length t) ∧ Shape dims (ddApprox tol dims.length t) ∧
      ∀ path, Levels dims path → amp (ddApprox tol dims.length t) path =
        if ∃ q i, q ++ [i] <+: path ∧ prob (branch dims data (q ++ [i])) < tol * prob (branch dims data q) then 0
        else data.getD (index dims path) 0 := by
  have hpos : ∀ d ∈ dims, 0 < d := fun d h => by have := hd d h; omega
  obtain ⟨t, h1, h2, h3, h4⟩ := build_spec dims data hpos hlen
  have hraw := raw_prune tol dims t (raw_of_normal h2 (build_shape dims data t hpos hlen h1))
  obtain ⟨n1, n2, n3⟩ := normalizeAll_spec dims _ hd hraw
  rw [← ddApprox_eq] at n1 n2 n3
  refine ⟨t, h1, n1, n2, fun path hp => ?_⟩
  rw [n3 path hp]
  have := prune_amp tol dims data t 1 hlen h2 (by simpa using h4) path hp
  rw [one_mul] at this
  exact this

/-- The probability lost is at most the tolerance times the sum of the dimensions (as a share of that of the vector). -/
theorem C93_lost (dims : List Nat) (data : List ℂ) (hd : ∀ d ∈ dims, 2 ≤ d) (hlen : data.length = dims.prod) (tol : ℝ) (htol : 0 ≤ tol) :
    ∃ t kept, create dims data = .ok t ∧ kept.length = data.length ∧ (∀ i, kept.getD i 0 = 0 ∨ kept.getD i 0 = data.getD i 0) ∧
      prob data - tol * dims.sum * prob data ≤ prob kept ∧
      ∀ path, Levels dims path → amp (ddApprox tol dims.length t) path = kept.getD (index dims path) 0 := by
  classical
  obtain ⟨t, h1, _, _, h4⟩ := C93_amplitudes dims data hd hlen tol
  refine ⟨t, keptBy tol dims data, h1, by rw [keptBy_length, hlen], ?_, keptBy_prob htol dims data hlen, ?_⟩
  · intro i
    by_cases hi : i < dims.prod
    · obtain ⟨p, hp, rfl⟩ := index_surj hi
      rw [keptBy_getD _ _ hp]
      split
      · exact Or.inl rfl
      · exact Or.inr rfl
    · left
      rw [List.getD_eq_getElem?_getD, List.getElem?_eq_none (by rw [keptBy_length]; omega)]
      rfl
  · intro p hp
    rw [keptBy_getD _ _ hp, h4 p hp]
    rfl

/-- A tolerance that is not positive changes no amplitude. -/
theorem C93_no_tolerance (dims : List Nat) (data : List ℂ) (hd : ∀ d ∈ dims, 2 ≤ d) (hlen : data.length = dims.prod) (tol : ℝ) (htol : tol ≤ 0) :
    ∃ t, create dims data = .ok t ∧ ∀ path, Levels dims path → amp (ddApprox tol dims.length t) path = data.getD (index dims path) 0 := by
  obtain ⟨t, h1, _, _, h4⟩ := C93_amplitudes dims data hd hlen tol
  refine ⟨t, h1, fun path hp => ?_⟩
  rw [h4 path hp, if_neg]
  rintro ⟨q, i, _, h⟩
  have := prob_nonneg (branch dims data (q ++ [i]))
  have := mul_nonneg (neg_nonneg.2 htol) (prob_nonneg (branch dims data q))
  linarith

theorem normalize_of_norm {w : ℂ} {out : List ℂ} {r : ℝ} (hr : 0 < r) (h : (out.map fun x => x.re ^ 2 + x.im ^ 2).sum = r ^ 2) :
    normalize w out = (w * r, out.map fun x => x / (r : ℂ)) := by
  unfold MicroDD.normalize
  rw [h, Real.sqrt_sq hr.le]
  simp only [if_neg hr.ne']

/-- The bound of `C93_lost` cannot be replaced by the tolerance itself: on one line of three levels with tolerance 1/5 two amplitudes with
together 1/3 of the probability are lost. -/
theorem C93_tolerance_exceeded : ∃ t, create [3] [1, 1, 2] = .ok t ∧ amp (ddApprox (1 / 5) 1 t) [0] = 0 ∧ amp (ddApprox (1 / 5) 1 t) [1] = 0 ∧
    amp (ddApprox (1 / 5) 1 t) [2] = 2 ∧ prob [0, 0, 2] < prob [1, 1, 2] - 1 / 5 * prob [1, 1, 2] := by
  obtain ⟨t, h1, _, _, h4⟩ := C93_amplitudes [3] [1, 1, 2] (by simp) rfl (1 / 5)
  have p : prob (branch [3] [1, 1, 2] []) = 6 := by simp [branch, prob]; norm_num
  have p0 : prob (branch [3] [1, 1, 2] ([] ++ [0])) = 1 := by simp [branch, prob, List.take]
  have p1 : prob (branch [3] [1, 1, 2] ([] ++ [1])) = 1 := by simp [branch, prob, List.take]
  have p2 : prob (branch [3] [1, 1, 2] ([] ++ [2])) = 4 := by simp [branch, prob, List.take]; norm_num
  refine ⟨t, h1, ?_, ?_, ?_, ?_⟩
  · refine (h4 [0] (.cons (by norm_num) .nil)).trans (if_pos ⟨[], 0, by simp, by rw [p, p0]; norm_num⟩)
  · refine (h4 [1] (.cons (by norm_num) .nil)).trans (if_pos ⟨[], 1, by simp, by rw [p, p1]; norm_num⟩)
  · refine (h4 [2] (.cons (by norm_num) .nil)).trans ((if_neg ?_).trans (by simp [index]))
    rintro ⟨q, i, hq, h⟩
    cases q with
    | nil =>
      rw [List.nil_append, List.cons_prefix_cons] at hq
      rw [hq.1, p, p2] at h
      norm_num at h
    | cons a q => have := hq.length_le; simp at this
  · simp [prob]; norm_num

/-- A line of one level breaks it: the weight that moves up into the node is not taken out of its only child. The vector (4/5, 3/5) over the
dimensions 1 and 2 loses its second amplitude, and the first becomes 16/25. The same holds for `normalize_all`. -/
theorem C93_one_level_violated : ∃ t, create [1, 2] [4 / 5, 3 / 5] = .ok t ∧ amp (ddApprox (1 / 2) 2 t) [0, 0] = 16 / 25 ∧
    amp (ddApprox (1 / 2) 2 t) [0, 1] = 0 := by
  have c1 : (4 / 5 : ℂ) = ((4 / 5 : ℝ) : ℂ) := by norm_num
  have c2 : (3 / 5 : ℂ) = ((3 / 5 : ℝ) : ℂ) := by norm_num
  have n1 : normalize 1 [4 / 5, 3 / 5] = (1, [4 / 5, 3 / 5]) := by
    rw [normalize_of_norm one_pos (by rw [c1, c2]; simp [-Complex.ofReal_div]; norm_num)]; simp
  have n2 : normalize 1 [1] = (1, [1]) := by
    rw [normalize_of_norm one_pos (by simp)]; simp
  have n3 : normalize 1 [4 / 5, 0] = (4 / 5, [1, 0]) := by
    rw [normalize_of_norm (r := 4 / 5) (by norm_num) (by rw [c1]; simp [-Complex.ofReal_div])]; simp
  have n4 : normalize 1 [4 / 5] = (4 / 5, [1]) := by
    rw [normalize_of_norm (r := 4 / 5) (by norm_num) (by rw [c1]; simp [-Complex.ofReal_div])]; simp
  have k1 : ‖(3 / 5 : ℂ)‖ = 3 / 5 := by rw [c2, Complex.norm_real]; norm_num
  have k2 : ‖(4 / 5 : ℂ)‖ = 4 / 5 := by rw [c1, Complex.norm_real]; norm_num
  have hb : create [1, 2] [4 / 5, 3 / 5] = .ok (node { weight := 1 } [node { weight := 1 } [node { weight := 4 / 5, terminal := true } [oneNode],
      node { weight := 3 / 5, terminal := true } [oneNode]]]) := by
    simp [create, build, slice, List.range_succ, weight, info, n1, n2, setWeight, children, bind, Except.bind, pure, Except.pure]
  refine ⟨_, hb, ?_⟩
  have e1 : ddApprox (1 / 2) 1 (node { weight := 1 } [node { weight := 4 / 5, terminal := true } [oneNode],
      node { weight := 3 / 5, terminal := true } [oneNode]]) = node { weight := 4 / 5 } [node { weight := 1, terminal := true } [oneNode],
      node { weight := 0, terminal := true } [oneNode]] := by
    have a1 : ¬ (4 / 5 : ℝ) ^ 2 < 1 / 2 := by norm_num
    have a2 : (3 / 5 : ℝ) ^ 2 < 1 / 2 ∧ (3 / 5 : ℝ) ^ 2 ≠ 0 := by norm_num
    have d1 : cutSmall (1 / 2) (node { weight := 4 / 5, terminal := true } [oneNode]) = node { weight := 4 / 5, terminal := true } [oneNode] := by
      unfold cutSmall; simp only [weight, info, k2]; rw [if_neg fun h => a1 h.1]
    have d2 : cutSmall (1 / 2) (node { weight := 3 / 5, terminal := true } [oneNode]) = node { weight := 0, terminal := true } [oneNode] := by
      unfold cutSmall; simp only [weight, info, k1]; rw [if_pos a2]; rfl
    rw [ddApprox]
    simp only [List.map_cons, List.map_nil, d1, d2, ddApprox, weight, info, n3]
    simp [setWeight, info, children]
  have e2 : ddApprox (1 / 2) 2 (node { weight := 1 } [node { weight := 1 } [node { weight := 4 / 5, terminal := true } [oneNode],
      node { weight := 3 / 5, terminal := true } [oneNode]]]) = node { weight := 4 / 5 } [node { weight := 4 / 5 }
        [node { weight := 1, terminal := true } [oneNode], node { weight := 0, terminal := true } [oneNode]]] := by
    have d1 : cutSmall (1 / 2) (node { weight := 1 } [node { weight := 4 / 5, terminal := true } [oneNode],
        node { weight := 3 / 5, terminal := true } [oneNode]]) = node { weight := 1 } [node { weight := 4 / 5, terminal := true } [oneNode],
        node { weight := 3 / 5, terminal := true } [oneNode]] := by
      unfold cutSmall
      rw [if_neg]
      simp only [weight, info]
      norm_num
    rw [ddApprox]
    simp only [List.map_cons, List.map_nil, d1, e1]
    simp only [weight, info, n4]
    simp
  rw [e2]
  constructor
  · simp [amp, ampRel, weight, info, children]; norm_num
  · simp [amp, ampRel, weight, info, children]

/-- `create_decision_tree` reports one node for every choice of levels of the first lines, for every number of lines. -/
theorem C93_created (dims : List Nat) : createCount dims = ((List.range (dims.length + 1)).map fun k => (dims.take k).prod).sum := by
  have := buildCount_eq dims 1
  unfold createCount
  omega

/-- The number of nodes after the reduction: the count succeeds on the reduced tree of every vector, it counts at least the root and never
more than the tree had before the reduction; if no amplitude is 0, it counts at least one node per line and the leaf. -/
theorem C93_reduced (H : List (Int × ℂ) → Int) (dims : List Nat) (data : List ℂ) (hpos : ∀ d ∈ dims, 0 < d) (hlen : data.length = dims.prod) :
    ∃ t t' m, create dims data = .ok t ∧ aggregate dims.length (hashing H t) = .ok t' ∧ countAfter dims t' 0 = .ok m ∧
      1 ≤ m ∧ m ≤ createCount dims ∧ ((∀ x ∈ data, x ≠ 0) → dims.length + 1 ≤ m) := by
  obtain ⟨t, h1, h2, _, h4⟩ := build_spec dims data hpos hlen
  obtain ⟨t', m, g1, g2, g3, g4⟩ := count_main H dims t hpos h2 (build_shape dims data t hpos hlen h1)
  refine ⟨t, t', m, h1, g1, by simpa using g4 0, g2.1, by rw [C93_created]; exact g3, fun h => g2.2 fun p hp h0 => ?_⟩
  have e := h4 p hp
  unfold amp at e
  have hi : index dims p < data.length := by rw [hlen]; exact index_lt hp
  rw [h0, mul_zero, List.getD_eq_getElem?_getD, List.getElem?_eq_getElem hi] at e
  exact h _ (List.getElem_mem hi) e.symm

/-- A vector of equal amplitudes is reduced to a chain, one node per line and the leaf. -/
theorem C93_uniform (H : List (Int × ℂ) → Int) (dims : List Nat) (hpos : ∀ d ∈ dims, 0 < d) (x : ℂ) (hx : x ≠ 0) :
    ∃ t t', create dims (List.replicate dims.prod x) = .ok t ∧ aggregate dims.length (hashing H t) = .ok t' ∧
      countAfter dims t' 0 = .ok (dims.length + 1) := by
  obtain ⟨t, h1, h2, _⟩ := build_uni x hx dims hpos
  obtain ⟨t', g1, g2⟩ := count_uni H dims t hpos h2
  exact ⟨t, t', h1, g1, by simpa using g2 0⟩

/-- two lines of two and three levels: 1 + 2 + 6 nodes -/
example : createCount [2, 3] = 9 := rfl

end Qudits
