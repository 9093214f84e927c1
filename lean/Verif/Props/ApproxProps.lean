import Verif.Lemmas.ApproxTree
import Verif.Props.StatePrepProps
/-! # Approximation of states (C39) and preparation of approximated states (C57) -/
namespace Qudits
open Spec MicroDD StatePrep Matrix
open PhasePass (GateSemantics)

/-! ### C39 -/

/-- The nodes that are cut, named by the levels `q` of the first lines, are parts of the register with non-zero probability; the probabilities
of all parts cut add up to less than the tolerance; the amplitudes below a node that is cut become 0, all others stay as they are. -/
theorem C39_cut (dims : List Nat) (data : List ℂ) (hpos : ∀ d ∈ dims, 0 < d) (hlen : data.length = dims.prod) (tol : ℝ) :
    ∃ t cuts, create dims data = .ok t ∧ cuts.Nodup ∧ (∀ q ∈ cuts, IsPart dims q ∧ prob (branch dims data q) ≠ 0) ∧
      (cuts ≠ [] → (cuts.map fun q => prob (branch dims data q)).sum < tol) ∧
      (∀ path, Levels dims path → amp (cutTree tol dims.length t) path = if ∃ q ∈ cuts, q <+: path then 0 else data.getD (index dims path) 0) ∧
      -- nothing smaller is kept, and nothing is kept that would still fit
      ∀ q, IsPart dims q → prob (branch dims data q) ≠ 0 → q ∉ cuts →
        (∀ q' ∈ cuts, q'.length = q.length → prob (branch dims data q') ≤ prob (branch dims data q)) ∧
        tol ≤ ((cuts.filter fun q' => q.length ≤ q'.length).map fun q => prob (branch dims data q)).sum + prob (branch dims data q) := by
  obtain ⟨t, h1, h2, h3, h4⟩ := build_spec dims data hpos hlen
  obtain ⟨a, b, c, e⟩ := cutBranches_spec hlen h2 h4 tol
  refine ⟨t, _, h1, a, b, c, ?_, e⟩
  intro path hp
  rw [cutTree, amp_cuts, h4 path hp]

/-- After the normalisation the tree stands for a vector in which every amplitude is that of the state or 0, and the probability lost is
below the tolerance. The tree is normalised again; every line has at least two levels. -/
theorem C39_approximate (dims : List Nat) (data : List ℂ) (hd : ∀ d ∈ dims, 2 ≤ d) (hlen : data.length = dims.prod) (tol : ℝ) (htol : 0 < tol) :
    ∃ t kept, create dims data = .ok t ∧ kept.length = data.length ∧
      (∀ i, kept.getD i 0 = 0 ∨ kept.getD i 0 = data.getD i 0) ∧ prob data - tol < prob kept ∧
      Normal dims (approximate tol dims.length t) ∧ Shape dims (approximate tol dims.length t) ∧
      ∀ path, Levels dims path → amp (approximate tol dims.length t) path = kept.getD (index dims path) 0 := by
  have hpos : ∀ d ∈ dims, 0 < d := fun d h => by have := hd d h; omega
  obtain ⟨t, h1, h2, h3, h4⟩ := build_spec dims data hpos hlen
  obtain ⟨a, b, c, e⟩ := cutBranches_spec hlen h2 h4 tol
  have hraw := raw_cuts (cutBranches (contributions dims.length t) tol) (raw_of_normal h2 (build_shape dims data t hpos hlen h1))
  obtain ⟨n1, n2, n3⟩ := normalizeAll_spec dims _ hd hraw
  refine ⟨t, truncated dims data (cutBranches (contributions dims.length t) tol), h1, by rw [truncated_length, hlen], ?_, ?_, n1, n2, ?_⟩
  · intro i
    by_cases hi : i < dims.prod
    · obtain ⟨p, hp, rfl⟩ := index_surj hi
      rw [truncated_getD _ _ hp]
      split
      · exact Or.inl rfl
      · exact Or.inr rfl
    · left
      rw [List.getD_eq_getElem?_getD, List.getElem?_eq_none (by rw [truncated_length]; omega)]
      rfl
  · have := truncated_prob hlen (cuts := cutBranches (contributions dims.length t) tol) (fun q hq => (b q hq).1.2.2)
    by_cases hc : cutBranches (contributions dims.length t) tol = []
    · rw [hc] at this ⊢
      simp only [List.map_nil, List.sum_nil, sub_zero] at this
      linarith
    · have := c hc
      linarith
  · intro p hp
    rw [truncated_getD _ _ hp]
    unfold approximate cutTree
    rw [n3 p hp, amp_cuts, h4 p hp]

/-- A tolerance that is not positive cuts nothing. -/
theorem C39_no_tolerance (dims : List Nat) (data : List ℂ) (hpos : ∀ d ∈ dims, 0 < d) (hlen : data.length = dims.prod) (tol : ℝ) (htol : tol ≤ 0) :
    ∃ t, create dims data = .ok t ∧ ∀ path, Levels dims path → amp (cutTree tol dims.length t) path = data.getD (index dims path) 0 := by
  obtain ⟨t, cuts, h1, _, _, h3, h4, _⟩ := C39_cut dims data hpos hlen tol
  refine ⟨t, h1, fun path hp => ?_⟩
  rw [h4 path hp, if_neg]
  rintro ⟨q, hq, _⟩
  have := h3 (List.ne_nil_of_mem hq)
  have h0 : 0 ≤ (cuts.map fun q => prob (branch dims data q)).sum := List.sum_nonneg (by
    intro x hx
    obtain ⟨q, _, rfl⟩ := List.mem_map.1 hx
    exact prob_nonneg _)
  linarith

/-- a small amplitude is cut: 4/5 |00> + 3/5 |11> with tolerance 1/2 loses |11> -/
example : ∃ t, create [2, 2] [4 / 5, 0, 0, 3 / 5] = .ok t ∧ amp (cutTree (1 / 2) 2 t) [0, 0] = 4 / 5 ∧ amp (cutTree (1 / 2) 2 t) [1, 1] = 0 := by
  obtain ⟨t, cuts, h1, hnd, h2, h3, h4, h5⟩ := C39_cut [2, 2] [4 / 5, 0, 0, 3 / 5] (by simp) rfl (1 / 2)
  have n1 : ‖(3 / 5 : ℂ)‖ = 3 / 5 := by rw [show (3 / 5 : ℂ) = ((3 / 5 : ℝ) : ℂ) by norm_num, Complex.norm_real]; norm_num
  have n2 : ‖(4 / 5 : ℂ)‖ = 4 / 5 := by rw [show (4 / 5 : ℂ) = ((4 / 5 : ℝ) : ℂ) by norm_num, Complex.norm_real]; norm_num
  have p00 : prob (branch [2, 2] [4 / 5, 0, 0, 3 / 5] [0, 0]) = 16 / 25 := by simp [branch, prob, List.take]; norm_num
  have p0 : prob (branch [2, 2] [4 / 5, 0, 0, 3 / 5] [0]) = 16 / 25 := by simp [branch, prob, List.take]; norm_num
  have p11 : prob (branch [2, 2] [4 / 5, 0, 0, 3 / 5] [1, 1]) = 9 / 25 := by simp [branch, prob, List.take]; norm_num
  have big : ∀ q ∈ cuts, prob (branch [2, 2] [4 / 5, 0, 0, 3 / 5] q) < 1 / 2 := by
    intro q hq
    refine lt_of_le_of_lt ?_ (h3 (List.ne_nil_of_mem hq))
    refine List.single_le_sum ?_ _ (List.mem_map.2 ⟨q, hq, rfl⟩)
    intro x hx
    obtain ⟨q, _, rfl⟩ := List.mem_map.1 hx
    exact prob_nonneg _
  refine ⟨t, h1, ?_, ?_⟩
  · refine (h4 [0, 0] (.cons (by norm_num) (.cons (by norm_num) .nil))).trans ?_
    rw [if_neg]
    · simp [index]
    · rintro ⟨q, hq, hp⟩
      have hb := big q hq
      have h0 := (h2 q hq).1.1
      match q, hp, h0, hb with
      | [a], hp, _, hb =>
        rw [List.cons_prefix_cons] at hp
        rw [hp.1, p0] at hb
        norm_num at hb
      | [a, b], hp, _, hb =>
        rw [List.cons_prefix_cons, List.cons_prefix_cons] at hp
        rw [hp.1, hp.2.1, p00] at hb
        norm_num at hb
      | a :: b :: c :: q, hp, _, _ =>
        have := hp.length_le
        simp at this
  · refine (h4 [1, 1] (.cons (by norm_num) (.cons (by norm_num) .nil))).trans ?_
    rw [if_pos]
    refine ⟨[1, 1], ?_, List.prefix_rfl⟩
    by_contra hn
    have := (h5 [1, 1] ⟨by simp, by simp, .cons (by norm_num) (.cons (by norm_num) .nil)⟩ (by rw [p11]; norm_num) hn).2
    rw [p11] at this
    -- the deepest nodes cut before: of the four, only those with probability at most 9/25 that are not zero
    have hall : ∀ q' ∈ cuts.filter (fun q' => ([1, 1] : List Nat).length ≤ q'.length), False := by
      intro q' hq'
      rw [List.mem_filter] at hq'
      obtain ⟨hq, hl⟩ := hq'
      obtain ⟨⟨_, hl2, hL⟩, h0⟩ := h2 q' hq
      have hb := big q' hq
      simp only [List.length_cons, List.length_nil, decide_eq_true_eq] at hl hl2
      match q', hl, hl2, hL, h0, hb, hq with
      | [a, b], _, _, hL, h0, hb, hq =>
        simp only [List.length_cons, List.length_nil] at hL
        cases hL with
        | cons ha hL =>
        cases hL with
        | cons hbb _ =>
        interval_cases a <;> interval_cases b
        · rw [p00] at hb; norm_num at hb
        · apply h0; simp [branch, prob, List.take]
        · apply h0; simp [branch, prob, List.take]
        · exact hn hq
    rw [List.eq_nil_iff_forall_not_mem.2 hall] at this
    norm_num at this

/-! ### C57 -/

variable {n : Nat} {d : Fin n → Nat}

theorem sum_reg (f : Nat → ℝ) : ∑ x : Reg d, f (idx d x) = ∑ k ∈ Finset.range (List.ofFn d).prod, f k := by
  have hp : (List.ofFn d).prod = ∏ i, d i := by rw [List.prod_ofFn]
  rw [hp]
  refine Finset.sum_bij (fun x _ => idx d x) ?_ ?_ ?_ ?_
  · intro x _
    rw [Finset.mem_range, ← hp]
    have := lvl_levels (ext_valid x) (List.ofFn d) 0 rfl
    rw [lvl_ext] at this
    exact index_lt this
  · intro x _ y _ h; exact idx_injective d h
  · intro k hk
    obtain ⟨x, hx⟩ := idx_surjective d k (Finset.mem_range.1 hk)
    exact ⟨x, Finset.mem_univ x, hx⟩
  · intro x _; rfl

theorem overlap_bound {ι : Type} [Fintype ι] (φ χ : ι → ℂ) : ‖∑ x, starRingEnd ℂ (φ x) * χ x‖ ≤ nrm φ * nrm χ := by
  have h1 : ‖∑ x, starRingEnd ℂ (φ x) * χ x‖ ≤ ∑ x, ‖φ x‖ * ‖χ x‖ := by
    refine (norm_sum_le _ _).trans (le_of_eq (Finset.sum_congr rfl fun x _ => ?_))
    rw [norm_mul, RCLike.norm_conj]
  have h2 := Real.sum_mul_le_sqrt_mul_sqrt Finset.univ (fun x => ‖φ x‖) (fun x => ‖χ x‖)
  rw [← nrm_sq, ← nrm_sq, Real.sqrt_sq (nrm_nonneg _), Real.sqrt_sq (nrm_nonneg _)] at h2
  exact h1.trans h2

/-- the tree behind C57, with what is said there -/
theorem approx_tree (hn : 0 < n) (hd : ∀ i, 2 ≤ d i) {state : List ℂ} (hlen : state.length = (List.ofFn d).prod) (hunit : vecNorm state = 1)
    {tol : ℝ} (htol : 0 < tol) (htol1 : tol ≤ 1) :
    ∃ kept : List ℂ, kept.length = state.length ∧ (∀ i, kept.getD i 0 = 0 ∨ kept.getD i 0 = state.getD i 0) ∧ 1 - tol < prob kept ∧
      ∀ H : List (Int × ℂ) → Int, (∀ t, create (List.ofFn d) state = .ok t → NoCollision H (approximate tol n t)) →
      SharableState (List.ofFn d) kept → ∀ del : ℝ, 0 ≤ del →
        (∃ T, compileApprox H del tol (List.ofFn d) state = fromTree H del (List.ofFn d) T ∧ Normal (List.ofFn d) T ∧ Shape (List.ofFn d) T ∧
          SharableTree (List.ofFn d) T ∧ NoCollision H T) ∧
        ((∀ i j, i ≤ j → d j ≤ d i) → ∃ out, compileApprox H del tol (List.ofFn d) state = .ok out) ∧
        ∀ out, compileApprox H del tol (List.ofFn d) state = .ok out → out.length + 2 ≤ 2 * state.length ∧
          ∀ sem : PInstr → Matrix (Reg d) (Reg d) ℂ, GateSemantics d sem →
            ∑ x : Reg d, ‖(circuitOp sem out *ᵥ ground d) x - kept.getD (idx d x) 0 / vecNorm kept‖ ^ 2 ≤ (del * ∏ i, (d i : ℝ)) ^ 2 ∧
            Real.sqrt (1 - tol) - del * ∏ i, (d i : ℝ) ≤
              ‖∑ x : Reg d, starRingEnd ℂ (state.getD (idx d x) 0) * (circuitOp sem out *ᵥ ground d) x‖ := by
  have hD2 : ∀ e ∈ List.ofFn d, 2 ≤ e := fun e he => dims_ge_two hd e he
  have hpos : ∀ e ∈ List.ofFn d, 0 < e := fun e he => by have := hD2 e he; omega
  obtain ⟨t, kept, h1, h2, h3, h4, h5, h6, h7⟩ := C39_approximate (List.ofFn d) state hD2 hlen tol htol
  have hpr : prob state = 1 := by
    have := vecNorm_sq state
    rw [hunit] at this
    unfold prob
    rw [← this]; norm_num
  rw [hpr] at h4
  have hkl : kept.length = (List.ofFn d).prod := by rw [h2, hlen]
  refine ⟨kept, h2, h3, h4, ?_⟩
  intro H hH hS del hdel
  rw [List.length_ofFn] at h5 h6 h7
  set T := approximate tol n t with hT
  have hTp := normal_prob (List.ofFn d) T kept 1 h5 hkl (by simpa using h7)
  rw [norm_one, one_pow, one_mul] at hTp
  have hkp : 0 < prob kept := by linarith
  have hTw : T.weight ≠ 0 := by
    intro h
    rw [h, norm_zero, zero_pow two_ne_zero] at hTp
    linarith
  have hlive : T.info.terminal = false ∧ T.weight = (vecNorm kept : ℝ) := by
    obtain ⟨m, rfl⟩ : ∃ m, n = m + 1 := ⟨n - 1, by omega⟩
    have h5' := h5
    rw [List.ofFn_succ] at h5'
    rcases h5' with ⟨_, h⟩ | ⟨ht, ⟨r, hr, hwr⟩, _⟩
    · exact absurd h hTw
    · refine ⟨ht, ?_⟩
      rw [hwr, Complex.norm_real, Real.norm_eq_abs, sq_abs] at hTp
      have h8 := vecNorm_sq kept
      have : vecNorm kept = r := by
        refine (pow_left_inj₀ (vecNorm_nonneg _) hr.le two_ne_zero).1 ?_
        rw [h8]; exact hTp
      rw [hwr, this]
  have hST := sharable_of_amp (List.ofFn d) kept T 1 hpos hkl h5 ⟨1, one_pos, by simp⟩ (by simpa using h7) hS
  have hN0 : (vecNorm kept : ℂ) ≠ 0 := by rw [← hlive.2]; exact hTw
  have hNpos : 0 < vecNorm kept := lt_of_le_of_ne (vecNorm_nonneg _) (fun h => hN0 (by rw [← h]; simp))
  have hrel : ∀ x : Reg d, ampRel T (List.ofFn fun i => ((x i : Fin (d i)) : Nat)) = kept.getD (idx d x) 0 / vecNorm kept := by
    intro x
    have hlev : Levels (List.ofFn d) (List.ofFn fun i => ((x i : Fin (d i)) : Nat)) := by
      have := lvl_levels (ext_valid x) (List.ofFn d) 0 rfl
      rw [lvl_ext] at this
      exact this
    have h8 := h7 _ hlev
    unfold amp at h8
    unfold idx
    rw [← h8, hlive.2, mul_div_cancel_left₀ _ hN0]
  have hcomp : compileApprox H del tol (List.ofFn d) state = fromTree H del (List.ofFn d) T := by
    unfold compileApprox
    rw [h1, List.length_ofFn]
    rfl
  have hspec := fromTree_spec hd h5 h6 hST (hH t h1) hlive.1 hdel
  rw [hcomp]
  refine ⟨⟨T, rfl, h5, h6, hST, hH t h1⟩, hspec.1, ?_⟩
  intro out hout
  obtain ⟨g1, g2⟩ := hspec.2 out hout
  refine ⟨by rw [hlen]; exact g1, ?_⟩
  intro sem hsem
  have g3 := g2 sem hsem
  simp only [hrel] at g3
  have hp : ((List.ofFn d).prod : ℝ) = ∏ i, (d i : ℝ) := by rw [List.prod_ofFn]; push_cast; rfl
  rw [hp] at g3
  set ψ := circuitOp sem out *ᵥ ground d with hψ
  refine ⟨?_, ?_⟩
  · have e := nrm_sq (ψ - fun x => kept.getD (idx d x) 0 / (vecNorm kept : ℂ))
    simp only [Pi.sub_apply] at e
    rw [← e]
    exact pow_le_pow_left₀ (nrm_nonneg _) g3 2
  · have hov : ∑ x : Reg d, starRingEnd ℂ (state.getD (idx d x) 0) * (kept.getD (idx d x) 0 / (vecNorm kept : ℂ)) = (vecNorm kept : ℂ) := by
      have e1 : ∀ x : Reg d, starRingEnd ℂ (state.getD (idx d x) 0) * (kept.getD (idx d x) 0 / (vecNorm kept : ℂ)) =
          ((‖kept.getD (idx d x) 0‖ ^ 2 : ℝ) : ℂ) / (vecNorm kept : ℂ) := by
        intro x
        rcases h3 (idx d x) with h | h
        · rw [h]; simp
        · rw [h, mul_div_assoc', RCLike.conj_mul]; push_cast; rfl
      rw [Finset.sum_congr rfl fun x _ => e1 x, ← Finset.sum_div, ← Complex.ofReal_sum, sum_reg (fun k => ‖kept.getD k 0‖ ^ 2), ← hkl,
        ← list_sum_range (fun x => ‖x‖ ^ 2), ← vecNorm_sq]
      push_cast
      rw [pow_two, mul_div_assoc, div_self hN0, mul_one]
    have hb := overlap_bound (fun x : Reg d => state.getD (idx d x) 0) (ψ - fun x => kept.getD (idx d x) 0 / (vecNorm kept : ℂ))
    have hs : nrm (fun x : Reg d => state.getD (idx d x) 0) = 1 := by
      have : nrm (fun x : Reg d => state.getD (idx d x) 0) ^ 2 = 1 := by
        rw [nrm_sq, sum_reg (fun k => ‖state.getD k 0‖ ^ 2), ← hlen, ← list_sum_range (fun x => ‖x‖ ^ 2)]
        exact hpr
      exact (pow_eq_one_iff_of_nonneg (nrm_nonneg _) two_ne_zero).1 this
    rw [hs, one_mul] at hb
    simp only [Pi.sub_apply, mul_sub, Finset.sum_sub_distrib, hov] at hb
    have hsq : Real.sqrt (1 - tol) ≤ vecNorm kept := by
      unfold vecNorm
      exact Real.sqrt_le_sqrt h4.le
    have h9 := norm_sub_norm_le ((vecNorm kept : ℂ)) (∑ x : Reg d, starRingEnd ℂ (state.getD (idx d x) 0) * ψ x)
    rw [Complex.norm_real, Real.norm_eq_abs, abs_of_pos hNpos, norm_sub_rev] at h9
    linarith

/-- Preparing an approximated unit state: there is a vector that keeps amplitudes of the state or replaces them by 0 and has lost less than the
tolerance of probability, such that the circuit prepares this vector normalised (up to the rotations left out), and the overlap of the
prepared state with the given one is at least `sqrt (1 - tol)` (less the rotations left out). As for C56, the hash has no collisions and the
vector kept is one in which sharing is harmless. Missing: vectors in which a zero part for level 0 is shared; the approximation itself may
turn a harmless state into such a one. -/
theorem C57_partial (hn : 0 < n) (hd : ∀ i, 2 ≤ d i) {state : List ℂ} (hlen : state.length = (List.ofFn d).prod) (hunit : vecNorm state = 1)
    {tol : ℝ} (htol : 0 < tol) (htol1 : tol ≤ 1) :
    ∃ kept : List ℂ, kept.length = state.length ∧ (∀ i, kept.getD i 0 = 0 ∨ kept.getD i 0 = state.getD i 0) ∧ 1 - tol < prob kept ∧
      ∀ H : List (Int × ℂ) → Int, (∀ t, create (List.ofFn d) state = .ok t → NoCollision H (approximate tol n t)) →
      SharableState (List.ofFn d) kept → ∀ del : ℝ, 0 ≤ del →
        ((∀ i j, i ≤ j → d j ≤ d i) → ∃ out, compileApprox H del tol (List.ofFn d) state = .ok out) ∧
        ∀ out, compileApprox H del tol (List.ofFn d) state = .ok out → out.length + 2 ≤ 2 * state.length ∧
          ∀ sem : PInstr → Matrix (Reg d) (Reg d) ℂ, GateSemantics d sem →
            ∑ x : Reg d, ‖(circuitOp sem out *ᵥ ground d) x - kept.getD (idx d x) 0 / vecNorm kept‖ ^ 2 ≤ (del * ∏ i, (d i : ℝ)) ^ 2 ∧
            Real.sqrt (1 - tol) - del * ∏ i, (d i : ℝ) ≤
              ‖∑ x : Reg d, starRingEnd ℂ (state.getD (idx d x) 0) * (circuitOp sem out *ᵥ ground d) x‖ := by
  obtain ⟨kept, h1, h2, h3, h4⟩ := approx_tree hn hd hlen hunit htol htol1
  exact ⟨kept, h1, h2, h3, fun H hH hS del hdel => (h4 H hH hS del hdel).2⟩

/-- a hash without collisions exists for every state and tolerance -/
theorem C57_hash (dims : List Nat) (state : List ℂ) (tol : ℝ) (n : Nat) : ∃ H, ∀ t, create dims state = .ok t → NoCollision H (approximate tol n t) := by
  cases h : create dims state with
  | error e => exact ⟨fun _ => 0, fun t ht => by cases ht⟩
  | ok t =>
    obtain ⟨H, hH⟩ := exists_noCollision (approximate tol n t)
    exact ⟨H, fun t' ht => by injection ht with ht; rw [← ht]; exact hH⟩

/-- On a single line of `k` levels every unit state is prepared with the overlap promised, with the tolerance 1/100 of the code. -/
theorem C57_single (k : Nat) (hk : 2 ≤ k) (state : List ℂ) (hlen : state.length = k) (hunit : vecNorm state = 1) :
    ∃ (H : List (Int × ℂ) → Int) (out : List PInstr), compileApprox H 0 (1 / 100) (List.ofFn fun _ : Fin 1 => k) state = .ok out ∧
      ∀ sem, GateSemantics (fun _ : Fin 1 => k) sem → Real.sqrt (99 / 100) ≤
        ‖∑ x : Reg fun _ : Fin 1 => k, starRingEnd ℂ (state.getD (idx _ x) 0) * (circuitOp sem out *ᵥ ground fun _ : Fin 1 => k) x‖ := by
  obtain ⟨H, hH⟩ := C57_hash (List.ofFn fun _ : Fin 1 => k) state (1 / 100) 1
  obtain ⟨kept, _, _, _, h⟩ := C57_partial (d := fun _ : Fin 1 => k) one_pos (fun _ => hk) (by simpa using hlen) hunit
    (tol := 1 / 100) (by norm_num) (by norm_num)
  obtain ⟨h1, h2⟩ := h H hH (by simp only [List.ofFn_succ, List.ofFn_zero]; trivial) 0 le_rfl
  obtain ⟨out, hout⟩ := h1 fun _ _ _ => le_rfl
  refine ⟨H, out, hout, fun sem hsem => ?_⟩
  have := ((h2 out hout).2 sem hsem).2
  rw [zero_mul, sub_zero] at this
  norm_num at this ⊢
  exact this

end Qudits
