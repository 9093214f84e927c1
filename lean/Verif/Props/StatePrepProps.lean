import Verif.Lemmas.PrepCompile
import Mathlib.Data.Fin.VecNotation
/-! # State preparation: the decision tree of a state and the circuit built from it -/
namespace Qudits
open Spec MicroDD StatePrep LocalQR Matrix
open PhasePass (GateSemantics)

/-! ### C38 -/

/-- For every list of positive dimensions and every vector of matching length the tree is built; along every path of levels the product of
the weights is the amplitude; every node is dead with weight 0 or has a positive weight and one child per level with weights of unit
2-norm; the weight of the root carries the norm of the vector. -/
theorem C38_tree (dims : List Nat) (data : List ℂ) (hpos : ∀ d ∈ dims, 0 < d) (hlen : data.length = dims.prod) :
    ∃ t, create dims data = .ok t ∧ Normal dims t ∧ ‖t.weight‖ = vecNorm data ∧
      ∀ path, Levels dims path → amp t path = data.getD (index dims path) 0 := by
  obtain ⟨t, h1, h2, h3, h4⟩ := build_spec dims data hpos hlen
  refine ⟨t, h1, h2, ?_, h4⟩
  rw [← vecNorm_sq] at h3
  exact (pow_left_inj₀ (norm_nonneg _) (vecNorm_nonneg _) two_ne_zero).1 h3

/-- A line without levels is refused by the division at line 144. -/
theorem C38_no_levels (cs : List Nat) (data : List ℂ) : create (0 :: cs) data = .error .zeroDivisionError := by
  simp [create, build]

example : ∃ t, create [2, 3] [1, 0, 0, 0, 0, -1] = .ok t ∧ Normal [2, 3] t ∧ amp t [1, 2] = -1 ∧ amp t [1, 1] = 0 := by
  obtain ⟨t, h1, h2, _, h4⟩ := C38_tree [2, 3] [1, 0, 0, 0, 0, -1] (by simp) rfl
  refine ⟨t, h1, h2, (h4 [1, 2] ?_).trans ?_, (h4 [1, 1] ?_).trans ?_⟩
  · exact .cons (by norm_num) (.cons (by norm_num) .nil)
  · simp [index]
  · exact .cons (by norm_num) (.cons (by norm_num) .nil)
  · simp [index]

/-! ### C41 -/

/-- The local sequence for a unit vector of weights, applied to the first basis vector, gives that vector. -/
theorem C41_sequence {d : Nat} (hd : 2 ≤ d) (ws : List ℂ) (hl : ws.length = d) (hn : (ws.map fun x => ‖x‖ ^ 2).sum = 1) {r : ℝ} (hr : 0 < r) :
    ∃ seq, localSequence d (r : ℂ) ws = .ok seq ∧ seq.length = d ∧
      ∀ i : Fin d, (circuitOp (entryOp d) seq *ᵥ first d) i = ws.getD i 0 := by
  obtain ⟨seq, h1, h2, _, h4⟩ := localSequence_ok hd ws hl hn hr
  exact ⟨seq, h1, h4, fun i => by rw [h2]; rfl⟩

example : ∃ seq, localSequence 3 1 [3 / 5, 0, 4 / 5 * Complex.I] = .ok seq ∧ seq.length = 3 ∧
    ∀ i : Fin 3, (circuitOp (entryOp 3) seq *ᵥ first 3) i = [3 / 5, 0, 4 / 5 * Complex.I].getD i 0 := by
  have := C41_sequence (d := 3) (by norm_num) [3 / 5, 0, 4 / 5 * Complex.I] rfl (by
    simp; norm_num) (r := 1) (by norm_num)
  simpa using this

/-! ### C40 -/

variable {n : Nat} {d : Fin n → Nat}

/-- Sharing equal subtrees leaves the prepared state alone in every normalised tree in which the branch of level 0 is non-zero at every node
that may be shared: the circuit prepares the amplitudes of the tree, up to the rotations below the threshold. Missing: trees with a zero
branch for level 0 at a shared node, for which the claim is false. -/
theorem C40_partial (hd : ∀ i, 2 ≤ d i) {H : List (Int × ℂ) → Int} {t : MicroDD} (hN : Normal (List.ofFn d) t) (hF : Shape (List.ofFn d) t)
    (hS : SharableTree (List.ofFn d) t) (hH : NoCollision H t) (ht : t.info.terminal = false) {del : ℝ} (hdel : 0 ≤ del)
    {out : List PInstr} (hout : fromTree H del (List.ofFn d) t = .ok out) {sem : PInstr → Matrix (Reg d) (Reg d) ℂ} (hsem : GateSemantics d sem) :
    ∑ x : Reg d, ‖(circuitOp sem out *ᵥ ground d) x - ampRel t (List.ofFn fun i => ((x i : Fin (d i)) : Nat))‖ ^ 2 ≤ (del * ∏ i, (d i : ℝ)) ^ 2 := by
  have h := ((fromTree_spec hd hN hF hS hH ht hdel).2 out hout).2 sem hsem
  have e := nrm_sq (circuitOp sem out *ᵥ ground d - fun x => ampRel t (List.ofFn fun i => ((x i : Fin (d i)) : Nat)))
  simp only [Pi.sub_apply] at e
  rw [← e]
  have hp : ((List.ofFn d).prod : ℝ) = ∏ i, (d i : ℝ) := by rw [List.prod_ofFn]; push_cast; rfl
  rw [← hp]
  exact pow_le_pow_left₀ (nrm_nonneg _) h 2

/-! ### C56 -/

theorem compile_tree (hn : 0 < n) (hd : ∀ i, 2 ≤ d i) {state : List ℂ} (hlen : state.length = (List.ofFn d).prod) (hne : ∃ x ∈ state, x ≠ 0)
    (hS : SharableState (List.ofFn d) state) :
    ∃ t, create (List.ofFn d) state = .ok t ∧ Normal (List.ofFn d) t ∧ Shape (List.ofFn d) t ∧ SharableTree (List.ofFn d) t ∧
      t.info.terminal = false ∧ ∀ x : Reg d, ampRel t (List.ofFn fun i => ((x i : Fin (d i)) : Nat)) = state.getD (idx d x) 0 / vecNorm state := by
  have hpos : ∀ e ∈ List.ofFn d, 0 < e := fun e he => by have := dims_ge_two hd e he; omega
  obtain ⟨t, h1, h2, h3, h4⟩ := build_spec (List.ofFn d) state hpos hlen
  have hw := (weight_ne_zero_iff h3).2 hne
  obtain ⟨m, rfl⟩ : ∃ m, n = m + 1 := ⟨n - 1, by omega⟩
  have h2' := h2
  rw [List.ofFn_succ] at h2'
  rcases h2' with ⟨_, h⟩ | ⟨ht, ⟨r, hr, hwr⟩, _⟩
  · exact absurd h hw
  refine ⟨t, h1, h2, build_shape _ _ t hpos hlen h1, build_sharable _ _ t hpos hlen h1 hS, ht, ?_⟩
  intro x
  have hlev : Levels (List.ofFn d) (List.ofFn fun i => ((x i : Fin (d i)) : Nat)) := by
    have := lvl_levels (ext_valid x) (List.ofFn d) 0 rfl
    rw [lvl_ext] at this
    exact this
  have h5 := h4 _ hlev
  have h6 : r = vecNorm state := by
    rw [hwr, Complex.norm_real, Real.norm_eq_abs, sq_abs, ← vecNorm_sq] at h3
    exact (pow_left_inj₀ hr.le (vecNorm_nonneg _) two_ne_zero).1 h3
  unfold amp at h5
  rw [hwr, h6] at h5
  have h7 : (vecNorm state : ℂ) ≠ 0 := by rw [← h6]; exact_mod_cast hr.ne'
  unfold idx
  rw [← h5, mul_div_cancel_left₀ _ h7]

/-- C56 for states in which sharing is harmless: whenever `compile_state` returns a circuit, the circuit applied to all lines at level 0
gives the normalised state, up to an error of at most the threshold times the dimension of the register (so exactly, if no rotation is left
out). `H` is Python's hash, assumed to have no collision on the tuples that are hashed; the state is non-zero and every line has at least
two levels. Missing: states in which a zero part for level 0 is shared, for which the claim is false. -/
theorem C56_partial (hn : 0 < n) (hd : ∀ i, 2 ≤ d i) {state : List ℂ} (hlen : state.length = (List.ofFn d).prod) (hne : ∃ x ∈ state, x ≠ 0)
    (hS : SharableState (List.ofFn d) state) {H : List (Int × ℂ) → Int} (hH : ∀ t, create (List.ofFn d) state = .ok t → NoCollision H t)
    {del : ℝ} (hdel : 0 ≤ del) {out : List PInstr} (hout : compileState H del (List.ofFn d) state = .ok out)
    {sem : PInstr → Matrix (Reg d) (Reg d) ℂ} (hsem : GateSemantics d sem) :
    ∑ x : Reg d, ‖(circuitOp sem out *ᵥ ground d) x - state.getD (idx d x) 0 / vecNorm state‖ ^ 2 ≤ (del * ∏ i, (d i : ℝ)) ^ 2 := by
  obtain ⟨t, h1, h2, h3, h4, h5, h6⟩ := compile_tree hn hd hlen hne hS
  have hf : fromTree H del (List.ofFn d) t = .ok out := by
    rw [compileState, h1] at hout; exact hout
  have h := ((fromTree_spec hd h2 h3 h4 (hH t h1) h5 hdel).2 out hf).2 sem hsem
  have e := nrm_sq (circuitOp sem out *ᵥ ground d - fun x => ampRel t (List.ofFn fun i => ((x i : Fin (d i)) : Nat)))
  simp only [h6] at h e
  simp only [Pi.sub_apply] at e
  rw [← e]
  have hp : ((List.ofFn d).prod : ℝ) = ∏ i, (d i : ℝ) := by rw [List.prod_ofFn]; push_cast; rfl
  rw [← hp]
  exact pow_le_pow_left₀ (nrm_nonneg _) h 2

/-- On registers whose dimensions do not increase from line to line a circuit is returned for every such state. -/
theorem C56_returns (hn : 0 < n) (hd : ∀ i, 2 ≤ d i) (hanti : ∀ i j, i ≤ j → d j ≤ d i) {state : List ℂ}
    (hlen : state.length = (List.ofFn d).prod) (hne : ∃ x ∈ state, x ≠ 0)
    (hS : SharableState (List.ofFn d) state) {H : List (Int × ℂ) → Int} (hH : ∀ t, create (List.ofFn d) state = .ok t → NoCollision H t)
    {del : ℝ} (hdel : 0 ≤ del) : ∃ out, compileState H del (List.ofFn d) state = .ok out := by
  obtain ⟨t, h1, h2, h3, h4, h5, h6⟩ := compile_tree hn hd hlen hne hS
  obtain ⟨out, h⟩ := (fromTree_spec hd h2 h3 h4 (hH t h1) h5 hdel).1 hanti
  refine ⟨out, ?_⟩
  rw [compileState, h1]; exact h

/-- The circuit has at most twice as many gates as the state has amplitudes, less two. -/
theorem C56_gates (hn : 0 < n) (hd : ∀ i, 2 ≤ d i) {state : List ℂ} (hlen : state.length = (List.ofFn d).prod) (hne : ∃ x ∈ state, x ≠ 0)
    (hS : SharableState (List.ofFn d) state) {H : List (Int × ℂ) → Int} (hH : ∀ t, create (List.ofFn d) state = .ok t → NoCollision H t)
    {del : ℝ} (hdel : 0 ≤ del) {out : List PInstr} (hout : compileState H del (List.ofFn d) state = .ok out) :
    out.length + 2 ≤ 2 * state.length := by
  obtain ⟨t, h1, h2, h3, h4, h5, h6⟩ := compile_tree hn hd hlen hne hS
  have hf : fromTree H del (List.ofFn d) t = .ok out := by
    rw [compileState, h1] at hout; exact hout
  rw [hlen]
  exact ((fromTree_spec hd h2 h3 h4 (hH t h1) h5 hdel).2 out hf).1

/-- hash functions without collisions exist for every state -/
theorem C56_hash (dims : List Nat) (state : List ℂ) : ∃ H, ∀ t, create dims state = .ok t → NoCollision H t := by
  cases h : create dims state with
  | error e => exact ⟨fun _ => 0, fun t ht => by cases ht⟩
  | ok t =>
    obtain ⟨H, hH⟩ := exists_noCollision t
    exact ⟨H, fun t' ht => by injection ht with ht; rw [← ht]; exact hH⟩

/-- |00> + |21> on a line of three levels and a line of two: prepared exactly when no rotation is left out -/
example : ∃ (H : List (Int × ℂ) → Int) (out : List PInstr), compileState H 0 (List.ofFn ![3, 2]) [1, 0, 0, 0, 0, 1] = .ok out ∧
    out.length ≤ 10 ∧ ∀ sem, GateSemantics ![3, 2] sem → ∀ x : Reg ![3, 2],
      (circuitOp sem out *ᵥ ground ![3, 2]) x = ([1, 0, 0, 0, 0, 1] : List ℂ).getD (idx ![3, 2] x) 0 / vecNorm [1, 0, 0, 0, 0, 1] := by
  obtain ⟨H, hH⟩ := C56_hash (List.ofFn ![3, 2]) [1, 0, 0, 0, 0, 1]
  have hd : ∀ i : Fin 2, 2 ≤ (![3, 2] : Fin 2 → Nat) i := by decide
  have hS : SharableState (List.ofFn ![3, 2]) [1, 0, 0, 0, 0, 1] := by
    refine ⟨fun _ _ => ⟨1, by simp [slice], one_ne_zero⟩, fun i _ => trivial⟩
  have hne : ∃ x ∈ ([1, 0, 0, 0, 0, 1] : List ℂ), x ≠ 0 := ⟨1, by simp, one_ne_zero⟩
  obtain ⟨out, hout⟩ := C56_returns (by norm_num) hd (by decide) (by simp) hne hS hH le_rfl
  refine ⟨H, out, hout, ?_, ?_⟩
  · have := C56_gates (by norm_num) hd (by simp) hne hS hH le_rfl hout
    simp only [List.length_cons, List.length_nil] at this
    omega
  · intro sem hsem x
    have h := C56_partial (by norm_num) hd (by simp) hne hS hH le_rfl hout hsem
    rw [zero_mul, zero_pow two_ne_zero] at h
    have h0 := (Finset.sum_eq_zero_iff_of_nonneg (fun x _ => by positivity)).1
      (le_antisymm h (Finset.sum_nonneg fun x _ => by positivity)) x (Finset.mem_univ x)
    have h1 : ‖(circuitOp sem out *ᵥ ground ![3, 2]) x - ([1, 0, 0, 0, 0, 1] : List ℂ).getD (idx ![3, 2] x) 0 / vecNorm [1, 0, 0, 0, 0, 1]‖ = 0 := by
      simpa using h0
    exact sub_eq_zero.1 (norm_eq_zero.1 h1)

end Qudits
