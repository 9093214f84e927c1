import Verif.Lemmas.PrepExact
import Verif.Props.StatePrepViolations
/-! # The state prepared by `compile_state`, for every state -/
namespace Qudits
open Spec MicroDD StatePrep LocalQR Matrix
open PhasePass (GateSemantics)

variable {n : Nat} {d : Fin n → Nat}

theorem reg_levels (x : Reg d) : Levels (List.ofFn d) (List.ofFn fun i => ((x i : Fin (d i)) : Nat)) := by
  have := lvl_levels (ext_valid x) (List.ofFn d) 0 rfl
  rwa [lvl_ext] at this

theorem compile_tree_exact (hn : 0 < n) (hd : ∀ i, 2 ≤ d i) {state : List ℂ} (hlen : state.length = (List.ofFn d).prod) (hne : ∃ x ∈ state, x ≠ 0)
    {H : List (Int × ℂ) → Int} (hH : ∀ t, create (List.ofFn d) state = .ok t → NoCollision H t) :
    ∃ t, create (List.ofFn d) state = .ok t ∧ Normal (List.ofFn d) t ∧ Shape (List.ofFn d) t ∧ t.info.terminal = false ∧
      ∀ x : Reg d, made H (List.ofFn d) t (List.ofFn fun i => ((x i : Fin (d i)) : Nat)) =
        prepared (List.ofFn d) state (List.ofFn fun i => ((x i : Fin (d i)) : Nat)) / vecNorm state := by
  have hpos : ∀ e ∈ List.ofFn d, 0 < e := fun e he => by have := dims_ge_two hd e he; omega
  obtain ⟨t, h1, h2, h3, h4⟩ := build_spec (List.ofFn d) state hpos hlen
  have hw := (weight_ne_zero_iff h3).2 hne
  have hr : t.info.terminal = false ∧ ∃ r : ℝ, 0 < r ∧ t.weight = r := by
    obtain ⟨m, rfl⟩ : ∃ m, n = m + 1 := ⟨n - 1, by omega⟩
    have h2' := h2
    rw [List.ofFn_succ] at h2'
    rcases h2' with ⟨_, h⟩ | ⟨ht, h, _⟩
    · exact absurd h hw
    · exact ⟨ht, h⟩
  obtain ⟨ht, r, hr, hwr⟩ := hr
  refine ⟨t, h1, h2, build_shape _ _ t hpos hlen h1, ht, fun x => ?_⟩
  have h5 := made_state (List.ofFn d) state t (dims_ge_two hd) hlen h1 (hH t h1) _ (reg_levels x)
  have h6 : r = vecNorm state := by
    rw [hwr, Complex.norm_real, Real.norm_eq_abs, sq_abs, ← vecNorm_sq] at h3
    exact (pow_left_inj₀ hr.le (vecNorm_nonneg _) two_ne_zero).1 h3
  rw [hwr, h6] at h5
  have h7 : (vecNorm state : ℂ) ≠ 0 := by rw [← h6]; exact_mod_cast hr.ne'
  rw [← h5, mul_div_cancel_left₀ _ h7]

/-- What `compile_state` prepares, for every non-zero state: the circuit applied to all lines at level 0 gives the vector `prepared` divided by
the norm of the state, up to an error of at most the threshold times the dimension of the register. No condition on the state is left. -/
theorem C56_exact (hn : 0 < n) (hd : ∀ i, 2 ≤ d i) {state : List ℂ} (hlen : state.length = (List.ofFn d).prod) (hne : ∃ x ∈ state, x ≠ 0)
    {H : List (Int × ℂ) → Int} (hH : ∀ t, create (List.ofFn d) state = .ok t → NoCollision H t)
    {del : ℝ} (hdel : 0 ≤ del) {out : List PInstr} (hout : compileState H del (List.ofFn d) state = .ok out)
    {sem : PInstr → Matrix (Reg d) (Reg d) ℂ} (hsem : GateSemantics d sem) :
    ∑ x : Reg d, ‖(circuitOp sem out *ᵥ ground d) x -
      prepared (List.ofFn d) state (List.ofFn fun i => ((x i : Fin (d i)) : Nat)) / vecNorm state‖ ^ 2 ≤ (del * ∏ i, (d i : ℝ)) ^ 2 := by
  obtain ⟨t, h1, h2, h3, h5, h6⟩ := compile_tree_exact hn hd hlen hne hH
  have hf : fromTree H del (List.ofFn d) t = .ok out := by
    rw [compileState, h1] at hout; exact hout
  have h := ((fromTree_exact hd h2 h3 (hH t h1) h5 hdel).2 out hf).2 sem hsem
  have e := nrm_sq (circuitOp sem out *ᵥ ground d - fun x => made H (List.ofFn d) t (List.ofFn fun i => ((x i : Fin (d i)) : Nat)))
  simp only [h6] at h e
  simp only [Pi.sub_apply] at e
  rw [← e]
  have hp : ((List.ofFn d).prod : ℝ) = ∏ i, (d i : ℝ) := by rw [List.prod_ofFn]; push_cast; rfl
  rw [← hp]
  exact pow_le_pow_left₀ (nrm_nonneg _) h 2

/-- On registers whose dimensions do not increase from line to line a circuit is returned for every non-zero state. -/
theorem C56_always_returns (hn : 0 < n) (hd : ∀ i, 2 ≤ d i) (hanti : ∀ i j, i ≤ j → d j ≤ d i) {state : List ℂ}
    (hlen : state.length = (List.ofFn d).prod) (hne : ∃ x ∈ state, x ≠ 0)
    {H : List (Int × ℂ) → Int} (hH : ∀ t, create (List.ofFn d) state = .ok t → NoCollision H t)
    {del : ℝ} (hdel : 0 ≤ del) : ∃ out, compileState H del (List.ofFn d) state = .ok out := by
  obtain ⟨t, h1, h2, h3, h5, _⟩ := compile_tree_exact hn hd hlen hne hH
  obtain ⟨out, h⟩ := (fromTree_exact hd h2 h3 (hH t h1) h5 hdel).1 hanti
  refine ⟨out, ?_⟩
  rw [compileState, h1]; exact h

/-- The circuit has at most twice as many gates as the state has amplitudes, less two; for every non-zero state. -/
theorem C56_gates_exact (hn : 0 < n) (hd : ∀ i, 2 ≤ d i) {state : List ℂ} (hlen : state.length = (List.ofFn d).prod) (hne : ∃ x ∈ state, x ≠ 0)
    {H : List (Int × ℂ) → Int} (hH : ∀ t, create (List.ofFn d) state = .ok t → NoCollision H t)
    {del : ℝ} (hdel : 0 ≤ del) {out : List PInstr} (hout : compileState H del (List.ofFn d) state = .ok out) :
    out.length + 2 ≤ 2 * state.length := by
  obtain ⟨t, h1, h2, h3, h5, _⟩ := compile_tree_exact hn hd hlen hne hH
  have hf : fromTree H del (List.ofFn d) t = .ok out := by
    rw [compileState, h1] at hout; exact hout
  rw [hlen]
  exact ((fromTree_exact hd h2 h3 (hH t h1) h5 hdel).2 out hf).1

/-- When no rotation is left out, the circuit gives `prepared`, exactly. -/
theorem C56_no_threshold (hn : 0 < n) (hd : ∀ i, 2 ≤ d i) {state : List ℂ} (hlen : state.length = (List.ofFn d).prod) (hne : ∃ x ∈ state, x ≠ 0)
    {H : List (Int × ℂ) → Int} (hH : ∀ t, create (List.ofFn d) state = .ok t → NoCollision H t)
    {out : List PInstr} (hout : compileState H 0 (List.ofFn d) state = .ok out)
    {sem : PInstr → Matrix (Reg d) (Reg d) ℂ} (hsem : GateSemantics d sem) (x : Reg d) :
    (circuitOp sem out *ᵥ ground d) x = prepared (List.ofFn d) state (List.ofFn fun i => ((x i : Fin (d i)) : Nat)) / vecNorm state := by
  have h := C56_exact hn hd hlen hne hH le_rfl hout hsem
  rw [zero_mul, zero_pow two_ne_zero] at h
  have h0 := (Finset.sum_eq_zero_iff_of_nonneg (fun x _ => by positivity)).1
    (le_antisymm h (Finset.sum_nonneg fun x _ => by positivity)) x (Finset.mem_univ x)
  exact sub_eq_zero.1 (norm_eq_zero.1 (pow_eq_zero_iff two_ne_zero |>.1 h0))

/-- The states for which the claim of C56 holds: the circuit prepares the state exactly if and only if `prepared` leaves the state alone. -/
theorem C56_exactly_when (hn : 0 < n) (hd : ∀ i, 2 ≤ d i) {state : List ℂ} (hlen : state.length = (List.ofFn d).prod) (hne : ∃ x ∈ state, x ≠ 0)
    {H : List (Int × ℂ) → Int} (hH : ∀ t, create (List.ofFn d) state = .ok t → NoCollision H t)
    {out : List PInstr} (hout : compileState H 0 (List.ofFn d) state = .ok out)
    {sem : PInstr → Matrix (Reg d) (Reg d) ℂ} (hsem : GateSemantics d sem) :
    (∀ x, (circuitOp sem out *ᵥ ground d) x = state.getD (idx d x) 0 / vecNorm state) ↔
      ∀ x : Reg d, prepared (List.ofFn d) state (List.ofFn fun i => ((x i : Fin (d i)) : Nat)) = state.getD (idx d x) 0 := by
  have hv : (vecNorm state : ℂ) ≠ 0 := by
    obtain ⟨x, hx, hx0⟩ := hne
    intro h0
    have h0 : vecNorm state = 0 := by exact_mod_cast h0
    have := vecNorm_sq state
    rw [h0, zero_pow two_ne_zero] at this
    have hle := List.single_le_sum (l := state.map fun x => ‖x‖ ^ 2) (by simp) _ (List.mem_map_of_mem (f := fun x => ‖x‖ ^ 2) hx)
    rw [← this] at hle
    have : 0 < ‖x‖ ^ 2 := by positivity
    linarith
  refine forall_congr' fun x => ?_
  rw [C56_no_threshold hn hd hlen hne hH hout hsem x, div_left_inj' hv]

/-- `prepared` leaves every state alone in which sharing is harmless. -/
theorem C56_harmless : ∀ (dims : List Nat) (state : List ℂ), state.length = dims.prod → SharableState dims state → ∀ p, Levels dims p →
    prepared dims state p = state.getD (index dims p) 0
  | [], data, hl, _, _, .nil => by
    obtain ⟨x, rfl⟩ : ∃ x, data = [x] := List.length_eq_one_iff.1 (by simpa using hl)
    rfl
  | c :: cs, data, hl, hS, _, .cons (a := l) (l₁ := p) hlc hp => by
    rw [List.prod_cons] at hl
    rw [prepared, if_neg]
    · have := C56_harmless cs (slice data l cs.prod) (slice_length data c _ l hl hlc) (by
        match cs, hS with
        | [], _ => trivial
        | c' :: cs', hS => exact hS.2 l hlc) p hp
      rw [this, slice_getD _ _ _ _ (index_lt hp)]
      rfl
    · rintro ⟨hcs, hF, h0⟩
      match cs, hS, hF, h0, hcs with
      | c' :: cs', hS, hF, h0, _ =>
        obtain ⟨x, hx, hx0⟩ := hS.1 hF.1 hF.2
        exact hx0 (h0 x hx)

/-- A whole family of states that are lost: if the first line of at least two factors out, its level 0 does not occur, and the other lines are never
all at level 0, then what is prepared has no overlap with the state at all. -/
theorem C56_lost {m : Nat} {d : Fin (m + 2) → Nat} (hd : ∀ i, 2 ≤ d i) {state : List ℂ} (hlen : state.length = (List.ofFn d).prod)
    (hne : ∃ x ∈ state, x ≠ 0) (hF : Factors (d 0) (List.ofFn fun i : Fin (m + 1) => d i.succ).prod state)
    (h0 : ∀ x ∈ slice state 0 (List.ofFn fun i : Fin (m + 1) => d i.succ).prod, x = 0)
    (hg : ∀ x : Reg d, (∀ i : Fin (m + 1), (x i.succ : Nat) = 0) → state.getD (idx d x) 0 = 0)
    {H : List (Int × ℂ) → Int} (hH : ∀ t, create (List.ofFn d) state = .ok t → NoCollision H t)
    {out : List PInstr} (hout : compileState H 0 (List.ofFn d) state = .ok out)
    {sem : PInstr → Matrix (Reg d) (Reg d) ℂ} (hsem : GateSemantics d sem) :
    ∑ x : Reg d, starRingEnd ℂ (state.getD (idx d x) 0) * (circuitOp sem out *ᵥ ground d) x = 0 := by
  refine Finset.sum_eq_zero fun x _ => ?_
  rw [C56_no_threshold (by omega) hd hlen hne hH hout hsem x,
    show List.ofFn d = d 0 :: List.ofFn (fun i : Fin (m + 1) => d i.succ) from List.ofFn_succ,
    show (List.ofFn fun i => ((x i : Fin (d i)) : Nat)) = ((x 0 : Fin (d 0)) : Nat) :: List.ofFn (fun i : Fin (m + 1) => ((x i.succ : Fin (d i.succ)) : Nat))
      from List.ofFn_succ, prepared, if_pos ⟨by simp, hF, h0⟩]
  split
  · next h =>
    rw [hg x fun i => h _ (List.mem_ofFn.2 ⟨i, rfl⟩), map_zero, zero_mul]
  · rw [zero_div, mul_zero]

/-- |11> + |21> on a line of three levels and a line of two becomes |10> + |20> -/
example : prepared [3, 2] [0, 0, 0, 1, 0, 1] [1, 0] = 1 ∧ prepared [3, 2] [0, 0, 0, 1, 0, 1] [2, 0] = 1 ∧
    prepared [3, 2] [0, 0, 0, 1, 0, 1] [1, 1] = 0 ∧ prepared [3, 2] [0, 0, 0, 1, 0, 1] [2, 1] = 0 := by
  have hF : Factors 3 2 ([0, 0, 0, 1, 0, 1] : List ℂ) := by
    refine ⟨⟨1, 2, by norm_num, by norm_num, by norm_num, ⟨1, by simp [slice], one_ne_zero⟩, ⟨1, by simp [slice], one_ne_zero⟩⟩, ?_⟩
    intro i j hi hj hi0 hj0
    refine ⟨1, one_pos, ?_⟩
    interval_cases i <;> interval_cases j <;> simp_all [slice]
  have h0 : ∀ x ∈ slice ([0, 0, 0, 1, 0, 1] : List ℂ) 0 2, x = 0 := by simp [slice]
  have hc : ([2] : List Nat) ≠ [] ∧ Factors 3 ([2] : List Nat).prod ([0, 0, 0, 1, 0, 1] : List ℂ) ∧
      ∀ x ∈ slice ([0, 0, 0, 1, 0, 1] : List ℂ) 0 ([2] : List Nat).prod, x = 0 := ⟨by simp, by simpa using hF, by simpa using h0⟩
  have e1 : vecNorm (slice ([0, 0, 0, 1, 0, 1] : List ℂ) 1 ([2] : List Nat).prod) = 1 := vecNorm_eq one_pos.le (by simp [slice])
  have e2 : vecNorm (slice ([0, 0, 0, 1, 0, 1] : List ℂ) 2 ([2] : List Nat).prod) = 1 := vecNorm_eq one_pos.le (by simp [slice])
  refine ⟨?_, ?_, ?_, ?_⟩ <;> rw [prepared, if_pos hc]
  · rw [e1]; simp
  · rw [e2]; simp
  · simp
  · simp

end Qudits
