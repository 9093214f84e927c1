import Verif.Lemmas.InitialState
import Verif.Props.StatePrepProps
import Verif.Props.ApproxProps
/-! # `set_initial_state` followed by `simulate` -/
namespace Qudits
open Spec MicroDD StatePrep LocalQR Matrix
open PhasePass (GateSemantics)

variable {n : Nat} {d : Fin n → Nat}

/-! ### C88 -/

theorem zeroState_ground : zeroState d = ground d := rfl

/-- What happens to a circuit that has instructions already (whose operators are `Ms`): the gates of the preparation come after them. The simulator raises
exactly the error of the first gate that it refuses, and otherwise returns the state made by the old instructions with the preparation applied to it. -/
theorem C88_appended (hn : 0 < n) (hd : ∀ i, 2 ≤ d i) {state : List ℂ} (hlen : state.length = (List.ofFn d).prod) (hne : ∃ x ∈ state, x ≠ 0)
    (hS : SharableState (List.ofFn d) state) {H : List (Int × ℂ) → Int} (hH : ∀ t, create (List.ofFn d) state = .ok t → NoCollision H t)
    {del tol : ℝ} {out : List PInstr} (hout : compileState H del (List.ofFn d) state = .ok out)
    {old : List (Gate × Arr2 ℂ)} {Ms : List (Matrix (Reg d) (Reg d) ℂ)}
    (hold : List.Forall₂ (fun op M => (∃ ls, Flagged d op.1 ls) ∧ HasOperator d op.1 op.2 M) old Ms) :
    ∃ new, setInitialState H del tol (List.ofFn d) old state false = .ok (old ++ new) ∧
      (∀ e, Tnsim.execute (List.ofFn d) (old ++ new) = .error e ↔ out.findSome? refusal = some e) ∧
      ∀ v, Tnsim.execute (List.ofFn d) (old ++ new) = .ok v → ∀ sem, GateSemantics d sem →
        Lists d v (circuitOp sem out *ᵥ (Ms.reverse.prod *ᵥ zeroState d)) := by
  obtain ⟨t, h1, h2, h3, h4, h5, h6⟩ := compile_tree hn hd hlen hne hS
  have hf : fromTree H del (List.ofFn d) t = .ok out := by
    rw [compileState, h1] at hout; exact hout
  obtain ⟨new, hnew, he, hv⟩ := prep_simulated hn hd (fromTree_forms hd h2 h3 (hH t h1) hf) hold
  refine ⟨new, ?_, he, hv⟩
  unfold setInitialState
  simp only [Bool.false_eq_true, if_false, bind, Except.bind, hout, hnew, pure, Except.pure]

/-- C88: on an empty circuit `set_initial_state` returns for every state whose preparation is compiled (C56), and `simulate` then lists the normalised amplitudes of
that state, up to an error of at most the threshold times the dimension of the register; unless it raises, which it does exactly if the simulator refuses a gate
(`refusal`). Missing: the states of the refused preparations and those excluded in C56. -/
theorem C88_partial (hn : 0 < n) (hd : ∀ i, 2 ≤ d i) {state : List ℂ} (hlen : state.length = (List.ofFn d).prod) (hne : ∃ x ∈ state, x ≠ 0)
    (hS : SharableState (List.ofFn d) state) {H : List (Int × ℂ) → Int} (hH : ∀ t, create (List.ofFn d) state = .ok t → NoCollision H t)
    {del tol : ℝ} (hdel : 0 ≤ del) {out : List PInstr} (hout : compileState H del (List.ofFn d) state = .ok out) :
    ∃ ops, setInitialState H del tol (List.ofFn d) [] state false = .ok ops ∧
      (∀ e, Tnsim.execute (List.ofFn d) ops = .error e ↔ out.findSome? refusal = some e) ∧
      ∀ v, Tnsim.execute (List.ofFn d) ops = .ok v → v.length = state.length ∧
        ∑ x : Reg d, ‖v.getD (idx d x) 0 - state.getD (idx d x) 0 / vecNorm state‖ ^ 2 ≤ (del * ∏ i, (d i : ℝ)) ^ 2 := by
  obtain ⟨new, h1, h2, h3⟩ := C88_appended (tol := tol) hn hd hlen hne hS hH hout (old := []) (Ms := []) .nil
  refine ⟨new, h1, h2, fun v hv => ?_⟩
  obtain ⟨sem, hsem⟩ := gateSemantics_exists d fun i => by have := hd i; omega
  have hl := h3 v hv sem hsem
  simp only [List.reverse_nil, List.prod_nil, one_mulVec] at hl
  refine ⟨by rw [hl.length, hlen, List.prod_ofFn], ?_⟩
  refine le_of_eq_of_le ?_ (C56_partial hn hd hlen hne hS hH hdel hout hsem)
  refine Finset.sum_congr rfl fun x _ => ?_
  rw [← zeroState_ground, List.getD_eq_getElem?_getD, hl.entry x]
  rfl

/-- On at most two lines nothing is refused: `set_initial_state` and `simulate` always return, with the state that was asked for. -/
theorem C88_two_lines (hn : 0 < n) (hn2 : n ≤ 2) (hd : ∀ i, 2 ≤ d i) {state : List ℂ} (hlen : state.length = (List.ofFn d).prod) (hne : ∃ x ∈ state, x ≠ 0)
    (hS : SharableState (List.ofFn d) state) {H : List (Int × ℂ) → Int} (hH : ∀ t, create (List.ofFn d) state = .ok t → NoCollision H t)
    {del tol : ℝ} (hdel : 0 ≤ del) :
    ∃ ops v, setInitialState H del tol (List.ofFn d) [] state false = .ok ops ∧ Tnsim.execute (List.ofFn d) ops = .ok v ∧ v.length = state.length ∧
        ∑ x : Reg d, ‖v.getD (idx d x) 0 - state.getD (idx d x) 0 / vecNorm state‖ ^ 2 ≤ (del * ∏ i, (d i : ℝ)) ^ 2 := by
  obtain ⟨t, h1, h2, h3, h4, h5, h6⟩ := compile_tree hn hd hlen hne hS
  obtain ⟨out, hout⟩ := fromTree_two hn2 hd h2 h3 (hH t h1) del
  have hc : compileState H del (List.ofFn d) state = .ok out := by
    rw [compileState, h1]; exact hout
  obtain ⟨ops, e1, e2, e3⟩ := C88_partial (tol := tol) hn hd hlen hne hS hH hdel hc
  cases hv : Tnsim.execute (List.ofFn d) ops with
  | ok v => exact ⟨ops, v, e1, hv, e3 v hv⟩
  | error e =>
    exfalso
    obtain ⟨g, hg, hr⟩ := List.exists_of_findSome?_eq_some ((e2 e).1 hv)
    obtain ⟨o, k, A, cs, lev, hf⟩ := fromTree_forms hd h2 h3 (hH t h1) hout g hg
    rw [hf.two hn2] at hr
    cases hr

/-- C88 with `approx=True`: unless the simulator refuses a gate, `simulate` lists amplitudes whose overlap with the unit vector that was asked for is at least `sqrt (1 - tol)`, less
the rotations left out. The vector `kept` is the one of C57. Missing: as in C57, and the refused preparations. -/
theorem C88_approx_partial (hn : 0 < n) (hd : ∀ i, 2 ≤ d i) {state : List ℂ} (hlen : state.length = (List.ofFn d).prod) (hunit : vecNorm state = 1)
    {tol : ℝ} (htol : 0 < tol) (htol1 : tol ≤ 1) :
    ∃ kept : List ℂ, kept.length = state.length ∧ (∀ i, kept.getD i 0 = 0 ∨ kept.getD i 0 = state.getD i 0) ∧ 1 - tol < prob kept ∧
      ∀ H : List (Int × ℂ) → Int, (∀ t, create (List.ofFn d) state = .ok t → NoCollision H (approximate tol n t)) →
      SharableState (List.ofFn d) kept → ∀ del : ℝ, 0 ≤ del → ∀ out, compileApprox H del tol (List.ofFn d) state = .ok out →
        ∃ ops, setInitialState H del tol (List.ofFn d) [] state true = .ok ops ∧
          (∀ e, Tnsim.execute (List.ofFn d) ops = .error e ↔ out.findSome? refusal = some e) ∧
          ∀ v, Tnsim.execute (List.ofFn d) ops = .ok v → v.length = state.length ∧
            ∑ x : Reg d, ‖v.getD (idx d x) 0 - kept.getD (idx d x) 0 / vecNorm kept‖ ^ 2 ≤ (del * ∏ i, (d i : ℝ)) ^ 2 ∧
            Real.sqrt (1 - tol) - del * ∏ i, (d i : ℝ) ≤ ‖∑ x : Reg d, starRingEnd ℂ (state.getD (idx d x) 0) * v.getD (idx d x) 0‖ := by
  obtain ⟨kept, k1, k2, k3, k4⟩ := approx_tree hn hd hlen hunit htol htol1
  refine ⟨kept, k1, k2, k3, fun H hH hS del hdel out hout => ?_⟩
  obtain ⟨⟨T, hT, h2, h3, h4, h5⟩, _, k5⟩ := k4 H hH hS del hdel
  obtain ⟨ops, hnew, he, hv⟩ := prep_simulated hn hd (fromTree_forms hd h2 h3 h5 (hT ▸ hout)) (old := []) (Ms := []) .nil
  refine ⟨ops, ?_, he, fun v hv' => ?_⟩
  · unfold setInitialState
    simp only [if_true, bind, Except.bind, hout, hnew, pure, Except.pure]
    rfl
  · obtain ⟨sem, hsem⟩ := gateSemantics_exists d fun i => by have := hd i; omega
    have hl := hv v hv' sem hsem
    simp only [List.reverse_nil, List.prod_nil, one_mulVec] at hl
    have hg : ∀ x, v.getD (idx d x) 0 = (circuitOp sem out *ᵥ ground d) x := by
      intro x
      rw [← zeroState_ground, List.getD_eq_getElem?_getD, hl.entry x]
      rfl
    simp only [hg]
    exact ⟨by rw [hl.length, hlen, List.prod_ofFn], (k5 out hout).2 sem hsem⟩

/-- |00> + |21> on a line of three levels and a line of two -/
example : ∃ (H : List (Int × ℂ) → Int) (ops : List (Gate × Arr2 ℂ)) (v : List ℂ), setInitialState H 0 0 (List.ofFn ![3, 2]) [] [1, 0, 0, 0, 0, 1] false = .ok ops ∧
    Tnsim.execute (List.ofFn ![3, 2]) ops = .ok v ∧ ∀ x : Reg ![3, 2], v.getD (idx ![3, 2] x) 0 = ([1, 0, 0, 0, 0, 1] : List ℂ).getD (idx ![3, 2] x) 0 / vecNorm [1, 0, 0, 0, 0, 1] := by
  obtain ⟨H, hH⟩ := C56_hash (List.ofFn ![3, 2]) [1, 0, 0, 0, 0, 1]
  have hS : SharableState (List.ofFn ![3, 2]) [1, 0, 0, 0, 0, 1] := ⟨fun _ _ => ⟨1, by simp [slice], one_ne_zero⟩, fun i _ => trivial⟩
  obtain ⟨ops, v, h1, h2, -, h3⟩ := C88_two_lines (d := ![3, 2]) (tol := 0) (by norm_num) (by norm_num) (by decide) (by simp) ⟨1, by simp, one_ne_zero⟩ hS hH le_rfl
  refine ⟨H, ops, v, h1, h2, fun x => ?_⟩
  rw [zero_mul, zero_pow two_ne_zero] at h3
  have h0 := (Finset.sum_eq_zero_iff_of_nonneg (fun x _ => by positivity)).1
    (le_antisymm h3 (Finset.sum_nonneg fun x _ => by positivity)) x (Finset.mem_univ x)
  exact sub_eq_zero.1 (norm_eq_zero.1 (by simpa using h0))

end Qudits
