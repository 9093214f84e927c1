import Verif.Props.PrepExactProps
import Verif.Props.InitialStateProps
/-! # `set_initial_state` followed by `simulate`, for every state -/
namespace Qudits
open Spec MicroDD StatePrep LocalQR Matrix
open PhasePass (GateSemantics)

variable {n : Nat} {d : Fin n → Nat}

/-- For every non-zero state: `simulate` after `set_initial_state` fails exactly if the simulator refuses a gate of the preparation, with the error of the
first such gate; otherwise it returns `prepared`, normalised, up to the rotations left out. No condition on the state is left. -/
theorem C88_exact (hn : 0 < n) (hd : ∀ i, 2 ≤ d i) {state : List ℂ} (hlen : state.length = (List.ofFn d).prod) (hne : ∃ x ∈ state, x ≠ 0)
    {H : List (Int × ℂ) → Int} (hH : ∀ t, create (List.ofFn d) state = .ok t → NoCollision H t)
    {del tol : ℝ} (hdel : 0 ≤ del) {out : List PInstr} (hout : compileState H del (List.ofFn d) state = .ok out) :
    ∃ ops, setInitialState H del tol (List.ofFn d) [] state false = .ok ops ∧
      (∀ e, Tnsim.execute (List.ofFn d) ops = .error e ↔ out.findSome? refusal = some e) ∧
      ∀ v, Tnsim.execute (List.ofFn d) ops = .ok v → v.length = state.length ∧
        ∑ x : Reg d, ‖v.getD (idx d x) 0 -
          prepared (List.ofFn d) state (List.ofFn fun i => ((x i : Fin (d i)) : Nat)) / vecNorm state‖ ^ 2 ≤ (del * ∏ i, (d i : ℝ)) ^ 2 := by
  obtain ⟨t, h1, h2, h3, h5, h6⟩ := compile_tree_exact hn hd hlen hne hH
  have hf : fromTree H del (List.ofFn d) t = .ok out := by
    rw [compileState, h1] at hout; exact hout
  obtain ⟨new, hnew, he, hv⟩ := prep_simulated hn hd (fromTree_forms hd h2 h3 (hH t h1) hf) (old := []) (Ms := []) .nil
  refine ⟨new, ?_, he, fun v hv' => ?_⟩
  · unfold setInitialState
    simp only [Bool.false_eq_true, if_false, bind, Except.bind, hout, hnew, pure, Except.pure, List.nil_append]
  · obtain ⟨sem, hsem⟩ := gateSemantics_exists d fun i => by have := hd i; omega
    have hl := hv v hv' sem hsem
    simp only [List.reverse_nil, List.prod_nil, one_mulVec] at hl
    refine ⟨by rw [hl.length, hlen, List.prod_ofFn], ?_⟩
    refine le_of_eq_of_le ?_ (C56_exact hn hd hlen hne hH hdel hout hsem)
    refine Finset.sum_congr rfl fun x _ => ?_
    rw [← zeroState_ground, List.getD_eq_getElem?_getD, hl.entry x]
    rfl

/-- On at most two lines nothing is refused: every non-zero state gives an answer, and the answer is `prepared`. -/
theorem C88_two_lines_exact (hn : 0 < n) (hn2 : n ≤ 2) (hd : ∀ i, 2 ≤ d i) {state : List ℂ} (hlen : state.length = (List.ofFn d).prod)
    (hne : ∃ x ∈ state, x ≠ 0) {H : List (Int × ℂ) → Int} (hH : ∀ t, create (List.ofFn d) state = .ok t → NoCollision H t)
    {del tol : ℝ} (hdel : 0 ≤ del) :
    ∃ ops v, setInitialState H del tol (List.ofFn d) [] state false = .ok ops ∧ Tnsim.execute (List.ofFn d) ops = .ok v ∧ v.length = state.length ∧
        ∑ x : Reg d, ‖v.getD (idx d x) 0 -
          prepared (List.ofFn d) state (List.ofFn fun i => ((x i : Fin (d i)) : Nat)) / vecNorm state‖ ^ 2 ≤ (del * ∏ i, (d i : ℝ)) ^ 2 := by
  obtain ⟨t, h1, h2, h3, h5, h6⟩ := compile_tree_exact hn hd hlen hne hH
  obtain ⟨out, hout⟩ := fromTree_two hn2 hd h2 h3 (hH t h1) del
  have hc : compileState H del (List.ofFn d) state = .ok out := by
    rw [compileState, h1]; exact hout
  obtain ⟨ops, e1, e2, e3⟩ := C88_exact (tol := tol) hn hd hlen hne hH hdel hc
  cases hv : Tnsim.execute (List.ofFn d) ops with
  | ok v => exact ⟨ops, v, e1, hv, e3 v hv⟩
  | error e =>
    exfalso
    obtain ⟨g, hg, hr⟩ := List.exists_of_findSome?_eq_some ((e2 e).1 hv)
    obtain ⟨o, k, A, cs, lev, hf⟩ := fromTree_forms hd h2 h3 (hH t h1) hout g hg
    rw [hf.two hn2] at hr
    cases hr

/-- |11> + |21> on a line of three levels and a line of two: an answer is returned (by the example in PrepExactProps it is |10> + |20>) -/
example : ∃ (H : List (Int × ℂ) → Int) (ops : List (Gate × Arr2 ℂ)) (v : List ℂ),
    setInitialState H 0 0 (List.ofFn ![3, 2]) [] [0, 0, 0, 1, 0, 1] false = .ok ops ∧ Tnsim.execute (List.ofFn ![3, 2]) ops = .ok v ∧ v.length = 6 := by
  obtain ⟨H, hH⟩ := C56_hash (List.ofFn ![3, 2]) [0, 0, 0, 1, 0, 1]
  obtain ⟨ops, v, h1, h2, h3, -⟩ := C88_two_lines_exact (d := ![3, 2]) (tol := 0) (by norm_num) (by norm_num) (by decide) (by simp)
    ⟨1, by simp, one_ne_zero⟩ hH le_rfl
  exact ⟨H, ops, v, h1, h2, h3⟩

end Qudits
