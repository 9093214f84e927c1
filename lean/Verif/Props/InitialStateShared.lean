import Verif.Lemmas.SharedNodes
import Verif.Props.InitialStateProps
/-! # `set_initial_state` followed by `simulate`: which states -/
namespace Qudits
open Spec MicroDD StatePrep LocalQR Matrix
open PhasePass (GateSemantics)

variable {n : Nat} {d : Fin n → Nat}

/-- If no line but the last factors out of the state or of its parts, then `set_initial_state` and `simulate` always return, with the state that was asked for,
whatever the number of lines and their dimensions. -/
theorem C88_unshared (hn : 0 < n) (hd : ∀ i, 2 ≤ d i) {state : List ℂ} (hlen : state.length = (List.ofFn d).prod) (hne : ∃ x ∈ state, x ≠ 0)
    (hU : Unshared (List.ofFn d) state) {H : List (Int × ℂ) → Int} (hH : ∀ t, create (List.ofFn d) state = .ok t → NoCollision H t)
    {del tol : ℝ} (hdel : 0 ≤ del) :
    ∃ ops v, setInitialState H del tol (List.ofFn d) [] state false = .ok ops ∧ Tnsim.execute (List.ofFn d) ops = .ok v ∧ v.length = state.length ∧
        ∑ x : Reg d, ‖v.getD (idx d x) 0 - state.getD (idx d x) 0 / vecNorm state‖ ^ 2 ≤ (del * ∏ i, (d i : ℝ)) ^ 2 := by
  have hS : SharableState (List.ofFn d) state := hU.sharable
  obtain ⟨t, h1, h2, h3, h4, h5, h6⟩ := compile_tree hn hd hlen hne hS
  have hpos : ∀ e ∈ List.ofFn d, 0 < e := fun e he => by have := dims_ge_two hd e he; omega
  obtain ⟨out, hout, hr⟩ := fromTree_unshared hd h2 h3 (build_unshared _ _ t hpos hlen h1 hU) (hH t h1) del
  have hc : compileState H del (List.ofFn d) state = .ok out := by
    rw [compileState, h1]; exact hout
  obtain ⟨ops, e1, e2, e3⟩ := C88_partial (tol := tol) hn hd hlen hne hS hH hdel hc
  cases hv : Tnsim.execute (List.ofFn d) ops with
  | ok v => exact ⟨ops, v, e1, hv, e3 v hv⟩
  | error e =>
    exfalso
    obtain ⟨g, hg, hr'⟩ := List.exists_of_findSome?_eq_some ((e2 e).1 hv)
    rw [hr g hg] at hr'
    cases hr'

/-- |000> + |111> on lines of two, three and two levels: nothing is shared -/
example : ∃ (H : List (Int × ℂ) → Int) (ops : List (Gate × Arr2 ℂ)) (v : List ℂ),
    setInitialState H 0 0 (List.ofFn ![2, 3, 2]) [] [1, 0, 0, 0, 0, 0, 0, 0, 0, 1, 0, 0] false = .ok ops ∧ Tnsim.execute (List.ofFn ![2, 3, 2]) ops = .ok v ∧ v.length = 12 := by
  obtain ⟨H, hH⟩ := C56_hash (List.ofFn ![2, 3, 2]) [1, 0, 0, 0, 0, 0, 0, 0, 0, 1, 0, 0]
  have e0 : slice ([1, 0, 0, 0, 0, 0, 0, 0, 0, 1, 0, 0] : List ℂ) 0 6 = [1, 0, 0, 0, 0, 0] := by simp [slice]
  have e1 : slice ([1, 0, 0, 0, 0, 0, 0, 0, 0, 1, 0, 0] : List ℂ) 1 6 = [0, 0, 0, 1, 0, 0] := by simp [slice]
  have hU : Unshared [2, 3, 2] ([1, 0, 0, 0, 0, 0, 0, 0, 0, 1, 0, 0] : List ℂ) := by
    refine ⟨?_, fun i hi => ⟨?_, fun _ _ => trivial⟩⟩
    · rintro ⟨_, h⟩
      obtain ⟨r, hr, h⟩ := h 0 1 (by norm_num) (by norm_num) ⟨1, by change _ ∈ slice _ 0 6; simp [e0], one_ne_zero⟩
        ⟨1, by change _ ∈ slice _ 1 6; simp [e1], one_ne_zero⟩
      change slice _ 0 6 = (slice _ 1 6).map _ at h
      rw [e0, e1] at h
      simp at h
    · rintro ⟨⟨a, b, ha, hb, hab, ⟨x, hx, hx0⟩, ⟨y, hy, hy0⟩⟩, _⟩
      change x ∈ slice (slice _ i 6) a 2 at hx
      change y ∈ slice (slice _ i 6) b 2 at hy
      interval_cases i
      · rw [e0] at hx hy
        interval_cases a <;> interval_cases b <;> simp_all [slice]
      · rw [e1] at hx hy
        interval_cases a <;> interval_cases b <;> simp_all [slice]
  obtain ⟨ops, v, h1, h2, h3, -⟩ := C88_unshared (d := ![2, 3, 2]) (tol := 0) (by norm_num) (by decide) (by simp) ⟨1, by simp, one_ne_zero⟩ hU hH le_rfl
  exact ⟨H, ops, v, h1, h2, h3⟩

/-- gates on single lines keep product vectors -/
theorem product_run {γ : Type} {sem : γ → Matrix (Reg d) (Reg d) ℂ} : ∀ (l : List γ), (∀ g ∈ l, ∃ (k : Fin n) (M : Matrix (Fin (d k)) (Fin (d k)) ℂ),
    sem g = embed1 (X := LvOf d) k M) → ∀ f : ∀ i, Fin (d i) → ℂ, ∃ f' : ∀ i, Fin (d i) → ℂ, circuitOp sem l *ᵥ (fun x : Reg d => ∏ i, f i (x i)) =
      fun x : Reg d => ∏ i, f' i (x i)
  | [], _, f => ⟨f, by rw [circuitOp_nil, one_mulVec]⟩
  | g :: l, h, f => by
    obtain ⟨k, M, hM⟩ := h g (by simp)
    obtain ⟨f', hf'⟩ := product_run l (fun g hg => h g (by simp [hg])) (Function.update f k (M *ᵥ f k))
    refine ⟨f', ?_⟩
    rw [circuitOp_cons, ← mulVec_mulVec, ← hf', hM]
    congr 1
    funext x
    refine (embed1_mulVec (X := LvOf d) k M _ x).trans ?_
    rw [← Finset.mul_prod_erase _ _ (Finset.mem_univ k), Function.update_self, mulVec, dotProduct, Finset.sum_mul]
    refine Finset.sum_congr rfl fun a _ => ?_
    rw [← Finset.mul_prod_erase _ _ (Finset.mem_univ k), Function.update_self, mul_assoc]
    congr 2
    refine Finset.prod_congr rfl fun i hi => ?_
    have hik : i ≠ k := Finset.ne_of_mem_erase hi
    rw [Function.update_of_ne hik, Function.update_of_ne hik]

/-- If the first line factors out of the state, the simulator can only fail with an IndexError, and otherwise what it returns is a product vector: it refuses
every gate that has a control. -/
theorem C88_shared_first {m : Nat} {d : Fin (m + 2) → Nat} (hd : ∀ i, 2 ≤ d i) {state : List ℂ} (hlen : state.length = (List.ofFn d).prod)
    (hF : Factors (d 0) (List.ofFn fun i : Fin (m + 1) => d i.succ).prod state)
    (hS : SharableState (List.ofFn d) state) {H : List (Int × ℂ) → Int} (hH : ∀ t, create (List.ofFn d) state = .ok t → NoCollision H t)
    {del tol : ℝ} {out : List PInstr} (hout : compileState H del (List.ofFn d) state = .ok out) :
    ∃ ops, setInitialState H del tol (List.ofFn d) [] state false = .ok ops ∧
      ((Tnsim.execute (List.ofFn d) ops = .error .indexError ∧ ∃ g ∈ out, g.controls ≠ none) ∨
        ∃ v, Tnsim.execute (List.ofFn d) ops = .ok v ∧ (∀ g ∈ out, g.controls = none) ∧
          ∃ f : ∀ i, Fin (d i) → ℂ, ∀ x : Reg d, v.getD (idx d x) 0 = ∏ i, f i (x i)) := by
  have hne : ∃ x ∈ state, x ≠ 0 := by
    obtain ⟨⟨i, _, _, _, _, ⟨x, hx, h0⟩, _⟩, _⟩ := hF
    exact ⟨x, List.mem_of_mem_drop (List.mem_of_mem_take hx), h0⟩
  obtain ⟨t, h1, h2, h3, h4, h5, h6⟩ := compile_tree (by omega) hd hlen hne hS
  have hpos : ∀ e ∈ List.ofFn d, 0 < e := fun e he => by have := dims_ge_two hd e he; omega
  have hf : fromTree H del (List.ofFn d) t = .ok out := by
    rw [compileState, h1] at hout; exact hout
  have hsame : SameHash H t := by
    have e : List.ofFn d = d 0 :: d 1 :: List.ofFn fun i : Fin m => d i.succ.succ := by rw [List.ofFn_succ, List.ofFn_succ]; rfl
    have e' : (List.ofFn fun i : Fin (m + 1) => d i.succ) = d 1 :: List.ofFn fun i : Fin m => d i.succ.succ := by rw [List.ofFn_succ]; rfl
    have h1' : build (List.ofFn d) state = .ok t := h1
    rw [e] at hpos hlen h1'
    rw [e'] at hF
    exact factors_sameHash hpos hlen h1' h5 hF
  have hg := fromTree_shared hd h2 h3 h4 (hH t h1) (fun _ => hsame) hf
  obtain ⟨ops, e1, e2, e3⟩ := C88_appended (tol := tol) (by omega) hd hlen hne hS hH hout (old := []) (Ms := []) .nil
  refine ⟨ops, e1, ?_⟩
  rw [List.nil_append] at e2 e3
  by_cases hctl : ∀ g ∈ out, g.controls = none
  · have hnone : out.findSome? refusal = none := by
      rw [List.findSome?_eq_none_iff]
      intro g hg
      unfold refusal
      rw [hctl g hg]
    cases hv : Tnsim.execute (List.ofFn d) ops with
    | error e => rw [(e2 e).1 hv] at hnone; cases hnone
    | ok v =>
      refine Or.inr ⟨v, rfl, hctl, ?_⟩
      obtain ⟨sem, hsem⟩ := gateSemantics_exists d fun i => by have := hd i; omega
      have hl := e3 v hv sem hsem
      simp only [List.reverse_nil, List.prod_nil, one_mulVec] at hl
      have hz : zeroState d = fun x : Reg d => ∏ i, (if ((x i : Fin (d i)) : Nat) = 0 then (1 : ℂ) else 0) := by
        funext x
        rw [Finset.prod_ite_zero]
        simp [zeroState]
      obtain ⟨f', hf'⟩ := product_run (sem := sem) out (by
        intro g hg
        obtain ⟨o, k, A, cs, lev, hform⟩ := fromTree_forms hd h2 h3 (hH t h1) hf g hg
        obtain ⟨M, _, hM2, _⟩ := hsem.1 g k hform.target
        exact ⟨k, M, hM2 (hctl g hg)⟩) (fun i a => if (a : Nat) = 0 then 1 else 0)
      refine ⟨f', fun x => ?_⟩
      rw [List.getD_eq_getElem?_getD, hl.entry x, hz]
      exact congrFun hf' x
  · push Not at hctl
    refine Or.inl ⟨?_, hctl⟩
    obtain ⟨g, hgm, hgc⟩ := hctl
    rw [e2]
    have hall : ∀ g ∈ out, refusal g = none ∨ refusal g = some .indexError := by
      intro g hgm
      rcases hg g hgm with h | h
      · left; unfold refusal; rw [h]
      · exact Or.inr h
    cases hr : out.findSome? refusal with
    | none =>
      have := (hg g hgm).resolve_left hgc
      rw [List.findSome?_eq_none_iff.1 hr g hgm] at this
      cases this
    | some e =>
      obtain ⟨g', hg', hr'⟩ := List.exists_of_findSome?_eq_some hr
      rcases hall g' hg' with h | h
      · rw [h] at hr'; cases hr'
      · rw [h] at hr'; exact hr'.symm

/-- the gates of a preparation are unitary -/
theorem compile_unitary (hn : 0 < n) (hd : ∀ i, 2 ≤ d i) {state : List ℂ} (hlen : state.length = (List.ofFn d).prod) (hne : ∃ x ∈ state, x ≠ 0)
    (hS : SharableState (List.ofFn d) state) {H : List (Int × ℂ) → Int} (hH : ∀ t, create (List.ofFn d) state = .ok t → NoCollision H t)
    {del : ℝ} {out : List PInstr} (hout : compileState H del (List.ofFn d) state = .ok out)
    {sem : PInstr → Matrix (Reg d) (Reg d) ℂ} (hsem : GateSemantics d sem) : circuitOp sem out ∈ unitaryGroup (Reg d) ℂ := by
  obtain ⟨t, h1, h2, h3, h4, h5, h6⟩ := compile_tree hn hd hlen hne hS
  have hf : fromTree H del (List.ofFn d) t = .ok out := by
    rw [compileState, h1] at hout; exact hout
  obtain ⟨t', ops, _, _, hok, hrun⟩ := fromTree_ops hd h2 h3 (hH t h1) del
  rw [hrun] at hf
  cases houts : ops.mapM (instrOf (List.ofFn d) del) with
  | error e => rw [houts] at hf; cases hf
  | ok outs =>
  rw [houts] at hf
  injection hf with hf
  subst hf
  exact (instrs_near hd hsem ops outs hok houts).1

/-- The old instructions are not undone: what `simulate` returns is as far from the state that was asked for as the state made by the old instructions is
from all lines at level 0, up to the rotations left out. -/
theorem C88_old_remains (hn : 0 < n) (hd : ∀ i, 2 ≤ d i) {state : List ℂ} (hlen : state.length = (List.ofFn d).prod) (hne : ∃ x ∈ state, x ≠ 0)
    (hS : SharableState (List.ofFn d) state) {H : List (Int × ℂ) → Int} (hH : ∀ t, create (List.ofFn d) state = .ok t → NoCollision H t)
    {del tol : ℝ} (hdel : 0 ≤ del) {old ops : List (Gate × Arr2 ℂ)} {Ms : List (Matrix (Reg d) (Reg d) ℂ)}
    (hold : List.Forall₂ (fun op M => (∃ ls, Flagged d op.1 ls) ∧ HasOperator d op.1 op.2 M) old Ms)
    (hops : setInitialState H del tol (List.ofFn d) old state false = .ok ops) {v : List ℂ} (hv : Tnsim.execute (List.ofFn d) ops = .ok v) :
    |Real.sqrt (∑ x : Reg d, ‖v.getD (idx d x) 0 - state.getD (idx d x) 0 / vecNorm state‖ ^ 2) -
      Real.sqrt (∑ x : Reg d, ‖(Ms.reverse.prod *ᵥ zeroState d) x - zeroState d x‖ ^ 2)| ≤ del * ∏ i, (d i : ℝ) := by
  have hout : ∃ out, compileState H del (List.ofFn d) state = .ok out := by
    unfold setInitialState at hops
    simp only [Bool.false_eq_true, if_false] at hops
    cases h : compileState H del (List.ofFn d) state with
    | error e => rw [h] at hops; cases hops
    | ok out => exact ⟨out, rfl⟩
  obtain ⟨out, hout⟩ := hout
  obtain ⟨new, h1, h2, h3⟩ := C88_appended (tol := tol) hn hd hlen hne hS hH hout hold
  rw [hops] at h1
  injection h1 with h1
  obtain ⟨sem, hsem⟩ := gateSemantics_exists d fun i => by have := hd i; omega
  have hl := h3 v (h1 ▸ hv) sem hsem
  have hU := compile_unitary hn hd hlen hne hS hH hout hsem
  have hc := C56_partial hn hd hlen hne hS hH hdel hout hsem
  have hroot : ∀ φ : Reg d → ℂ, Real.sqrt (∑ x, ‖φ x‖ ^ 2) = nrm φ := fun φ => by rw [← nrm_sq, Real.sqrt_sq (nrm_nonneg _)]
  set W := Ms.reverse.prod *ᵥ zeroState d with hW
  set U := circuitOp sem out with hUd
  set s : Reg d → ℂ := fun x => state.getD (idx d x) 0 / vecNorm state with hs
  have e1 : Real.sqrt (∑ x : Reg d, ‖v.getD (idx d x) 0 - state.getD (idx d x) 0 / vecNorm state‖ ^ 2) = nrm (U *ᵥ W - s) := by
    rw [← hroot]
    congr 1
    refine Finset.sum_congr rfl fun x _ => ?_
    rw [List.getD_eq_getElem?_getD, hl.entry x]
    rfl
  have e2 : Real.sqrt (∑ x : Reg d, ‖W x - zeroState d x‖ ^ 2) = nrm (U *ᵥ W - U *ᵥ zeroState d) := by
    rw [← mulVec_sub, nrm_unitary hU, ← hroot]
    rfl
  have e3 : nrm (U *ᵥ zeroState d - s) ≤ del * ∏ i, (d i : ℝ) := by
    exact abs_le_of_sq_le_sq' (by rw [nrm_sq]; exact hc) (mul_nonneg hdel (Finset.prod_nonneg fun i _ => by positivity)) |>.2
  rw [e1, e2]
  refine le_trans ?_ e3
  have := abs_norm_sub_norm_le (WithLp.toLp 2 (U *ᵥ W - s) : EuclideanSpace ℂ (Reg d)) (WithLp.toLp 2 (U *ᵥ W - U *ᵥ zeroState d))
  rw [← WithLp.toLp_sub, sub_sub_sub_cancel_left] at this
  exact this

end Qudits
