import Verif.Lemmas.Verifier
import Verif.Props.EndToEnd
import Verif.Lemmas.Apply
/- Property C79: the checks of compiled circuits. -/
namespace Qudits
open Spec Matrix Verifier Compiler LGraph
open scoped Matrix.Norms.L2Operator

/-! ### the small simulators -/

variable {n : Nat} {d : Fin n → Nat}

theorem operator_array {op : Gate × Arr2 ℂ} {M : Matrix (Reg d) (Reg d) ℂ} (h : HasOperator d op.1 op.2 M) :
    ∃ B, op.1.toMatrix op.2 2 = .ok B ∧ B.rows = ∏ i, d i ∧ B.cols = ∏ i, d i ∧
      B.toM (∏ i, d i) = M.submatrix (idxEquiv d).symm (idxEquiv d).symm := by
  obtain ⟨B, h1, h2, h3, h4⟩ := h
  refine ⟨B, h1, h2, h3, ?_⟩
  rw [← toM_eq_of_idx d B M h4, submatrix_submatrix]
  simp

theorem operator_arrays {ops : List (Gate × Arr2 ℂ)} {Ms : List (Matrix (Reg d) (Reg d) ℂ)}
    (h : List.Forall₂ (fun op M => HasOperator d op.1 op.2 M) ops Ms) :
    List.Forall₂ (fun op M => ∃ B, op.1.toMatrix op.2 2 = .ok B ∧ B.rows = ∏ i, d i ∧ B.cols = ∏ i, d i ∧ B.toM (∏ i, d i) = M) ops
      (Ms.map fun M => M.submatrix (idxEquiv d).symm (idxEquiv d).symm) := by
  induction h with
  | nil => exact List.Forall₂.nil
  | cons h1 _ ih => exact List.Forall₂.cons (operator_array h1) ih

theorem product_submatrix (Ms : List (Matrix (Reg d) (Reg d) ℂ)) :
    (Ms.map fun M => M.submatrix (idxEquiv d).symm (idxEquiv d).symm).reverse.prod = Ms.reverse.prod.submatrix (idxEquiv d).symm (idxEquiv d).symm := by
  rw [← List.map_reverse]
  induction Ms.reverse with
  | nil => simp
  | cons M Ms ih => rw [List.map_cons, List.prod_cons, List.prod_cons, ih, submatrix_mul_equiv]

/-- `mini_unitary_sim` returns the matrix of the circuit: the product of the operators of its gates, the first on the right. -/
theorem C79_mini_unitary_sim (hn : 0 < n) (ops : List (Gate × Arr2 ℂ)) (Ms : List (Matrix (Reg d) (Reg d) ℂ))
    (h : List.Forall₂ (fun op M => HasOperator d op.1 op.2 M) ops Ms) :
    ∃ A, miniUnitarySim (List.ofFn d) ops = .ok A ∧ A.rows = ∏ i, d i ∧ A.cols = ∏ i, d i ∧
      ∀ x y, A.at' (idx d x) (idx d y) = Ms.reverse.prod x y := by
  obtain ⟨A, h1, h2, h3, h4⟩ := products 2 ops _ (operator_arrays h) (Arr2.identity (∏ i, d i)) rfl rfl
  refine ⟨A, ?_, h2, h3, ?_⟩
  · unfold miniUnitarySim Verifier.size
    rw [if_neg (by intro e; have := congrArg List.length e; simp at this; omega), List.prod_ofFn]
    exact h1
  · intro x y
    have e : (Arr2.identity (∏ i, d i) : Arr2 ℂ).toM (∏ i, d i) = 1 := by
      ext r c
      simp [Arr2.toM, Arr2.identity, one_apply, Fin.ext_iff]
    rw [e, mul_one, product_submatrix] at h4
    have := congrFun (congrFun h4 (idxEquiv d x)) (idxEquiv d y)
    rw [submatrix_apply, Equiv.symm_apply_apply, Equiv.symm_apply_apply] at this
    exact this

theorem vec_lists {v : List ℂ} {psi : Reg d → ℂ} (hl : v.length = ∏ i, d i) (h : vec (∏ i, d i) v = fun k => psi ((idxEquiv d).symm k)) : Lists d v psi := by
  refine ⟨hl, fun x => ?_⟩
  have := congrFun h (idxEquiv d x)
  simp only [Equiv.symm_apply_apply, vec] at this
  have hx : idx d x < v.length := by rw [hl]; exact idx_lt d x
  rw [List.getElem?_eq_getElem hx, ← this]
  congr 1
  show _ = v.getD (idx d x) 0
  rw [List.getD_eq_getElem?_getD, List.getElem?_eq_getElem hx]
  rfl

theorem groundState_ok (hpos : ∀ i, 0 < d i) :
    ∃ v, groundState (∏ i, d i) = .ok v ∧ v.length = ∏ i, d i ∧ vec (∏ i, d i) v = fun k => zeroState d ((idxEquiv d).symm k) := by
  have hp : 0 < ∏ i, d i := Finset.prod_pos fun i _ => hpos i
  unfold groundState
  rw [if_neg (by omega)]
  refine ⟨_, rfl, by simp, ?_⟩
  funext k
  obtain ⟨x, rfl⟩ := (idxEquiv d).surjective k
  rw [Equiv.symm_apply_apply]
  show ((List.replicate (∏ i, d i) (0 : ℂ)).set 0 1).getD (idx d x) 0 = _
  have hx := idx_lt d x
  have h0 : idx d (fun i => (⟨0, hpos i⟩ : Fin (d i))) = 0 := by
    unfold idx
    have : ∀ (l : List Nat) (k : Nat), Spec.index l (List.replicate k 0) = 0 := by
      intro l
      induction l with
      | nil => intro k; rfl
      | cons a l ih =>
        intro k
        cases k with
        | zero => rfl
        | succ k => rw [List.replicate_succ]; show 0 * _ + _ = 0; rw [ih, zero_mul]
    rw [List.ofFn_const]
    exact this _ _
  rw [List.getD_eq_getElem?_getD, List.getElem?_set]
  unfold zeroState
  by_cases h : ∀ i, ((x i : Fin (d i)) : Nat) = 0
  · have : idx d x = 0 := by
      rw [← h0]; congr 1; funext i; exact Fin.ext (h i)
    rw [if_pos h, this]
    simp [hp]
  · rw [if_neg h]
    have : ¬ 0 = idx d x := by
      intro e
      apply h
      have : x = fun i => (⟨0, hpos i⟩ : Fin (d i)) := (idxEquiv d).injective (Fin.ext (by
        show idx d x = idx d _
        rw [h0, ← e]))
      intro i
      rw [this]
    rw [if_neg this, List.getElem?_replicate, if_pos hx]
    rfl

/-- `mini_sim` returns the amplitudes of the circuit on the ground state. -/
theorem C79_mini_sim (hn : 0 < n) (hpos : ∀ i, 0 < d i) (ops : List (Gate × Arr2 ℂ)) (Ms : List (Matrix (Reg d) (Reg d) ℂ))
    (h : List.Forall₂ (fun op M => HasOperator d op.1 op.2 M) ops Ms) :
    ∃ v, miniSim (List.ofFn d) ops = .ok v ∧ Lists d v (Ms.reverse.prod *ᵥ zeroState d) := by
  obtain ⟨v, v1, v2, v3⟩ := groundState_ok (d := d) hpos
  obtain ⟨u, u1, u2, u3⟩ := applyAll_ok ops _ (operator_arrays h) v v2
  refine ⟨u, ?_, vec_lists u2 ?_⟩
  · unfold miniSim Verifier.size
    rw [if_neg (by intro e; have := congrArg List.length e; simp at this; omega), List.prod_ofFn]
    simp only [bind, Except.bind, v1]
    exact u1
  · rw [u3, v3, product_submatrix]
    funext k
    obtain ⟨x, rfl⟩ := (idxEquiv d).surjective k
    rw [mulVec, dotProduct, ← (idxEquiv d).sum_comp]
    simp [mulVec, dotProduct]

/-- `mini_sim` returns what the `tnsim` backend returns. -/
theorem C79_mini_sim_backend (hn : 0 < n) (hpos : ∀ i, 0 < d i) (ops : List (Gate × Arr2 ℂ)) (Ms : List (Matrix (Reg d) (Reg d) ℂ))
    (h : List.Forall₂ (fun op M => (∃ ls, Flagged d op.1 ls) ∧ HasOperator d op.1 op.2 M) ops Ms) :
    miniSim (List.ofFn d) ops = Tnsim.execute (List.ofFn d) ops := by
  obtain ⟨v, v1, v2⟩ := C79_mini_sim hn hpos ops Ms (h.imp fun _ _ h => h.2)
  obtain ⟨w, w1, w2⟩ := C15_execute d hn hpos ops Ms h
  rw [v1, w1]
  congr 1
  apply List.ext_getElem? 
  intro k
  by_cases hk : k < ∏ i, d i
  · obtain ⟨x, hx⟩ := (idxEquiv d).surjective ⟨k, hk⟩
    have : idx d x = k := congrArg Fin.val hx
    rw [← this, v2.entry, w2.entry]
  · rw [List.getElem?_eq_none (by rw [v2.length]; omega), List.getElem?_eq_none (by rw [w2.length]; omega)]

/-- `phy_sdit_sim` of a circuit on one line returns the amplitudes of the circuit on the level on which level 0 is placed. -/
theorem C79_phy_sdit_sim {d : Fin 1 → Nat} (hpos : ∀ i, 0 < d i) (lp : ∀ i, Equiv.Perm (Fin (d i))) (ops : List (Gate × Arr2 ℂ))
    (Ms : List (Matrix (Reg d) (Reg d) ℂ)) (h : List.Forall₂ (fun op M => HasOperator d op.1 op.2 M) ops Ms) :
    ∃ v, phySditSim (List.ofFn d) (some (List.ofFn fun i => placementList (lp i))) ops = .ok v ∧
      Lists d v fun x => Ms.reverse.prod x fun i => lp i ⟨0, hpos i⟩ := by
  obtain ⟨v, v1, v2, v3⟩ := groundState_ok (d := d) hpos
  have hone : ∏ i, d i = d 0 := by simp
  have hp : eyeColumns (d 0) (placementList (lp 0)) = .ok ⟨d 0, d 0, fun r c => if some r = (List.ofFn fun k => (lp 0 k : Nat))[c]? then 1 else 0⟩ := by
    unfold eyeColumns
    have : (placementList (lp 0)).mapM (position (d 0)) = .ok (List.ofFn fun k => (lp 0 k : Nat)) := by
      have e : ∀ l : List (Fin (d 0)), (l.map fun k : Fin (d 0) => ((k : Nat) : Int)).mapM (position (d 0)) = .ok (l.map fun k : Fin (d 0) => (k : Nat)) := by
        intro l
        induction l with
        | nil => rfl
        | cons a l ih =>
          rw [List.map_cons, List.mapM_cons, position_ok, ih]
          rfl
      have := e (List.ofFn (lp 0))
      rw [List.map_ofFn, List.map_ofFn] at this
      exact this
    rw [this]
    simp only [bind, Except.bind, pure, Except.pure, List.length_ofFn]
  obtain ⟨w, w1, w2, w3⟩ := matVec_ok ⟨d 0, d 0, fun r c => if some r = (List.ofFn fun k => (lp 0 k : Nat))[c]? then 1 else 0⟩ (∏ i, d i)
    hone.symm hone.symm v v2
  obtain ⟨u, u1, u2, u3⟩ := applyAll_ok ops _ (operator_arrays h) w w2
  refine ⟨u, ?_, vec_lists u2 ?_⟩
  · unfold phySditSim
    rw [List.ofFn_succ, List.ofFn_succ]
    rw [hone] at v1
    simp only [hp, bind, Except.bind, v1, w1]
    exact u1
  · have hw : vec (∏ i, d i) w = fun k => if (idxEquiv d).symm k = (fun i => lp i ⟨0, hpos i⟩) then 1 else 0 := by
      rw [w3, v3]
      funext k
      obtain ⟨x, rfl⟩ := (idxEquiv d).surjective k
      rw [mulVec, dotProduct, ← (idxEquiv d).sum_comp]
      rw [Finset.sum_eq_single (fun i => (⟨0, hpos i⟩ : Fin (d i)))]
      · rw [Equiv.symm_apply_apply, Equiv.symm_apply_apply]
        have i1 : ∀ y : Reg d, idx d y = (y 0 : Nat) := by
          intro y
          unfold idx
          simp [List.ofFn_succ, Spec.index]
        have e1 : zeroState (α := ℂ) d (fun i => (⟨0, hpos i⟩ : Fin (d i))) = 1 := by
          unfold zeroState
          rw [if_pos (fun _ => rfl)]
        rw [e1, mul_one]
        show (if some (idx d x) = (List.ofFn fun k => (lp 0 k : Nat))[idx d (fun i => (⟨0, hpos i⟩ : Fin (d i)))]? then (1 : ℂ) else 0) = _
        rw [i1, i1]
        simp only
        rw [List.getElem?_ofFn, dif_pos (hpos 0)]
        refine if_congr ?_ rfl rfl
        constructor
        · intro h
          funext i
          obtain rfl : i = 0 := Subsingleton.elim _ _
          exact Fin.ext (Option.some.inj h)
        · intro h
          rw [h]
      · intro y _ hy
        rw [Equiv.symm_apply_apply]
        have : zeroState (α := ℂ) d y = 0 := by
          unfold zeroState
          rw [if_neg]
          intro h
          apply hy
          funext i
          exact Fin.ext (h i)
        rw [this, mul_zero]
      · intro h; exact absurd (Finset.mem_univ _) h
    rw [u3, hw, product_submatrix]
    funext k
    obtain ⟨x, rfl⟩ := (idxEquiv d).surjective k
    rw [mulVec, dotProduct, ← (idxEquiv d).sum_comp]
    simp

/-- Levels may be counted from the end: `phy_sdit_sim` makes no difference between level `k` and `k - dim`, and any other level is an IndexError. -/
theorem C79_phy_sdit_levels (dim : Nat) (ds : List Nat) (a : List Int) (ms : List (List Int)) (ops : List (Gate × Arr2 ℂ)) :
    (∀ b : List Int, List.Forall₂ (fun x y : Int => 0 ≤ x ∧ x < dim ∧ (y = x ∨ y = x - dim)) a b →
      phySditSim (dim :: ds) (some (b :: ms)) ops = phySditSim (dim :: ds) (some (a :: ms)) ops) ∧
    ((∃ x ∈ a, x < -(dim : Int) ∨ (dim : Int) ≤ x) → phySditSim (dim :: ds) (some (a :: ms)) ops = .error .indexError) := by
  constructor
  · intro b hb
    have e : b.mapM (position dim) = a.mapM (position dim) := by
      induction hb with
      | nil => rfl
      | @cons x y a b h _ ih =>
        have : position dim y = position dim x := by
          rcases h.2.2 with rfl | rfl
          · rfl
          · unfold Verifier.position
            rw [if_neg (by omega), if_pos (by omega), if_pos ⟨h.1, h.2.1⟩, Int.sub_add_cancel]
        rw [List.mapM_cons, List.mapM_cons, ih, this]
    simp only [phySditSim, eyeColumns, e]
  · rintro ⟨x, hx, h⟩
    have e : a.mapM (position dim) = .error .indexError := by
      induction a with
      | nil => simp at hx
      | cons y a ih =>
        rw [List.mapM_cons]
        have hall : ∀ z, position dim z = .error .indexError ∨ ∃ k, position dim z = .ok k := by
          intro z
          unfold Verifier.position
          split_ifs
          · exact .inr ⟨_, rfl⟩
          · exact .inr ⟨_, rfl⟩
          · exact .inl rfl
        rcases List.mem_cons.1 hx with rfl | hx
        · have : position dim x = .error .indexError := by
            unfold Verifier.position
            rw [if_neg (by omega), if_neg (by omega)]
          rw [this]; rfl
        · rw [ih hx]
          rcases hall y with k | ⟨_, k⟩ <;> rw [k] <;> rfl
    simp only [phySditSim, eyeColumns, e]
    rfl

example : phySditSim [3] (some [[-1, 0, -2]]) [] = phySditSim [3] (some [[2, 0, 1]]) [] :=
  (C79_phy_sdit_levels 3 [] [2, 0, 1] [] []).1 _ (.cons (by norm_num) (.cons (by norm_num) (.cons (by norm_num) .nil)))

/-- `phy_sdit_sim` of a compiled circuit on one line: on the level on which level `k` is placed it has the amplitude that the circuit has on level
`k`, up to a phase and the error of the compilation. Without condition on the placement, unlike what is shown (C75). -/
theorem C79_phy_sdit_compiled {d : Fin 1 → Nat} {lp : ∀ i, Equiv.Perm (Fin (d i))} {sem : Op (Arr2 ℂ) → Matrix (Reg d) (Reg d) ℂ}
    {obj : Nat → Gate × Arr2 ℂ} {gs : List (Op (Arr2 ℂ))} (hpos : ∀ i, 0 < d i) (hobj : Objects d sem obj gs) {b : Graphs} {e : ℝ} {l : List CInstr}
    (hl : Implements d lp sem b e (circuitOp sem gs) l) (hk : ∀ g, .kept g ∈ l → g ∈ gs) :
    ∃ ops v w, ∃ z : ℂ, l.mapM (objectOf (List.ofFn d) obj) = .ok ops ∧
      phySditSim (List.ofFn d) (some (List.ofFn fun i => placementList (lp i))) ops = .ok v ∧ simulateGates (List.ofFn d) obj gs = .ok w ∧
      v.length = d 0 ∧ w.length = d 0 ∧ ‖z‖ = 1 ∧
      ∀ k : Fin (d 0), ∃ a c, v[(lp 0 k : Nat)]? = some a ∧ w[(k : Nat)]? = some c ∧ ‖a - z * c‖ ≤ e := by
  have hone : ∏ i, d i = d 0 := by simp
  obtain ⟨ops, o1, o2⟩ := objects_ok hpos hobj l hl.native hk hl.unitary
  obtain ⟨v, v1, v2⟩ := C79_phy_sdit_sim hpos lp ops _ (o2.imp fun _ _ h => h.2)
  obtain ⟨w, w1, w2⟩ := C15_execute d (by omega) hpos (gs.map fun g => obj g.oid) (gs.map sem) (by
    clear hl hk
    induction gs with
    | nil => exact List.Forall₂.nil
    | cons g gs ih => exact List.Forall₂.cons (hobj g List.mem_cons_self) (ih fun g hg => hobj g (List.mem_cons_of_mem _ hg)))
  obtain ⟨z, hz, hn⟩ := hl.near
  refine ⟨ops, v, w, z, o1, v1, w1, v2.length.trans hone, w2.length.trans hone, hz, fun k => ?_⟩
  have i1 : ∀ y : Reg d, idx d y = (y 0 : Nat) := by
    intro y
    unfold idx
    simp [List.ofFn_succ, Spec.index]
  let x : Reg d := fun i => lp i (Fin.cast (by rw [Subsingleton.elim i 0]) k)
  let y : Reg d := fun i => Fin.cast (by rw [Subsingleton.elim i 0]) k
  have e1 := v2.entry x
  have e2 := w2.entry y
  rw [i1] at e1 e2
  refine ⟨_, _, e1, e2, ?_⟩
  rw [mulVec_zeroState hpos]
  have e3 := (norm_entry_le _ x (fun i => lp i ⟨0, hpos i⟩)).trans hn
  rw [Matrix.sub_apply, Matrix.smul_apply, smul_eq_mul] at e3
  unfold placed at e3
  rw [submatrix_apply] at e3
  simp only [x, Equiv.symm_apply_apply] at e3
  exact e3

/-! ### UnitaryVerifier -/

namespace Verifier

variable {m : Nat}

theorem matrices {seq : List (Gate × Arr2 ℂ)} {Ms : List (Matrix (Fin m) (Fin m) ℂ)} (h : List.Forall₂ (HasMatrix m) seq Ms) :
    List.Forall₂ (fun op M => ∃ B, op.1.toMatrix op.2 0 = .ok B ∧ B.rows = m ∧ B.cols = m ∧ B.toM m = M) seq Ms ∧
      Ms.reverse.prod ∈ unitaryGroup (Fin m) ℂ := by
  refine ⟨h.imp fun _ _ ⟨B, b1, b2, b3⟩ => ⟨B, b1, b2.1, b2.2.1, b3⟩, ?_⟩
  refine Submonoid.list_prod_mem _ fun M hM => ?_
  rw [List.mem_reverse] at hM
  clear * - h hM
  induction h with
  | nil => cases hM
  | cons h1 _ ih =>
    rcases List.mem_cons.1 hM with rfl | hM
    · obtain ⟨B, _, b2, b3⟩ := h1
      rw [← b3]
      exact b2.2.2
    · exact ih hM

theorem compare_ok (hm : 0 < m) (R : Arr2 ℂ) (hr : R.rows = m) (hc : R.cols = m) :
    ∃ r : Bool, (do
      let z ← R.get 0 0
      if R.rows = m ∧ R.cols = m then
        (open Classical in pure (decide (z ≠ 0 ∧ ∀ r < m, ∀ c < m, ‖R.at' r c / z - (if r = c then 1 else 0)‖ < 1 / 10000)))
      else (Except.error PyErr.valueError : Except PyErr Bool)) = .ok r ∧ (r = true ↔ Passes hm (R.toM m)) := by
  refine ⟨(open Classical in decide (R.at' 0 0 ≠ 0 ∧ ∀ r < m, ∀ c < m, ‖R.at' r c / R.at' 0 0 - (if r = c then 1 else 0)‖ < 1 / 10000)), ?_, ?_⟩
  · unfold Arr2.get
    rw [if_pos (by omega)]
    simp only [bind, Except.bind, hr, hc, and_self, if_true]
    rfl
  · rw [decide_eq_true_iff]
    unfold Passes
    refine and_congr Iff.rfl ⟨fun h r c => ?_, fun h r hr c hc => ?_⟩
    · have := h r r.isLt c c.isLt
      simp only [Fin.ext_iff]
      exact this
    · have := h ⟨r, hr⟩ ⟨c, hc⟩
      simp only [Fin.ext_iff] at this
      exact this

theorem size_ok {dims : List Nat} (hne : dims ≠ []) (hd : dims.prod = m) : Verifier.size dims = .ok m := by
  unfold Verifier.size
  rw [if_neg hne, hd]

end Verifier

variable {m : Nat}

theorem near_mul {U D : Matrix (Fin m) (Fin m) ℂ} (hU : U ∈ unitaryGroup (Fin m) ℂ) (z : ℂ) :
    ‖D * U - z • (1 : Matrix (Fin m) (Fin m) ℂ)‖ = ‖D - z • Uᴴ‖ := by
  have h1 : Uᴴ * U = 1 := (mem_unitaryGroup_iff').1 hU
  have : D * U - z • (1 : Matrix (Fin m) (Fin m) ℂ) = (D - z • Uᴴ) * U := by
    rw [sub_mul, Matrix.smul_mul, h1]
  rw [this]
  exact CStarRing.norm_mul_mem_unitary _ hU

theorem norm_submatrix_equiv (e : Equiv.Perm (Fin m)) (A : Matrix (Fin m) (Fin m) ℂ) : ‖A.submatrix e e‖ = ‖A‖ := by
  have h : ∀ (e : Equiv.Perm (Fin m)) (A : Matrix (Fin m) (Fin m) ℂ), ‖A.submatrix e e‖ ≤ ‖A‖ := fun e A =>
    norm_hom_le (fun A : Matrix (Fin m) (Fin m) ℂ => A.submatrix e e) (fun _ _ => rfl) (fun _ _ => rfl) (fun A B => (submatrix_mul_equiv A B e e e).symm)
      (fun _ => rfl) A
  refine le_antisymm (h e A) ?_
  have := h e.symm (A.submatrix e e)
  rw [submatrix_submatrix] at this
  simpa using this

/-- `verify` without maps returns a truth value. It is `True` only if the sequence is, up to a phase and a small error, the inverse of the target,
and `True` whenever it is up to a phase and half the threshold. -/
theorem C79_verify (hm : 0 < m) {dims : List Nat} (hne : dims ≠ []) (hd : dims.prod = m) (target : Gate × Arr2 ℂ) (U : Matrix (Fin m) (Fin m) ℂ)
    (ht : HasMatrix m target U) (seq : List (Gate × Arr2 ℂ)) (Ms : List (Matrix (Fin m) (Fin m) ℂ)) (hs : List.Forall₂ (HasMatrix m) seq Ms)
    (nodes initial final : Option (List Int)) (hnone : nodes = none ∨ initial = none ∨ final = none) :
    ∃ v r, UnitaryVerifier.init seq target dims nodes initial final = .ok v ∧ v.verify = .ok r ∧
      (r = true → ∃ z : ℂ, ‖z‖ = 1 ∧ ‖Ms.reverse.prod - z • Uᴴ‖ ≤ m * (1 / 10000) + m * (1 / 10000) ^ 2) ∧
      ((∃ z : ℂ, ‖z‖ = 1 ∧ ‖Ms.reverse.prod - z • Uᴴ‖ ≤ 49 / 1000000) → r = true) := by
  obtain ⟨T, t1, t2, t3⟩ := ht
  obtain ⟨h1, h2⟩ := matrices hs
  have hU : U ∈ unitaryGroup (Fin m) ℂ := t3 ▸ t2.2.2
  obtain ⟨R, r1, r2, r3, r4⟩ := products 0 seq Ms h1 T t2.1 t2.2.1
  obtain ⟨r, c1, c2⟩ := compare_ok hm R r2 r3
  rw [t3] at r4
  refine ⟨⟨seq, T, m, none⟩, r, ?_, ?_, ?_, ?_⟩
  · unfold UnitaryVerifier.init
    rw [t1, size_ok hne hd]
    rcases nodes with _ | nodes
    · rfl
    rcases initial with _ | initial
    · rfl
    rcases final with _ | final
    · rfl
    · simp at hnone
  · unfold UnitaryVerifier.verify
    rw [r1]
    exact c1
  · intro hr
    obtain ⟨z, hz, hn⟩ := passes_near hm _ (r4 ▸ mul_mem h2 hU) (c2.1 hr)
    rw [r4, near_mul hU] at hn
    exact ⟨z, hz, hn⟩
  · rintro ⟨z, hz, hn⟩
    refine c2.2 (near_passes hm _ hz ?_)
    rw [r4, near_mul hU]
    exact hn

/-- `verify` with maps: level `nodes[i]` is placed on level `initial[i]` before the sequence and on level `final[i]` after it. -/
theorem C79_verify_maps (hm : 0 < m) {dims : List Nat} (hne : dims ≠ []) (hd : dims.prod = m) (target : Gate × Arr2 ℂ)
    (U : Matrix (Fin m) (Fin m) ℂ) (ht : HasMatrix m target U) (seq : List (Gate × Arr2 ℂ)) (Ms : List (Matrix (Fin m) (Fin m) ℂ))
    (hs : List.Forall₂ (HasMatrix m) seq Ms) (nodes initial final : Equiv.Perm (Fin m)) :
    ∃ v r, UnitaryVerifier.init seq target dims (some (permList nodes)) (some (permList initial)) (some (permList final)) = .ok v ∧
      v.verify = .ok r ∧
      (r = true → ∃ z : ℂ, ‖z‖ = 1 ∧
        ‖Ms.reverse.prod.submatrix final initial - z • Uᴴ.submatrix nodes nodes‖ ≤ m * (1 / 10000) + m * (1 / 10000) ^ 2) ∧
      ((∃ z : ℂ, ‖z‖ = 1 ∧ ‖Ms.reverse.prod.submatrix final initial - z • Uᴴ.submatrix nodes nodes‖ ≤ 49 / 1000000) → r = true) := by
  obtain ⟨T, t1, t2, t3⟩ := ht
  obtain ⟨h1, h2⟩ := matrices hs
  have hU : U ∈ unitaryGroup (Fin m) ℂ := t3 ▸ t2.2.2
  obtain ⟨P, p1, p2, p3, p4⟩ := permMatrix_ok nodes initial
  obtain ⟨Q, q1, q2, q3, q4⟩ := permMatrix_ok nodes final
  obtain ⟨I, i1, i2, i3, i4⟩ := inv_carry nodes final Q q2 q3 q4
  obtain ⟨S, s1, s2, s3, s4⟩ := matmul_ok P T m p2 p3 t2.1 t2.2.1
  obtain ⟨R, r1, r2, r3, r4⟩ := products 0 seq Ms h1 S s2 s3
  obtain ⟨W, w1, w2, w3, w4⟩ := matmul_ok I R m i2 i3 r2 r3
  obtain ⟨r, c1, c2⟩ := compare_ok hm W w2 w3
  have hW : W.toM m = (carry final nodes * (Ms.reverse.prod * carry nodes initial)) * U := by
    rw [w4, i4, r4, s4, p4, t3]
    simp only [Matrix.mul_assoc]
  have hsub : ∀ z : ℂ, ‖Ms.reverse.prod.submatrix final initial - z • Uᴴ.submatrix nodes nodes‖ =
      ‖carry final nodes * (Ms.reverse.prod * carry nodes initial) - z • Uᴴ‖ := by
    intro z
    have : Ms.reverse.prod.submatrix final initial - z • Uᴴ.submatrix nodes nodes =
        (carry final nodes * (Ms.reverse.prod * carry nodes initial) - z • Uᴴ).submatrix nodes nodes := by
      ext i j
      rw [Matrix.sub_apply, submatrix_apply, submatrix_apply, Matrix.sub_apply, carry_entry]
      rfl
    rw [this]
    exact norm_submatrix_equiv nodes _
  have hcu : ∀ s p : Equiv.Perm (Fin m), carry s p ∈ unitaryGroup (Fin m) ℂ := by
    intro s p
    rw [mem_unitaryGroup_iff]
    have : star (carry s p) = carry p s := by
      ext r c
      rw [star_apply, carry_apply, carry_apply, apply_ite star, star_one, star_zero]
      refine if_congr ?_ rfl rfl
      rw [← Equiv.symm_apply_eq, ← Equiv.eq_symm_apply, Equiv.symm_symm]
      constructor
      · intro h; rw [h]; simp
      · intro h; rw [h]; simp
    rw [this, carry_unitary]
  refine ⟨⟨seq, S, m, some Q⟩, r, ?_, ?_, ?_, ?_⟩
  · unfold UnitaryVerifier.init
    rw [t1, size_ok hne hd]
    simp only [bind, Except.bind, p1, q1, s1]
    rfl
  · unfold UnitaryVerifier.verify
    rw [r1]
    simp only [bind, Except.bind, i1, w1]
    exact c1
  · intro hr
    obtain ⟨z, hz, hn⟩ := passes_near hm _ (hW ▸ mul_mem (mul_mem (hcu _ _) (mul_mem h2 (hcu _ _))) hU) (c2.1 hr)
    rw [hW, near_mul hU, ← hsub] at hn
    exact ⟨z, hz, hn⟩
  · rintro ⟨z, hz, hn⟩
    refine c2.2 (near_passes hm _ hz ?_)
    rw [hW, near_mul hU, ← hsub]
    exact hn

/-- gates without controls have the matrix of their array, or its adjoint -/
theorem hasMatrix_plain {op : Gate × Arr2 ℂ} (hc : op.1.controls = none) (hl : op.1.target.lines ≠ []) (hA : UnitaryArr op.2 m) :
    HasMatrix m op (adjIf op.1.dagger (op.2.toM m)) := by
  obtain ⟨g, A⟩ := op
  simp only at hc hl hA ⊢
  refine ⟨if g.dagger then A.conjT else A, ?_, ?_, EntQR.toM_adjIf A m g.dagger⟩
  · unfold Gate.toMatrix Gate.referenceLines Gate.controlLines
    have : ¬ g.target.lines.length = 0 := fun h => hl (List.length_eq_zero_iff.1 h)
    simp [hc, this, bind, Except.bind, pure, Except.pure]
  · split_ifs
    · exact conjT_unitary hA
    · exact hA

/-- the gate of an array on line `i` of a register -/
theorem made_matrix (i : Fin n) (A : Arr2 ℂ) (hA : UnitaryArr A (d i)) :
    ∃ g, Gate.init (List.ofFn d) "" .single (.one ((i : Nat) : Int)) none = .ok g ∧ HasMatrix (d i) (g, A) (A.toM (d i)) ∧
      HasOperator d g A (embed1 (X := LvOf d) i (A.toM (d i))) := by
  obtain ⟨g, h1, _, h3⟩ := made_one (d := d) i false A hA.1 hA.2.1
  have hf : g.controls = none ∧ g.target = .one ((i : Nat) : Int) ∧ g.dagger = false := by
    unfold Gate.init Gate.checkLongRange Gate.referenceLines Gate.controlLines at h1
    simp [bind, Except.bind, pure, Except.pure, Target.lines] at h1
    subst h1
    exact ⟨rfl, rfl, rfl⟩
  refine ⟨g, h1, ?_, h3⟩
  have := hasMatrix_plain (m := d i) (op := (g, A)) hf.1 (by rw [hf.2.1]; simp [Target.lines]) hA
  rw [hf.2.2] at this
  exact this

/-- The verifier does not ask whether the sequence is the target: the shift of a qutrit, given as a sequence for itself, is rejected. -/
theorem C79_same_violated : ∃ u g, xArray 3 = .ok u ∧ Gate.init [3] "" .single (.one 0) none = .ok g ∧
    ∃ v, UnitaryVerifier.init [(g, u)] (g, u) [3] none none none = .ok v ∧ v.verify = .ok false := by
  obtain ⟨u, h1, h2⟩ := C06_x 3
  obtain ⟨u', k1, _, _, k4⟩ := xArray_ok 3
  rw [h1] at k1
  cases k1
  obtain ⟨g, g1, g2, _⟩ := made_matrix (d := fun _ : Fin 1 => 3) 0 u h2
  refine ⟨u, g, h1, g1, ?_⟩
  obtain ⟨v, r, v1, v2, v3, _⟩ := C79_verify (m := 3) (dims := [3]) (by decide) (by decide) rfl (g, u) _ g2 [(g, u)] [u.toM 3]
    (List.Forall₂.cons g2 List.Forall₂.nil) none none none (Or.inl rfl)
  refine ⟨v, v1, ?_⟩
  cases r with
  | false => exact v2
  | true =>
    obtain ⟨z, hz, hn⟩ := v3 rfl
    have e := (norm_entry_le _ (1 : Fin 3) (0 : Fin 3)).trans hn
    have g3 : u.toM 3 1 0 = 1 := by
      show u.at' 1 0 = 1
      rw [k4 1 0 (by decide)]; simp
    have g4 : u.toM 3 0 1 = 0 := by
      show u.at' 0 1 = 0
      rw [k4 0 1 (by decide)]; simp
    rw [Matrix.sub_apply, Matrix.smul_apply, conjTranspose_apply, g4] at e
    simp only [List.reverse_singleton, List.prod_singleton, g3, star_zero, smul_zero, sub_zero, norm_one] at e
    norm_num at e

/-- The verifier does not look at the lines: on two qutrits, shifts of line 1 are accepted as a sequence that undoes the shift of line 0. -/
theorem C79_lines_violated : ∃ u g0 g1, xArray 3 = .ok u ∧ Gate.init [3, 3] "" .single (.one 0) none = .ok g0 ∧
    Gate.init [3, 3] "" .single (.one 1) none = .ok g1 ∧
    (∃ v, UnitaryVerifier.init [(g1, u), (g1, u)] (g0, u) [3] none none none = .ok v ∧ v.verify = .ok true) ∧
    ∃ A0 A1, HasOperator (fun _ : Fin 2 => 3) g0 u A0 ∧ HasOperator (fun _ : Fin 2 => 3) g1 u A1 ∧
      ∀ z : ℂ, 1 ≤ ‖A1 * A1 * A0 - z • (1 : Matrix (Reg fun _ : Fin 2 => 3) (Reg fun _ : Fin 2 => 3) ℂ)‖ := by
  obtain ⟨u, h1, h2⟩ := C06_x 3
  obtain ⟨u', k1, _, _, k4⟩ := xArray_ok 3
  rw [h1] at k1
  cases k1
  obtain ⟨g0, a1, a2, a3⟩ := made_matrix (d := fun _ : Fin 2 => 3) 0 u h2
  obtain ⟨g1, b1, b2, b3⟩ := made_matrix (d := fun _ : Fin 2 => 3) 1 u h2
  have hx : ∀ r c : Fin 3, u.toM 3 r c = if (r : Nat) = ((c : Nat) + 1) % 3 then 1 else 0 := fun r c => k4 r c c.isLt
  refine ⟨u, g0, g1, h1, a1, b1, ?_, _, _, a3, b3, ?_⟩
  · obtain ⟨v, r, v1, v2, _, v4⟩ := C79_verify (m := 3) (dims := [3]) (by decide) (by decide) rfl (g0, u) _ a2 [(g1, u), (g1, u)]
      [u.toM 3, u.toM 3] (List.Forall₂.cons b2 (List.Forall₂.cons b2 List.Forall₂.nil)) none none none (Or.inl rfl)
    refine ⟨v, v1, ?_⟩
    rw [v2, v4 ⟨1, norm_one, ?_⟩]
    have : [u.toM 3, u.toM 3].reverse.prod - (1 : ℂ) • (u.toM 3)ᴴ = 0 := by
      ext r c
      rw [Matrix.sub_apply, Matrix.smul_apply, conjTranspose_apply]
      simp only [List.reverse_cons, List.reverse_nil, List.nil_append, List.cons_append, List.prod_cons, List.prod_nil, mul_one, Matrix.mul_apply,
        Fin.sum_univ_three, hx]
      fin_cases r <;> fin_cases c <;> simp
    rw [this, norm_zero]
    norm_num
  · intro z
    refine le_trans ?_ (norm_entry_le _ (fun i => if i = 0 then (1 : Fin 3) else 2) (fun _ => (0 : Fin 3)))
    rw [embed1_mul, Matrix.sub_apply, Matrix.smul_apply, one_apply_ne (by intro h; have := congrFun h 0; simp at this), smul_zero, sub_zero]
    have e := embed1_mulVec (X := LvOf fun _ : Fin 2 => 3) 1 (u.toM 3 * u.toM 3) (fun x => embed1 (X := LvOf fun _ : Fin 2 => 3) 0 (u.toM 3) x
      (fun _ => (0 : Fin 3))) (fun i => if i = 0 then (1 : Fin 3) else 2)
    refine le_of_eq (Eq.trans ?_ (congrArg norm e).symm)
    have h0 : ∀ k : Fin 3, embed1 (X := LvOf fun _ : Fin 2 => 3) 0 (u.toM 3) (Function.update (fun i => if i = 0 then (1 : Fin 3) else 2) 1 k)
        (fun _ => (0 : Fin 3)) = if k = 0 then 1 else 0 := by
      intro k
      unfold embed1
      have e1 : (∀ i : Fin 2, i ≠ 0 → Function.update (fun i : Fin 2 => if i = 0 then (1 : Fin 3) else 2) 1 k i = 0) ↔ k = 0 := by
        constructor
        · intro h; simpa using h 1 (by decide)
        · intro h i hi
          have : i = 1 := by omega
          subst this
          simpa using h
      have e2 : u.toM 3 (Function.update (fun i : Fin 2 => if i = 0 then (1 : Fin 3) else 2) 1 k 0) 0 = 1 := by
        rw [Function.update_of_ne (by decide), if_pos rfl, hx]
        simp
      by_cases hk : k = 0
      · rw [if_pos hk]
        exact (if_pos (e1.2 hk)).trans e2
      · rw [if_neg hk]
        exact if_neg (fun h => hk (e1.1 h))
    simp only [h0, mul_ite, mul_one, mul_zero]
    rw [Finset.sum_ite_eq' Finset.univ (0 : Fin 3), if_pos (Finset.mem_univ _)]
    have : (u.toM 3 * u.toM 3) 2 0 = 1 := by
      rw [Matrix.mul_apply, Fin.sum_univ_three]
      simp only [hx]
      simp
    rw [if_neg (by decide), this, norm_one]

/-- A final map that places two levels on the same level is not accepted: `verify` raises. -/
theorem C79_final_map_rejected {dims : List Nat} (hne : dims ≠ []) (hd : dims.prod = m) (target : Gate × Arr2 ℂ)
    (U : Matrix (Fin m) (Fin m) ℂ) (ht : HasMatrix m target U) (seq : List (Gate × Arr2 ℂ)) (Ms : List (Matrix (Fin m) (Fin m) ℂ))
    (hs : List.Forall₂ (HasMatrix m) seq Ms) (nodes initial : Equiv.Perm (Fin m)) (final : Fin m → Fin m) (hf : ¬ Function.Injective final) :
    ∃ v, UnitaryVerifier.init seq target dims (some (permList nodes)) (some (permList initial)) (some (List.ofFn fun i => ((final i : Nat) : Int))) = .ok v ∧
      v.verify = .error .valueError := by
  obtain ⟨T, t1, t2, t3⟩ := ht
  obtain ⟨h1, -⟩ := matrices hs
  obtain ⟨P, p1, p2, p3, p4⟩ := permMatrix_ok nodes initial
  obtain ⟨S, s1, s2, s3, s4⟩ := matmul_ok P T m p2 p3 t2.1 t2.2.1
  obtain ⟨R, r1, r2, r3, r4⟩ := products 0 seq Ms h1 S s2 s3
  obtain ⟨Q, q1, q2, q3, q4⟩ := permMatrix_fun nodes final
  have hsur : ¬ Function.Surjective final := fun h => hf (Finite.injective_iff_surjective.2 h)
  obtain ⟨r, hr⟩ := not_forall.1 hsur
  have hdet : (Q.toM m).det = 0 := det_eq_zero_of_row_eq_zero r fun c => by
    rw [q4, if_neg]
    exact fun h => hr ⟨_, h.symm⟩
  refine ⟨⟨seq, S, m, some Q⟩, ?_, ?_⟩
  · unfold UnitaryVerifier.init
    rw [t1, size_ok hne hd]
    simp only [bind, Except.bind, p1, q1, s1]
    rfl
  · unfold UnitaryVerifier.verify
    rw [r1]
    have : Visual.inv Q = .error .valueError := by
      unfold Visual.inv
      rw [if_neg]
      rintro ⟨_, h⟩
      rw [q2] at h
      exact h hdet
    simp only [bind, Except.bind, this]

/-- The shift of a qutrit needs no gates if the levels are read one place further at the end. -/
example : ∃ u g, xArray 3 = .ok u ∧ Gate.init [3] "" .single (.one 0) none = .ok g ∧
    ∃ v, UnitaryVerifier.init [] (g, u) [3] (some [0, 1, 2]) (some [0, 1, 2]) (some [1, 2, 0]) = .ok v ∧ v.verify = .ok true := by
  obtain ⟨u, h1, h2⟩ := C06_x 3
  obtain ⟨u', k1, _, _, k4⟩ := xArray_ok 3
  rw [h1] at k1
  cases k1
  have hx : ∀ r c : Fin 3, u.toM 3 r c = if (r : Nat) = ((c : Nat) + 1) % 3 then 1 else 0 := fun r c => k4 r c c.isLt
  obtain ⟨g, g1, g2, _⟩ := made_matrix (d := fun _ : Fin 1 => 3) 0 u h2
  refine ⟨u, g, h1, g1, ?_⟩
  obtain ⟨v, r, v1, v2, _, v4⟩ := C79_verify_maps (m := 3) (dims := [3]) (by decide) (by decide) rfl (g, u) _ g2 [] [] List.Forall₂.nil 1 1 (finRotate 3)
  refine ⟨v, v1, ?_⟩
  rw [v2, v4 ⟨1, norm_one, ?_⟩]
  have : ([] : List (Matrix (Fin 3) (Fin 3) ℂ)).reverse.prod.submatrix (finRotate 3) (1 : Equiv.Perm (Fin 3)) -
      (1 : ℂ) • (u.toM 3)ᴴ.submatrix (1 : Equiv.Perm (Fin 3)) (1 : Equiv.Perm (Fin 3)) = 0 := by
    ext r c
    rw [Matrix.sub_apply, Matrix.smul_apply, submatrix_apply, submatrix_apply, conjTranspose_apply, hx]
    have hrot : ∀ r : Fin 3, ((finRotate 3 r : Fin 3) : Nat) = ((r : Nat) + 1) % 3 := by decide
    have : finRotate 3 r = c ↔ (c : Nat) = ((r : Nat) + 1) % 3 := by
      rw [← hrot, Fin.ext_iff, eq_comm]
    simp only [List.reverse_nil, List.prod_nil, one_apply, Equiv.Perm.one_apply, this]
    split_ifs with h <;> simp [h]
  rw [this, norm_zero]
  norm_num

end Qudits
