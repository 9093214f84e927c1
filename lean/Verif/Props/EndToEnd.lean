import Verif.Lemmas.RunCompiled
import Verif.Lemmas.Remap
import Verif.Props.TnsimProps
import Verif.Props.CompilerViolations
import Verif.Props.RoomyProps
/- Property C75: what is shown for a compiled circuit. -/
namespace Qudits
open Spec Compiler Matrix LGraph Visual
open scoped Matrix.Norms.L2Operator

namespace Compiler

variable {n : Nat} {d : Fin n → Nat} {lp : ∀ i, Equiv.Perm (Fin (d i))}

theorem relabel_zero (hpos : ∀ i, 0 < d i) (h0 : ∀ (i : Fin n) (k : Fin (d i)), (k : Nat) = 0 → lp i k = k) :
    (fun i => (lp i).symm ⟨0, hpos i⟩) = fun i : Fin n => (⟨0, hpos i⟩ : Fin (d i)) := by
  funext i
  rw [Equiv.symm_apply_eq]
  exact (h0 i ⟨0, hpos i⟩ rfl).symm

theorem mulVec_zeroState (hpos : ∀ i, 0 < d i) (A : Matrix (Reg d) (Reg d) ℂ) (x : Reg d) :
    (A *ᵥ zeroState d) x = A x fun i => ⟨0, hpos i⟩ := by
  have : (zeroState d : Reg d → ℂ) = Pi.single (fun i => (⟨0, hpos i⟩ : Fin (d i))) 1 := by
    funext y
    unfold zeroState
    rw [Pi.single_apply]
    refine if_congr ?_ rfl rfl
    constructor
    · intro h; funext i; exact Fin.ext (h i)
    · intro h i; rw [h]
  rw [this, mulVec_single_one]
  rfl

end Compiler

variable {n : Nat} {d : Fin (n + 1) → Nat} {lp : ∀ i, Equiv.Perm (Fin (d i))} {sem : Op (Arr2 ℂ) → Matrix (Reg d) (Reg d) ℂ}
  {obj : Nat → Gate × Arr2 ℂ} {gs : List (Op (Arr2 ℂ))}

theorem placementList_toNat : (List.ofFn fun i => placementList (lp i)).map (fun m => m.map Int.toNat) = mappingLists d lp := by
  unfold mappingLists placementList
  rw [List.map_ofFn]
  congr 1
  funext i
  simp [Function.comp_def, List.map_ofFn]

/-- What is shown for a compiled circuit, with any placements: at a basis state, up to the error, the modulus of the entry of the operator of the
circuit between the state that the placements carry there in two steps and the state that they carry to the start in one. -/
theorem C75_shown (hpos : ∀ i, 0 < d i) (hobj : Objects d sem obj gs) {b b' : Graphs} {e : ℝ} {l : List CInstr}
    (hl : Implements d lp sem b e (circuitOp sem gs) l) (hk : ∀ g, .kept g ∈ l → g ∈ gs) :
    ∃ v r w, simulate (List.ofFn d) obj l = .ok v ∧ shown (List.ofFn d) ⟨l, List.ofFn fun i => placementList (lp i), b'⟩ v = .ok r ∧
      simulateGates (List.ofFn d) obj gs = .ok w ∧ r.length = ∏ i, d i ∧ w.length = ∏ i, d i ∧
      (∀ y, w[idx d y]? = some (circuitOp sem gs y fun i => ⟨0, hpos i⟩)) ∧
      ∀ y : Reg d, ∃ a, r[idx d y]? = some a ∧
        |a - ‖circuitOp sem gs (fun i => (lp i).symm ((lp i).symm (y i))) (fun i => (lp i).symm ⟨0, hpos i⟩)‖| ≤ e := by
  obtain ⟨ops, o1, o2⟩ := objects_ok hpos hobj l hl.native hk hl.unitary
  obtain ⟨v, v1, v2⟩ := C15_execute d (by omega) hpos ops _ o2
  obtain ⟨w, w1, w2⟩ := C15_execute d (by omega) hpos (gs.map fun g => obj g.oid) (gs.map sem) (by
    clear hl hk
    induction gs with
    | nil => exact List.Forall₂.nil
    | cons g gs ih => exact List.Forall₂.cons (hobj g List.mem_cons_self) (ih fun g hg => hobj g (List.mem_cons_of_mem _ hg)))
  obtain ⟨r, r1, r2, r3⟩ := remap_ok d lp (v.map fun c => ‖c‖) (by rw [List.length_map, v2.length])
  refine ⟨v, r, w, ?_, ?_, w1, r2, w2.length, ?_, ?_⟩
  · unfold simulate
    rw [o1]
    exact v1
  · unfold shown plotState
    rw [placementList_toNat]
    exact r1
  · intro y
    rw [w2.entry, mulVec_zeroState hpos]
    rfl
  · intro y
    obtain ⟨z, hz, hn⟩ := hl.near
    let x : Reg d := fun i => (lp i).symm (y i)
    have hx : relabel d lp x = y := by
      funext i
      exact (lp i).apply_symm_apply (y i)
    have e1 := r3 x
    rw [hx, List.getElem?_map, v2.entry] at e1
    refine ⟨_, e1, ?_⟩
    rw [mulVec_zeroState hpos]
    have e2 := (norm_entry_le _ x (fun i => ⟨0, hpos i⟩)).trans hn
    rw [Matrix.sub_apply, Matrix.smul_apply] at e2
    have e4 := (abs_norm_sub_norm_le _ _).trans e2
    rw [norm_smul, hz, one_mul] at e4
    exact e4

theorem run_compiled (hpos : ∀ i, 0 < d i) (hr : Readable lp) (hobj : Objects d sem obj gs) {b b' : Graphs} {e : ℝ} {l : List CInstr}
    (hl : Implements d lp sem b e (circuitOp sem gs) l) (hk : ∀ g, .kept g ∈ l → g ∈ gs) :
    RunsAs d obj gs e (.ok ⟨l, List.ofFn fun i => placementList (lp i), b'⟩) := by
  obtain ⟨v, r, w, h1, h2, h3, h4, h5, h6, h7⟩ := C75_shown (b' := b') hpos hobj hl hk
  refine ⟨_, v, r, w, rfl, h1, h2, h3, h4.trans h5.symm, ?_⟩
  intro k a c ha hc
  have hk : k < ∏ i, d i := by
    rw [← h4]
    exact (List.getElem?_eq_some_iff.1 ha).1
  obtain ⟨y, rfl⟩ : ∃ y, idx d y = k := ⟨(idxEquiv d).symm ⟨k, hk⟩, congrArg Fin.val ((idxEquiv d).apply_symm_apply ⟨k, hk⟩)⟩
  obtain ⟨a', e1, e2⟩ := h7 y
  rw [ha] at e1
  rw [h6] at hc
  rw [Option.some.inj e1, ← Option.some.inj hc]
  rw [relabel_zero hpos hr.2] at e2
  have e3 : (fun i => (lp i).symm ((lp i).symm (y i))) = y := by
    funext i
    rw [Equiv.symm_apply_eq, Equiv.symm_apply_eq]
    exact (hr.1 i (y i)).symm
  rw [e3] at e2
  exact e2

variable {sp : PathFinder} {rnd : ℝ → ℝ} {rho : ℝ} {other : Nat → Other} {D : Fin (n + 1) → Nat} {M : Nat}

/-- C75 for `compile_O0`. Missing: placements that are not their own inverse or move level 0, for which it does not hold (below); gates that are not
compiled as they should be (C72). -/
theorem C75_O0_partial (hsem : Semantics d sem) (hsp : FindsPaths sp) (hrnd : ∀ x, |rnd x - x| ≤ rho) (fuel : Nat) {b : Graphs} (hb : Backend d lp b)
    (hpos : ∀ i, 0 < d i) (hr : Readable lp) (hobj : Objects d sem obj gs)
    (hg : ∀ g ∈ gs, OneLine d g ∨ GoodCEx d lp other sem g ∨ GoodPair d lp other sem g ∨ GoodMulti d lp other sem g) :
    RunsAs d obj gs (gs.map (gateError d lineError other rho)).sum (compileO0 fuel sp rnd other b ⟨List.ofFn d, gs⟩) := by
  obtain ⟨l, b', h1, _, h2⟩ := C72_O0_partial hsem hsp hrnd fuel hb gs hg
  rw [h1]
  exact run_compiled hpos hr hobj h2 fun g hgl => compileO0_kept h1 g hgl

/-- C75 for `compile_O1`; the error is that of the gates that are left after merging. Missing as for `compile_O0`. -/
theorem C75_O1_partial (hsem : Semantics d sem) (hsp : FindsPaths sp) (hrnd : ∀ x, |rnd x - x| ≤ rho) {b : Graphs} (hb : Backend d lp b)
    (hpos : ∀ i, 0 < d i) (hr : Readable lp) (hobj : Objects d sem obj gs) (hid : (gs.map Op.oid).Nodup) (next : Nat) (hnext : ∀ g ∈ gs, g.oid < next)
    (hg : ∀ g ∈ gs, OneLine d g ∨ GoodCEx d lp other sem g ∨ GoodPair d lp other sem g) :
    ∃ gs', Resynth.transpile (List.ofFn d) next gs = .ok gs' ∧
      RunsAs d obj gs (gs'.map (gateError d lineError other rho)).sum (compileO1 sp rnd other next b ⟨List.ofFn d, gs⟩) := by
  obtain ⟨gs', l, b', h0, _, h1, _, h2⟩ := C72_O1_partial hsem hsp hrnd hb gs hid next hnext hg
  refine ⟨gs', h0, ?_⟩
  rw [h1]
  exact run_compiled hpos hr hobj h2 fun g hgl => absurd hgl (compileO1_kept h1 g)

/-- C75 for `compile_O2`, under the conditions of C72: with enough stack the right thing is shown, and with less it is, or the search fails for lack
of it. -/
theorem C75_O2_partial (hsem : Semantics d sem) (hsp : FindsShortest sp) (hrnd : ∀ x, |rnd x - x| ≤ rho) {b : Graphs} (hb : Backend d lp b)
    (hc : ∀ (i : Fin (n + 1)) g, b[(i : Nat)]? = some (some g) → AllCoupled (d i) g) (hd : ∀ i, d i ≤ 10000)
    (hpos : ∀ i, 0 < d i) (hr : Readable lp) (hobj : Objects d sem obj gs) (hid : (gs.map Op.oid).Nodup)
    (hg : ∀ g ∈ gs, OneLine d g ∨ GoodCEx d lp other sem g ∨ GoodPair d lp other sem g)
    (hn : ∀ g ∈ gs, ∀ i : Fin (n + 1), g.target = .one (i : Nat) → NoTinyEntries (g.body.toM (d i)))
    (hl : ∀ q, (lane q gs).IsChain fun x y => ¬ (x.single = true ∧ y.single = true)) :
    ∃ N, ∀ fuel, RunsAs d obj gs (gs.map (gateError d adaError other rho)).sum (compileO2 fuel sp rnd other b ⟨List.ofFn d, gs⟩) ∨
      (fuel < N ∧ compileO2 fuel sp rnd other b ⟨List.ofFn d, gs⟩ = .error .recursion) := by
  obtain ⟨N, l, b', h1, _, h2⟩ := C72_O2_partial hsem hsp hrnd hb hc hd gs hid hg hn hl
  refine ⟨N, fun fuel => (h1 fuel).imp (fun h => ?_) id⟩
  rw [h]
  exact run_compiled hpos hr hobj h2 fun g hgl => absurd hgl (compileO2_kept h g)

/-- C75 for `compile_O0` on devices that have more levels than the lines: an AssertionError, or the right thing is shown. -/
theorem C75_O0_roomy_partial (hsem : Semantics d sem) (hsp : FindsPaths sp) (hrnd : ∀ x, |rnd x - x| ≤ rho) (fuel : Nat) {b : Graphs}
    (hb : RoomyBackend d D lp b) (hM : ∀ i, D i ≤ M) (hpos : ∀ i, 0 < d i) (hr : Readable lp) (hobj : Objects d sem obj gs)
    (hg : ∀ g ∈ gs, OneLine d g ∨ GoodCEx d lp other sem g ∨ GoodPair d lp other sem g ∨ GoodMulti d lp other sem g) :
    compileO0 fuel sp rnd other b ⟨List.ofFn d, gs⟩ = .error .assertionError ∨
    RunsAs d obj gs (gs.map (gateError d (roomyError M) other rho)).sum (compileO0 fuel sp rnd other b ⟨List.ofFn d, gs⟩) := by
  refine (C73_O0_partial hsem hsp hrnd fuel hb hM gs hg).imp id ?_
  rintro ⟨l, b', h1, _, h2⟩
  rw [h1]
  exact run_compiled hpos hr hobj h2 fun g hgl => compileO0_kept h1 g hgl

/-- C75 for `compile_O1` on devices that have more levels than the lines. -/
theorem C75_O1_roomy_partial (hsem : Semantics d sem) (hsp : FindsPaths sp) (hrnd : ∀ x, |rnd x - x| ≤ rho) {b : Graphs}
    (hb : RoomyBackend d D lp b) (hM : ∀ i, D i ≤ M) (hpos : ∀ i, 0 < d i) (hr : Readable lp) (hobj : Objects d sem obj gs)
    (hid : (gs.map Op.oid).Nodup) (next : Nat) (hnext : ∀ g ∈ gs, g.oid < next)
    (hg : ∀ g ∈ gs, OneLine d g ∨ GoodCEx d lp other sem g ∨ GoodPair d lp other sem g) :
    compileO1 sp rnd other next b ⟨List.ofFn d, gs⟩ = .error .assertionError ∨
    ∃ gs', Resynth.transpile (List.ofFn d) next gs = .ok gs' ∧
      RunsAs d obj gs (gs'.map (gateError d (roomyError M) other rho)).sum (compileO1 sp rnd other next b ⟨List.ofFn d, gs⟩) := by
  refine (C73_O1_partial hsem hsp hrnd hb hM gs hid next hnext hg).imp id ?_
  rintro ⟨gs', l, b', h0, h1, _, h2⟩
  refine ⟨gs', h0, ?_⟩
  rw [h1]
  exact run_compiled hpos hr hobj h2 fun g hgl => absurd hgl (compileO1_kept h1 g)

/-! ### violations -/

/-- C75 is violated on every backend whose placement moves level 0 of a line: the simulation of the compiled circuit starts in physical level 0 of
every line, which is not where the logical level 0 is kept. Already for the circuit without gates the wrong state is shown. -/
theorem C75_start_violated (fuel : Nat) {b : Graphs} (hb : Backend d lp b) (hpos : ∀ i, 0 < d i) (i : Fin (n + 1))
    (hi : lp i ⟨0, hpos i⟩ ≠ ⟨0, hpos i⟩) (e : ℝ) (he : e < 1) : ¬ RunsAs d obj [] e (compileO0 fuel sp rnd other b ⟨List.ofFn d, []⟩) := by
  have h1 : compileO0 fuel sp rnd other b ⟨List.ofFn d, []⟩ = .ok ⟨[], List.ofFn fun i => placementList (lp i), b⟩ := by
    have hf := finish_ok hb []
    have hc : compile fuel sp rnd other b ⟨List.ofFn d, []⟩ ["PhyLocQRPass", "PhyEntQRCEXPass"] = .ok ⟨[], List.ofFn fun i => placementList (lp i), b⟩ := hf
    unfold compileO0
    rw [hc]
    exact hf
  rintro ⟨c, v, r, w, k1, k2, k3, k4, k5⟩
  rw [h1] at k1
  cases k1
  obtain ⟨v', r', w', j1, j2, j3, j4, j5, j6, j7⟩ := C75_shown (d := d) (lp := lp) (sem := fun _ => 0) (obj := obj) (gs := []) (b := b) (b' := b) (e := 0)
    (l := []) hpos (by simp [Objects]) Translated.nil.implements (by simp)
  rw [j1] at k2
  cases k2
  rw [j2] at k3
  cases k3
  rw [j3] at k4
  cases k4
  obtain ⟨a, a1, a2⟩ := j7 fun i => ⟨0, hpos i⟩
  have := k5.2 _ _ _ a1 (j6 fun i => ⟨0, hpos i⟩)
  rw [circuitOp_nil, one_apply_eq] at this
  rw [circuitOp_nil, one_apply_ne] at a2
  · rw [norm_zero, sub_zero] at a2
    have ha : a = 0 := abs_nonpos_iff.1 a2
    rw [ha, norm_one, zero_sub, abs_neg, abs_one] at this
    linarith
  · intro h
    apply hi
    have := congrFun h i
    simp only [EmbeddingLike.apply_eq_iff_eq] at this
    rw [Equiv.symm_apply_eq] at this
    exact this.symm

/-- The array of the exchange of level 0 and level `k`. -/
noncomputable def exchangeArray {m : Nat} (h : 0 < m) (k : Fin m) : Arr2 ℂ :=
  ⟨m, m, fun r c => if h' : r < m ∧ c < m then relabelling (Equiv.swap ⟨0, h⟩ k) ⟨r, h'.1⟩ ⟨c, h'.2⟩ else 0⟩

theorem exchangeArray_toM {m : Nat} (h : 0 < m) (k : Fin m) : (exchangeArray h k).toM m = relabelling (Equiv.swap ⟨0, h⟩ k) := by
  funext r c
  simp [exchangeArray, Arr2.toM]

/-- C75 is violated on every backend whose placement is not its own inverse: then there is a circuit of one gate, an exchange of two levels, for which
the wrong state is shown. -/
theorem C75_inverse_violated (hsem : Semantics d sem) (hsp : FindsPaths sp) (hrnd : ∀ x, |rnd x - x| ≤ rho) (fuel : Nat) {b : Graphs}
    (hb : Backend d lp b) (hpos : ∀ i, 0 < d i) (h0 : ∀ (i : Fin (n + 1)) (k : Fin (d i)), (k : Nat) = 0 → lp i k = k) (i : Fin (n + 1)) (k : Fin (d i))
    (hk : lp i (lp i k) ≠ k) : ∃ g obj, OneLine d g ∧ Objects d sem obj [g] ∧
      ∀ e, e < 1 - lineError (d i) → ¬ RunsAs d obj [g] e (compileO0 fuel sp rnd other b ⟨List.ofFn d, [g]⟩) := by
  let u := exchangeArray (hpos i) k
  let g : Op (Arr2 ℂ) := ⟨0, true, .one ((i : Nat) : Int), u⟩
  have hg : OneLine d g := ⟨rfl, i, rfl, rfl, rfl, by rw [exchangeArray_toM]; exact relabelling_unitary _⟩
  have hs : sem g = embed1 (X := LvOf d) i (relabelling (Equiv.swap ⟨0, hpos i⟩ k)) := by
    rw [hsem.1 g i rfl rfl]
    congr 1
    exact exchangeArray_toM _ _
  obtain ⟨G, _, hG1, hG2⟩ := made_one (d := d) i false u rfl rfl
  have hobj : Objects d sem (fun _ => (marked false G, u)) [g] := by
    intro x hx
    rw [List.mem_singleton.1 hx]
    refine ⟨hG1, ?_⟩
    rw [hs, ← exchangeArray_toM]
    exact hG2
  refine ⟨g, _, hg, hobj, ?_⟩
  intro e he
  obtain ⟨l, b', h1, _, h2⟩ := C72_O0_partial (other := other) hsem hsp hrnd fuel hb [g] (fun x hx => by rw [List.mem_singleton.1 hx]; exact Or.inl hg)
  rintro ⟨c, v, r, w, k1, k2, k3, k4, k5⟩
  rw [h1] at k1
  cases k1
  have hE : ([g].map (gateError d lineError other rho)).sum = lineError (d i) := by
    simp only [List.map_cons, List.map_nil, List.sum_cons, List.sum_nil, add_zero, gateError, g]
    rw [lineOf_fin]
  rw [hE] at h2
  obtain ⟨v', r', w', j1, j2, j3, j4, j5, j6, j7⟩ := C75_shown (b' := b') hpos hobj h2 fun g hgl => compileO0_kept h1 g hgl
  rw [j1] at k2
  cases k2
  rw [j2] at k3
  cases k3
  rw [j3] at k4
  cases k4
  let z : Reg d := fun i => ⟨0, hpos i⟩
  let y : Reg d := Function.update z i k
  obtain ⟨a, a1, a2⟩ := j7 y
  have := k5.2 _ _ _ a1 (j6 y)
  have hop : circuitOp sem [g] = embed1 (X := LvOf d) i (relabelling (Equiv.swap ⟨0, hpos i⟩ k)) := by
    rw [circuitOp_cons, circuitOp_nil, one_mul, hs]
  have e1 : circuitOp sem [g] y z = 1 := by
    rw [hop]
    unfold embed1
    rw [if_pos]
    · simp [relabelling, y, z]
    · intro j hj
      simp [y, hj]
  have e2 : circuitOp sem [g] (fun i => (lp i).symm ((lp i).symm (y i))) (fun i => (lp i).symm (z i)) = 0 := by
    rw [show (fun i => (lp i).symm (z i)) = z from relabel_zero hpos h0, hop]
    unfold embed1
    split
    · unfold relabelling
      rw [if_neg]
      intro h
      apply hk
      simp only [y, z, Function.update_self, Equiv.swap_apply_left] at h
      rw [Equiv.symm_apply_eq, Equiv.symm_apply_eq] at h
      exact h.symm
    · rfl
  rw [e2, norm_zero, sub_zero] at a2
  rw [e1, norm_one] at this
  have t1 := abs_le.1 a2
  have t2 := abs_le.1 this
  linarith

/-! ### cases -/

theorem semantics_exists {n : Nat} (d : Fin n → Nat) : ∃ sem, Semantics d sem := by
  refine ⟨fun g => match g.target with
    | .one q => match lineOf n q with
      | some i => embed1 (X := LvOf d) i (g.body.toM (d i))
      | none => 1
    | .many _ => 1, ?_, ?_⟩
  · intro g i _ ht
    simp only
    rw [ht]
    simp only
    rw [lineOf_fin]
  · intro g qs _ ht
    simp only
    rw [ht]
    exact ⟨1, (embed_one _).symm⟩

theorem trits_backend : Backend (n := 2) (fun _ => 3) (fun _ => Equiv.swap 1 2) tritTraps := by
  intro i
  refine ⟨tritTrap, ?_, C74_trits⟩
  fin_cases i <;> rfl

theorem trits_readable : Readable (n := 2) (d := fun _ => 3) fun _ => Equiv.swap 1 2 :=
  ⟨fun _ k => Equiv.swap_apply_self 1 2 k, fun _ k h => by
    refine Equiv.swap_apply_of_ne_of_ne ?_ ?_ <;> · rintro rfl; simp at h⟩

/-- A circuit of one gate, the exchange of levels 0 and 2 of the second line, on `FakeIonTraps2Trits`. -/
example : ∃ (sp : PathFinder) (g : Op (Arr2 ℂ)) (obj : Nat → Gate × Arr2 ℂ), FindsPaths sp ∧ g.body = exchangeArray (by decide) (2 : Fin 3) ∧
    RunsAs (n := 2) (fun _ => 3) obj [g] (lineError 3) (compileO0 0 sp id (fun _ => ⟨false, [], none⟩) tritTraps ⟨[3, 3], [g]⟩) := by
  obtain ⟨sp, hsp⟩ := findsPaths_exists
  obtain ⟨sem, hsem⟩ := semantics_exists (n := 2) fun _ => 3
  let g : Op (Arr2 ℂ) := ⟨0, true, .one 1, exchangeArray (by decide) (2 : Fin 3)⟩
  obtain ⟨G, _, hG1, hG2⟩ := made_one (n := 2) (d := fun _ => 3) 1 false g.body rfl rfl
  have hg : OneLine (n := 2) (fun _ => 3) g := ⟨rfl, 1, rfl, rfl, rfl, by rw [exchangeArray_toM]; exact relabelling_unitary _⟩
  have := C75_O0_partial (other := fun _ => ⟨false, [], none⟩) (rnd := id) (rho := 0) (obj := fun _ => (marked false G, g.body)) (gs := [g]) hsem hsp (by simp) 0
    trits_backend (fun _ => by decide) trits_readable (by
      intro x hx
      rw [List.mem_singleton.1 hx]
      refine ⟨hG1, ?_⟩
      rw [hsem.1 g 1 rfl rfl]
      exact hG2) (by
      intro x hx
      rw [List.mem_singleton.1 hx]
      exact Or.inl hg)
  have hE : ([g].map (gateError (n := 2) (fun _ => 3) lineError (fun _ => ⟨false, [], none⟩) 0)).sum = lineError 3 := by
    simp only [List.map_cons, List.map_nil, List.sum_cons, List.sum_nil, add_zero, gateError, g]
    rfl
  rw [hE] at this
  exact ⟨sp, g, _, hsp, rfl, this⟩

/-- On the device whose levels 0 and 1 are exchanged, the wrong state is shown for the circuit without gates. -/
example (sp : PathFinder) (obj : Nat → Gate × Arr2 ℂ) : ¬ RunsAs (n := 1) (fun _ => 3) obj [] (1 / 2)
    (compileO0 0 sp id (fun _ => ⟨false, [], none⟩) [some rowDevice] ⟨[3], []⟩) :=
  C75_start_violated (n := 0) (d := fun _ => 3) (lp := fun _ => Equiv.swap 0 1) 0 (by
    intro i
    refine ⟨rowDevice, ?_, rowDevice_ok.1, ?_, rowDevice_ok.2⟩
    · fin_cases i; rfl
    · rfl) (fun _ => by decide) 0 (by decide) _ (by norm_num)

/-- A device of four levels, level 0 coupled to the others, whose placement carries 1 to 2, 2 to 3 and 3 to 1. -/
example : ∃ (sp : PathFinder) (sem : Op (Arr2 ℂ) → Matrix (Reg (n := 1) fun _ => 4) (Reg (n := 1) fun _ => 4) ℂ) (g : Op (Arr2 ℂ)) (obj : Nat → Gate × Arr2 ℂ)
    (b : Graphs), FindsPaths sp ∧ Semantics (n := 1) (fun _ => 4) sem ∧ OneLine (n := 1) (fun _ => 4) g ∧ Objects (n := 1) (fun _ => 4) sem obj [g] ∧
    ∀ e, e < 1 - lineError 4 → ¬ RunsAs (n := 1) (fun _ => 4) obj [g] e (compileO0 0 sp id (fun _ => ⟨false, [], none⟩) b ⟨[4], [g]⟩) := by
  obtain ⟨sp, hsp⟩ := findsPaths_exists
  obtain ⟨sem, hsem⟩ := semantics_exists (n := 1) fun _ => 4
  have hdev := C74_declared (d := 4) (Equiv.swap 1 2 * Equiv.swap 2 3) [(0, 1, []), (0, 2, []), (0, 3, [])] [0] none (by decide) (by simp [SameEnds]) ⟨0, by simp⟩ (by
    refine ways_to_zero fun i => ?_
    fin_cases i
    · exact .refl
    all_goals exact way_one (by simp [EdgeBetween]))
  obtain ⟨g, obj, h1, h2, h3⟩ := C75_inverse_violated (n := 0) (d := fun _ => 4) (lp := fun _ => Equiv.swap 1 2 * Equiv.swap 2 3) (sp := sp) (rnd := id) (rho := 0)
    (other := fun _ => ⟨false, [], none⟩) (b := [some _]) hsem hsp (by simp) 0 (fun i => ⟨_, by fin_cases i; rfl, hdev⟩) (fun _ => by decide)
    (fun _ k hk => by
      have : k = 0 := Fin.ext hk
      subst this
      decide) 0 1 (by decide)
  exact ⟨sp, sem, g, obj, _, hsp, hsem, h1, h2, h3⟩

end Qudits
