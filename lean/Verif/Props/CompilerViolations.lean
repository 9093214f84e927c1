import Verif.Props.CompilerProps
import Verif.Props.AdaViolations
import Verif.Lemmas.EntSingle
/-
Where the compiler does not do what C72 asks for, and cases in which the theorems apply.
-/
namespace Qudits
open Spec Matrix LGraph LocalQR Compiler
open scoped Matrix.Norms.L2Operator

variable {sp : PathFinder} {rnd : ℝ → ℝ} {other : Nat → Other}

/-! ### gates that are lost -/

/-- A gate whose first entries are those of the identity gives no rotations. -/
theorem execute_block (P : EntQR.Pair) (hrnd : rnd 0 = 0) (u : Arr2 ℂ) (hr : P.c * P.t ≤ u.rows) (hc : P.c * P.t ≤ u.cols)
    (hu : ∀ i < P.c * P.t, ∀ j < P.c * P.t, u.at' i j = if i = j then 1 else 0) : EntQR.execute P 1e-8 1e-4 rnd u = .ok ⟨u, [], 0, 0⟩ := by
  have hall : (List.range (P.c * P.t)).foldlM (EntQR.column P 1e-8 (P.c * P.t)) ⟨u, [], 0, 0⟩ = .ok ⟨u, [], 0, 0⟩ := by
    refine EntQR.foldlM_const _ _ _ fun c hc' => ?_
    rw [List.mem_range] at hc'
    unfold EntQR.column
    refine EntQR.foldlM_const _ _ _ fun r hr' => ?_
    rw [rowsOf_eq _ _ hc', List.mem_reverse, List.mem_range'_1] at hr'
    unfold EntQR.step Arr2.get
    simp only
    rw [if_pos ⟨by omega, by omega⟩, hu r (by omega) c hc', if_neg (by omega)]
    simp only [bind, Except.bind, pure, Except.pure, norm_zero]
    rw [if_neg (by norm_num)]
  obtain ⟨eq, q1, q2⟩ := EntQR.equations_ok (P.c * P.t)
  have hsolve : EntQR.solvePhases (P.c * P.t) eq (fun _ => 0) = .ok fun _ => 0 := by
    have hE : (fun i j => eq.at' i j : Matrix (Fin (P.c * P.t)) (Fin ((P.c * P.t) - 1)) ℝ) = EntQR.inc (P.c * P.t) := by
      funext i j; exact q2 i j
    unfold EntQR.solvePhases
    simp only []
    rw [hE, if_neg (EntQR.normal_det (P.c * P.t))]
    congr 1
    rw [show (fun _ => 0 : Fin (P.c * P.t) → ℝ) = 0 from rfl, mulVec_zero, mulVec_zero]
    rfl
  unfold EntQR.execute
  simp only []
  rw [hall]
  simp only [bind, Except.bind]
  have hargs : EntQR.diagArgs rnd (P.c * P.t) u = .ok fun _ => 0 := by
    unfold EntQR.diagArgs
    rw [if_pos ⟨hr, hc⟩]
    congr 1
    funext i
    rw [hu i i.isLt i i.isLt, if_pos rfl, Complex.arg_one, hrnd]
  rw [hargs]
  simp only []
  rw [q1]
  simp only []
  rw [hsolve]
  refine EntQR.foldlM_const _ _ _ fun i _ => ?_
  unfold EntQR.phaseStep
  rw [if_neg]
  · rfl
  · rw [zero_mul, abs_zero]; norm_num

theorem qubits_ok (n : Nat) : Backend (fun _ : Fin n => 2) (fun _ => 1) (List.replicate n (some qubitDevice)) := by
  intro i
  exact ⟨qubitDevice, by simp, qubitDevice_ok.1, rfl, qubitDevice_ok.2⟩

/-- the gate that exchanges the last two levels of three qubits (up to a sign), as an array -/
noncomputable def toffoli : Op (Arr2 ℂ) := ⟨0, false, .many [0, 1, 2], exchangeArr 8 6 7⟩

/-- Gates on three lines are given to the pass for two lines, which looks at the first two lines only. For a doubly controlled gate on three qubits,
which is not a multiple of the identity, `compile_O1` and `compile_O2` return the empty circuit. -/
theorem C72_lost_violated (hsp : FindsPaths sp) (hrnd : rnd 0 = 0) (hother : other 0 = ⟨false, [2, 2, 2], none⟩) :
    UnitaryArr toffoli.body 8 ∧ (¬ ∃ z : ℂ, toffoli.body.toM 8 = z • 1) ∧
    ∃ b', compileO1 sp rnd other 1 (List.replicate 3 (some qubitDevice)) ⟨[2, 2, 2], [toffoli]⟩ = .ok ⟨[], [[0, 1], [0, 1], [0, 1]], b'⟩ ∧
      ∀ fuel, compileO2 fuel sp rnd other (List.replicate 3 (some qubitDevice)) ⟨[2, 2, 2], [toffoli]⟩ = .ok ⟨[], [[0, 1], [0, 1], [0, 1]], b'⟩ := by
  refine ⟨exchangeArr_unitary (6 : Fin 8) 7 (by decide), ?_, ?_⟩
  · rintro ⟨z, hz⟩
    have := congrFun (congrFun hz 7) 6
    rw [show toffoli.body.toM 8 7 6 = 1 by simp [toffoli, Arr2.toM, exchangeArr]] at this
    simp at this
  · have hb := AllKept.start (qubits_ok 3)
    have hp : ∀ f : Equiv.Perm (Fin 2), UnitaryArr (permArray 2 (placementList f)) 2 := fun f => permArray_unitary f
    obtain ⟨b1, c1, hb1⟩ := compilePerm_ok hsp hb (i := 0) (hp 1)
    obtain ⟨b2, c2, hb2⟩ := compilePerm_ok hsp hb1 (i := 1) (hp 1)
    obtain ⟨b3, c3, hb3⟩ := compilePerm_ok hsp hb2 (i := 0) (conjT_unitary (hp 1))
    obtain ⟨b4, c4, hb4⟩ := compilePerm_ok hsp hb3 (i := 1) (conjT_unitary (hp 1))
    have hx : EntQR.phyOther ⟨0, 1, 2, 2⟩ (placementList (1 : Equiv.Perm (Fin 2))) (placementList (1 : Equiv.Perm (Fin 2))) rnd (exchangeArr 8 6 7) = .ok [] := by
      unfold EntQR.phyOther
      rw [execute_block ⟨0, 1, 2, 2⟩ hrnd _ (by decide) (by decide) (fun i hi j hj => by
        simp only [exchangeArr] at *
        rw [if_neg (by omega), if_neg (by omega)]
        by_cases h : i = j
        · rw [if_pos h, if_pos ⟨h, by omega, by omega⟩]
        · rw [if_neg h, if_neg (fun e => h e.1)])]
      rfl
    have hlev : levelsOf (some qubitDevice) 2 = .ok (placementList (1 : Equiv.Perm (Fin 2))) := levelsOf_ok qubitDevice_ok.1 rfl
    have hent : phyEnt sp rnd (other toffoli.oid) (List.replicate 3 (some qubitDevice)) toffoli = .ok ([], b4) := by
      unfold phyEnt
      rw [show toffoli.oid = 0 from rfl, hother]
      simp only [toffoli, bind, Except.bind, pure, Except.pure, itemAt, List.getElem?_cons_zero, List.getElem?_cons_succ]
      rw [show graphAt (List.replicate 3 (some qubitDevice)) 0 = .ok (some qubitDevice) from rfl,
        show graphAt (List.replicate 3 (some qubitDevice)) 1 = .ok (some qubitDevice) from rfl]
      simp only
      rw [hlev]
      simp only
      rw [permInit_ok]
      simp only
      erw [c1]; simp only
      erw [c2]; simp only
      erw [c3]; simp only
      erw [c4]; simp only
      rw [hx]
      rfl
    have hfin := finish_ok hb4.backend []
    have hm : (List.ofFn fun _ : Fin 3 => placementList (1 : Equiv.Perm (Fin 2))) = [[0, 1], [0, 1], [0, 1]] := rfl
    rw [hm] at hfin
    refine ⟨b4, ?_, fun fuel => ?_⟩
    · unfold compileO1
      have ht : Resynth.transpile [2, 2, 2] 1 [toffoli] = .ok [toffoli] := rfl
      rw [ht]
      simp only [bind, Except.bind, collect, gateO1, pure, Except.pure]
      rw [if_neg (by decide), hent]
      exact hfin
    · unfold compileO2
      have hl : ∃ x, Lanes.new [toffoli] = .ok x := ⟨_, rfl⟩
      obtain ⟨⟨D, v⟩, hl⟩ := hl
      simp only [bind, Except.bind]
      rw [hl]
      simp only [collect, gateO2, bind, Except.bind, pure, Except.pure]
      rw [if_neg (by decide), hent]
      exact hfin

/-! ### controlled gates -/

/-- A gate that has been given controls with `control` has type TWO or MULTI but names its line as a number. `compile_O1` and `compile_O2` raise
TypeError for every circuit with such a gate first, `compile_O0` if there is one control. -/
theorem C72_controlled_violated (fuel : Nat) (body : Arr2 ℂ) (b : Graphs) (next : Nat) (dims : List Nat) (post : List (Op (Arr2 ℂ)))
    (hother : (other 0).two = true) :
    ∃ g g' : Gate, Gate.init [2, 2] "x" .single (.one 1) none = .ok g ∧ g.control [0] [1] = .ok g' ∧ g'.gateType = .two ∧
      compileO0 fuel sp rnd other b ⟨dims, Op.ofGate 0 g' body :: post⟩ = .error .typeError ∧
      compileO1 sp rnd other next b ⟨dims, Op.ofGate 0 g' body :: post⟩ = .error .typeError ∧
      compileO2 fuel sp rnd other b ⟨dims, Op.ofGate 0 g' body :: post⟩ = .error .typeError := by
  refine ⟨⟨[2, 2], "x", .single, .one 1, none, false, false⟩, ⟨[2, 2], "x", .two, .one 1, some ⟨[0], [1]⟩, false, false⟩, rfl, rfl, rfl, ?_, ?_, ?_⟩
  · unfold compileO0 compile compileWith
    have e : slots ["PhyLocQRPass", "PhyEntQRCEXPass"] = .ok ⟨some .phyLocQR, some .phyEntQR, none⟩ := rfl
    rw [e]
    simp only [bind, Except.bind, collect]
    have : compileGate (transpileGate fuel sp rnd other) other ⟨some .phyLocQR, some .phyEntQR, none⟩ b
        (Op.ofGate 0 ⟨[2, 2], "x", .two, .one 1, some ⟨[0], [1]⟩, false, false⟩ body) = .error .typeError := by
      simp [compileGate, typeOf, Op.ofGate, hother, Slots.get, transpileGate, phyEnt]
    rw [this]
  · rfl
  · rfl

/-! ### phases that are passed on -/

/-- `compile_O2` on a qubit: for diag(1, i) followed by the Hadamard gate it returns a circuit that is far from the product of the two, up to any
global phase. -/
theorem C72_propagation_violated (hsp : FindsShortest sp) : ∃ u v N, UnitaryArr u 2 ∧ UnitaryArr v 2 ∧ u.toM 2 = phaseGate ∧ v.toM 2 = quarterGate ∧
    ∀ fuel ≥ N, ∃ l b', compileO2 fuel sp rnd other [some qubitDevice] ⟨[2], [⟨0, true, .one 0, u⟩, ⟨1, true, .one 0, v⟩]⟩ = .ok ⟨l, [[0, 1]], b'⟩ ∧
      ∀ sem, Semantics (fun _ : Fin 1 => 2) sem →
        ¬ Implements (fun _ : Fin 1 => 2) (fun _ => 1) sem [some qubitDevice] (1 / 5)
          (circuitOp sem [⟨0, true, .one 0, u⟩, ⟨1, true, .one 0, v⟩]) l := by
  obtain ⟨u, v, N, hu, hv, eu, ev, h⟩ := C69_propagation_violated hsp 0
  refine ⟨u, v, N, hu, hv, eu, ev, fun fuel hf => ?_⟩
  obtain ⟨l, l', g1, g2, h1, h2, h3, h4, ho, h5⟩ := h fuel hf
  have hid : (([] ++ (⟨0, true, .one 0, u⟩ : Op (Arr2 ℂ)) :: [⟨1, true, .one 0, v⟩]).map Op.oid).Nodup := by simp
  have hwf : ∀ x ∈ [] ++ (⟨0, true, .one 0, u⟩ : Op (Arr2 ℂ)) :: [⟨1, true, .one 0, v⟩], WellFormed x := by
    intro x hx
    simp at hx
    rcases hx with rfl | rfl
    · exact Or.inl ⟨rfl, 0, rfl⟩
    · exact Or.inl ⟨rfl, 0, rfl⟩
  obtain ⟨D, w, n1, n2⟩ := C71_next_local [] [(⟨1, true, .one 0, v⟩ : Op (Arr2 ℂ))] ⟨0, true, .one 0, u⟩ hid hwf rfl 0 rfl
  obtain ⟨D', w', n3, n4⟩ := C71_next_local [(⟨0, true, .one 0, u⟩ : Op (Arr2 ℂ))] [] ⟨1, true, .one 0, v⟩ hid hwf rfl 0 rfl
  have e := Except.ok.inj (n1.symm.trans n3)
  obtain ⟨rfl, rfl⟩ := Prod.mk.inj e
  have n2 : Lanes.nextIsLocal w 0 = .ok true := n2
  have n4 : Lanes.nextIsLocal w 1 = .ok false := n4
  have hlev : levelsOf (some g2) 2 = .ok [0, 1] := levelsOf_ok h4 ho
  refine ⟨(l ++ l').map .one, [some g2], ?_, fun sem hsem himp => ?_⟩
  · unfold compileO2
    simp only [bind, Except.bind]
    rw [show [(⟨0, true, .one 0, u⟩ : Op (Arr2 ℂ)), ⟨1, true, .one 0, v⟩] = [] ++ (⟨0, true, .one 0, u⟩ : Op (Arr2 ℂ)) :: [⟨1, true, .one 0, v⟩] from rfl, n1]
    simp only [List.nil_append, collect, gateO2, bind, Except.bind, pure, Except.pure, if_true]
    rw [n2]
    simp only [phyLocAda, onLine, bind, Except.bind, pure, Except.pure]
    rw [show graphAt [some qubitDevice] 0 = .ok (some qubitDevice) from rfl, hu.1]
    simp only
    rw [h1]
    simp only
    rw [n4]
    simp only
    rw [show graphAt ([some qubitDevice].set (0 : Int).toNat (some g1)) 0 = .ok (some g1) from rfl, hv.1]
    simp only
    rw [h2]
    simp only [List.append_nil, ← List.map_append]
    unfold finish mappings
    simp only [bind, Except.bind, pure, Except.pure]
    have : (([some qubitDevice].set (0 : Int).toNat (some g1)).set (0 : Int).toNat (some g2)).zip [2] = [(some g2, 2)] := rfl
    rw [this, List.mapM_cons, hlev]
    rfl
  · have hon : ∀ x ∈ l ++ l', OnLine (((0 : Fin 1) : Nat) : Int) 2 x := by
      intro x hx
      rcases List.mem_append.1 hx with hx | hx
      · exact Adaptive.phyAdaGate_on h1 x hx
      · exact Adaptive.phyAdaGate_on h2 x hx
    obtain ⟨z, _, hz⟩ := himp.near
    rw [circuitOp_one (d := fun _ : Fin 1 => 2) (i := 0) hon, circuitOp_cons, circuitOp_cons, circuitOp_nil, one_mul,
      hsem.1 _ 0 rfl rfl, hsem.1 _ 0 rfl rfl] at hz
    refine h5 z fun i j => ?_
    refine le_trans ?_ ((norm_entry_le _ (fun _ => i) (fun _ => j)).trans hz)
    rw [embed1_mul]
    refine le_of_eq ?_
    congr 1

/-! ### gates that are kept -/

/-- `compile_O0` keeps gates on three lines as they are, although the levels of the lines have been placed elsewhere. -/
theorem C72_kept_violated (fuel : Nat) (g : Op (Arr2 ℂ)) (hg : g.single = false) (hother : (other g.oid).two = false) :
    compileO0 fuel sp rnd other (List.replicate 3 (some rowDevice)) ⟨[3, 3, 3], [g]⟩ =
        .ok ⟨[.kept g], [[1, 0, 2], [1, 0, 2], [1, 0, 2]], List.replicate 3 (some rowDevice)⟩ ∧
      Backend (fun _ : Fin 3 => 3) (fun _ => Equiv.swap 0 1) (List.replicate 3 (some rowDevice)) ∧
      ∀ sem, sem g = diagonal (fun x : Reg (fun _ : Fin 3 => 3) => if x = fun _ => (0 : Fin 3) then -1 else 1) →
        ¬ Implements (fun _ : Fin 3 => 3) (fun _ => Equiv.swap 0 1) sem (List.replicate 3 (some rowDevice)) (1 / 2) (sem g) [.kept g] := by
  have hb : Backend (fun _ : Fin 3 => 3) (fun _ => Equiv.swap 0 1) (List.replicate 3 (some rowDevice)) := fun i =>
    ⟨rowDevice, by rw [List.getElem?_replicate, if_pos i.isLt], rowDevice_ok.1, rfl, rowDevice_ok.2⟩
  refine ⟨?_, hb, fun sem hsem himp => ?_⟩
  · have hfin : finish [3, 3, 3] ([.kept g], List.replicate 3 (some rowDevice)) = .ok ⟨[.kept g], [[1, 0, 2], [1, 0, 2], [1, 0, 2]], _⟩ := finish_ok hb _
    have e : slots ["PhyLocQRPass", "PhyEntQRCEXPass"] = .ok ⟨some .phyLocQR, some .phyEntQR, none⟩ := rfl
    unfold compileO0 compile compileWith
    rw [e]
    simp only [bind, Except.bind, pure, Except.pure, collect, compileGate, typeOf, hg, hother, Bool.false_eq_true, if_false, Slots.get, List.append_nil]
    rw [hfin]
    exact hfin
  · obtain ⟨z, _, hz⟩ := himp.near
    rw [circuitOp_cons, circuitOp_nil, one_mul] at hz
    have e1 := (norm_entry_le _ (fun _ => (0 : Fin 3)) (fun _ => (0 : Fin 3))).trans hz
    have e2 := (norm_entry_le _ (fun _ => (2 : Fin 3)) (fun _ => (2 : Fin 3))).trans hz
    have hk : instrOp (fun _ : Fin 3 => 3) sem (.kept g) = sem g := rfl
    rw [hk, hsem] at e1 e2
    have a1 : (fun i : Fin 3 => (Equiv.swap (0 : Fin 3) 1).symm ((fun _ => (0 : Fin 3)) i)) = fun _ => 1 := by funext i; rfl
    have a2 : (fun i : Fin 3 => (Equiv.swap (0 : Fin 3) 1).symm ((fun _ => (2 : Fin 3)) i)) = fun _ => 2 := by funext i; rfl
    have b1 : (fun _ : Fin 3 => (1 : Fin 3)) ≠ fun _ => 0 := fun h => by have := congrFun h 0; simp at this
    have b2 : (fun _ : Fin 3 => (2 : Fin 3)) ≠ fun _ => 0 := fun h => by have := congrFun h 0; simp at this
    simp only [Matrix.sub_apply, Matrix.smul_apply, placed, submatrix_apply, a1, a2, diagonal_apply_eq, if_true, if_neg b1, if_neg b2, smul_eq_mul,
      mul_one] at e1 e2
    have : ‖(1 - z) - (-1 - z)‖ ≤ 1 / 2 + 1 / 2 := (norm_sub_le _ _).trans (add_le_add e2 e1)
    rw [show (1 - z) - (-1 - z) = (2 : ℂ) by ring] at this
    norm_num at this

/-! ### cases in which the theorems apply -/

/-- a Bell-like circuit on two qubits: Hadamard gate, controlled exchange, Hadamard gate -/
noncomputable def demoGates : List (Op (Arr2 ℂ)) :=
  [⟨0, true, .one 0, gate2 quarterGate⟩, ⟨1, false, .many [0, 1], gate2 quarterGate⟩, ⟨2, true, .one 0, gate2 quarterGate⟩]

noncomputable def demoOther (_ : Nat) : Other := ⟨true, [2, 2], some (⟨0, 1, 1, 0⟩, false)⟩

noncomputable def demoSem (g : Op (Arr2 ℂ)) : Matrix (Reg fun _ : Fin 2 => 2) (Reg fun _ : Fin 2 => 2) ℂ :=
  match g.target with
  | .one q => match lineOf 2 q with
    | some i => embed1 (X := LvOf fun _ : Fin 2 => 2) i (g.body.toM 2)
    | none => 1
  | .many qs => if qs = [0, 1] then
      embedPair (fun _ : Fin 2 => 2) 0 1 (pairOp ⟨0, 1, 2, 2⟩ (.cex ⟨0, 1, 1, 0⟩ 0 1 2 2 false))
    else 1

theorem demoSem_ok : Semantics (fun _ : Fin 2 => 2) demoSem := by
  refine ⟨fun g i _ ht => ?_, fun g qs _ ht => ?_⟩
  · unfold demoSem
    rw [ht]
    have : lineOf 2 ((i : Nat) : Int) = some i := by
      unfold lineOf
      rw [dif_pos (by have := i.isLt; omega)]
      simp
    simp only [this]
  · unfold demoSem
    rw [ht]
    simp only
    split_ifs with h
    · subst h
      rw [embedPair_eq (d := fun _ : Fin 2 => 2) (i := 0) (j := 1) (by decide)]
      have : ({0, 1} : Finset (Fin 2)) = lineSet 2 [0, 1] := by decide
      unfold ActsOn
      rw [← this]
      exact ⟨_, rfl⟩
    · exact ⟨1, (embed_one _).symm⟩

theorem demo_good : ∀ g ∈ demoGates, OneLine (fun _ : Fin 2 => 2) g ∨ GoodCEx (fun _ : Fin 2 => 2) (fun _ => 1) demoOther demoSem g := by
  intro g hg
  simp only [demoGates, List.mem_cons, List.not_mem_nil, or_false] at hg
  rcases hg with rfl | rfl | rfl
  · exact Or.inl ⟨rfl, 0, rfl, gate2_unitary quarterGate_unitary⟩
  · refine Or.inr ⟨rfl, rfl, 0, 1, 0, 1, 1, 0, by decide, rfl, rfl, rfl, by decide, le_refl _, by positivity, Or.inr rfl, ?_⟩
    rfl
  · exact Or.inl ⟨rfl, 0, rfl, gate2_unitary quarterGate_unitary⟩

example (hsp : FindsPaths sp) (fuel : Nat) : ∃ l b', compileO0 fuel sp id demoOther (List.replicate 2 (some qubitDevice)) ⟨[2, 2], demoGates⟩ =
      .ok ⟨l, [[0, 1], [0, 1]], b'⟩ ∧ Implements (fun _ : Fin 2 => 2) (fun _ => 1) demoSem (List.replicate 2 (some qubitDevice))
        (2 * lineError 2) (circuitOp demoSem demoGates) l := by
  obtain ⟨l, b', h1, _, h2⟩ := C72_O0_partial (rho := 0) (rnd := id) demoSem_ok hsp (by simp) fuel (qubits_ok 2) demoGates
    fun g hg => (demo_good g hg).imp id Or.inl
  refine ⟨l, b', h1, ?_⟩
  have : (demoGates.map (gateError (fun _ : Fin 2 => 2) lineError demoOther 0)).sum = 2 * lineError 2 := by
    have e0 : lineOf 2 0 = some 0 := rfl
    simp [demoGates, gateError, demoOther, e0]
    ring
  rw [← this]
  exact h2

example (hsp : FindsPaths sp) : ∃ l b', compileO1 sp id demoOther 3 (List.replicate 2 (some qubitDevice)) ⟨[2, 2], demoGates⟩ =
      .ok ⟨l, [[0, 1], [0, 1]], b'⟩ := by
  obtain ⟨_, l, b', _, _, h1, _⟩ := C72_O1_partial (rho := 0) (rnd := id) demoSem_ok hsp (by simp) (qubits_ok 2) demoGates (by simp [demoGates]) 3
    (by simp [demoGates]) fun g hg => (demo_good g hg).imp id Or.inl
  exact ⟨l, b', h1⟩

example (hsp : FindsShortest sp) : ∃ N l b', ∀ fuel ≥ N, compileO2 fuel sp id demoOther (List.replicate 2 (some qubitDevice)) ⟨[2, 2], demoGates⟩ =
      .ok ⟨l, [[0, 1], [0, 1]], b'⟩ := by
  obtain ⟨N, l, b', h1, _⟩ := C72_O2_partial (rho := 0) (rnd := id) demoSem_ok hsp (by simp) (qubits_ok 2)
    (fun i g hg => by
      rw [List.getElem?_replicate, if_pos i.isLt] at hg
      obtain rfl := Option.some.inj (Option.some.inj hg)
      exact qubit_coupled) (by simp) demoGates (by simp [demoGates]) (fun g hg => (demo_good g hg).imp id Or.inl)
    (fun g hg i ht => by
      have : g.body = gate2 quarterGate := by
        simp only [demoGates, List.mem_cons, List.not_mem_nil, or_false] at hg
        rcases hg with rfl | rfl | rfl <;> rfl
      rw [this, gate2_toM]
      exact noTiny_two quarterGate_unitary quarterGate_tiny)
    (fun q => by
      by_cases h0 : q = 0
      · subst h0; simp [lane, demoGates, Touches, Target.lines]
      · by_cases h1 : q = 1
        · subst h1; simp [lane, demoGates, Touches, Target.lines]
        · simp [lane, demoGates, Touches, Target.lines, h0, h1])
  exact ⟨N, l, b', fun fuel hf => (h1 fuel).resolve_right fun h => by omega⟩

/-- which passes: the last one named is taken, gates on three lines are given to none -/
example : passFor ["PhyLocQRPass", "LocAdaPass", "PhyEntQRCEXPass", "ZRemovalOptPass"] .single = some .phyLocAda ∧
    passFor ["PhyLocQRPass", "LocAdaPass", "PhyEntQRCEXPass", "ZRemovalOptPass"] .two = some .phyEntQR ∧
    passFor ["PhyLocQRPass", "LocAdaPass", "PhyEntQRCEXPass", "ZRemovalOptPass"] .multi = none := by
  decide

/-- after the first gate comes the controlled exchange, after the last one nothing -/
example : ∃ D v, Lanes.new demoGates = .ok (D, v) ∧ Lanes.nextIsLocal v 0 = .ok false ∧ Lanes.nextIsLocal v 2 = .ok false ∧
    Lanes.nextIsLocal v 3 = .error .keyError := ⟨_, _, rfl, rfl, rfl, rfl⟩

end Qudits
