import Verif.Props.SmallLineProps
import Verif.Props.DeviceProps
import Verif.Props.AdaViolations
/-
C73 for the graphs of the backends: which lines they can translate gates for.
-/
namespace Qudits
open Spec Matrix LGraph LocalQR Complex

variable {sp : PathFinder}

theorem roomy_one {d D : Nat} {g : LGraph} (hd : d ≤ D) (h : Device D g 1) (hp : NoPhases D g) : Roomy d D g 1 :=
  ⟨hd, 1, h, hp, fun _ _ e => e⟩

/-- lines of up to 6 levels on the graphs with six levels -/
theorem roomy_six {d : Nat} (hd : d ≤ 6) : Roomy d 6 sixTrap 1 := roomy_one hd C74_six.1 C74_six.2.2

theorem roomy_innsbruck {d : Nat} (hd : d ≤ 3) : Roomy d 3 innsbruck 1 := roomy_one hd C74_innsbruck.1 C74_innsbruck.2.2

theorem tritTrap_hasPhases : hasPhases tritTrap = .ok false := rfl
theorem tritTrap_lpmap : lpmap tritTrap 1 = .ok 2 := rfl

theorem qrError_six : 6 * qrError 6 1e-8 1e-4 ≤ 1e-2 := by
  unfold qrError
  have : Real.sqrt (((6 * (6 - 1) / 2 : Nat) : ℝ) * 1e-8 ^ 2) ≤ 1e-7 := by
    rw [Real.sqrt_le_iff]
    norm_num
  norm_num at this ⊢
  linarith

theorem sixTrap_edges : sixTrap.edges = [edgeOf 2 0 3, edgeOf 3 0 3, edgeOf 4 0 4, edgeOf 5 0 4, edgeOf 1 2 4, edgeOf 1 3 3, edgeOf 1 4 3, edgeOf 1 5 3] := rfl
theorem innsbruck_edges : innsbruck.edges = [carrierEdge 0 1 3 0, carrierEdge 1 2 4 1] := rfl

theorem edge_of_one {D : Nat} {g : LGraph} (h : Device D g 1) {a b : Int} {data : PyDict String Int} (he : PhysEdge g a b data) :
    0 ≤ a ∧ 0 ≤ b ∧ edgeData g a b = some data := by
  obtain ⟨u, v, hu, hv, he⟩ := he
  have key : ∀ {u a : Int}, value g u "lpmap" = some (.int a) → 0 ≤ a ∧ u = a := by
    intro u a hu
    by_cases hm : u ∈ Spec.names g
    · obtain ⟨i, hi, rfl⟩ := List.mem_map.1 ((h.names.mem_iff).1 hm)
      rw [h.lp ⟨i, List.mem_range.1 hi⟩] at hu
      cases hu
      exact ⟨by simp, rfl⟩
    · rw [value_none g u hm] at hu
      cases hu
  obtain ⟨h1, rfl⟩ := key hu
  obtain ⟨h2, rfl⟩ := key hv
  exact ⟨h1, h2, he⟩

/-- A line of two levels on the graphs with six levels (`FakeIonTraps2Six`, `FakeIonTraps3Six`): levels 0 and 1 are not coupled, so whatever
paths are found, every gate with an entry off the diagonal larger than 0.01 raises AssertionError. -/
theorem C73_qubit_violated (hsp : FindsPaths sp) (q : Int) (u : Arr2 ℂ) (hu : UnitaryArr u 2) (i j : Fin 2) (hij : i ≠ j)
    (hbig : 1e-2 < ‖u.toM 2 i j‖) : phyPassGate sp q 2 u sixTrap = .error .assertionError := by
  refine C73_uncoupled_violated (roomy_six (d := 2) (by decide)) hsp ?_ q u hu i j hij (lt_of_le_of_lt (by exact_mod_cast qrError_six) hbig)
  intro a b data ha hb he
  obtain ⟨h1, h2, h3⟩ := edge_of_one C74_six.1 he
  have ha : a = 0 ∨ a = 1 := by push_cast at ha; omega
  have hb : b = 0 ∨ b = 1 := by push_cast at hb; omega
  rcases ha with rfl | rfl <;> rcases hb with rfl | rfl <;> cases h3

/-- the X gate of a qubit is such a gate -/
example (hsp : FindsPaths sp) (q : Int) : phyPassGate sp q 2 (gate2 !![0, 1; 1, 0]) sixTrap = .error .assertionError := by
  refine C73_qubit_violated hsp q _ (gate2_unitary ?_) 0 1 (by decide) ?_
  · rw [mem_unitaryGroup_iff]
    ext i j
    fin_cases i <;> fin_cases j <;> simp [Matrix.mul_apply, star_eq_conjTranspose]
  · rw [gate2_toM]; norm_num

/-- A line of two levels on `FakeIonTraps2Trits`, where level 1 is kept in physical level 2: the phase gate diag(1, i) vanishes without any error
(`VirtRz` on level 2 of a qubit is the identity). -/
theorem C73_dropped_violated (q : Int) : ∃ l, phyPassGate sp q 2 (gate2 phaseGate) tritTrap = .ok (l, tritTrap) ∧
    circuitOp (PhasePass.lineOp 2) l = 1 ∧ ∀ c : ℂ, ¬ Near (1 / 2) (1 : Matrix (Fin 2) (Fin 2) ℂ) (c • phaseGate) := by
  have h00 : (gate2 phaseGate).get 0 0 = .ok 1 := by simp [Arr2.get, gate2, phaseGate]
  have h10 : (gate2 phaseGate).get 1 0 = .ok 0 := by simp [Arr2.get, gate2, phaseGate]
  have h11 : (gate2 phaseGate).get 1 1 = .ok I := by simp [Arr2.get, gate2, phaseGate]
  have hstep : ∀ st : QrState, st.u = gate2 phaseGate → qrStep sp 2 1e-8 (phyEmit q 2) tritTrap 0 st 1 = .ok st := by
    intro st hst
    unfold qrStep
    rw [hst, h10]
    simp only [bind, Except.bind, pure, Except.pure, norm_zero]
    rw [if_neg (by norm_num)]
  have hpi : (1e-4 : ℝ) < |Complex.arg I| := by
    rw [Complex.arg_I, abs_of_pos (by positivity)]
    have := Real.pi_gt_three
    norm_num at this ⊢
    linarith
  refine ⟨[dag (phaseInstr q 2 (.int 2) (Complex.arg I))], ?_, ?_, ?_⟩
  · unfold phyPassGate phyQr execute takePhases
    rw [tritTrap_hasPhases]
    have e1 : (List.range (gate2 phaseGate).cols).foldlM (qrColumn sp 2 1e-8 (phyEmit q 2) tritTrap (gate2 phaseGate).rows) ⟨gate2 phaseGate, [], 0, 0⟩ =
        .ok ⟨gate2 phaseGate, [], 0, 0⟩ := by
      show List.foldlM _ _ [0, 1] = _
      simp only [List.foldlM_cons, List.foldlM_nil, qrColumn]
      show ((List.foldlM _ _ [1]) >>= fun st => (List.foldlM _ st []) >>= _) = _
      simp only [List.foldlM_cons, List.foldlM_nil, bind_assoc, pure_bind]
      rw [hstep _ rfl]
      rfl
    have e2 : (List.range (gate2 phaseGate).rows).foldlM (qrPhase q 2 1e-4 (fun g i => do
        let l ← g.lpmap i
        pure (.int l)) tritTrap (gate2 phaseGate)) [] = .ok [phaseInstr q 2 (.int 2) (Complex.arg I)] := by
      show List.foldlM _ _ [0, 1] = _
      simp only [List.foldlM_cons, List.foldlM_nil, qrPhase]
      rw [h00, h11]
      simp only [bind, Except.bind, pure, Except.pure, Complex.arg_one, abs_zero]
      rw [if_neg (by norm_num)]
      simp only
      rw [if_pos hpi]
      rw [show lpmap tritTrap ((1 : Nat) : Int) = .ok 2 from tritTrap_lpmap]
      rfl
    simp only [Bool.false_eq_true, if_false, Bool.false_and, bind, Except.bind, pure, Except.pure] at e1 e2 ⊢
    rw [e1]
    simp only
    rw [e2]
    rfl
  · rw [circuitOp_cons, circuitOp_nil, lineOp_dag _ rfl, one_mul]
    have e : PhasePass.lineOp 2 (phaseInstr q 2 (.int 2) (Complex.arg I)) = 1 := by
      rw [PhasePass.lineOp_virt (d := 2) (g := phaseInstr q 2 (.int 2) (Complex.arg I)) (p := {}) rfl rfl (by simp [phaseInstr, virtRzInit]) (a := 0) rfl]
      ext i j
      fin_cases i <;> fin_cases j <;> simp
    rw [e, conjTranspose_one]
  · intro c hc
    have b0 := hc 0 0
    have b1 := hc 1 1
    simp only [phaseGate, Matrix.sub_apply, Matrix.smul_apply, diagonal_apply_eq, Matrix.cons_val_zero, Matrix.cons_val_one,
      smul_eq_mul, mul_one, Matrix.one_apply_eq] at b0 b1
    have k : ‖(1 - c) * I - (1 - c * I)‖ ≤ 1 := by
      refine (norm_sub_le _ _).trans ?_
      rw [norm_mul, norm_I, mul_one]
      linarith
    rw [show (1 - c) * I - (1 - c * I) = (-1 : ℝ) + (1 : ℝ) * I by push_cast; ring] at k
    have k2 := Complex.sq_norm_sub_sq_re ((-1 : ℝ) + (1 : ℝ) * I)
    simp at k2
    norm_num at k
    nlinarith [norm_nonneg (-1 + I)]

theorem innsbruck_stays (hsp : FindsPaths sp) : AlwaysStays 2 sp innsbruck := by
  intro g' hw hn he r h0 hr p hp x hx
  obtain rfl : r = 1 := by omega
  have hj : ∀ x : Int, Spec.Joined g' 0 x → x = 1 := by
    intro x h
    unfold Spec.Joined edgeData at h
    rw [he, innsbruck_edges, Option.isSome_map, List.find?_isSome] at h
    obtain ⟨e, hm, h⟩ := h
    simp only [List.mem_cons, List.not_mem_nil, or_false] at hm
    rcases hm with rfl | rfl <;> simp [joins, carrierEdge] at h
    omega
  obtain ⟨p', hp', h1⟩ := hsp g' 0 1 hw (by rw [hn]; decide) (path_of_way (.single (by rw [he, innsbruck_edges]; exact ⟨_, List.mem_cons_self, Or.inl ⟨rfl, rfl⟩⟩)))
  have e : p = p' := by
    have : (Except.ok p : Except PyErr (List Int)) = .ok p' := hp.symm.trans hp'
    exact Except.ok.inj this
  subst e
  obtain ⟨f1, f2, f3, f4⟩ := h1
  match p, f1, f2, f3, f4, hx with
  | [a], f1, f2, f3, f4, hx => simp at f1 f2; omega
  | a :: b :: t, f1, f2, f3, f4, hx =>
    simp only [List.head?_cons, Option.some.injEq] at f1
    subst f1
    rw [List.isChain_cons_cons] at f3
    obtain rfl := hj _ f3.1
    cases t with
    | nil => simp at hx; push_cast; omega
    | cons c t =>
      exfalso
      rw [List.getLast?_cons_cons, List.getLast?_cons_cons] at f2
      have := List.mem_of_getLast? f2
      simp only [List.nodup_cons] at f4
      exact f4.2.1 this

/-- For a qubit line on `Innsbruck01` every gate is translated, whatever paths are found. -/
theorem C73_innsbruck (hsp : FindsPaths sp) (q : Int) (u : Arr2 ℂ) (hu : UnitaryArr u 2) :
    ∃ l g', phyPassGate sp q 2 u innsbruck = .ok (l, g') ∧ (∀ x ∈ l, OnLine q 2 x ∧ Confined 2 x ∧ (CoupledRotation innsbruck x ∨ PhaseRotation x)) ∧
      Near 1e-2 (circuitOp (PhasePass.lineOp 2) l) (u.toM 2) := by
  obtain ⟨l, g', h1, h2, _, h3, _⟩ := C73_gate_stays (roomy_innsbruck (d := 2) (by decide)) hsp (innsbruck_stays hsp) q u hu
  refine ⟨l, g', h1, h2, fun i j => ?_⟩
  have e : relabelling (1 : Equiv.Perm (Fin 2)) * u.toM 2 * (relabelling 1)ᴴ = u.toM 2 := (conjHom_eq 1 _).symm
  have := h3 i j
  rw [e] at this
  refine this.trans ?_
  unfold qrError
  have : Real.sqrt (((3 * (3 - 1) / 2 : Nat) : ℝ) * 1e-8 ^ 2) ≤ 1e-7 := by
    rw [Real.sqrt_le_iff]
    norm_num
  norm_num at this ⊢
  linarith

/-! ### the choice among shortest paths -/

/-- the exchange of the first two levels of a qutrit -/
noncomputable def swap3 : Arr2 ℂ := ⟨3, 3, fun i j => if (i = 0 ∧ j = 1) ∨ (i = 1 ∧ j = 0) ∨ (i = 2 ∧ j = 2) then 1 else 0⟩

theorem swap3_unitary : UnitaryArr swap3 3 := by
  refine ⟨rfl, rfl, ?_⟩
  rw [mem_unitaryGroup_iff]
  ext i j
  fin_cases i <;> fin_cases j <;> simp [Matrix.mul_apply, star_eq_conjTranspose, Arr2.toM, swap3, Fin.sum_univ_three]

/-- A line of three levels on the graphs with six levels: between levels 0 and 1 there are four shortest paths. With one that goes over level 3 the
exchange of levels 0 and 1 raises AssertionError; with the one over level 2 no gate does (`C73_six_qutrit`). -/
theorem C73_choice_violated (h : sp sixTrap 0 1 = .ok [0, 3, 1]) (q : Int) : phyPassGate sp q 3 swap3 sixTrap = .error .assertionError := by
  have g20 : swap3.get 2 0 = .ok 0 := by simp [Arr2.get, swap3]
  have g10 : swap3.get 1 0 = .ok 1 := by simp [Arr2.get, swap3]
  have g00 : swap3.get 0 0 = .ok 0 := by simp [Arr2.get, swap3]
  have hs2 : ∀ st : QrState, st.u = swap3 → qrStep sp 3 1e-8 (phyEmit q 3) sixTrap 0 st 2 = .ok st := by
    intro st hst
    unfold qrStep
    rw [hst, g20]
    simp only [bind, Except.bind, pure, Except.pure, norm_zero]
    rw [if_neg (by norm_num)]
  have hs1 : ∀ st : QrState, st.u = swap3 → qrStep sp 3 1e-8 (phyEmit q 3) sixTrap 0 st 1 = .error .assertionError := by
    intro st hst
    unfold qrStep
    rw [hst, g10]
    simp only [bind, Except.bind, pure, Except.pure, norm_one]
    rw [if_pos (by norm_num), g00]
    simp only
    have e1 := newRot_ok (0 : Fin 3) 1 (by decide) (2 * arctan2 1 ‖(0 : ℂ)‖) (-(Real.pi / 2 + Complex.arg 0 - Complex.arg 1))
    rw [show ((1 : Nat) : Int) - 1 = (((0 : Fin 3) : Nat) : Int) from rfl, show ((1 : Nat) : Int) = (((1 : Fin 3) : Nat) : Int) from rfl, e1]
    simp only
    obtain ⟨A, a1, a2, a3, a4⟩ := rArray_ok (d := 3) (a := 0) (b := 1)
      (g := ⟨((min (0 : Fin 3) 1 : Fin 3) : Nat), ((max (0 : Fin 3) 1 : Fin 3) : Nat), regulateTheta (2 * arctan2 1 ‖(0 : ℂ)‖),
        -(Real.pi / 2 + Complex.arg 0 - Complex.arg 1)⟩) ⟨rfl, rfl, by decide⟩
    rw [a1]
    simp only
    unfold Arr2.matmul
    rw [if_pos (by rw [a3]; rfl)]
    simp only
    unfold costCalculator route
    simp only [bind, Except.bind, pure, Except.pure]
    rw [show sp sixTrap (((0 : Fin 3) : Nat) : Int) (((1 : Fin 3) : Nat) : Int) = .ok [0, 3, 1] from h]
    simp only
    have e3 : lpmap sixTrap 3 = .ok 3 := rfl
    have e4 : lpmap sixTrap 1 = .ok 1 := rfl
    have e5 : newRot 3 3 1 Real.pi (-Real.pi / 2) = .error .assertionError := by
      simp [newRot, rInit, needInt, needFlt, checkLevels, bind, Except.bind]
    have e6 : routeLoop sp 3 1 [0, 3, 1] sixTrap 0 [] = .error .assertionError := by
      unfold routeLoop
      simp only [nodeAt, List.getElem?_cons_succ, List.getElem?_cons_zero, bind, Except.bind]
      rw [e3, e4]
      simp only
      rw [e5]
    rw [show ([0, 3, 1] : List Int).length - 2 = 1 from rfl, e6]
  unfold phyPassGate phyQr execute takePhases
  rw [show hasPhases sixTrap = .ok false from rfl]
  have e1 : (List.range swap3.cols).foldlM (qrColumn sp 3 1e-8 (phyEmit q 3) sixTrap swap3.rows) ⟨swap3, [], 0, 0⟩ = .error .assertionError := by
    show List.foldlM _ _ [0, 1, 2] = _
    rw [List.foldlM_cons]
    have : qrColumn sp 3 1e-8 (phyEmit q 3) sixTrap swap3.rows ⟨swap3, [], 0, 0⟩ 0 = .error .assertionError := by
      unfold qrColumn
      show List.foldlM _ _ [2, 1] = _
      rw [List.foldlM_cons, hs2 _ rfl]
      simp only [bind, Except.bind, List.foldlM_cons]
      rw [hs1 _ rfl]
    rw [this]
    rfl
  simp only [Bool.false_eq_true, if_false, bind, Except.bind, pure, Except.pure] at e1 ⊢
  rw [e1]

/-- The paths over level 3 are shortest ones, so `nx.shortest_path` may return them as far as its documentation goes. -/
example : ∃ sp : PathFinder, FindsShortest sp ∧ sp sixTrap 0 1 = .ok [0, 3, 1] := by
  classical
  obtain ⟨sp, h⟩ := findsShortest_exists
  have hpath : ∀ g : LGraph, g.edges = sixTrap.edges → IsPath g 0 1 [0, 3, 1] := by
    intro g he
    refine ⟨rfl, rfl, ?_, by decide⟩
    have h1 : Spec.Joined g 0 3 := joined_of_edge (by rw [he, sixTrap_edges]; exact ⟨edgeOf 3 0 3, by simp, Or.inr ⟨rfl, rfl⟩⟩)
    have h2 : Spec.Joined g 3 1 := joined_of_edge (by rw [he, sixTrap_edges]; exact ⟨edgeOf 1 3 3, by simp, Or.inr ⟨rfl, rfl⟩⟩)
    simp [h1, h2]
  refine ⟨fun g a b => if g.edges = sixTrap.edges ∧ a = 0 ∧ b = 1 then .ok [0, 3, 1] else sp g a b, ⟨?_, ?_⟩, if_pos ⟨rfl, rfl, rfl⟩⟩
  · intro g a b hw ha hp
    by_cases hc : g.edges = sixTrap.edges ∧ a = 0 ∧ b = 1
    · refine ⟨_, if_pos hc, ?_⟩
      rw [hc.2.1, hc.2.2]
      exact hpath g hc.1
    · simp only [if_neg hc]
      exact h.finds g a b hw ha hp
  · intro g a b p p' hp hp'
    by_cases hc : g.edges = sixTrap.edges ∧ a = 0 ∧ b = 1
    · rw [if_pos hc] at hp
      obtain rfl := Except.ok.inj hp
      obtain ⟨he, rfl, rfl⟩ := hc
      obtain ⟨f1, f2, f3, _⟩ := hp'
      match p', f1, f2, f3 with
      | [x], f1, f2, _ => simp at f1 f2; omega
      | [x, y], f1, f2, f3 =>
        simp at f1 f2 f3
        subst f1 f2
        unfold Spec.Joined edgeData at f3
        rw [he] at f3
        cases f3
      | x :: y :: z :: t, _, _, _ => simp
    · rw [if_neg hc] at hp
      exact h.shortest g a b p p' hp hp'

/-- With the path over level 2 between levels 0 and 1, and the direct one between levels 1 and 2, every gate on a qutrit line is translated. -/
theorem C73_six_qutrit (hsp : FindsPaths sp)
    (h : ∀ g : LGraph, Wf g → g.edges = sixTrap.edges → sp g 0 1 = .ok [0, 2, 1] ∧ sp g 1 2 = .ok [1, 2]) (q : Int) (u : Arr2 ℂ)
    (hu : UnitaryArr u 3) :
    ∃ l g', phyPassGate sp q 3 u sixTrap = .ok (l, g') ∧ (∀ x ∈ l, OnLine q 3 x ∧ Confined 3 x ∧ (CoupledRotation sixTrap x ∨ PhaseRotation x)) ∧
      Near 1e-2 (circuitOp (PhasePass.lineOp 3) l) (u.toM 3) := by
  have hst : AlwaysStays 3 sp sixTrap := by
    intro g' hw hn he r h0 hr p hp x hx
    have hr : r = 1 ∨ r = 2 := by omega
    rcases hr with rfl | rfl
    · have : (Except.ok p : Except PyErr (List Int)) = .ok [0, 2, 1] := hp.symm.trans (h g' hw he).1
      obtain rfl := Except.ok.inj this
      simp at hx
      push_cast
      omega
    · have : (Except.ok p : Except PyErr (List Int)) = .ok [1, 2] := hp.symm.trans (h g' hw he).2
      obtain rfl := Except.ok.inj this
      simp at hx
      push_cast
      omega
  obtain ⟨l, g', h1, h2, _, h3, _⟩ := C73_gate_stays (roomy_six (d := 3) (by decide)) hsp hst q u hu
  refine ⟨l, g', h1, h2, fun i j => ?_⟩
  have e : relabelling (1 : Equiv.Perm (Fin 3)) * u.toM 3 * (relabelling 1)ᴴ = u.toM 3 := (conjHom_eq 1 _).symm
  have := h3 i j
  rw [e] at this
  exact this.trans (by exact_mod_cast qrError_six)

end Qudits
