import Verif.Props.AdaViolations
import Verif.Props.DeviceProps

/-!
C68: the physical adaptive decomposition on a device whose stored phases are not multiples of π. `swap_routine.py` (lines 34-86) adapts a π pulse
to the stored phases, which keeps them with the physical levels, and moves them with the logical levels as well; the two agree for multiples of
π only. The witness is the device of `innsbruck_01.py`, a stored phase π/3 and the exchange of levels 0 and 2.
-/

namespace Qudits
open LGraph LocalQR Spec Matrix Adaptive PhasePass Complex

variable {sp : PathFinder}

/-- the graph of `Innsbruck01` with a phase stored for each level (the first conjunct of `C68_violated` says how it comes about) -/
noncomputable def phaseTrap (p0 p1 p2 : ℝ) : LGraph :=
  { nodes := [(0, [("lpmap", .int 0), ("level", .str "r"), ("phase_storage", .flt p0)]),
      (1, [("lpmap", .int 1), ("level", .str "i"), ("phase_storage", .flt p1)]),
      (2, [("lpmap", .int 2), ("level", .str "r"), ("phase_storage", .flt p2)])],
    edges := [carrierEdge 0 1 3 0, carrierEdge 1 2 4 1] }

/-- the same after levels 1 and 2 are exchanged -/
noncomputable def phaseTrap' (p0 p1 p2 : ℝ) : LGraph :=
  { nodes := [(0, [("lpmap", .int 0), ("level", .str "r"), ("phase_storage", .flt p0)]),
      (1, [("lpmap", .int 2), ("level", .str "r"), ("phase_storage", .flt p1)]),
      (2, [("lpmap", .int 1), ("level", .str "i"), ("phase_storage", .flt p2)])],
    edges := [carrierEdge 0 2 3 0, carrierEdge 2 1 4 1] }

theorem phaseTrap_eq (a : ℝ) : innsbruck.phaseStoringSetup.setPhase 2 a = .ok (phaseTrap 0 0 a) := rfl
theorem phaseTrap_setup (p0 p1 p2 : ℝ) : (phaseTrap p0 p1 p2).phaseStoringSetup = phaseTrap p0 p1 p2 := rfl
theorem phaseTrap_swap (p0 p1 p2 : ℝ) : (phaseTrap p0 p1 p2).swapNodes 2 1 = .ok (phaseTrap' p0 p2 p1) := rfl
theorem phaseTrap_ongate (p0 p1 p2 : ℝ) (theta phi : ℝ) (a b : Int) : graphRuleOngate 3 ⟨a, b, ⟨1, 2, theta, phi⟩⟩ (phaseTrap p0 p1 p2) =
    newRot 3 1 2 theta (phi - p1 + p2) := rfl
theorem phaseTrap_ongate' (p0 p1 p2 : ℝ) (theta phi : ℝ) (a b : Int) : graphRuleOngate 3 ⟨a, b, ⟨0, 1, theta, phi⟩⟩ (phaseTrap' p0 p1 p2) =
    newRot 3 0 1 theta (phi - p0 + p2) := rfl

theorem phaseTrap_device (a : ℝ) : Device 3 (phaseTrap 0 0 a) 1 := by
  obtain ⟨h1, h2⟩ := setup_ok C74_innsbruck.1
  obtain ⟨g', e, h, _⟩ := h1.setPhase 2 a (by rw [h2]; rfl)
  have : innsbruck.phaseStoringSetup.setPhase 2 a = .ok g' := e
  rw [phaseTrap_eq] at this
  rw [Except.ok.inj this]
  exact h

theorem rotationCost_exists {d : Nat} {g : LGraph} {lp : Equiv.Perm (Fin d)} (h : Device d g lp) (hsp : FindsPaths sp) (a b : Fin d) (p : TwoLevel) :
    ∃ c, rotationCost sp ⟨(a : Nat), (b : Nat), p⟩ g = .ok c := by
  obtain ⟨x, hx⟩ := h.isIrnode (a : Nat)
  obtain ⟨y, hy⟩ := h.isIrnode (b : Nat)
  unfold rotationCost
  simp only [hx, hy, bind, Except.bind, pure, Except.pure]
  split
  · obtain ⟨i, hi⟩ : ∃ i : Fin d, g.fstInode = .ok ((i : Nat) : Int) := by
      exact h.fstInode
    obtain ⟨p1, k1, _⟩ := hsp g (i : Nat) (a : Nat) h.wf (h.mem i) (h.conn i a)
    obtain ⟨p2, k2, _⟩ := hsp g (i : Nat) (b : Nat) h.wf (h.mem i) (h.conn i b)
    simp only [hi, distanceNodes, bind, Except.bind, pure, Except.pure, k1, k2]
    exact ⟨_, rfl⟩
  · exact ⟨_, rfl⟩

theorem phaseTrap_joined {p0 p1 p2 : ℝ} {x y : Int} (h : Spec.Joined (phaseTrap p0 p1 p2) x y) :
    (x = 0 ∧ y = 1) ∨ (x = 1 ∧ y = 0) ∨ (x = 1 ∧ y = 2) ∨ (x = 2 ∧ y = 1) := by
  unfold Spec.Joined edgeData at h
  rw [Option.isSome_map, List.find?_isSome] at h
  obtain ⟨e, he, hj⟩ := h
  simp only [phaseTrap, List.mem_cons, List.not_mem_nil, or_false] at he
  rcases he with rfl | rfl <;> simp [joins, carrierEdge] at hj <;> omega

/-- the only way from level 0 to level 2 -/
theorem phaseTrap_far (a : ℝ) (hsp : FindsPaths sp) : sp (phaseTrap 0 0 a) 0 2 = .ok [0, 1, 2] := by
  obtain ⟨p, h1, h2, h3, h4, h5⟩ := hsp (phaseTrap 0 0 a) 0 2 (phaseTrap_device a).wf ((phaseTrap_device a).mem 0) ((phaseTrap_device a).conn 0 2)
  rw [h1]
  match p, h2, h3, h4, h5 with
  | [x], h2, h3, _, _ => simp_all
  | x :: y :: l, h2, h3, h4, h5 =>
    simp only [List.head?_cons, Option.some.injEq] at h2
    subst h2
    rw [List.isChain_cons_cons] at h4
    have hy : y = 1 := by rcases phaseTrap_joined h4.1 with h | h | h | h <;> omega
    subst hy
    match l, h3, h4.2, h5 with
    | [], h3, _, _ => simp at h3
    | z :: l, h3, h4, h5 =>
      rw [List.isChain_cons_cons] at h4
      have hz : z = 2 := by
        rcases phaseTrap_joined h4.1 with h | h | h | h
        · omega
        · rw [h.2] at h5; simp at h5
        · exact h.2
        · omega
      subst hz
      match l, h4.2, h5 with
      | [], _, _ => rfl
      | w :: l, h4, h5 =>
        rw [List.isChain_cons_cons] at h4
        have hw : w = 1 := by rcases phaseTrap_joined h4.1 with h | h | h | h <;> omega
        rw [hw] at h5; simp at h5

theorem phaseTrap_near (a : ℝ) (hsp : FindsPaths sp) : sp (phaseTrap 0 0 a) 1 2 = .ok [1, 2] := by
  obtain ⟨p, h1, h2, h3, h4, h5⟩ := hsp (phaseTrap 0 0 a) 1 2 (phaseTrap_device a).wf ((phaseTrap_device a).mem 1) ((phaseTrap_device a).conn 1 2)
  rw [h1]
  match p, h2, h3, h4, h5 with
  | [x], h2, h3, _, _ => simp_all
  | x :: y :: l, h2, h3, h4, h5 =>
    simp only [List.head?_cons, Option.some.injEq] at h2
    subst h2
    rw [List.isChain_cons_cons] at h4
    have hy : y = 0 ∨ y = 2 := by rcases phaseTrap_joined h4.1 with h | h | h | h <;> omega
    match l, h3, h4.2, h5 with
    | [], h3, _, _ =>
      have : y = 2 := by simpa using h3
      rw [this]
    | z :: l, h3, h4, h5 =>
      rw [List.isChain_cons_cons] at h4
      have hz : z = 1 := by rcases phaseTrap_joined h4.1 with h | h | h | h <;> omega
      rw [hz] at h5; simp at h5

/-- the exchange of levels 0 and 2 -/
def flip02 : Matrix (Fin 3) (Fin 3) ℂ := !![0, 0, 1; 0, 1, 0; 1, 0, 0]

/-- the array of this exchange, as it is given to the decomposition -/
noncomputable def flipArr : Arr2 ℂ := ⟨3, 3, fun i j => if i + j = 2 then 1 else 0⟩

theorem flipArr_toM : flipArr.toM 3 = flip02 := by
  ext i j
  fin_cases i <;> fin_cases j <;> rfl

theorem flipArr_unitary : UnitaryArr flipArr 3 := by
  refine ⟨rfl, rfl, ?_⟩
  rw [flipArr_toM, mem_unitaryGroup_iff]
  ext i j
  fin_cases i <;> fin_cases j <;> simp [flip02, Matrix.mul_apply, Fin.sum_univ_three, star_eq_conjTranspose]

/-- the route for the rotation of levels 0 and 2 -/
theorem phaseTrap_route (a : ℝ) (hsp : FindsPaths sp) (p : TwoLevel) : ∃ k, route sp 3 ⟨0, 2, p⟩ (phaseTrap 0 0 a) =
    .ok (k, [⟨1, 2, ⟨1, 2, Real.pi, -Real.pi / 2 + a⟩⟩], phaseTrap' 0 a 0) := by
  have n1 : ∀ phi, newRot 3 1 2 Real.pi phi = .ok ⟨1, 2, ⟨1, 2, Real.pi, phi⟩⟩ := by
    intro phi
    have := newRot_ok (d := 3) 1 2 (by decide) Real.pi phi
    rw [regulate_pi] at this
    exact this
  obtain ⟨c, hc⟩ := rotationCost_exists (phaseTrap_device a) hsp 1 2 ⟨1, 2, Real.pi, (-Real.pi / 2 + a) / 2⟩
  refine ⟨0 + c, ?_⟩
  have hl1 : (phaseTrap 0 0 a).lpmap 1 = .ok 1 := rfl
  have hl2 : (phaseTrap 0 0 a).lpmap 2 = .ok 2 := rfl
  unfold route
  simp only [phaseTrap_far a hsp, bind, Except.bind]
  show routeLoop sp 3 1 [0, 1, 2] _ 0 [] = _
  unfold routeLoop
  have h1 : nodeAt [0, 1, 2] (0 + 1) = .ok 1 := rfl
  have h2 : nodeAt [0, 1, 2] (0 + 2) = .ok 2 := rfl
  have hg : ∀ r, gateChainCondition 3 [] r = .ok r := fun r => rfl
  simp only [h1, h2, hl1, hl2, n1, hg, bind, Except.bind, phaseTrap_ongate, sub_zero]
  have hc' : rotationCost sp ⟨1, 2, ⟨1, 2, Real.pi, (-Real.pi / 2 + a) / 2⟩⟩ (phaseTrap 0 0 a) = .ok c := hc
  simp only [hc', phaseTrap_swap]
  rfl

theorem phaseTrap'_device (a : ℝ) : Device 3 (phaseTrap' 0 a 0) (Equiv.swap 2 1) := by
  obtain ⟨g', e, h, _⟩ := (phaseTrap_device a).swap 2 1
  have : (phaseTrap 0 0 a).swapNodes 2 1 = .ok g' := e
  rw [phaseTrap_swap] at this
  rw [Except.ok.inj this]
  simpa using h

theorem newRot_pi (a b : Fin 3) (hab : a < b) (phi : ℝ) :
    newRot 3 ((a : Nat) : Int) ((b : Nat) : Int) Real.pi phi = .ok ⟨(a : Nat), (b : Nat), ⟨(a : Nat), (b : Nat), Real.pi, phi⟩⟩ := by
  rw [newRot_ok a b hab.ne, regulate_pi, min_eq_left hab.le, max_eq_right hab.le]

theorem third_of_pi : piMod (-(-Real.pi / 2 + Real.pi / 3)) = Real.pi / 6 := by
  have hpi := Real.pi_pos
  have e : newMod (-(-Real.pi / 2 + Real.pi / 3)) = Real.pi / 6 := by
    rw [show -(-Real.pi / 2 + Real.pi / 3) = Real.pi / 6 by ring]
    unfold newMod pyMod
    have : ⌊Real.pi / 6 / (2 * Real.pi)⌋ = 0 := by
      rw [Int.floor_eq_zero_iff]
      constructor
      · positivity
      · rw [div_lt_one (by positivity)]; linarith
    rw [this]
    simp only [Int.cast_zero, mul_zero, sub_zero]
    rw [if_neg (by positivity), if_neg (by linarith)]
  unfold piMod
  rw [e]
  simp only []
  rw [if_neg (by intro h; linarith [h.2]), if_neg (by intro h; linarith [h.1])]

/-- what is stored after the pulse -/
theorem phaseTrap_update : graphRuleUpdate ⟨1, 2, ⟨1, 2, Real.pi, -(-Real.pi / 2 + Real.pi / 3)⟩⟩ (phaseTrap' 0 (Real.pi / 3) 0) =
    .ok (phaseTrap' 0 (newMod (0 + Real.pi)) (Real.pi / 3)) := by
  have hpi := Real.pi_pos
  unfold graphRuleUpdate
  simp only []
  rw [if_pos (by rw [abs_of_pos hpi, sub_self, abs_zero]; norm_num)]
  have h1 : (phaseTrap' 0 (Real.pi / 3) 0).hasPhases = .ok true := rfl
  have h2 : findLogic 1 2 (phaseTrap' 0 (Real.pi / 3) 0) = .ok (2, 1) := rfl
  have h3 : (phaseTrap' 0 (Real.pi / 3) 0).swapNodeAttrSimple 2 1 = .ok (phaseTrap' 0 0 (Real.pi / 3)) := rfl
  simp only [h1, h2, bind, Except.bind, Bool.not_true, Bool.false_eq_true, if_false, third_of_pi]
  rw [if_pos (by decide)]
  simp only [h3]
  rw [if_pos (by positivity)]
  rfl

theorem flip_angles : 2 * arctan2 ‖(1 : ℂ)‖ ‖(0 : ℂ)‖ = Real.pi ∧ -(Real.pi / 2 + arg (0 : ℂ) - arg (1 : ℂ)) = -Real.pi / 2 := by
  constructor
  · unfold arctan2
    rw [norm_one, norm_zero, show (⟨0, 1⟩ : ℂ) = I from rfl, arg_I]; ring
  · rw [arg_zero, arg_one]; ring

/-- the rotation of levels 0 and 2 makes the exchange diagonal -/
theorem flip_turned : ∃ A B, rArray 3 ⟨0, 2, Real.pi, -Real.pi / 2⟩ = .ok A ∧ A.matmul flipArr = .ok B ∧ B.rows = 3 ∧ B.cols = 3 ∧
    B.toM 3 = diagonal ![1, 1, -1] := by
  obtain ⟨A, a1, a2, a3, a4⟩ := rArray_ok (d := 3) (g := ⟨0, 2, Real.pi, -Real.pi / 2⟩) (a := 0) (b := 2) ⟨rfl, rfl, by decide⟩
  obtain ⟨B, b1, b2, b3, b4⟩ := matmul_ok A flipArr 3 a2 a3 rfl rfl
  refine ⟨A, B, a1, b1, b2, b3, ?_⟩
  rw [b4, a4, flipArr_toM]
  have e1 : cexp (-(I * (-(Real.pi : ℂ) / 2))) = I := by
    rw [show -(I * (-(Real.pi : ℂ) / 2)) = Real.pi / 2 * I by ring, exp_pi_div_two_mul_I]
  have e2 : cexp (I * (-(Real.pi : ℂ) / 2)) = -I := by
    rw [show I * (-(Real.pi : ℂ) / 2) = -(Real.pi / 2 * I) by ring, Complex.exp_neg, exp_pi_div_two_mul_I, inv_I]
  ext i j
  fin_cases i <;> fin_cases j <;>
    simp [twoLevel, Spec.rot, flip02, Matrix.mul_apply, Fin.sum_univ_three, e1, e2]

/-- the two rotations that are returned: the pulse that exchanges levels 1 and 2, and the rotation of the levels brought together -/
noncomputable def pulse12 : RGate := ⟨1, 2, ⟨1, 2, Real.pi, -Real.pi / 2 + Real.pi / 3⟩⟩
@[inherit_doc pulse12] noncomputable def turn01 : RGate := ⟨0, 1, ⟨0, 1, Real.pi, -Real.pi / 2⟩⟩

/-- the child with the rotation of levels 0 and 2 -/
theorem trap_first (hsp : FindsPaths sp) : ∃ B k c N, B.rows = 3 ∧ B.cols = 3 ∧ B.toM 3 = diagonal ![1, 1, -1] ∧
    ∀ (s : STree × Nat), s.1.top.data.u = flipArr → s.1.top.graph = some (phaseTrap 0 0 (Real.pi / 3)) → s.1.top.dcost = 0 → s.1.top.cost = 0 →
      N ≤ s.1.top.data.limit.2 → phyStep sp 3 s (0, 0, 2) = .ok (Tree.nodeAdd (s.2 + 1 : Nat) ⟨some turn01, B, s.1.top.data.limit, [pulse12]⟩
        (some (phaseTrap' 0 (newMod (0 + Real.pi)) (Real.pi / 3))) k c s.1, s.2 + 1) := by
  obtain ⟨A, B, h1, h2, h3, h4, h5⟩ := flip_turned
  obtain ⟨k1, hk1⟩ := phaseTrap_route (Real.pi / 3) hsp ⟨0, 2, Real.pi, -Real.pi / 2⟩
  obtain ⟨k2, hk2⟩ := rotationCost_exists (phaseTrap'_device (Real.pi / 3)) hsp 0 2 ⟨0, 2, Real.pi, -Real.pi / 2⟩
  have hk2' : rotationCost sp ⟨0, 2, ⟨0, 2, Real.pi, -Real.pi / 2⟩⟩ (phaseTrap' 0 (Real.pi / 3) 0) = .ok k2 := hk2
  refine ⟨B, (k2 + k1) * countNonzero B + 0, k1 + k2 + 0, k1 + k2 + 1, h3, h4, h5, fun s hu hg hd hc hN => ?_⟩
  have x1 : flipArr.get 2 0 = .ok 1 := rfl
  have y1 : flipArr.get 0 0 = .ok 0 := rfl
  obtain ⟨t1, t2⟩ := flip_angles
  have r1 := newRot_pi 0 2 (by decide) (-Real.pi / 2)
  have r1' : newRot 3 ((0 : Nat) : Int) ((2 : Nat) : Int) Real.pi (-Real.pi / 2) = .ok ⟨0, 2, ⟨0, 2, Real.pi, -Real.pi / 2⟩⟩ := r1
  have r2 : ∀ phi, newRot 3 0 1 Real.pi phi = .ok ⟨0, 1, ⟨0, 1, Real.pi, phi⟩⟩ := newRot_pi 0 1 (by decide)
  have r3 : ∀ phi, newRot 3 1 2 Real.pi phi = .ok ⟨1, 2, ⟨1, 2, Real.pi, phi⟩⟩ := newRot_pi 1 2 (by decide)
  have l0 : (phaseTrap' 0 (Real.pi / 3) 0).lpmap ((0 : Nat) : Int) = .ok 0 := rfl
  have l2 : (phaseTrap' 0 (Real.pi / 3) 0).lpmap ((2 : Nat) : Int) = .ok 1 := rfl
  have hcost : costCalculator sp 3 ⟨0, 2, ⟨0, 2, Real.pi, -Real.pi / 2⟩⟩ (phaseTrap 0 0 (Real.pi / 3)) (countNonzero B) =
      .ok ⟨(k2 + k1) * countNonzero B, [pulse12], phaseTrap' 0 (Real.pi / 3) 0, k1, k2⟩ := by
    unfold costCalculator
    simp only [hk1, hk2', bind, Except.bind, pure, Except.pure]
    rfl
  unfold phyStep
  simp only [hu, x1, y1, bind, Except.bind, pure, Except.pure, t1, t2]
  rw [if_pos (by norm_num)]
  simp only [r1', h1, h2, hg, hcost, hd, hc]
  rw [if_pos (show Affordable s.1.top.data.limit.2 (k1 + k2 + s.1.top.dcost) from Or.inl (by rw [hd]; linarith))]
  simp only [l0, l2]
  rw [if_neg (by norm_num)]
  have hchain : gateChainCondition 3 [pulse12] ⟨0, 1, ⟨0, 1, Real.pi, -Real.pi / 2⟩⟩ = .ok ⟨0, 1, ⟨0, 1, Real.pi, -Real.pi / 2⟩⟩ := by
    show newRot 3 0 1 (chainTheta pulse12.par _) _ = _
    have : chainTheta pulse12.par ⟨0, 1, Real.pi, -Real.pi / 2⟩ = Real.pi := by
      unfold chainTheta pulse12
      simp
    rw [this, r2]
  simp only [r2, hchain, phaseTrap_ongate', add_zero, sub_zero, List.mapM_cons, List.mapM_nil, bind, Except.bind, pure, Except.pure]
  have hb : newRot 3 pulse12.par.levA pulse12.par.levB pulse12.par.theta (-pulse12.par.phi) =
      .ok ⟨1, 2, ⟨1, 2, Real.pi, -(-Real.pi / 2 + Real.pi / 3)⟩⟩ := r3 _
  simp only [hb, List.foldlM_cons, List.foldlM_nil, phaseTrap_update, bind, Except.bind, pure, Except.pure]
  rfl

/-- the other rotation that is tried -/
theorem trap_second (hsp : FindsPaths sp) (s : STree × Nat) (hu : s.1.top.data.u = flipArr)
    (hg : s.1.top.graph = some (phaseTrap 0 0 (Real.pi / 3))) :
    ∃ s', phyStep sp 3 s (0, 1, 2) = .ok s' ∧ (s' = s ∨ ∃ k x y z w, s' = (Tree.nodeAdd k x y z w s.1, s.2 + 1)) := by
  obtain ⟨A, a1, a2, a3, _⟩ := rArray_ok (d := 3) (g := ⟨1, 2, Real.pi, -Real.pi / 2⟩) (a := 1) (b := 2) ⟨rfl, rfl, by decide⟩
  obtain ⟨B, b1, _⟩ := matmul_ok A flipArr 3 a2 a3 rfl rfl
  obtain ⟨k2, hk2⟩ := rotationCost_exists (phaseTrap_device (Real.pi / 3)) hsp 1 2 ⟨1, 2, Real.pi, -Real.pi / 2⟩
  have hk2' : rotationCost sp ⟨1, 2, ⟨1, 2, Real.pi, -Real.pi / 2⟩⟩ (phaseTrap 0 0 (Real.pi / 3)) = .ok k2 := hk2
  have x1 : flipArr.get 2 0 = .ok 1 := rfl
  have y1 : flipArr.get 1 0 = .ok 0 := rfl
  obtain ⟨t1, t2⟩ := flip_angles
  have r1 : newRot 3 ((1 : Nat) : Int) ((2 : Nat) : Int) Real.pi (-Real.pi / 2) = .ok ⟨1, 2, ⟨1, 2, Real.pi, -Real.pi / 2⟩⟩ :=
    newRot_pi 1 2 (by decide) (-Real.pi / 2)
  have r3 : ∀ phi, newRot 3 1 2 Real.pi phi = .ok ⟨1, 2, ⟨1, 2, Real.pi, phi⟩⟩ := newRot_pi 1 2 (by decide)
  have l1 : (phaseTrap 0 0 (Real.pi / 3)).lpmap ((1 : Nat) : Int) = .ok 1 := rfl
  have l2 : (phaseTrap 0 0 (Real.pi / 3)).lpmap ((2 : Nat) : Int) = .ok 2 := rfl
  have hroute : route sp 3 ⟨1, 2, ⟨1, 2, Real.pi, -Real.pi / 2⟩⟩ (phaseTrap 0 0 (Real.pi / 3)) = .ok (0, [], phaseTrap 0 0 (Real.pi / 3)) := by
    unfold route
    simp only [phaseTrap_near _ hsp, bind, Except.bind]
    rfl
  have hcost : costCalculator sp 3 ⟨1, 2, ⟨1, 2, Real.pi, -Real.pi / 2⟩⟩ (phaseTrap 0 0 (Real.pi / 3)) (countNonzero B) =
      .ok ⟨(k2 + 0) * countNonzero B, [], phaseTrap 0 0 (Real.pi / 3), 0, k2⟩ := by
    unfold costCalculator
    simp only [hroute, hk2', bind, Except.bind, pure, Except.pure]
  have hchain : ∀ r, gateChainCondition 3 [] r = .ok r := fun _ => rfl
  unfold phyStep
  simp only [hu, x1, y1, bind, Except.bind, pure, Except.pure, t1, t2]
  rw [if_pos (by norm_num)]
  simp only [r1, a1, b1, hg, hcost]
  split
  · simp only [l1, l2]
    rw [if_neg (by norm_num)]
    simp only [r3, hchain, phaseTrap_ongate, List.mapM_nil, List.foldlM_nil, pure, Except.pure]
    exact ⟨_, rfl, Or.inr ⟨_, _, _, _, _, rfl⟩⟩
  · exact ⟨_, rfl, Or.inl rfl⟩

theorem trap_skip (s : STree × Nat) (hu : s.1.top.data.u = flipArr) : phyStep sp 3 s (0, 0, 1) = .ok s ∧ phyStep sp 3 s (1, 1, 2) = .ok s := by
  have x1 : flipArr.get 1 0 = .ok 0 := rfl
  have y1 : flipArr.get 0 0 = .ok 0 := rfl
  have x2 : flipArr.get 2 1 = .ok 0 := rfl
  have y2 : flipArr.get 1 1 = .ok 1 := rfl
  constructor <;>
  · unfold phyStep
    simp only [hu, x1, y1, x2, y2, bind, Except.bind, pure, Except.pure]
    rw [if_neg (by norm_num)]

theorem trap_triples : phyTriples 3 = [(0, 0, 1), (0, 0, 2), (0, 1, 2), (1, 1, 2)] := by decide

/-- the angle that is stored for level 1 -/
theorem stored_pi : newMod (0 + Real.pi) = Real.pi := by
  have hpi := Real.pi_pos
  unfold newMod pyMod
  have : ⌊(0 + Real.pi) / (2 * Real.pi)⌋ = 0 := by
    rw [Int.floor_eq_zero_iff]
    constructor
    · positivity
    · rw [div_lt_one (by positivity)]; linarith
  rw [this]
  simp only [Int.cast_zero, mul_zero, sub_zero, zero_add]
  rw [if_neg hpi.ne', if_neg (by linarith)]

/-- the two rotations do not take the exchange to the frame that is returned -/
theorem trap_far (q : Int) (z : ℂ) : ¬ Near (2 / 5) (circuitOp (lineOp 3) [rotInstr q 3 pulse12, rotInstr q 3 turn01] *
    (frame 3 (phaseTrap 0 0 (Real.pi / 3)) * flipArr.toM 3)) (z • frame 3 (phaseTrap' 0 (newMod (0 + Real.pi)) (newMod (Real.pi / 3 + Real.pi)))) := by
  have o1 : lineOp 3 (rotInstr q 3 pulse12) = twoLevel 1 2 (Spec.rot Real.pi (-Real.pi / 2 + Real.pi / 3)) := by
    rw [lineOp_rot q pulse12 1 2 (by decide) rfl rfl, if_pos (by decide)]; rfl
  have o2 : lineOp 3 (rotInstr q 3 turn01) = twoLevel 0 1 (Spec.rot Real.pi (-Real.pi / 2)) := by
    rw [lineOp_rot q turn01 0 1 (by decide) rfl rfl, if_pos (by decide)]; rfl
  generalize hy : newMod (Real.pi / 3 + Real.pi) = y
  rw [stored_pi]
  have f1 : frame 3 (phaseTrap' 0 Real.pi y) 2 1 = -1 := by
    have hv : value (phaseTrap' 0 Real.pi y) (((1 : Fin 3) : Nat) : Int) "lpmap" = some (.int (((2 : Fin 3) : Nat) : Int)) := rfl
    have hs : stored (phaseTrap' 0 Real.pi y) (1 : Fin 3) = Real.pi := rfl
    unfold frame
    rw [if_pos hv, hs, mul_comm, exp_pi_mul_I]
  have f0 : frame 3 (phaseTrap' 0 Real.pi y) 0 0 = 1 := by
    have hv : value (phaseTrap' 0 Real.pi y) (((0 : Fin 3) : Nat) : Int) "lpmap" = some (.int (((0 : Fin 3) : Nat) : Int)) := rfl
    have hs : stored (phaseTrap' 0 Real.pi y) (0 : Fin 3) = 0 := rfl
    unfold frame
    rw [if_pos hv, hs]; simp
  have f2 : ∀ i j : Fin 3, frame 3 (phaseTrap 0 0 (Real.pi / 3)) i j = if i = j then (if i = 2 then cexp (I * ((Real.pi / 3 : ℝ) : ℂ)) else 1) else 0 := by
    intro i j
    have s0 : stored (phaseTrap 0 0 (Real.pi / 3)) (0 : Fin 3) = 0 := rfl
    have s1 : stored (phaseTrap 0 0 (Real.pi / 3)) (1 : Fin 3) = 0 := rfl
    have s2 : stored (phaseTrap 0 0 (Real.pi / 3)) (2 : Fin 3) = Real.pi / 3 := rfl
    have v : ∀ j : Fin 3, value (phaseTrap 0 0 (Real.pi / 3)) ((j : Nat) : Int) "lpmap" = some (.int ((j : Nat) : Int)) := by
      intro j; fin_cases j <;> rfl
    unfold frame
    rw [v]
    fin_cases i <;> fin_cases j <;> simp [s0, s1, s2]
  intro hz
  rw [circuitOp_cons, circuitOp_cons, circuitOp_nil, one_mul, o1, o2, flipArr_toM] at hz
  have e2 : cexp (I * ((-Real.pi / 2 + Real.pi / 3 : ℝ) : ℂ)) = -I * cexp (I * (Real.pi / 3 : ℝ)) := by
    rw [show I * ((-Real.pi / 2 + Real.pi / 3 : ℝ) : ℂ) = -(Real.pi / 2 * I) + I * (Real.pi / 3 : ℝ) by push_cast; ring, Complex.exp_add,
      Complex.exp_neg, exp_pi_div_two_mul_I, inv_I]
  have e2' : cexp (-(I * ((-Real.pi / 2 + Real.pi / 3 : ℝ) : ℂ))) * cexp (I * (Real.pi / 3 : ℝ)) = I := by
    rw [← Complex.exp_add, show -(I * ((-Real.pi / 2 + Real.pi / 3 : ℝ) : ℂ)) + I * (Real.pi / 3 : ℝ) = Real.pi / 2 * I by push_cast; ring,
      exp_pi_div_two_mul_I]
  have e1' : cexp (-(I * ((-Real.pi / 2 : ℝ) : ℂ))) = I := by
    rw [show -(I * ((-Real.pi / 2 : ℝ) : ℂ)) = Real.pi / 2 * I by push_cast; ring, exp_pi_div_two_mul_I]
  have f3 : ∀ i : Fin 3, (frame 3 (phaseTrap 0 0 (Real.pi / 3)) * flip02) i 1 = if i = 1 then 1 else 0 := by
    intro i
    fin_cases i <;> simp [Matrix.mul_apply, f2, flip02]
  have f4 : ∀ i : Fin 3, (frame 3 (phaseTrap 0 0 (Real.pi / 3)) * flip02) i 0 = if i = 2 then cexp (I * (Real.pi / 3 : ℝ)) else 0 := by
    intro i
    fin_cases i <;> simp [Matrix.mul_apply, f2, flip02]
  generalize frame 3 (phaseTrap 0 0 (Real.pi / 3)) * flip02 = F at *
  have q0 : ∀ phi, Spec.rot Real.pi phi 0 1 = -I * cexp (-(I * phi)) := by
    intro phi
    simp [Spec.rot]
  have q1 : ∀ phi, Spec.rot Real.pi phi 1 0 = -I * cexp (I * phi) := by
    intro phi
    simp [Spec.rot]
  have e : ((twoLevel 0 1 (Spec.rot Real.pi (-Real.pi / 2)) * twoLevel 1 2 (Spec.rot Real.pi (-Real.pi / 2 + Real.pi / 3)) * F : Matrix (Fin 3) (Fin 3) ℂ)) 2 1 =
      -cexp (I * (Real.pi / 3 : ℝ)) := by
    rw [Matrix.mul_apply]
    simp only [Fin.sum_univ_three, f3]
    simp only [Matrix.mul_apply, Fin.sum_univ_three, twoLevel]
    simp
    rw [q1, e2]
    push_cast
    linear_combination (cexp (I * (Real.pi / 3 : ℂ))) * I_mul_I
  have e' : ((twoLevel 0 1 (Spec.rot Real.pi (-Real.pi / 2)) * twoLevel 1 2 (Spec.rot Real.pi (-Real.pi / 2 + Real.pi / 3)) * F : Matrix (Fin 3) (Fin 3) ℂ)) 0 0 = 1 := by
    rw [Matrix.mul_apply]
    simp only [Fin.sum_univ_three, f4]
    simp only [Matrix.mul_apply, Fin.sum_univ_three, twoLevel]
    simp
    rw [q0, q0, e1']
    push_cast at e2' ⊢
    linear_combination (-I * I * -I) * e2' + (I * I - 1) * I_mul_I
  have b0 := hz 0 0
  have b1 := hz 2 1
  rw [Matrix.sub_apply, e', Matrix.smul_apply, f0, smul_eq_mul, mul_one] at b0
  rw [Matrix.sub_apply, e, Matrix.smul_apply, f1, smul_eq_mul, mul_neg, mul_one] at b1
  have e3 : (1 - z) + (-cexp (I * (Real.pi / 3 : ℝ)) - -z) = cexp (((-(Real.pi / 3) : ℝ) : ℂ) * I) := by
    rw [show (1 - z) + (-cexp (I * (Real.pi / 3 : ℝ)) - -z) = 1 - cexp (I * (Real.pi / 3 : ℝ)) by ring, mul_comm I]
    apply Complex.ext
    · rw [Complex.sub_re, exp_ofReal_mul_I_re, exp_ofReal_mul_I_re, Real.cos_neg, Real.cos_pi_div_three]; norm_num
    · rw [Complex.sub_im, exp_ofReal_mul_I_im, exp_ofReal_mul_I_im, Real.sin_neg]; simp
  have := norm_add_le (1 - z) (-cexp (I * (Real.pi / 3 : ℝ)) - -z)
  rw [e3, norm_exp_ofReal_mul_I] at this
  linarith

/-- On a graph of `Innsbruck01` with the phase π/3 stored for level 2 (as it is after a gate diag(1, 1, exp(iπ/3)) whose phase is propagated), the
physical search is given the exchange of levels 0 and 2, with any limit that is large enough. Level 1 is between the two, so a pulse exchanges
levels 1 and 2 first. It is adapted to the stored phases, so that these stay with the physical levels; but they are moved along with the
logical levels as well. The product of what is returned is far from the frame of the graph that is returned, up to any global phase. -/
theorem C68_violated (hsp : FindsPaths sp) (q : Int) :
    innsbruck.phaseStoringSetup.setPhase 2 (Real.pi / 3) = .ok (phaseTrap 0 0 (Real.pi / 3)) ∧ UnitaryArr flipArr 3 ∧
    ∃ N, ∀ (limit : ℝ × ℝ), N ≤ limit.2 → ∀ fuel ≥ 2, ∃ res g1,
      phyAda fuel sp q 3 1e-4 1e-4 true limit flipArr (phaseTrap 0 0 (Real.pi / 3)) = .ok res ∧ res.graph = some g1 ∧
      ∀ c : ℂ, ¬ Near (2 / 5) (circuitOp (lineOp 3) res.gates * (frame 3 (phaseTrap 0 0 (Real.pi / 3)) * flipArr.toM 3)) (c • frame 3 g1) := by
  refine ⟨rfl, flipArr_unitary, ?_⟩
  obtain ⟨B, k, c, N, hr, hc, hB, hstep⟩ := trap_first hsp
  refine ⟨N, fun limit hN fuel hf => ?_⟩
  obtain ⟨f, rfl⟩ : ∃ f, fuel = f + 2 := ⟨fuel - 2, by omega⟩
  have hnd : ¬ IsDiag 1e-4 flipArr := by
    rintro ⟨h, _⟩
    have := h 0 (by decide) 2 (by decide) (by decide)
    norm_num [flipArr] at this
  have hat : ∀ i j : Fin 3, B.at' i j = (diagonal ![1, 1, -1] : Matrix (Fin 3) (Fin 3) ℂ) i j := fun i j => by rw [← hB]; rfl
  have hdg : IsDiag 1e-4 B := by
    refine ⟨?_, 0, by omega, by omega, ?_⟩
    · intro i hi j hj hij
      rw [hr] at hi
      rw [hc] at hj
      have := hat ⟨i, hi⟩ ⟨j, hj⟩
      rw [diagonal_apply_ne _ (fun e => hij (congrArg Fin.val e))] at this
      rw [this, norm_zero]; norm_num
    · have := hat 0 0
      simp at this
      rw [this, norm_one]; norm_num
  set g := phaseTrap 0 0 (Real.pi / 3) with hg
  set g' := phaseTrap' 0 (newMod (0 + Real.pi)) (Real.pi / 3) with hg'
  set root : STree := Tree.new 0 ⟨none, flipArr, limit, []⟩ (some g) 0 0 none with hroot
  set first : STree := Tree.new ((0 + 1 : Nat) : Int) ⟨some turn01, B, limit, [pulse12]⟩ (some g') k c (some 0) with hfirst
  have hs1 : phyStep sp 3 (root, 0) (0, 0, 2) =
      .ok (Tree.nodeAdd ((0 + 1 : Nat) : Int) ⟨some turn01, B, limit, [pulse12]⟩ (some g') k c root, 0 + 1) := hstep (root, 0) rfl rfl rfl rfl hN
  obtain ⟨s2, hs2, hs2'⟩ := trap_second hsp (Tree.nodeAdd ((0 + 1 : Nat) : Int) ⟨some turn01, B, limit, [pulse12]⟩ (some g') k c root, 0 + 1) rfl rfl
  have hfold : (phyTriples flipArr.rows).foldlM (phyStep sp 3) (root, 0) = .ok s2 := by
    show (phyTriples 3).foldlM _ _ = _
    rw [trap_triples]
    simp only [List.foldlM_cons, List.foldlM_nil, bind, Except.bind, pure, Except.pure]
    rw [(trap_skip (root, 0) rfl).1]
    simp only []
    rw [hs1]
    simp only []
    have hu2 : s2.1.top.data.u = flipArr := by
      rcases hs2' with rfl | ⟨_, _, _, _, _, rfl⟩ <;> rfl
    rw [hs2]
    simp only []
    rw [(trap_skip s2 hu2).2]
  have hs2r : ∃ r rest, s2.1 = .node r (first :: rest) ∧ (rest = [] ∨ ∃ a b c d e f, rest = [Tree.new a b c d e f]) ∧ r.finished = false := by
    rcases hs2' with rfl | ⟨_, _, _, _, _, rfl⟩
    · exact ⟨_, [], rfl, Or.inl rfl, rfl⟩
    · exact ⟨_, _, rfl, Or.inr ⟨_, _, _, _, _, _, rfl⟩, rfl⟩
  obtain ⟨r, rest, e1, e2, e3⟩ := hs2r
  have hdfs : dfs 1e-4 phyTriples (phyStep sp 3) (f + 2) root 0 =
      .ok (.node r (.node { first.top with finished := true } [] :: rest), s2.2, true) := by
    rw [hroot, Tree.new]
    rw [dfs]
    rw [if_neg hnd]
    have hfold' := hfold
    rw [hroot, Tree.new] at hfold'
    simp only [bind, Except.bind, pure, Except.pure]
    rw [hfold']
    simp only [e1]
    rw [visit]
    rw [hfirst, Tree.new, dfs, if_pos hdg]
    rfl
  have hret : (Tree.retrieve (.node r (.node { first.top with finished := true } [] :: rest) : STree)).2 =
      .ok ⟨[{ r with finished := true }, { first.top with finished := true }], some (k, c), some g'⟩ := by
    rcases e2 with rfl | ⟨_, _, _, _, _, _, rfl⟩ <;>
      simp [Tree.retrieve, Tree.foundChecker, Tree.foundList, Tree.minCost, Tree.minList, Tree.pyMin, Tree.top, hfirst, Tree.new, e3, bind, Except.bind,
        pure, Except.pure]
  have hg0 : B.get 0 0 = .ok 1 := by
    unfold Arr2.get
    rw [hr, hc, if_pos (by decide), show B.at' 0 0 = _ from hat 0 0]; rfl
  have hg1 : B.get 1 1 = .ok 1 := by
    unfold Arr2.get
    rw [hr, hc, if_pos (by decide), show B.at' 1 1 = _ from hat 1 1]; rfl
  have hg2 : B.get 2 2 = .ok (-1) := by
    unfold Arr2.get
    rw [hr, hc, if_pos (by decide), show B.at' 2 2 = _ from hat 2 2]; rfl
  have hz : ∀ G, storePhase 1e-4 B G 0 = .ok G ∧ storePhase 1e-4 B G 1 = .ok G := by
    intro G
    constructor <;>
    · unfold storePhase
      simp only [hg0, hg1, bind, Except.bind, arg_one, abs_zero]
      rw [if_neg (by norm_num)]; rfl
  have hz2 : storePhase 1e-4 B g' 2 = .ok (phaseTrap' 0 (newMod (0 + Real.pi)) (newMod (Real.pi / 3 + Real.pi))) := by
    unfold storePhase
    simp only [hg2, bind, Except.bind, arg_neg_one]
    rw [if_pos (by rw [abs_of_pos Real.pi_pos]; linarith [Real.pi_gt_three])]
    rfl
  have hext : phyExtract q 3 1e-4 1e-4 true [{ r with finished := true }, { first.top with finished := true }] (some g') =
      .ok ([rotInstr q 3 pulse12, rotInstr q 3 turn01], some (phaseTrap' 0 (newMod (0 + Real.pi)) (newMod (Real.pi / 3 + Real.pi)))) := by
    unfold phyExtract
    simp only [List.getLast?_cons_cons, List.getLast?_singleton]
    rw [if_pos (show IsDiag 1e-4 first.top.data.u from hdg), if_pos trivial]
    show (do
      let g ← (List.range B.rows).foldlM (storePhase 1e-4 B) g'
      pure (_, some g)) = _
    rw [hr, show List.range 3 = [0, 1, 2] from rfl]
    simp only [List.foldlM_cons, List.foldlM_nil, bind, Except.bind, pure, Except.pure, hz, hz2]
    rfl
  refine ⟨⟨[rotInstr q 3 pulse12, rotInstr q 3 turn01], some (k, c), some (phaseTrap' 0 (newMod (0 + Real.pi)) (newMod (Real.pi / 3 + Real.pi)))⟩, _, ?_,
    rfl, ?_⟩
  · unfold phyAda Adaptive.execute
    simp only [bind, Except.bind, pure, Except.pure]
    rw [show g.phaseStoringSetup = g from rfl, hdfs]
    simp only [hret, List.isEmpty_cons, Bool.false_eq_true, if_false, hext]
  · exact trap_far q

example : ∃ (sp : PathFinder) (limit : ℝ × ℝ) (res : Adaptive.Result) (g1 : LGraph),
    phyAda 1000 sp 0 3 1e-4 1e-4 true limit flipArr (phaseTrap 0 0 (Real.pi / 3)) = .ok res ∧ res.graph = some g1 ∧
    ¬ Near (2 / 5) (circuitOp (lineOp 3) res.gates * (frame 3 (phaseTrap 0 0 (Real.pi / 3)) * flipArr.toM 3)) (frame 3 g1) := by
  obtain ⟨sp, hsp⟩ := findsShortest_exists
  obtain ⟨_, _, N, h⟩ := C68_violated hsp.finds 0
  obtain ⟨res, g1, h1, h2, h3⟩ := h (0, N) le_rfl 1000 (by norm_num)
  exact ⟨sp, (0, N), res, g1, h1, h2, by simpa using h3 1⟩

end Qudits
