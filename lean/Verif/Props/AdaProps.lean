import Verif.Lemmas.AdaFuel
import Verif.Props.QrProps
/-
C68, C69: the adaptive decompositions of single gates, and what their passes put into a circuit.
-/
namespace Qudits
open LGraph LocalQR Spec Matrix Adaptive PhasePass Complex

variable {d : Nat} {g : LGraph} {lp : Equiv.Perm (Fin d)} {sp : PathFinder}

theorem isDiag_iff {u : Arr2 ℂ} (hu : UnitaryArr u d) (off : ℝ) : IsDiag off u ↔ DiagonalUpTo off (u.toM d) := by
  obtain ⟨h1, h2, _⟩ := hu
  unfold IsDiag DiagonalUpTo
  rw [h1, h2]
  constructor
  · rintro ⟨k1, i, k2, _, k3⟩
    exact ⟨fun i j hij => k1 i i.isLt j j.isLt (fun e => hij (Fin.ext e)), ⟨i, k2⟩, k3⟩
  · rintro ⟨k1, i, k2⟩
    exact ⟨fun i hi j hj hij => k1 ⟨i, hi⟩ ⟨j, hj⟩ (fun e => hij (congrArg Fin.val e)), i, i.isLt, i.isLt, k2⟩

/-! ### C68: the decompositions -/

/-- The logical search, for every unitary U, graph and limit of cost. It exceeds the recursion limit only if rotations of the least cost fill
the limit. It returns an empty list with infinite cost only if U is not diagonal. Otherwise it returns rotations and phase gates whose product
inverts U up to the thresholds, at a cost within the limit. -/
theorem C68_logical (q : Int) (off del : ℝ) (hoff : 0 ≤ off) (hdel : 0 ≤ del) (limit : ℝ × ℝ) (u : Arr2 ℂ) (hu : UnitaryArr u d) (g : LGraph)
    (fuel : Nat) (hf : 0 < fuel) :
    (logAda fuel q d off del limit u g = .error .recursion ∧ fuel * 8e-5 ≤ limit.2 + 1e-12) ∨
    (logAda fuel q d off del limit u g = .ok ⟨[], none, some g.phaseStoringSetup⟩ ∧ ¬ DiagonalUpTo off (u.toM d)) ∨
    ∃ res, logAda fuel q d off del limit u g = .ok res ∧ (∀ x ∈ res.gates, LevelRotation d x ∨ PhaseRotation x) ∧
      (∀ x ∈ res.gates, x.dagger = false) ∧ circuitOp (lineOp d) res.gates ∈ unitaryGroup (Fin d) ℂ ∧
      NearOne (qrError d off del) (circuitOp (lineOp d) res.gates * u.toM d) ∧ ∃ c, res.cost = some c ∧ (c.2 = 0 ∨ c.2 < limit.2 + 1e-12) := by
  rcases logSearch_ok q hoff hdel limit u (square_of hu) g fuel hf with h | ⟨h1, h2⟩ | ⟨res, h1, h2, _⟩
  · exact Or.inl h
  · exact Or.inr (Or.inl ⟨h1, fun hd => h2 (.diag _ ((isDiag_iff hu off).2 hd))⟩)
  · exact Or.inr (Or.inr ⟨res, h1, h2.gates, h2.plain, h2.unitary, h2.near, h2.cost⟩)

/-- The physical search on a device whose stored phases are multiples of π, as they are after exchanges of levels. What it returns uses only
coupled levels of the device, and phase gates if phases are not propagated; it takes the frame of the device after U to the frame of the graph
it returns. -/
theorem C68_physical (h : Device d g lp) (ho : InOrder d g) (hp : PiPhases d g) (hsp : FindsPaths sp) (q : Int) (off del : ℝ) (hoff : 0 ≤ off)
    (hdel : 0 ≤ del) (zProp : Bool) (limit : ℝ × ℝ) (u : Arr2 ℂ) (hu : UnitaryArr u d) (fuel : Nat) (hf : 0 < fuel) :
    (phyAda fuel sp q d off del zProp limit u g = .error .recursion ∧ fuel * 8e-5 ≤ limit.2 + 1e-12) ∨
    (phyAda fuel sp q d off del zProp limit u g = .ok ⟨[], none, some g.phaseStoringSetup⟩ ∧ ¬ DiagonalUpTo off (u.toM d)) ∨
    ∃ res g1 lp1, phyAda fuel sp q d off del zProp limit u g = .ok res ∧ res.graph = some g1 ∧ Device d g1 lp1 ∧
      (∀ x ∈ res.gates, CoupledRotation g x ∨ (zProp = false ∧ PhaseRotation x)) ∧ (∀ x ∈ res.gates, x.dagger = false) ∧
      (zProp = false → NoPhases d g1) ∧ circuitOp (lineOp d) res.gates ∈ unitaryGroup (Fin d) ℂ ∧
      Near (qrError d off del) (circuitOp (lineOp d) res.gates * (frame d g * u.toM d)) (frame d g1) ∧
      ∃ c, res.cost = some c ∧ (c.2 = 0 ∨ c.2 < limit.2 + 1e-12) := by
  rcases phySearch_ok (off := off) (del := del) le_rfl (piBlock hsp g) (piKindOk g) (pi_start h ho hp) h q hoff hdel zProp limit u (square_of hu) fuel hf
    with h | ⟨h1, h2⟩ | ⟨res, g1, lp1, h1, h2⟩
  · exact Or.inl h
  · exact Or.inr (Or.inl ⟨h1, fun hd => h2 (.diag _ ((isDiag_iff hu off).2 hd))⟩)
  · have hn := h2.near
    simp only [ite_self, add_zero] at hn
    exact Or.inr (Or.inr ⟨res, g1, lp1, h1, h2.graph, h2.dev, h2.gates, h2.plain, h2.clean, h2.unitary, hn, h2.cost⟩)

/-- The physical search on a device all of whose levels are coupled, with any stored phases. The levels keep their places. -/
theorem C68_coupled (h : Device d g lp) (hc : AllCoupled d g) (hsp : FindsShortest sp) (q : Int) (off del : ℝ) (hoff : 0 ≤ off)
    (hdel : 0 ≤ del) (zProp : Bool) (limit : ℝ × ℝ) (u : Arr2 ℂ) (hu : UnitaryArr u d) (fuel : Nat) (hf : 0 < fuel) :
    (phyAda fuel sp q d off del zProp limit u g = .error .recursion ∧ fuel * 8e-5 ≤ limit.2 + 1e-12) ∨
    (phyAda fuel sp q d off del zProp limit u g = .ok ⟨[], none, some g.phaseStoringSetup⟩ ∧ ¬ DiagonalUpTo off (u.toM d)) ∨
    ∃ res g1, phyAda fuel sp q d off del zProp limit u g = .ok res ∧ res.graph = some g1 ∧ Device d g1 lp ∧ AllCoupled d g1 ∧
      (∀ x ∈ res.gates, CoupledRotation g x ∨ (zProp = false ∧ PhaseRotation x)) ∧ (∀ x ∈ res.gates, x.dagger = false) ∧
      (zProp = false → NoPhases d g1) ∧ circuitOp (lineOp d) res.gates ∈ unitaryGroup (Fin d) ℂ ∧
      Near (qrError d off del + if zProp then 0 else 1e-4) (circuitOp (lineOp d) res.gates * (frame d g * u.toM d)) (frame d g1) ∧
      ∃ c, res.cost = some c ∧ (c.2 = 0 ∨ c.2 < limit.2 + 1e-12) := by
  obtain ⟨s1, s2⟩ := setup_ok h
  rcases phySearch_ok (off := off) (del := del) (by norm_num) (directBlock (g0 := g) hsp s1 (fun i j hij => hc i j hij) (fun i => ⟨_, s2 i⟩)
    (setup_edgesIn g)) (directKindOk s1 (fun i => ⟨_, s2 i⟩) (setup_edgesIn g)) rfl h q hoff hdel zProp limit u (square_of hu) fuel hf
    with h | ⟨h1, h2⟩ | ⟨res, g1, lp1, h1, h2⟩
  · exact Or.inl h
  · exact Or.inr (Or.inl ⟨h1, fun hd => h2 (.diag _ ((isDiag_iff hu off).2 hd))⟩)
  · obtain ⟨gl, k1, k2, k3, _⟩ := h2.leaf
    rw [show gl = g.phaseStoringSetup from k1] at k2 k3
    have := device_unique s1 k2
    subst this
    refine Or.inr (Or.inr ⟨res, g1, h1, h2.graph, h2.dev, ?_, h2.gates, h2.plain, h2.clean, h2.unitary, h2.near, h2.cost⟩)
    intro i j hij
    have := hc i j hij
    unfold Spec.Joined edgeData at *
    rw [k3]; exact this

/-! ### C69: the passes -/

/-- `LogLocAdaPass` with enough stack: it finds a decomposition, but what it puts into the circuit is near the inverse of the gate. If the gate is
not diagonal the graph of the line is replaced by `None`, and the next gate on the line raises an exception. -/
theorem C69_logical_inverse (h : Device d g lp) (hsp : FindsPaths sp) (q : Int) (u : Arr2 ℂ) (hu : UnitaryArr u d) (hd : d ≤ 10000)
    (hn : NoTinyEntries (u.toM d)) : ∃ N, ∀ fuel ≥ N, ∃ l g', logAdaGate fuel sp q d u (some g) = .ok (l, g') ∧
      (∀ x ∈ l, LevelRotation d x ∨ PhaseRotation x) ∧ Near (d * qrError d 1e-4 1e-4) (circuitOp (lineOp d) l) (u.toM d)ᴴ ∧
      (¬ DiagonalUpTo 1e-4 (u.toM d) → g' = none ∧ ∀ fuel v, logAdaGate fuel sp q d v g' = .error .attributeError) := by
  obtain ⟨r, h1, h2⟩ := logLimit_ok h hsp q u (square_of hu)
  obtain ⟨N, hN0, hN⟩ := fuel_enough (r.tot + 1e-12)
  refine ⟨N, fun fuel hf => ?_⟩
  rcases logSearch_ok (off := 1e-4) (del := 1e-4) q (by norm_num) (by norm_num) (r.alg, r.tot) u (square_of hu) r.graph fuel (by omega)
    with ⟨_, k⟩ | ⟨_, k⟩ | ⟨res, k1, k2, k3⟩
  · exact absurd k (hN fuel hf)
  · exact absurd (h2 hd hn _) k
  · refine ⟨res.gates, res.graph, ?_, k2.gates, near_inverse' _ _ hu.2.2 k2.near, fun hnd => ?_⟩
    · unfold logAdaGate
      simp only [bind, Except.bind, pure, Except.pure]
      rw [h1]
      simp only []
      rw [k1]
    · have := k3 (fun hi => hnd ((isDiag_iff hu _).1 hi))
      exact ⟨this, fun _ _ => by rw [this]; rfl⟩

theorem circuit_gates {l : List PInstr} {P : PInstr → Prop} (hP : ∀ x, P x → P (dag x)) (h : ∀ x ∈ l, P x) : ∀ x ∈ revDag l, P x := by
  intro x hx
  unfold revDag at hx
  obtain ⟨y, hy, rfl⟩ := List.mem_map.1 hx
  exact hP y (h y (by simpa using hy))

/-- what `PhyLocAdaPass` makes of a decomposition -/
theorem pass_near {e : ℝ} {T U : Matrix (Fin d) (Fin d) ℂ} {g1 : LGraph} {lp1 : Equiv.Perm (Fin d)} (h1 : Device d g1 lp1)
    (hT : T ∈ unitaryGroup (Fin d) ℂ) (hn : Near e (T * (frame d g * U)) (frame d g1)) : Near (d * e) Tᴴ (frame d g * U * (frame d g1)ᴴ) := by
  refine near_inverse T _ hT ?_
  have := near_mul_frame h1 hn
  rwa [mul_assoc] at this

/-- `PhyLocAdaPass` on a device all of whose levels are coupled, with any stored phases: with enough stack no gate is lost, only coupled levels are
rotated, and the product is near F0·U·F1†, where F0 and F1 are the frames before and after. With any stack the result is this one or the search
fails for lack of it. -/
theorem C69_coupled (h : Device d g lp) (hc : AllCoupled d g) (hsp : FindsShortest sp) (q : Int) (zProp : Bool) (u : Arr2 ℂ) (hu : UnitaryArr u d)
    (hd : d ≤ 10000) (hn : NoTinyEntries (u.toM d)) :
    ∃ N l g1, (∀ fuel, phyAdaGate fuel sp q d zProp u (some g) = .ok (l, some g1) ∨
        (fuel < N ∧ phyAdaGate fuel sp q d zProp u (some g) = .error .recursion)) ∧ Device d g1 lp ∧ AllCoupled d g1 ∧
      (∀ x ∈ l, CoupledRotation g x ∨ (zProp = false ∧ PhaseRotation x)) ∧ (zProp = false → NoPhases d g1) ∧
      Near (d * (qrError d 1e-4 1e-4 + if zProp then 0 else 1e-4)) (circuitOp (lineOp d) l) (frame d g * u.toM d * (frame d g1)ᴴ) ∧
      circuitOp (lineOp d) l ∈ unitaryGroup (Fin d) ℂ ∧ Spec.names g1 = Spec.names g ∧ g1.edges = g.edges := by
  obtain ⟨r, h1, r1, r2, r3, r4, r5, h2⟩ := phyLimit_ok h hsp.finds q u (square_of hu)
  obtain ⟨N, hN0, hN⟩ := fuel_enough (r.tot + 1e-12)
  obtain ⟨s1, s2⟩ := setup_ok r1
  have hcr : AllCoupled d r.graph := by
    intro i j hij
    have := hc i j hij
    unfold Spec.Joined edgeData at *
    rw [r2]; exact this
  have search := fun fuel (hf : 0 < fuel) => phySearch_ok (off := 1e-4) (del := 1e-4) (tau := 1e-4) (by norm_num) (directBlock (g0 := r.graph) hsp s1
    (fun i j hij => hcr i j hij) (fun i => ⟨_, s2 i⟩) (setup_edgesIn _)) (directKindOk s1 (fun i => ⟨_, s2 i⟩) (setup_edgesIn _)) rfl r1 q (by norm_num)
    (by norm_num) zProp (r.alg, r.tot) u (square_of hu) fuel hf
  have hlt : ∀ fuel > 0, phyAda fuel sp q d 1e-4 1e-4 zProp (r.alg, r.tot) u r.graph = .error .recursion ∨
      ∃ a, phyAda fuel sp q d 1e-4 1e-4 zProp (r.alg, r.tot) u r.graph = .ok a := by
    intro fuel hf
    rcases search fuel hf with ⟨k, _⟩ | ⟨k, _⟩ | ⟨res, _, _, k, _⟩
    · exact Or.inl k
    · exact Or.inr ⟨_, k⟩
    · exact Or.inr ⟨_, k⟩
  rcases search N (by omega) with ⟨_, k⟩ | ⟨_, k⟩ | ⟨res, g1, lp1, k1, k2⟩
  · exact absurd k (hN N le_rfl)
  · exact absurd (h2 hd hn hsp hc) k
  · obtain ⟨gl, m1, m2, m3, m4⟩ := k2.leaf
    rw [show gl = r.graph.phaseStoringSetup from m1] at m2 m3 m4
    have := device_unique s1 m2
    subst this
    have hf : frame d r.graph = frame d g := frame_congr h r1 r5
    refine ⟨N, revDag res.gates, g1, phyAdaGate_any h1 ?_ hlt, k2.dev, ?_, ?_, k2.clean, ?_, ?_, by rw [m4, setup_names, r3], by rw [m3, setup_edges, r2]⟩
    · unfold phyAdaGate
      simp only [bind, Except.bind, pure, Except.pure]
      rw [h1]
      simp only []
      rw [k1]
      simp only [k2.graph]
    · intro i j hij
      have := hcr i j hij
      unfold Spec.Joined edgeData at *
      rw [m3]; exact this
    · refine circuit_gates (P := fun x => CoupledRotation g x ∨ (zProp = false ∧ PhaseRotation x)) (fun x hx => hx) fun x hx => ?_
      rcases k2.gates x hx with ⟨p, data, e1, e2⟩ | k
      · exact Or.inl ⟨p, data, e1, physEdge_congr r2 (fun n => r4 n _ (by decide)) _ _ _ e2⟩
      · exact Or.inr k
    · rw [circuitOp_revDag _ k2.plain, ← hf]
      exact pass_near k2.dev k2.unitary k2.near
    · rw [circuitOp_revDag _ k2.plain]
      exact Unitary.star_mem k2.unitary

/-- `PhyLocAdaPass` on a device whose stored phases are multiples of π. -/
theorem C69_physical (h : Device d g lp) (ho : InOrder d g) (hp : PiPhases d g) (hsp : FindsPaths sp) (q : Int) (zProp : Bool) (u : Arr2 ℂ)
    (hu : UnitaryArr u d) : ∃ N, ∀ fuel ≥ N,
      (∃ g1, phyAdaGate fuel sp q d zProp u (some g) = .ok ([], some g1) ∧ ¬ DiagonalUpTo 1e-4 (u.toM d)) ∨
      ∃ l g1 lp1, phyAdaGate fuel sp q d zProp u (some g) = .ok (l, some g1) ∧ Device d g1 lp1 ∧
        (∀ x ∈ l, CoupledRotation g x ∨ (zProp = false ∧ PhaseRotation x)) ∧ (zProp = false → NoPhases d g1) ∧
        Near (d * qrError d 1e-4 1e-4) (circuitOp (lineOp d) l) (frame d g * u.toM d * (frame d g1)ᴴ) := by
  obtain ⟨r, h1, r1, r2, r3, r4, r5, _⟩ := phyLimit_ok h hsp q u (square_of hu)
  obtain ⟨N, hN0, hN⟩ := fuel_enough (r.tot + 1e-12)
  refine ⟨N, fun fuel hf => ?_⟩
  have hor : InOrder d r.graph := by
    unfold InOrder at *
    rw [r3]; exact ho
  have hpr : PiPhases d r.graph := fun i => by rw [r5]; exact newMod_pi _ (hp i)
  rcases phySearch_ok (off := 1e-4) (del := 1e-4) le_rfl (piBlock hsp r.graph) (piKindOk r.graph) (pi_start r1 hor hpr) r1 q (by norm_num) (by norm_num)
    zProp (r.alg, r.tot) u (square_of hu) fuel (by omega) with ⟨_, k⟩ | ⟨k1, k⟩ | ⟨res, g1, lp1, k1, k2⟩
  · exact absurd k (hN fuel hf)
  · refine Or.inl ⟨r.graph.phaseStoringSetup, ?_, fun hd => k (.diag _ ((isDiag_iff hu _).2 hd))⟩
    unfold phyAdaGate
    simp only [bind, Except.bind, pure, Except.pure]
    rw [h1]
    simp only []
    rw [k1]
    rfl
  · have hf : frame d r.graph = frame d g := frame_congr h r1 r5
    refine Or.inr ⟨revDag res.gates, g1, lp1, ?_, k2.dev, ?_, k2.clean, ?_⟩
    · unfold phyAdaGate
      simp only [bind, Except.bind, pure, Except.pure]
      rw [h1]
      simp only []
      rw [k1]
      simp only [k2.graph]
    · refine circuit_gates (P := fun x => CoupledRotation g x ∨ (zProp = false ∧ PhaseRotation x)) (fun x hx => hx) fun x hx => ?_
      rcases k2.gates x hx with ⟨p, data, e1, e2⟩ | k
      · exact Or.inl ⟨p, data, e1, physEdge_congr r2 (fun n => r4 n _ (by decide)) _ _ _ e2⟩
      · exact Or.inr k
    · have hnn := k2.near
      simp only [ite_self, add_zero] at hnn
      rw [circuitOp_revDag _ k2.plain, ← hf]
      exact pass_near k2.dev k2.unitary hnn

/-- Without stored phases, all levels coupled, phases not propagated: the product is near U on the places of the levels, and nothing is left
stored. This is what C69 asks for; it holds only for such devices. -/
theorem C69_implements_partial (h : Device d g lp) (hp : NoPhases d g) (hc : AllCoupled d g) (hsp : FindsShortest sp) (q : Int) (u : Arr2 ℂ)
    (hu : UnitaryArr u d) (hd : d ≤ 10000) (hn : NoTinyEntries (u.toM d)) :
    ∃ N l g1, (∀ fuel, phyAdaGate fuel sp q d false u (some g) = .ok (l, some g1) ∨
        (fuel < N ∧ phyAdaGate fuel sp q d false u (some g) = .error .recursion)) ∧ Device d g1 lp ∧ NoPhases d g1 ∧ AllCoupled d g1 ∧
      (∀ x ∈ l, CoupledRotation g x ∨ PhaseRotation x) ∧
      Near (d * (qrError d 1e-4 1e-4 + 1e-4)) (circuitOp (lineOp d) l) (relabelling lp * u.toM d * (relabelling lp)ᴴ) ∧
      circuitOp (lineOp d) l ∈ unitaryGroup (Fin d) ℂ ∧ Spec.names g1 = Spec.names g ∧ g1.edges = g.edges := by
  obtain ⟨N, l, g1, h1, h2, h3, h4, h5, h6, h7, h8⟩ := C69_coupled h hc hsp q false u hu hd hn
  have hfr : ∀ g', Device d g' lp → NoPhases d g' → frame d g' = relabelling lp := by
    intro g' k1 k2
    rw [frame_eq k1]
    have : (fun i : Fin d => cexp (I * (stored g' i : ℝ))) = fun _ => 1 := by
      funext i; rw [stored_zero k2]; simp
    rw [this, diagonal_one, mul_one]
  refine ⟨N, l, g1, h1, h2, h5 rfl, h3, fun x hx => (h4 x hx).imp id And.right, ?_, h7, h8⟩
  rw [hfr g h hp, hfr g1 h2 (h5 rfl)] at h6
  exact h6

/-- A diagonal gate whose phases are propagated needs no pulses; its phases are added to the stored ones. -/
theorem C69_diagonal (h : Device d g lp) (hsp : FindsPaths sp) (q : Int) (u : Arr2 ℂ) (hu : UnitaryArr u d) (hdiag : DiagonalUpTo 1e-4 (u.toM d)) :
    ∃ g1, (∀ fuel > 0, phyAdaGate fuel sp q d true u (some g) = .ok ([], some g1)) ∧ Device d g1 lp ∧ Spec.names g1 = Spec.names g ∧ g1.edges = g.edges ∧
      Near (qrError d 1e-4 1e-4) (frame d g * u.toM d) (frame d g1) := by
  obtain ⟨r, h1, r1, r2, r3, r4, r5, _⟩ := phyLimit_ok h hsp q u (square_of hu)
  obtain ⟨s1, s2⟩ := setup_ok r1
  have hi := (isDiag_iff hu _).2 hdiag
  obtain ⟨E, g1, lp1, x1, x2, x3, x4, x5, x6, x7, x8⟩ := phyExtract_ok (off := 1e-4) (del := 1e-4) (tau := 1e-4) (by norm_num)
    (directKindOk (g0 := r.graph) s1 (fun i => ⟨_, s2 i⟩) (setup_edgesIn _)) rfl q (by norm_num) (by norm_num) true
    [marked (Tree.new 0 (⟨none, u, (r.alg, r.tot), []⟩ : NodeData) (some r.graph.phaseStoringSetup) 0 0 none).top] _ rfl (square_of hu) hi
  have hlp := device_unique s1 x3.1
  subst hlp
  have hE := x5 rfl
  subst hE
  refine ⟨g1, fun fuel hfuel => ?_, x3.2.1, by rw [(phyExtract_same x1).1, setup_names, r3], by rw [x3.2.2, setup_edges, r2], ?_⟩
  · obtain ⟨fuel, rfl⟩ : ∃ n, fuel = n + 1 := ⟨fuel - 1, by omega⟩
    unfold phyAdaGate phyAda
    simp only [bind, Except.bind, pure, Except.pure]
    rw [h1]
    simp only []
    rw [execute_diag fuel _ _ u r.graph hi]
    simp only [bind, Except.bind, pure, Except.pure]
    rw [x1]
    rfl
  · simp only [circuitOp_nil, one_mul, if_true, add_zero] at x8
    rw [← frame_congr h r1 r5, ← frame_setup r1]
    exact x8

end Qudits
