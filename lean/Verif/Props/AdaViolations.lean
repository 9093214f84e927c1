import Verif.Props.AdaProps
/-
Where the adaptive passes do not do what C69 asks for, and cases in which the theorems apply.
-/
namespace Qudits
open LGraph LocalQR Spec Matrix Adaptive PhasePass Complex QRAlg

variable {d : Nat} {g : LGraph} {lp : Equiv.Perm (Fin d)} {sp : PathFinder}

theorem findsShortest_exists : ∃ sp : PathFinder, FindsShortest sp := by
  classical
  have key : ∀ g a b, (∃ p, IsPath g a b p) → ∃ p, IsPath g a b p ∧ ∀ p', IsPath g a b p' → p.length ≤ p'.length := by
    intro g a b h
    have hn : ∃ n, ∃ p, IsPath g a b p ∧ p.length = n := let ⟨p, hp⟩ := h; ⟨_, p, hp, rfl⟩
    obtain ⟨p, h1, h2⟩ := Nat.find_spec hn
    exact ⟨p, h1, fun p' hp' => by rw [h2]; exact Nat.find_min' hn ⟨p', hp', rfl⟩⟩
  refine ⟨fun g a b => if h : ∃ p, IsPath g a b p then .ok (key g a b h).choose else .error .valueError, ?_, ?_⟩
  · intro g a b _ _ h
    exact ⟨_, dif_pos h, (key g a b h).choose_spec.1⟩
  · intro g a b p p' h hp'
    rw [dif_pos ⟨p', hp'⟩] at h
    rw [← Except.ok.inj h]
    exact (key g a b ⟨p', hp'⟩).choose_spec.2 p' hp'

theorem qubit_coupled : AllCoupled 2 qubitDevice := by
  intro i j hij
  fin_cases i <;> fin_cases j <;> simp [Spec.Joined, edgeData, joins, qubitDevice] at *

theorem unitary_corner {W : Matrix (Fin 2) (Fin 2) ℂ} (hW : W ∈ unitaryGroup (Fin 2) ℂ) (h : W 1 0 = 0) (i j : Fin 2) : W i j = 0 ∨ 1e-18 < ‖W i j‖ := by
  have c0 := col_mass W hW 0
  have r1 := row_mass W hW 1
  have r0 := row_mass W hW 0
  simp only [Fin.sum_univ_two, h, norm_zero] at c0 r1 r0
  have n00 := norm_nonneg (W 0 0)
  have n11 := norm_nonneg (W 1 1)
  have n01 := norm_nonneg (W 0 1)
  have e : ‖W 0 1‖ = 0 := by nlinarith
  fin_cases i <;> fin_cases j
  · right; simp only [Fin.zero_eta]; by_contra hc; nlinarith
  · left; exact norm_eq_zero.1 e
  · left; exact h
  · right; simp only [Fin.mk_one]; by_contra hc; nlinarith

/-- for a qubit it is enough to look at the gate -/
theorem noTiny_two {U : Matrix (Fin 2) (Fin 2) ℂ} (hU : U ∈ unitaryGroup (Fin 2) ℂ) (h : ∀ i j, U i j = 0 ∨ 1e-18 < ‖U i j‖) : NoTinyEntries U := by
  have key : ∀ W, Cleared U W → W = U ∨ (W ∈ unitaryGroup (Fin 2) ℂ ∧ W 1 0 = 0) := by
    intro W hW
    induction hW with
    | start => exact Or.inl rfl
    | turn W hW c a r hr hc hbig ih =>
      right
      have ha : a = 0 := by have := r.isLt; apply Fin.ext; simp; omega
      subst ha
      have hr1 : r = 1 := by apply Fin.ext; simpa using hr
      subst hr1
      have hc0 : c = 0 := by simpa using hc
      subst hc0
      have hWu : W ∈ unitaryGroup (Fin 2) ℂ := by
        rcases ih with e | e
        · rw [e]; exact hU
        · exact e.1
      refine ⟨mul_mem (twoLevel_unitary _ (by decide) (rot_unitary _ _)) hWu, ?_⟩
      rw [twoLevel_mul_snd _ (by decide)]
      refine clears _ _ (fun e => ?_) _ _ rfl rfl
      rw [e, norm_zero] at hbig
      exact absurd hbig (by norm_num)
  intro W hW
  rcases key W hW with e | ⟨h1, h2⟩
  · rw [e]; exact h
  · exact unitary_corner h1 h2

/-- a gate of a qubit -/
noncomputable def gate2 (M : Matrix (Fin 2) (Fin 2) ℂ) : Arr2 ℂ := ⟨2, 2, fun i j => if h : i < 2 ∧ j < 2 then M ⟨i, h.1⟩ ⟨j, h.2⟩ else 0⟩

theorem gate2_toM (M : Matrix (Fin 2) (Fin 2) ℂ) : (gate2 M).toM 2 = M := by
  ext i j
  show (gate2 M).at' i j = _
  simp only [gate2, i.isLt, j.isLt, and_self, dite_true]

theorem gate2_unitary {M : Matrix (Fin 2) (Fin 2) ℂ} (h : M ∈ unitaryGroup (Fin 2) ℂ) : UnitaryArr (gate2 M) 2 :=
  ⟨rfl, rfl, by rw [gate2_toM]; exact h⟩

theorem qrError_two : qrError 2 1e-4 1e-4 ≤ 3e-4 := by
  unfold qrError
  have : Real.sqrt (((2 * (2 - 1) / 2 : Nat) : ℝ) * 1e-4 ^ 2) ≤ 1e-4 := by
    rw [Real.sqrt_le_iff]
    norm_num
  norm_num at this ⊢
  linarith

/-- the phase gate diag(1, i) -/
noncomputable def phaseGate : Matrix (Fin 2) (Fin 2) ℂ := diagonal ![1, I]

theorem phaseGate_unitary : phaseGate ∈ unitaryGroup (Fin 2) ℂ := by
  rw [mem_unitaryGroup_iff, star_eq_conjTranspose, phaseGate, diagonal_conjTranspose, diagonal_mul_diagonal, ← diagonal_one]
  congr 1
  funext i
  fin_cases i <;> simp

theorem phaseGate_tiny (i j : Fin 2) : phaseGate i j = 0 ∨ 1e-18 < ‖phaseGate i j‖ := by
  fin_cases i <;> fin_cases j <;> simp [phaseGate] <;> norm_num

/-- The logical pass does not implement diag(1, i): what it puts into the circuit is far from it, up to any global phase. -/
theorem C69_logical_violated (hsp : FindsPaths sp) (q : Int) : ∃ u N, UnitaryArr u 2 ∧ u.toM 2 = phaseGate ∧ ∀ fuel ≥ N, ∃ l g',
    logAdaGate fuel sp q 2 u (some qubitDevice) = .ok (l, g') ∧ ∀ c : ℂ, ¬ Near (1 / 2) (circuitOp (lineOp 2) l) (c • phaseGate) := by
  have hU := gate2_toM phaseGate
  obtain ⟨N, hN⟩ := C69_logical_inverse qubitDevice_ok.1 hsp q (gate2 phaseGate) (gate2_unitary phaseGate_unitary) (by norm_num)
    (by rw [hU]; exact noTiny_two phaseGate_unitary phaseGate_tiny)
  refine ⟨gate2 phaseGate, N, gate2_unitary phaseGate_unitary, hU, fun fuel hf => ?_⟩
  obtain ⟨l, g', h1, _, h3, _⟩ := hN fuel hf
  refine ⟨l, g', h1, fun c hc => ?_⟩
  rw [hU] at h3
  have e := qrError_two
  have a0 := h3 0 0
  have a1 := h3 1 1
  have b0 := hc 0 0
  have b1 := hc 1 1
  simp only [phaseGate, Matrix.sub_apply, conjTranspose_apply, Matrix.smul_apply, diagonal_apply_eq, Matrix.cons_val_zero, Matrix.cons_val_one,
    smul_eq_mul, mul_one, star_one, RCLike.star_def, conj_I, sub_neg_eq_add] at a0 a1 b0 b1
  generalize circuitOp (lineOp 2) l 0 0 = x at *
  generalize circuitOp (lineOp 2) l 1 1 = y at *
  push_cast at a0 a1
  have k1 : ‖1 - c‖ ≤ 6e-4 + 1 / 2 := by
    have := norm_sub_le (x - c) (x - 1)
    rw [show x - c - (x - 1) = 1 - c by ring] at this
    linarith
  have k2 : ‖-I - c * I‖ ≤ 6e-4 + 1 / 2 := by
    have := norm_sub_le (y - c * I) (y + I)
    rw [show y - c * I - (y + I) = -I - c * I by ring] at this
    linarith
  rw [show -I - c * I = -(I * (1 + c)) by ring, norm_neg, norm_mul, norm_I, one_mul] at k2
  have k3 := norm_add_le (1 - c) (1 + c)
  rw [show (1 - c) + (1 + c) = 2 by ring] at k3
  norm_num at k3 k1 k2
  linarith

/-! ### a gate that vanishes -/

/-- nearly an exchange: the diagonal is neither zero nor larger than 1e-18 -/
noncomputable def tinyGate : Matrix (Fin 2) (Fin 2) ℂ :=
  !![((1e-19 : ℝ) : ℂ), ((Real.sqrt (1 - 1e-38) : ℝ) : ℂ); ((Real.sqrt (1 - 1e-38) : ℝ) : ℂ), ((-1e-19 : ℝ) : ℂ)]

theorem tiny_sqrt : Real.sqrt (1 - 1e-38) * Real.sqrt (1 - 1e-38) = 1 - 1e-38 := Real.mul_self_sqrt (by norm_num)

theorem tiny_half : 1 / 2 < Real.sqrt (1 - 1e-38) := by
  rw [Real.lt_sqrt (by norm_num)]; norm_num

theorem tinyGate_unitary : tinyGate ∈ unitaryGroup (Fin 2) ℂ := by
  have h := tiny_sqrt
  rw [mem_unitaryGroup_iff]
  ext i j
  fin_cases i <;> fin_cases j <;>
    simp only [tinyGate, Matrix.mul_apply, Fin.sum_univ_two, Matrix.star_apply, RCLike.star_def, Complex.conj_ofReal, Fin.zero_eta, Fin.mk_one,
      Matrix.of_apply, Matrix.cons_val', Matrix.cons_val_zero, Matrix.cons_val_one, Matrix.cons_val_fin_one, ← Complex.ofReal_mul,
      ← Complex.ofReal_add, h] <;> norm_num <;> ring

theorem tiny_step {t : Nat × Nat × Nat} (ht : t = (0, 0, 1)) (s : STree × Nat) (hs : s.1.top.data.u = gate2 tinyGate) :
    logStep 2 s t = .ok s ∧ phyStep sp 2 s t = .ok s := by
  subst ht
  have h1 : (gate2 tinyGate).get 1 0 = .ok ((Real.sqrt (1 - 1e-38) : ℝ) : ℂ) := by
    simp [Arr2.get, gate2, tinyGate]
  have h0 : (gate2 tinyGate).get 0 0 = .ok ((1e-19 : ℝ) : ℂ) := by
    simp [Arr2.get, gate2, tinyGate]
  have hcond : ¬ (‖((Real.sqrt (1 - 1e-38) : ℝ) : ℂ)‖ > 1e-8 ∧ (‖((1e-19 : ℝ) : ℂ)‖ > 1e-18 ∨ ‖((1e-19 : ℝ) : ℂ)‖ = 0)) := by
    rintro ⟨_, h | h⟩ <;> rw [Complex.norm_real, Real.norm_eq_abs, abs_of_pos (by norm_num)] at h <;> norm_num at h
  constructor
  · unfold logStep
    simp only [hs, h1, h0, bind, Except.bind, pure, Except.pure]
    rw [if_neg hcond]
  · unfold phyStep
    simp only [hs, h1, h0, bind, Except.bind, pure, Except.pure]
    rw [if_neg hcond]

theorem tiny_notDiag : ¬ IsDiag 1e-4 (gate2 tinyGate) := by
  rintro ⟨h, _⟩
  have := h 0 (by simp [gate2]) 1 (by simp [gate2]) (by decide)
  simp [gate2, tinyGate] at this
  rw [abs_of_nonneg (Real.sqrt_nonneg _)] at this
  have := tiny_half
  norm_num at *
  linarith

theorem tiny_execute {triples : Nat → List (Nat × Nat × Nat)} {step : Step} (ht : triples 2 = [(0, 0, 1)])
    (hs : ∀ s : STree × Nat, s.1.top.data.u = gate2 tinyGate → step s (0, 0, 1) = .ok s) (fuel : Nat) (extract : Extract) (limit : ℝ × ℝ) (g : LGraph) :
    Adaptive.execute (fuel + 1) 1e-4 triples step extract limit (gate2 tinyGate) g = .ok ⟨[], none, some g.phaseStoringSetup⟩ := by
  classical
  have e : (triples (gate2 tinyGate).rows).foldlM step (Tree.new 0 (⟨none, gate2 tinyGate, limit, []⟩ : NodeData) (some g.phaseStoringSetup) 0 0 none, 0) =
      .ok (Tree.new 0 (⟨none, gate2 tinyGate, limit, []⟩ : NodeData) (some g.phaseStoringSetup) 0 0 none, 0) := by
    rw [show (gate2 tinyGate).rows = 2 from rfl, ht, List.foldlM_cons]
    rw [hs _ rfl]
    rfl
  unfold Adaptive.execute dfs Tree.new at *
  simp only [bind, Except.bind, pure, Except.pure]
  rw [if_neg tiny_notDiag, e]
  rfl

/-- A gate that is nearly an exchange of two levels vanishes from the circuit without any error: both passes return an empty list for it. -/
theorem C69_vanishes (hsp : FindsPaths sp) (q : Int) (zProp : Bool) (fuel : Nat) : ∃ u, UnitaryArr u 2 ∧ 1 / 2 < ‖u.toM 2 1 0‖ ∧
    (∃ g', logAdaGate (fuel + 1) sp q 2 u (some qubitDevice) = .ok ([], g')) ∧
    ∃ g', phyAdaGate (fuel + 1) sp q 2 zProp u (some qubitDevice) = .ok ([], g') := by
  have hu := gate2_unitary tinyGate_unitary
  refine ⟨gate2 tinyGate, hu, ?_, ?_, ?_⟩
  · rw [gate2_toM]
    simp only [tinyGate, Matrix.of_apply, Matrix.cons_val', Matrix.cons_val_zero, Matrix.cons_val_one, Matrix.cons_val_fin_one]
    rw [Complex.norm_real, Real.norm_eq_abs, abs_of_nonneg (Real.sqrt_nonneg _)]
    exact tiny_half
  · obtain ⟨r, h1, _⟩ := logLimit_ok qubitDevice_ok.1 hsp q (gate2 tinyGate) (square_of hu)
    refine ⟨some r.graph.phaseStoringSetup, ?_⟩
    unfold logAdaGate logAda
    simp only [bind, Except.bind, pure, Except.pure]
    rw [h1]
    simp only []
    rw [tiny_execute (by decide) fun s hs => (tiny_step (sp := sp) rfl s hs).1]
  · obtain ⟨r, h1, _⟩ := phyLimit_ok qubitDevice_ok.1 hsp q (gate2 tinyGate) (square_of hu)
    refine ⟨some r.graph.phaseStoringSetup, ?_⟩
    unfold phyAdaGate phyAda
    simp only [bind, Except.bind, pure, Except.pure]
    rw [h1]
    simp only []
    rw [tiny_execute (by decide) fun s hs => (tiny_step (sp := sp) rfl s hs).2]
    rfl

/-! ### propagated phases -/

/-- the Hadamard gate -/
noncomputable def quarterGate : Matrix (Fin 2) (Fin 2) ℂ := ((1 / Real.sqrt 2 : ℝ) : ℂ) • !![1, 1; 1, -1]

theorem half_sqrt : (((1 / Real.sqrt 2 : ℝ) : ℂ)) * ((1 / Real.sqrt 2 : ℝ) : ℂ) = 1 / 2 := by
  rw [← Complex.ofReal_mul, div_mul_div_comm, Real.mul_self_sqrt (by norm_num)]; norm_num

theorem quarterGate_unitary : quarterGate ∈ unitaryGroup (Fin 2) ℂ := by
  have h := half_sqrt
  rw [mem_unitaryGroup_iff]
  ext i j
  fin_cases i <;> fin_cases j <;>
    simp only [quarterGate, Matrix.mul_apply, Fin.sum_univ_two, Matrix.star_apply, Matrix.smul_apply, RCLike.star_def, Fin.zero_eta, Fin.mk_one,
      Matrix.of_apply, Matrix.cons_val', Matrix.cons_val_zero, Matrix.cons_val_one, Matrix.cons_val_fin_one, smul_eq_mul, map_mul, Complex.conj_ofReal,
      map_one, map_neg, mul_one, mul_neg, neg_mul, h, neg_neg, Matrix.one_apply] <;> norm_num

theorem half_norm : ‖((1 / Real.sqrt 2 : ℝ) : ℂ)‖ = 1 / Real.sqrt 2 := by
  rw [Complex.norm_real, Real.norm_eq_abs, abs_of_nonneg (by positivity)]

theorem half_large : 1 / 2 < 1 / Real.sqrt 2 := by
  apply one_div_lt_one_div_of_lt (by positivity)
  rw [Real.sqrt_lt' (by norm_num)]; norm_num

theorem quarterGate_tiny (i j : Fin 2) : quarterGate i j = 0 ∨ 1e-18 < ‖quarterGate i j‖ := by
  right
  have h1 := half_norm
  have h2 := half_large
  have : ‖quarterGate i j‖ = 1 / Real.sqrt 2 := by
    rw [← h1]
    fin_cases i <;> fin_cases j <;> simp [quarterGate]
  rw [this]
  norm_num at h2 ⊢
  linarith

theorem phaseGate_diag : DiagonalUpTo 1e-4 phaseGate := by
  refine ⟨fun i j hij => ?_, 0, by simp [phaseGate]; norm_num⟩
  rw [phaseGate, diagonal_apply_ne _ hij, norm_zero]; norm_num

/-- Propagating phases gives a wrong circuit. On a qubit without stored phases, diag(1, i) is compiled with propagation and the Hadamard gate
after it without; no phases are left stored. What is put into the circuit is far from the product of the two gates, up to any global phase. -/
theorem C69_propagation_violated (hsp : FindsShortest sp) (q : Int) : ∃ u v N, UnitaryArr u 2 ∧ UnitaryArr v 2 ∧ u.toM 2 = phaseGate ∧
    v.toM 2 = quarterGate ∧ ∀ fuel ≥ N, ∃ l l' g1 g2, phyAdaGate fuel sp q 2 true u (some qubitDevice) = .ok (l, some g1) ∧
      phyAdaGate fuel sp q 2 false v (some g1) = .ok (l', some g2) ∧ NoPhases 2 g2 ∧ Device 2 g2 1 ∧ InOrder 2 g2 ∧
      ∀ c : ℂ, ¬ Near (1 / 5) (circuitOp (lineOp 2) (l ++ l')) (c • (v.toM 2 * u.toM 2)) := by
  have hU := gate2_toM phaseGate
  have hV := gate2_toM quarterGate
  obtain ⟨g1, h1, h2, hnm, h3, h4⟩ := C69_diagonal qubitDevice_ok.1 hsp.finds q (gate2 phaseGate) (gate2_unitary phaseGate_unitary)
    (by rw [hU]; exact phaseGate_diag)
  have hc1 : AllCoupled 2 g1 := by
    intro i j hij
    have := qubit_coupled i j hij
    unfold Spec.Joined edgeData at *
    rw [h3]; exact this
  obtain ⟨N, l, g2, k1, k2, _, _, k5, k6, _, k7, _⟩ := C69_coupled h2 hc1 hsp q false (gate2 quarterGate) (gate2_unitary quarterGate_unitary) (by norm_num)
    (by rw [hV]; exact noTiny_two quarterGate_unitary quarterGate_tiny)
  refine ⟨gate2 phaseGate, gate2 quarterGate, N + 1, gate2_unitary phaseGate_unitary, gate2_unitary quarterGate_unitary, hU, hV, fun fuel hf => ?_⟩
  have k1 := (k1 fuel).resolve_right (by omega)
  refine ⟨[], l, g1, g2, h1 fuel (by omega), k1, k5 rfl, k2, by unfold InOrder; rw [k7, hnm]; rfl, fun c hc => ?_⟩
  rw [hU] at h4 hc
  rw [hV] at k6 hc
  have hone : relabelling (1 : Equiv.Perm (Fin 2)) = 1 := by
    ext i j
    change (if i = j then (1 : ℂ) else 0) = _
    by_cases hij : i = j
    · rw [if_pos hij, hij, Matrix.one_apply_eq]
    · rw [if_neg hij, Matrix.one_apply_ne hij]
  have hfr : ∀ g', Device 2 g' 1 → NoPhases 2 g' → frame 2 g' = 1 := by
    intro g' m1 m2
    rw [frame_eq m1]
    have : (fun i : Fin 2 => cexp (I * (stored g' i : ℝ))) = fun _ => 1 := by
      funext i; rw [stored_zero m2]; simp
    rw [this, diagonal_one, mul_one, hone]
  rw [hfr _ qubitDevice_ok.1 qubitDevice_ok.2, one_mul] at h4
  rw [hfr _ k2 (k5 rfl), conjTranspose_one, mul_one] at k6
  rw [List.nil_append] at hc
  have e := qrError_two
  have hh := half_norm
  have hl := half_large
  generalize frame 2 g1 = F at *
  generalize circuitOp (lineOp 2) l = T at *
  have f00 := h4 0 0
  have f01 := h4 0 1
  have a00 := k6 0 0
  have a01 := k6 0 1
  have b00 := hc 0 0
  have b01 := hc 0 1
  simp only [Bool.false_eq_true, if_false] at a00 a01
  generalize hH : (1 / Real.sqrt 2 : ℝ) = h at *
  simp only [phaseGate, quarterGate, hH, Matrix.sub_apply, Matrix.smul_apply, Matrix.mul_apply, Fin.sum_univ_two, Matrix.of_apply, Matrix.cons_val',
    Matrix.cons_val_zero, Matrix.cons_val_one, Matrix.cons_val_fin_one, smul_eq_mul, diagonal_apply_eq, mul_one,
    diagonal_apply_ne _ (show (0 : Fin 2) ≠ 1 by decide), diagonal_apply_ne _ (show (1 : Fin 2) ≠ 0 by decide), mul_zero, add_zero, zero_add,
    mul_neg] at f00 f01 a00 a01 b00 b01
  push_cast at a00 a01
  have hh1 : h ≤ 1 := by
    rw [← hH, div_le_one (by positivity), Real.one_le_sqrt]; norm_num
  have n0 : ∀ z : ℂ, ‖z * (h : ℂ)‖ ≤ ‖z‖ := by
    intro z
    rw [norm_mul, hh]
    have := norm_nonneg z
    nlinarith
  have m1 := n0 (1 - F 0 0)
  have m2 := n0 (0 - F 0 1)
  have p1 : ‖T 0 0 - h‖ ≤ 2e-3 := by
    have t1 := norm_sub_le (T 0 0 - (F 0 0 * h + F 0 1 * h)) ((1 - F 0 0) * h + (0 - F 0 1) * h)
    have t2 := norm_add_le ((1 - F 0 0) * (h : ℂ)) ((0 - F 0 1) * h)
    rw [show T 0 0 - (F 0 0 * h + F 0 1 * h) - ((1 - F 0 0) * h + (0 - F 0 1) * h) = T 0 0 - h by ring] at t1
    linarith
  have p2 : ‖T 0 1 - h‖ ≤ 2e-3 := by
    have t1 := norm_sub_le (T 0 1 - (F 0 0 * h + -(F 0 1 * h))) ((1 - F 0 0) * h - (0 - F 0 1) * h)
    have t2 := norm_sub_le ((1 - F 0 0) * (h : ℂ)) ((0 - F 0 1) * h)
    rw [show T 0 1 - (F 0 0 * h + -(F 0 1 * h)) - ((1 - F 0 0) * h - (0 - F 0 1) * h) = T 0 1 - h by ring] at t1
    linarith
  have q1 : ‖c * h - h‖ ≤ 1 / 5 + 2e-3 := by
    have t := norm_sub_le (T 0 0 - h) (T 0 0 - c * h)
    rw [show T 0 0 - h - (T 0 0 - c * h) = c * h - h by ring] at t
    linarith
  have q2 : ‖c * (h * I) - h‖ ≤ 1 / 5 + 2e-3 := by
    have t := norm_sub_le (T 0 1 - h) (T 0 1 - c * (h * I))
    rw [show T 0 1 - h - (T 0 1 - c * (h * I)) = c * (h * I) - h by ring] at t
    linarith
  have q3 : ‖c * h * (I - 1)‖ ≤ 2 / 5 + 4e-3 := by
    have t := norm_sub_le (c * (h * I) - h) (c * h - h)
    rw [show c * (h * I) - h - (c * h - h) = c * h * (I - 1) by ring] at t
    linarith
  have q4 : 1 ≤ ‖I - 1‖ := by
    have := Complex.abs_re_le_norm (I - 1)
    simpa using this
  have q5 : h ≤ ‖c * h‖ + ‖c * h - h‖ := by
    have t := norm_sub_le (c * (h : ℂ)) (c * h - h)
    rw [show c * (h : ℂ) - (c * h - h) = h by ring, hh] at t
    exact t
  have q6 : h ^ 2 = 1 / 2 := by
    rw [← hH, div_pow, Real.sq_sqrt (by norm_num)]; norm_num
  rw [norm_mul] at q3
  have := norm_nonneg (c * (h : ℂ))
  have q7 : 0.7 < h := by nlinarith
  nlinarith

/-! ### cases -/

/-- The cyclic shift of a qutrit on three levels in a row, two of which are exchanged: the search, whatever the limit. -/
example (limit : ℝ × ℝ) : ∃ sp u, FindsPaths sp ∧ xArray 3 = .ok u ∧ UnitaryArr u 3 ∧ Device 3 rowDevice (Equiv.swap 0 1) ∧ InOrder 3 rowDevice ∧
    PiPhases 3 rowDevice ∧
    ((phyAda 1000 sp 0 3 1e-4 1e-4 true limit u rowDevice = .error .recursion ∧ ((1000 : Nat) : ℝ) * 8e-5 ≤ limit.2 + 1e-12) ∨
      ∃ res, phyAda 1000 sp 0 3 1e-4 1e-4 true limit u rowDevice = .ok res) := by
  obtain ⟨sp, hsp⟩ := findsPaths_exists
  obtain ⟨u, h1, h2⟩ := C06_x 3
  have hpi : PiPhases 3 rowDevice := fun i => ⟨0, by rw [stored_zero rowDevice_ok.2]; simp⟩
  refine ⟨sp, u, hsp, h1, h2, rowDevice_ok.1, rfl, hpi, ?_⟩
  rcases C68_physical rowDevice_ok.1 rfl hpi hsp 0 1e-4 1e-4 (by norm_num) (by norm_num) true limit u h2 1000 (by norm_num) with h | h | ⟨res, _, _, h, _⟩
  · exact Or.inl h
  · exact Or.inr ⟨_, h.1⟩
  · exact Or.inr ⟨res, h⟩

/-- The Hadamard gate on a qubit: with enough stack the pass implements it. -/
example : ∃ sp u N, FindsShortest sp ∧ u.toM 2 = quarterGate ∧ ∀ fuel ≥ N, ∃ l g1, phyAdaGate fuel sp 0 2 false u (some qubitDevice) = .ok (l, some g1) ∧
    Near (1 / 100) (circuitOp (lineOp 2) l) (relabelling 1 * quarterGate * (relabelling 1)ᴴ) := by
  obtain ⟨sp, hsp⟩ := findsShortest_exists
  have hV := gate2_toM quarterGate
  obtain ⟨N, l, g1, h1, _, _, _, _, h2, _⟩ := C69_implements_partial qubitDevice_ok.1 qubitDevice_ok.2 qubit_coupled hsp 0 (gate2 quarterGate) (gate2_unitary quarterGate_unitary)
    (by norm_num) (by rw [hV]; exact noTiny_two quarterGate_unitary quarterGate_tiny)
  refine ⟨sp, gate2 quarterGate, N, hsp, hV, fun fuel hf => ?_⟩
  have h1 := (h1 fuel).resolve_right (by omega)
  rw [hV] at h2
  refine ⟨l, g1, h1, fun i j => (h2 i j).trans ?_⟩
  have := qrError_two
  push_cast
  linarith

/-- The logical pass on it returns a graph that is `None`. -/
example : ∃ sp u N, u.toM 2 = quarterGate ∧ ∀ fuel ≥ N, ∃ l, logAdaGate fuel sp 0 2 u (some qubitDevice) = .ok (l, none) := by
  obtain ⟨sp, hsp⟩ := findsPaths_exists
  have hV := gate2_toM quarterGate
  obtain ⟨N, hN⟩ := C69_logical_inverse qubitDevice_ok.1 hsp 0 (gate2 quarterGate) (gate2_unitary quarterGate_unitary)
    (by norm_num) (by rw [hV]; exact noTiny_two quarterGate_unitary quarterGate_tiny)
  refine ⟨sp, gate2 quarterGate, N, hV, fun fuel hf => ?_⟩
  obtain ⟨l, g', h1, _, _, h2⟩ := hN fuel hf
  have := (h2 (by
    rw [hV]
    rintro ⟨h, _⟩
    have := h 0 1 (by decide)
    have h3 := half_large
    have h4 := half_norm
    simp only [quarterGate, Matrix.smul_apply, Matrix.of_apply, Matrix.cons_val', Matrix.cons_val_zero, Matrix.cons_val_one, Matrix.cons_val_fin_one,
      smul_eq_mul, mul_one, h4] at this
    norm_num at this h3
    linarith)).1
  exact ⟨l, by rw [h1, this]⟩

end Qudits
