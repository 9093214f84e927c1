import Verif.Lemmas.QrPass
import Verif.Props.GateArrayProps
/-
C34 and C35: the QR decompositions of a gate on one line, and the gates that the passes put into the circuit.
`circuitOp (lineOp d) l` is the product of the matrices of the gates in `l`, later gates to the left.
-/
namespace Qudits
open LGraph Spec Matrix LocalQR QRAlg Complex
open PhasePass (lineOp)

variable {d : Nat} {g : LGraph} {lp : Equiv.Perm (Fin d)} {sp : PathFinder}

/-! ### C34: the logical decomposition -/

/-- For every unitary matrix and all thresholds the decomposition succeeds. Its gates are rotations between neighbouring levels, at most
d(d-1)/2 of them, followed by at most d virtual phase gates (and preceded by phase gates that do nothing if phases were stored); applied
after U they give the identity, up to the error that the thresholds allow. The level graph keeps its placement. -/
theorem C34_decomposition (h : Device d g lp) (hsp : FindsPaths sp) (q : Int) (eps del : ℝ) (heps : 0 ≤ eps) (hdel : 0 ≤ del) (u : Arr2 ℂ)
    (hu : UnitaryArr u d) :
    ∃ res pre rots phs, logQr sp q d eps del false false u g = .ok res ∧ res.decomp = pre ++ rots ++ phs ∧
      (NoPhases d g → pre = []) ∧ circuitOp (lineOp d) pre = 1 ∧
      (∀ x ∈ rots, AdjacentRotation d x) ∧ rots.length ≤ d * (d - 1) / 2 ∧
      (∀ x ∈ phs, PhaseRotation x) ∧ phs.length ≤ d ∧
      (∃ f : Fin d → ℂ, (∀ i, ‖f i‖ = 1) ∧ circuitOp (lineOp d) phs = diagonal f) ∧
      (∀ x ∈ res.decomp, x.dagger = false) ∧
      circuitOp (lineOp d) res.decomp ∈ unitaryGroup (Fin d) ℂ ∧
      NearOne (qrError d eps del) (circuitOp (lineOp d) res.decomp * u.toM d) ∧ Device d res.graph lp ∧ 0 ≤ res.alg ∧ 0 ≤ res.tot := by
  have hd : 0 < d := by
    obtain ⟨i, _⟩ := h.start
    have := i.isLt
    omega
  obtain ⟨res, T, pre, rots, phs, h1, h2, h3, _, h5, _, h7, h8, h9, h10, h11, h12, h13, h14, h15, h16, h17, h18⟩ :=
    execute_ok (C := MonoidHom.id _) (C' := 1) (Q := fun x => AdjacentRotation d x ∧ x.dagger = false) (L := 1) (sp := sp) q heps hdel
      (fun _ => .ok (.str "node")) (logEmit q d) (fun g i => do
        let _ ← g.node i
        pure (.int i)) h (fun i a _ => ⟨_, rfl, fun x => lineOp_phase_str q _ x hd⟩) (fun g' k1 k2 _ _ => logEmit_ok hsp q g' k1 k2)
      (fun g' k1 i => by
        obtain ⟨a, ha⟩ := Option.isSome_iff_exists.1 ((PyDict.get?_isSome_iff g'.nodes _).2 (k1.mem i))
        refine ⟨.int (i : Nat), ?_, fun x => lineOp_phase q i x⟩
        simp [node, ha, bind, Except.bind, pure, Except.pure]) u hu.1 hu.2.1 hu.2.2
  have hT : circuitOp (lineOp d) res.decomp = T := by
    rw [h2, List.append_assoc, circuitOp_append, h8]
    change circuitOp (lineOp d) (rots ++ phs) * 1 = T
    rw [mul_one, h15]
    rfl
  refine ⟨res, pre, rots, phs, h1, h2, h7, h8, fun x hx => (h9 x hx).1, by rw [Nat.one_mul] at h10; exact h10, fun x hx => (h11 x hx).1, h12, h13,
    ?_, by rw [hT]; exact h14, by rw [hT]; exact h16, h3, h17, h18⟩
  intro x hx
  rw [h2] at hx
  rcases List.mem_append.1 hx with hx | hx
  · rcases List.mem_append.1 hx with hx | hx
    · exact (h5 x hx).2
    · exact (h9 x hx).2
  · exact (h11 x hx).2

/-- In exact arithmetic: the rotations make U a diagonal matrix of phases, the phase gates cancel it, and U is the inverse of what is put
out. -/
theorem C34_exact (h : Device d g lp) (hn : NoPhases d g) (hsp : FindsPaths sp) (q : Int) (u : Arr2 ℂ) (hu : UnitaryArr u d) :
    ∃ res rots phs, logQr sp q d 0 0 false false u g = .ok res ∧ res.decomp = rots ++ phs ∧
      (∀ x ∈ rots, AdjacentRotation d x) ∧ rots.length ≤ d * (d - 1) / 2 ∧ (∀ x ∈ phs, PhaseRotation x) ∧ phs.length ≤ d ∧
      (∃ f : Fin d → ℂ, (∀ i, ‖f i‖ = 1) ∧ circuitOp (lineOp d) rots * u.toM d = diagonal f) ∧
      circuitOp (lineOp d) res.decomp * u.toM d = 1 ∧ circuitOp (lineOp d) (revDag res.decomp) = u.toM d := by
  obtain ⟨res, pre, rots, phs, h1, h2, h3, _, h5, h6, h7, h8, ⟨f, f1, f2⟩, h9, h10, h11, _⟩ := C34_decomposition h hsp q 0 0 le_rfl le_rfl u hu
  rw [h3 hn, List.nil_append] at h2
  rw [qrError_zero] at h11
  have h12 := nearOne_zero h11
  refine ⟨res, rots, phs, h1, h2, h5, h6, h7, h8, ⟨fun i => star (f i), fun i => by rw [norm_star, f1], ?_⟩, h12, ?_⟩
  · have e : diagonal f * (circuitOp (lineOp d) rots * u.toM d) = 1 := by
      rw [← f2, ← mul_assoc, ← circuitOp_append, ← h2, h12]
    have e2 : diagonal (fun i => star (f i)) * diagonal f = (1 : Matrix (Fin d) (Fin d) ℂ) := by
      rw [diagonal_mul_diagonal, ← diagonal_one]
      congr 1
      funext i
      rw [RCLike.star_def, ← Complex.normSq_eq_conj_mul_self, Complex.normSq_eq_norm_sq, f1]
      simp
    calc circuitOp (lineOp d) rots * u.toM d = (diagonal (fun i => star (f i)) * diagonal f) * (circuitOp (lineOp d) rots * u.toM d) := by
          rw [e2, one_mul]
      _ = diagonal fun i => star (f i) := by rw [mul_assoc, e, mul_one]
  · rw [circuitOp_revDag _ h9]
    have h13 := (mem_unitaryGroup_iff').1 h10
    rw [star_eq_conjTranspose] at h13
    calc (circuitOp (lineOp d) res.decomp)ᴴ = (circuitOp (lineOp d) res.decomp)ᴴ * (circuitOp (lineOp d) res.decomp * u.toM d) := by
          rw [h12, mul_one]
      _ = u.toM d := by rw [← mul_assoc, h13, one_mul]

/-! ### C35: the gates that take the place of a gate -/

/-- The physical decomposition, any thresholds, phases stored or not. Every rotation is between levels that are coupled on the device.
The adjoints in reverse order give U with its levels relabelled by the placement, followed by the inverse of the stored phases; stored
phases (reduced to one turn) of modulus at most 1e-4 are dropped. -/
theorem C35_physical_general (h : Device d g lp) (hsp : FindsPaths sp) (q : Int) (eps del : ℝ) (heps : 0 ≤ eps) (hdel : 0 ≤ del) (u : Arr2 ℂ)
    (hu : UnitaryArr u d) :
    ∃ res z, phyQr sp q d eps del false false u g = .ok res ∧
      (∀ x ∈ res.decomp, CoupledRotation g x ∨ PhaseRotation x) ∧ (∀ x ∈ res.decomp, x.dagger = false) ∧
      res.decomp.length ≤ (2 * d - 3) * (d * (d - 1) / 2) + 2 * d ∧
      (NoPhases d g → res.decomp.length ≤ (2 * d - 3) * (d * (d - 1) / 2) + d) ∧
      (∀ i, ‖z (lp i) - cexp (-I * stored g i)‖ ≤ 1e-4 ∧ ‖z (lp i)‖ = 1) ∧ (NoPhases d g → ∀ i, z i = 1) ∧
      Near (d * qrError d eps del) (circuitOp (lineOp d) (revDag res.decomp))
        ((diagonal z)ᴴ * (relabelling lp * u.toM d * (relabelling lp)ᴴ)) ∧
      Device d res.graph lp ∧ NoPhases d res.graph ∧ 0 ≤ res.alg ∧ 0 ≤ res.tot ∧
      circuitOp (lineOp d) (revDag res.decomp) ∈ unitaryGroup (Fin d) ℂ := by
  obtain ⟨res, T, pre, rots, phs, h1, h2, h3, h4, h5, h6, h7, h8, h9, h10, h11, h12, h13, h14, h15, h16, h17, h18⟩ :=
    execute_ok (C := conjHom lp) (C' := conjHom lp) (Q := fun x => CoupledRotation g x ∧ x.dagger = false) (L := 2 * d - 3) (sp := sp) q heps hdel
      (fun a => attr a "lpmap") (phyEmit q d) (fun g i => do
        let l ← g.lpmap i
        pure (.int l)) h (fun i a ha => ⟨.int ((lp i : Fin d) : Nat), by simp [attr, ha], fun x => by
          rw [lineOp_phase, conjHom_onePhase]⟩) (fun g' k1 k2 k3 k4 => phyEmit_ok hsp q g' k1 k2 k3 k4)
      (fun g' k1 i => ⟨.int ((lp i : Fin d) : Nat), by
        simp [k1.lpmap i, bind, Except.bind, pure, Except.pure], fun x => by rw [lineOp_phase, conjHom_onePhase]⟩) u hu.1 hu.2.1 hu.2.2
  have hdag : ∀ x ∈ res.decomp, x.dagger = false := by
    intro x hx
    rw [h2] at hx
    rcases List.mem_append.1 hx with hx | hx
    · rcases List.mem_append.1 hx with hx | hx
      · exact (h5 x hx).2
      · exact (h9 x hx).2
    · exact (h11 x hx).2
  refine ⟨res, fun i => (if |newMod (stored g (lp.symm i))| > 1e-4 then cexp (-I * newMod (stored g (lp.symm i))) else 1), h1, ?_, hdag, ?_, ?_, ?_,
    ?_, ?_, h3, h4, h17, h18, ?_⟩
  · intro x hx
    rw [h2] at hx
    rcases List.mem_append.1 hx with hx | hx
    · rcases List.mem_append.1 hx with hx | hx
      · exact Or.inr (h5 x hx).1
      · exact Or.inl (h9 x hx).1
    · exact Or.inr (h11 x hx).1
  · rw [h2, List.length_append, List.length_append]
    omega
  · intro hn
    rw [h2, List.length_append, List.length_append, h7 hn, List.length_nil]
    omega
  · intro i
    simp only [Equiv.symm_apply_apply]
    have hx : cexp (-I * newMod (stored g i)) = cexp (-I * stored g i) := PhasePass.cexp_shift (newMod_period _ _)
    refine ⟨?_, norm_phase _ _⟩
    split_ifs with hc
    · rw [hx, sub_self, norm_zero]; norm_num
    · rw [← hx]
      have := Real.norm_exp_I_mul_ofReal_sub_one_le (x := -newMod (stored g i))
      rw [norm_sub_rev]
      refine le_trans (le_of_eq ?_) (le_trans this ?_)
      · congr 2; push_cast; ring_nf
      · rw [norm_neg]; exact not_lt.1 hc
  · intro hn i
    simp only [stored_zero hn, newMod_zero]
    rw [if_neg (by norm_num)]
  · rw [circuitOp_revDag _ hdag, h2, List.append_assoc, circuitOp_append, h15, h8, conjTranspose_mul]
    have e1 : conjHom lp (phasesFrom 0 (fun j => |newMod (stored g j)| > 1e-4) (fun j => newMod (stored g j))) =
        diagonal (fun i => (if |newMod (stored g (lp.symm i))| > 1e-4 then cexp (-I * newMod (stored g (lp.symm i))) else 1)) := by
      unfold conjHom phasesFrom
      ext r c
      simp [submatrix_apply, diagonal_apply]
    rw [e1, ← conjHom_eq, ← conjHom_conjTranspose]
    intro i j
    rw [← mul_sub, diagonal_conjTranspose, diagonal_mul, norm_mul]
    have e2 : conjHom lp Tᴴ - conjHom lp (u.toM d) = (Tᴴ - u.toM d).submatrix lp.symm lp.symm := rfl
    rw [e2, submatrix_apply, Pi.star_apply, norm_star, norm_phase, one_mul]
    exact near_inverse T _ h14 h16 _ _
  · rw [circuitOp_revDag _ hdag, h2, List.append_assoc, circuitOp_append, h15, h8]
    exact Unitary.star_mem (mul_mem (conjHom_unitary lp h14) (conjHom_unitary lp (phasesFrom_unitary _ _ _)))

/-- `PhyLocQRPass.transpile_gate`, which `QuditCompiler.compile` uses: with no phases stored, the list has only rotations between coupled
levels and phase gates and multiplies, in circuit order, to the gate with its levels relabelled by the placement, up to the thresholds. -/
theorem C35_physical (h : Device d g lp) (hn : NoPhases d g) (hsp : FindsPaths sp) (q : Int) (u : Arr2 ℂ) (hu : UnitaryArr u d) :
    ∃ l g', phyPassGate sp q d u g = .ok (l, g') ∧ (∀ x ∈ l, CoupledRotation g x ∨ PhaseRotation x) ∧
      l.length ≤ (2 * d - 3) * (d * (d - 1) / 2) + d ∧
      Near (d * qrError d 1e-8 1e-4) (circuitOp (lineOp d) l) (relabelling lp * u.toM d * (relabelling lp)ᴴ) ∧
      Device d g' lp ∧ NoPhases d g' ∧ circuitOp (lineOp d) l ∈ unitaryGroup (Fin d) ℂ := by
  obtain ⟨res, z, h1, h2, _, _, h5, _, h7, h8, h9, h10, _, _, h11⟩ := C35_physical_general h hsp q 1e-8 1e-4 (by norm_num) (by norm_num) u hu
  refine ⟨revDag res.decomp, res.graph, ?_, ?_, ?_, ?_, h9, h10, h11⟩
  · unfold phyPassGate
    rw [h1]
    rfl
  · intro x hx
    unfold revDag at hx
    obtain ⟨y, hy, rfl⟩ := List.mem_map.1 hx
    exact h2 y (List.mem_reverse.1 hy)
  · simpa [revDag] using h5 hn
  · have : (diagonal z)ᴴ = 1 := by
      rw [show z = fun _ => 1 from funext (h7 hn), diagonal_one, conjTranspose_one]
    rw [this, one_mul] at h8
    exact h8

/-- The same in exact arithmetic. -/
theorem C35_physical_exact (h : Device d g lp) (hn : NoPhases d g) (hsp : FindsPaths sp) (q : Int) (u : Arr2 ℂ) (hu : UnitaryArr u d) :
    ∃ res, phyQr sp q d 0 0 false false u g = .ok res ∧
      circuitOp (lineOp d) (revDag res.decomp) = relabelling lp * u.toM d * (relabelling lp)ᴴ := by
  obtain ⟨res, z, h1, _, _, _, _, _, h7, h8, _⟩ := C35_physical_general h hsp q 0 0 le_rfl le_rfl u hu
  refine ⟨res, h1, ?_⟩
  have : (diagonal z)ᴴ = 1 := by
    rw [show z = fun _ => 1 from funext (h7 hn), diagonal_one, conjTranspose_one]
  rw [this, one_mul, qrError_zero, mul_zero] at h8
  ext i j
  have := h8 i j
  rw [Matrix.sub_apply] at this
  exact sub_eq_zero.1 (norm_le_zero_iff.1 this)

/-- What `LogLocQRPass` puts in place of a gate is the gate's inverse. -/
theorem C35_logical_inverse (h : Device d g lp) (hsp : FindsPaths sp) (q : Int) (u : Arr2 ℂ) (hu : UnitaryArr u d) :
    ∃ l g', logPassGate sp q d u g = .ok (l, g') ∧ Near (d * qrError d 1e-8 1e-4) (circuitOp (lineOp d) l) (u.toM d)ᴴ := by
  obtain ⟨res, _, _, _, h1, _, _, _, _, _, _, _, _, _, _, h11, _⟩ := C34_decomposition h hsp q 1e-8 1e-4 (by norm_num) (by norm_num) u hu
  refine ⟨res.decomp, res.graph, ?_, near_inverse' _ _ hu.2.2 h11⟩
  unfold logPassGate
  rw [h1]
  rfl

/-! ### examples -/

/-- A path finder exists. -/
theorem findsPaths_exists : ∃ sp : PathFinder, FindsPaths sp := by
  classical
  refine ⟨fun g a b => if h : ∃ p, IsPath g a b p then .ok h.choose else .error .valueError, ?_⟩
  intro g a b _ _ h
  exact ⟨h.choose, dif_pos h, h.choose_spec⟩

/-- Three levels in a row; levels 0 and 1 are kept in each other's physical place. -/
def rowDevice : LGraph :=
  ⟨[(0, [("level", .str "i"), ("lpmap", .int 1)]), (1, [("level", .str "l"), ("lpmap", .int 0)]), (2, [("level", .str "r"), ("lpmap", .int 2)])],
    [(0, 1, []), (1, 2, [])], none⟩

theorem rowDevice_ok : Device 3 rowDevice (Equiv.swap 0 1) ∧ NoPhases 3 rowDevice := by
  have hv : ∀ (i : Fin 3) (k : String), value rowDevice (i : Nat) k =
      if k = "level" then some (.str (if i = 0 then "i" else if i = 1 then "l" else "r"))
      else if k = "lpmap" then some (.int (if i = 0 then 1 else if i = 1 then 0 else 2)) else none := by
    intro i k
    by_cases h1 : k = "level"
    · subst h1; fin_cases i <;> rfl
    · by_cases h2 : k = "lpmap"
      · subst h2; fin_cases i <;> rfl
      · rw [if_neg h1, if_neg h2]
        fin_cases i <;> simp [value, rowDevice, PyDict.get?, eq_comm, h1, h2]
  have hnames : names rowDevice = (List.range 3).map fun i : Nat => (i : Int) := rfl
  refine ⟨⟨⟨by decide, by simp [rowDevice, PyDict.keys], ?_, ?_⟩, ?_, by rw [hnames], ?_, ?_, ⟨0, rfl⟩, ?_, ?_⟩, ?_⟩
  · simp [rowDevice, SameEnds]
  · simp [rowDevice, names, PyDict.keys]
  · intro n hn m hm k hk
    rw [hnames] at hn hm
    obtain ⟨i, hi, rfl⟩ := List.mem_map.1 hn
    obtain ⟨j, hj, rfl⟩ := List.mem_map.1 hm
    have e1 := hv ⟨i, List.mem_range.1 hi⟩ k
    have e2 := hv ⟨j, List.mem_range.1 hj⟩ k
    simp only at e1 e2
    rw [e1] at hk
    rw [e2]
    split_ifs at hk ⊢ <;> simp_all
  · intro i; fin_cases i <;> rfl
  · intro i
    rw [hv, if_pos rfl]
    exact ⟨_, rfl⟩
  · have p00 : ∀ n : Int, IsPath rowDevice n n [n] := fun n => ⟨rfl, rfl, by simp, by simp⟩
    intro a b
    fin_cases a <;> fin_cases b
    · exact ⟨_, p00 _⟩
    · exact ⟨[0, 1], rfl, rfl, by simp [Spec.Joined, edgeData, joins, rowDevice], by decide⟩
    · exact ⟨[0, 1, 2], rfl, rfl, by simp [Spec.Joined, edgeData, joins, rowDevice], by decide⟩
    · exact ⟨[1, 0], rfl, rfl, by simp [Spec.Joined, edgeData, joins, rowDevice], by decide⟩
    · exact ⟨_, p00 _⟩
    · exact ⟨[1, 2], rfl, rfl, by simp [Spec.Joined, edgeData, joins, rowDevice], by decide⟩
    · exact ⟨[2, 1, 0], rfl, rfl, by simp [Spec.Joined, edgeData, joins, rowDevice], by decide⟩
    · exact ⟨[2, 1], rfl, rfl, by simp [Spec.Joined, edgeData, joins, rowDevice], by decide⟩
    · exact ⟨_, p00 _⟩
  · intro i v h
    rw [hv, if_neg (by decide), if_neg (by decide)] at h
    cases h
  · intro i v h
    rw [hv, if_neg (by decide), if_neg (by decide)] at h
    cases h

theorem qrError_small : qrError 3 1e-8 1e-4 ≤ 1 / 100 := by
  unfold qrError
  have : Real.sqrt (((3 * (3 - 1) / 2 : Nat) : ℝ) * 1e-8 ^ 2) ≤ 1 / 1000 := by
    rw [Real.sqrt_le_iff]
    norm_num
  norm_num at this ⊢
  linarith

/-- The theorems apply to the cyclic shift of a qutrit on that device. -/
example : ∃ sp u, FindsPaths sp ∧ xArray 3 = .ok u ∧ ∃ res, phyQr sp 0 3 0 0 false false u rowDevice = .ok res ∧
    circuitOp (lineOp 3) (revDag res.decomp) = relabelling (Equiv.swap 0 1) * u.toM 3 * (relabelling (Equiv.swap 0 1))ᴴ := by
  obtain ⟨sp, hsp⟩ := findsPaths_exists
  obtain ⟨u, h1, h2⟩ := C06_x 3
  exact ⟨sp, u, hsp, h1, C35_physical_exact rowDevice_ok.1 rowDevice_ok.2 hsp 0 u h2⟩

/-- `LogLocQRPass` does not implement the gate: for the cyclic shift X of a qutrit the product is far from X (it is near the inverse of
X). -/
theorem C35_logical_violated (hsp : FindsPaths sp) (q : Int) : ∃ u l g', xArray 3 = .ok u ∧
    logPassGate sp q 3 u rowDevice = .ok (l, g') ∧ ¬ Near (1 / 2) (circuitOp (lineOp 3) l) (u.toM 3) := by
  obtain ⟨u, h1, h2⟩ := C06_x 3
  obtain ⟨u', k1, _, _, k4⟩ := xArray_ok 3
  rw [h1] at k1
  cases k1
  obtain ⟨l, g', h3, h4⟩ := C35_logical_inverse (sp := sp) rowDevice_ok.1 hsp q u h2
  refine ⟨u, l, g', h1, h3, fun hc => ?_⟩
  have e1 := hc 1 0
  have e2 := h4 1 0
  have e3 : u.toM 3 1 0 = 1 := by
    show u.at' 1 0 = 1
    rw [k4 1 0 (by decide)]; simp
  have e4 : (u.toM 3)ᴴ 1 0 = 0 := by
    rw [conjTranspose_apply]
    show star (u.at' 0 1) = 0
    rw [k4 0 1 (by decide)]; simp
  rw [Matrix.sub_apply, e3] at e1
  rw [Matrix.sub_apply, e4, sub_zero] at e2
  have e5 := qrError_small
  have e6 : ‖(1 : ℂ)‖ ≤ ‖circuitOp (lineOp 3) l 1 0 - 1‖ + ‖circuitOp (lineOp 3) l 1 0‖ := by
    have := norm_sub_le (circuitOp (lineOp 3) l 1 0) (circuitOp (lineOp 3) l 1 0 - 1)
    rw [sub_sub_cancel] at this
    linarith
  rw [norm_one] at e6
  push_cast at e2
  linarith

/-- In a circuit, `PhyLocQRPass.transpile` reverses the list of `transpile_gate` and marks its gates as adjoint once more. The mark does not
change, so the gates come out in the wrong order. -/
theorem C35_transpile_order (h : Device d g lp) (hsp : FindsPaths sp) (q : Int) (u : Arr2 ℂ) (hu : UnitaryArr u d) :
    ∃ l m g', phyPassGate sp q d u g = .ok (l, g') ∧ phyPassInCircuit sp q d u g = .ok (m, g') ∧ m = l.reverse := by
  obtain ⟨res, _, h1, _⟩ := C35_physical_general h hsp q 1e-8 1e-4 (by norm_num) (by norm_num) u hu
  have e : phyPassGate sp q d u g = .ok (revDag res.decomp, res.graph) := by
    unfold phyPassGate
    rw [h1]
    rfl
  refine ⟨revDag res.decomp, _, res.graph, e, ?_, rfl⟩
  unfold phyPassInCircuit
  rw [e]
  simp [bind, Except.bind, pure, Except.pure, revDag, dag, Function.comp_def]

/-- A qubit. -/
def qubitDevice : LGraph :=
  ⟨[(0, [("level", .str "i"), ("lpmap", .int 0)]), (1, [("level", .str "l"), ("lpmap", .int 1)])], [(0, 1, [])], none⟩

theorem qubitDevice_ok : Device 2 qubitDevice 1 ∧ NoPhases 2 qubitDevice := by
  have hv : ∀ (i : Fin 2) (k : String), value qubitDevice (i : Nat) k =
      if k = "level" then some (.str (if i = 0 then "i" else "l"))
      else if k = "lpmap" then some (.int (if i = 0 then 0 else 1)) else none := by
    intro i k
    by_cases h1 : k = "level"
    · subst h1; fin_cases i <;> rfl
    · by_cases h2 : k = "lpmap"
      · subst h2; fin_cases i <;> rfl
      · rw [if_neg h1, if_neg h2]
        fin_cases i <;> simp [value, qubitDevice, PyDict.get?, eq_comm, h1, h2]
  have hnames : names qubitDevice = (List.range 2).map fun i : Nat => (i : Int) := rfl
  refine ⟨⟨⟨by decide, by simp [qubitDevice, PyDict.keys], ?_, ?_⟩, ?_, by rw [hnames], ?_, ?_, ⟨0, rfl⟩, ?_, ?_⟩, ?_⟩
  · simp [qubitDevice]
  · simp [qubitDevice, names, PyDict.keys]
  · intro n hn m hm k hk
    rw [hnames] at hn hm
    obtain ⟨i, hi, rfl⟩ := List.mem_map.1 hn
    obtain ⟨j, hj, rfl⟩ := List.mem_map.1 hm
    have e1 := hv ⟨i, List.mem_range.1 hi⟩ k
    have e2 := hv ⟨j, List.mem_range.1 hj⟩ k
    simp only at e1 e2
    rw [e1] at hk
    rw [e2]
    split_ifs at hk ⊢ <;> simp_all
  · intro i; fin_cases i <;> rfl
  · intro i
    rw [hv, if_pos rfl]
    exact ⟨_, rfl⟩
  · have p00 : ∀ n : Int, IsPath qubitDevice n n [n] := fun n => ⟨rfl, rfl, by simp, by simp⟩
    intro a b
    fin_cases a <;> fin_cases b
    · exact ⟨_, p00 _⟩
    · exact ⟨[0, 1], rfl, rfl, by simp [Spec.Joined, edgeData, joins, qubitDevice], by decide⟩
    · exact ⟨[1, 0], rfl, rfl, by simp [Spec.Joined, edgeData, joins, qubitDevice], by decide⟩
    · exact ⟨_, p00 _⟩
  · intro i v h
    rw [hv, if_neg (by decide), if_neg (by decide)] at h
    cases h
  · intro i v h
    rw [hv, if_neg (by decide), if_neg (by decide)] at h
    cases h

/-- the rotation of the Hadamard gate -/
theorem rot_quarter : rot (Real.pi / 2) (-(Real.pi / 2)) = !![((1 / Real.sqrt 2 : ℝ) : ℂ), ((1 / Real.sqrt 2 : ℝ) : ℂ);
    -((1 / Real.sqrt 2 : ℝ) : ℂ), ((1 / Real.sqrt 2 : ℝ) : ℂ)] := by
  have h1 : Complex.exp (-(Complex.I * ((-(Real.pi / 2) : ℝ) : ℂ))) = Complex.I := by
    rw [show -(Complex.I * ((-(Real.pi / 2) : ℝ) : ℂ)) = Real.pi / 2 * Complex.I by push_cast; ring, Complex.exp_pi_div_two_mul_I]
  have h2 : Complex.exp (Complex.I * ((-(Real.pi / 2) : ℝ) : ℂ)) = -Complex.I := by
    rw [show Complex.I * ((-(Real.pi / 2) : ℝ) : ℂ) = -(Real.pi / 2 * Complex.I) by push_cast; ring, Complex.exp_neg,
      Complex.exp_pi_div_two_mul_I, Complex.inv_I]
  have h3 : Real.pi / 2 / 2 = Real.pi / 4 := by ring
  have h4 : (Real.sqrt 2 / 2 : ℝ) = 1 / Real.sqrt 2 := by
    rw [div_eq_div_iff (by norm_num) (by positivity), Real.mul_self_sqrt (by norm_num), one_mul]
  unfold rot
  rw [h3, Real.cos_pi_div_four, Real.sin_pi_div_four, h4, h1, h2]
  ext i j
  fin_cases i <;> fin_cases j <;> simp [← mul_assoc, mul_comm _ Complex.I]

/-- `PhyLocQRPass.transpile` does not implement the Hadamard gate of a qubit: one entry of the product has the wrong sign. -/
theorem C35_transpile_violated (hsp : FindsPaths sp) (q : Int) : ∃ u m g', hArray 2 = .ok u ∧
    phyPassInCircuit sp q 2 u qubitDevice = .ok (m, g') ∧
    circuitOp (lineOp 2) m 0 1 = -(u.toM 2 0 1) ∧ u.toM 2 0 1 ≠ 0 := by
  obtain ⟨u, h1, hu1, hu2, h2⟩ := hArray_ok 2
  set c : ℝ := 1 / Real.sqrt 2 with hc
  have hc0 : 0 < c := by rw [hc]; positivity
  have hcc : (c : ℂ) * c = 1 / 2 := by
    rw [← Complex.ofReal_mul, hc, div_mul_div_comm, Real.mul_self_sqrt (by norm_num)]; norm_num
  have homg : omg 2 = -1 := by
    unfold omg
    rw [show (2 * Real.pi * I / ((2 : Nat) : ℂ) : ℂ) = Real.pi * I by push_cast; ring, Complex.exp_pi_mul_I]
  have hU : u.toM 2 = !![(c : ℂ), c; c, -c] := by
    ext i j
    show u.at' i j = _
    rw [h2 i j i.isLt j.isLt, homg]
    fin_cases i <;> fin_cases j <;> simp [hc]
  have hargc : Complex.arg (c : ℂ) = 0 := Complex.arg_ofReal_of_nonneg hc0.le
  have hhalf : (Real.sqrt 2 / 2 : ℝ) = c := by
    rw [hc, div_eq_div_iff (by norm_num) (by positivity), Real.mul_self_sqrt (by norm_num), one_mul]
  have hat : arctan2 c c = Real.pi / 4 := by
    unfold arctan2
    have : (⟨c, c⟩ : ℂ) = Complex.cos ((Real.pi / 4 : ℝ) : ℂ) + Complex.sin ((Real.pi / 4 : ℝ) : ℂ) * I := by
      rw [← Complex.ofReal_cos, ← Complex.ofReal_sin, Real.cos_pi_div_four, Real.sin_pi_div_four, hhalf]
      apply Complex.ext <;> simp
    rw [this]
    have hp := Real.pi_pos
    exact Complex.arg_cos_add_sin_mul_I ⟨by linarith, by linarith⟩
  have hbig : c > 1e-8 := by
    rw [← hhalf]
    have : (1 : ℝ) ≤ Real.sqrt 2 := Real.one_le_sqrt.2 (by norm_num)
    have h : (1e-8 : ℝ) < 1 / 2 := by norm_num
    linarith
  obtain ⟨g1, E, saved, t1, t2, t3, _, _, _, t7, t8, t9⟩ := takePhases_ok (C := conjHom 1) q (fun a => attr a "lpmap")
    (fun i a ha => ⟨.int ((1 : Equiv.Perm (Fin 2)) i : Fin 2), by simp [attr, ha], fun x => by rw [lineOp_phase, conjHom_onePhase]⟩) qubitDevice_ok.1
  rw [t9 qubitDevice_ok.2] at t1
  have hem := phyEmit_ok hsp q g1 t2 t3 t7 (fun n => t8 n _ (by decide))
  obtain ⟨B, out, k1, k2, s1, s2, s3, s4, s5, s6, s7, _, _⟩ := qrStep_big (eps := 1e-8) (st := ⟨u, [], 0, 0⟩) hem hu1 hu2 0 1 0 rfl
    (Real.pi / 2) (-(Real.pi / 2)) (by rw [hU]; simpa [abs_of_pos hc0] using hbig) (by rw [hU]; simp [abs_of_pos hc0, hat]; ring)
    (by rw [hU]; simp [hargc])
  have hB : B.toM 2 = !![1, 0; 0, -1] := by
    rw [s4, hU, rot_quarter, ← hc]
    ext i j
    fin_cases i <;> fin_cases j <;> simp [Matrix.mul_apply, twoLevel, Fin.sum_univ_two, hcc] <;> norm_num
  rw [conjHom_twoLevel] at s5
  simp only [Equiv.Perm.coe_one, id_eq] at s5
  obtain ⟨x, hx⟩ : ∃ x, out = [x] := by
    match out, s7, s5 with
    | [], _, s5 =>
      exfalso
      rw [circuitOp_nil, rot_quarter, ← hc] at s5
      have := congrFun (congrFun s5 0) 1
      simp [twoLevel] at this
      exact hc0.ne' (Complex.ofReal_eq_zero.1 this.symm)
    | [x], _, _ => exact ⟨x, rfl⟩
    | _ :: _ :: _, s7, _ => simp at s7
  subst hx
  rw [circuitOp_cons, circuitOp_nil, one_mul] at s5
  have hlp : g1.lpmap ((1 : Nat) : Int) = .ok ((1 : Nat) : Int) := t2.lpmap 1
  have hr0 : rowsOf 2 0 = [1] := rfl
  have hr1 : rowsOf 2 1 = [] := rfl
  have hg0 : B.get 0 0 = .ok 1 := by
    unfold Arr2.get
    rw [if_pos (by omega), show B.at' 0 0 = B.toM 2 0 0 from rfl, hB]; rfl
  have hg1 : B.get 1 1 = .ok (-1) := by
    unfold Arr2.get
    rw [if_pos (by omega), show B.at' 1 1 = B.toM 2 1 1 from rfl, hB]; rfl
  have hq : phyQr sp q 2 1e-8 1e-4 false false u qubitDevice =
      .ok ⟨[x, phaseInstr q 2 (.int ((1 : Nat) : Int)) Real.pi], 0 + k1, 0 + k2, g1⟩ := by
    unfold phyQr execute
    simp only [bind, Except.bind, pure, Except.pure]
    simp only [Bool.false_eq_true, if_false, Bool.false_and]
    rw [t1]
    simp only []
    have hcols : (List.range u.cols).foldlM (qrColumn sp 2 1e-8 (phyEmit q 2) g1 u.rows) ⟨u, [], 0, 0⟩ =
        .ok (⟨B, [x], 0 + k1, 0 + k2⟩ : QrState) := by
      rw [hu1, hu2, show List.range 2 = [0, 1] from rfl]
      simp only [List.foldlM_cons, List.foldlM_nil, qrColumn, hr0, hr1, bind, Except.bind, pure, Except.pure]
      have s1 : qrStep sp 2 1e-8 (phyEmit q 2) g1 0 ⟨u, [], 0, 0⟩ 1 = .ok ⟨B, [x], 0 + k1, 0 + k2⟩ := s1
      rw [s1]
    rw [hcols]
    simp only []
    rw [hu1, show List.range 2 = [0, 1] from rfl]
    simp only [List.foldlM_cons, List.foldlM_nil, qrPhase, bind, Except.bind, pure, Except.pure, hg0, hg1]
    rw [Complex.arg_one, Complex.arg_neg_one, abs_zero, if_neg (by norm_num)]
    simp only []
    have hp : |Real.pi| > 1e-4 := by
      rw [abs_of_pos Real.pi_pos]
      have := Real.two_le_pi
      have h : (1e-4 : ℝ) < 2 := by norm_num
      linarith
    rw [if_pos hp, hlp]
    rfl
  refine ⟨u, _, g1, h1, by unfold phyPassInCircuit phyPassGate; rw [hq]; rfl, ?_, ?_⟩
  · have hd : x.dagger = false := (s6 x (by simp)).2
    show circuitOp (lineOp 2) [dag (dag x), dag (dag (phaseInstr q 2 (.int ((1 : Nat) : Int)) Real.pi))] 0 1 = _
    have hdd : ∀ y, dag (dag y) = dag y := fun _ => rfl
    rw [hdd, hdd, circuitOp_cons, circuitOp_cons, circuitOp_nil, one_mul, lineOp_dag x hd, lineOp_dag _ rfl, s5]
    have := lineOp_phase (d := 2) q 1 Real.pi
    rw [show lineOp 2 (phaseInstr q 2 (.int ((1 : Nat) : Int)) Real.pi) = onePhase 1 Real.pi from this, rot_quarter, ← hc, hU]
    simp [Matrix.mul_apply, onePhase, twoLevel, diagonal_apply]
  · rw [hU]
    simpa using hc0.ne'

end Qudits
