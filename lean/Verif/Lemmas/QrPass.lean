import Verif.Lemmas.QrExec
import Verif.Lemmas.PhasePasses
namespace Qudits
open LGraph Spec Matrix LocalQR QRAlg Complex

variable {d : Nat} {g : LGraph} {lp : Equiv.Perm (Fin d)}

/-- conjugation by the relabelling -/
def conjHom (lp : Equiv.Perm (Fin d)) : Matrix (Fin d) (Fin d) ℂ →* Matrix (Fin d) (Fin d) ℂ where
  toFun A := A.submatrix lp.symm lp.symm
  map_one' := by rw [submatrix_one_equiv]
  map_mul' A B := by rw [submatrix_mul_equiv]

theorem conjHom_eq (lp : Equiv.Perm (Fin d)) (A : Matrix (Fin d) (Fin d) ℂ) :
    conjHom lp A = relabelling lp * A * (relabelling lp)ᴴ := by
  ext r c
  rw [Matrix.mul_apply, Finset.sum_eq_single (lp.symm c)]
  · rw [Matrix.mul_apply, Finset.sum_eq_single (lp.symm r)]
    · simp [relabelling, conjHom]
    · intro b _ hb
      have : r ≠ lp b := by rintro rfl; simp at hb
      simp [relabelling, this]
    · simp
  · intro b _ hb
    have : c ≠ lp b := by rintro rfl; simp at hb
    simp [relabelling, this]
  · simp

theorem relabelling_unitary (lp : Equiv.Perm (Fin d)) : relabelling lp ∈ unitaryGroup (Fin d) ℂ := by
  rw [mem_unitaryGroup_iff]
  have := conjHom_eq lp 1
  rw [map_one, mul_one] at this
  exact this.symm

/-- Relabelling the levels keeps a matrix unitary. -/
theorem conjHom_unitary (lp : Equiv.Perm (Fin d)) {A : Matrix (Fin d) (Fin d) ℂ} (h : A ∈ unitaryGroup (Fin d) ℂ) :
    conjHom lp A ∈ unitaryGroup (Fin d) ℂ := by
  rw [conjHom_eq]
  exact mul_mem (mul_mem (relabelling_unitary lp) h) (Unitary.star_mem (relabelling_unitary lp))

theorem conjHom_conjTranspose (lp : Equiv.Perm (Fin d)) (A : Matrix (Fin d) (Fin d) ℂ) : conjHom lp Aᴴ = (conjHom lp A)ᴴ := rfl

theorem conjHom_onePhase (lp : Equiv.Perm (Fin d)) (i : Fin d) (x : ℝ) : conjHom lp (onePhase i x) = onePhase (lp i) x := by
  unfold conjHom onePhase
  ext r c
  simp only [MonoidHom.coe_mk, OneHom.coe_mk, submatrix_apply, diagonal_apply, EmbeddingLike.apply_eq_iff_eq, Equiv.symm_apply_eq]

theorem conjHom_twoLevel (lp : Equiv.Perm (Fin d)) (a b : Fin d) (M : Matrix (Fin 2) (Fin 2) ℂ) :
    conjHom lp (twoLevel a b M) = twoLevel (lp a) (lp b) M := by
  ext r c
  show twoLevel a b M (lp.symm r) (lp.symm c) = _
  unfold twoLevel
  simp only [Equiv.symm_apply_eq, EmbeddingLike.apply_eq_iff_eq]

theorem lineOp_phase (q : Int) (i : Fin d) (x : ℝ) : PhasePass.lineOp d (phaseInstr q d (.int (i : Nat)) x) = onePhase i x := by
  have : (phaseInstr q d (.int (i : Nat)) x).kind = .virtRz { levA := (i : Nat), phi := regulateTheta x } := by
    have hi := i.isLt
    unfold phaseInstr virtRzInit
    simp [hi]
  rw [PhasePass.lineOp_virt (a := i) rfl rfl this rfl]
  unfold onePhase
  congr 1
  funext j
  split_ifs
  · exact cexp_regulate x
  · rfl

theorem lineOp_phase_str (q : Int) (s : String) (x : ℝ) (hd : 0 < d) : PhasePass.lineOp d (phaseInstr q d (.str s) x) = 1 := by
  have : (phaseInstr q d (.str s) x).kind = .virtRz {} := rfl
  rw [PhasePass.lineOp_virt (a := (⟨0, hd⟩ : Fin d)) rfl rfl this rfl, ← diagonal_one]
  congr 1
  funext j
  simp

theorem physEdge_congr {g g' : LGraph} (he : g'.edges = g.edges) (hv : ∀ n, value g' n "lpmap" = value g n "lpmap") (p q : Int)
    (data : PyDict String Int) (h : PhysEdge g' p q data) : PhysEdge g p q data := by
  obtain ⟨u, v, h1, h2, h3⟩ := h
  refine ⟨u, v, by rw [← hv]; exact h1, by rw [← hv]; exact h2, ?_⟩
  unfold edgeData at h3 ⊢
  rw [← he]; exact h3

theorem phyEmit_ok {sp : PathFinder} (hsp : FindsPaths sp) (q : Int) (g' : LGraph) (h : Device d g' lp) (hn : NoPhases d g')
    (he : g'.edges = g.edges) (hv : ∀ n, value g' n "lpmap" = value g n "lpmap") :
    EmitOk sp d g' (phyEmit q d) (conjHom lp) (fun x => CoupledRotation g x ∧ x.dagger = false) (2 * d - 3) := by
  intro a b hb theta phi nz
  obtain ⟨k, out, h1, h2, h3, h4, h5, h6, h7, h8⟩ := block_ok h hn hsp q a b hb theta phi nz ⟨nm a, nm b, regulateTheta theta, phi⟩
  have h9 := thetaCost_nonneg (regulateTheta theta)
  have h7 : thetaCost (regulateTheta theta) ≤ k.gateCost := h7
  refine ⟨k, out, h1, h2, by rw [h3, conjHom_twoLevel], ?_, h5, ?_, by linarith⟩
  · intro x hx
    obtain ⟨⟨p, data, e1, e2⟩, e3⟩ := h4 x hx
    exact ⟨⟨p, data, e1, physEdge_congr he hv _ _ _ e2⟩, e3⟩
  · rw [h8]
    exact mul_nonneg (by linarith) (Nat.cast_nonneg _)

theorem logEmit_ok {sp : PathFinder} (hsp : FindsPaths sp) (q : Int) (g' : LGraph) (h : Device d g' lp) (hn : NoPhases d g') :
    EmitOk sp d g' (logEmit q d) (MonoidHom.id _) (fun x => AdjacentRotation d x ∧ x.dagger = false) 1 := by
  intro a b hb theta phi nz
  obtain ⟨k, _, h1, _, _, _, _, h6, h7, h8⟩ := block_ok h hn hsp q a b hb theta phi nz ⟨nm a, nm b, regulateTheta theta, phi⟩
  have h9 := thetaCost_nonneg (regulateTheta theta)
  have h7 : thetaCost (regulateTheta theta) ≤ k.gateCost := h7
  have hab : a ≠ b := by rintro rfl; omega
  have hlt : a < b := by rw [Fin.lt_def]; omega
  refine ⟨k, _, h1, rfl, ?_, ?_, by simp, ?_, by linarith⟩
  · rw [circuitOp_cons, circuitOp_nil, one_mul, lineOp_rot q _ a b hab (by rw [min_eq_left hlt.le]; rfl) (by rw [max_eq_right hlt.le]; rfl),
      if_pos hlt]
    show twoLevel a b (rot (regulateTheta theta) phi) = _
    rw [rot_regulate]
    rfl
  · intro x hx
    simp at hx
    subst hx
    refine ⟨⟨_, rfl, ?_, ?_, ?_⟩, rfl⟩
    · show (0 : Int) ≤ nm a
      unfold nm; omega
    · show nm b = nm a + 1
      unfold nm; omega
    · show nm b < d
      have := b.isLt
      unfold nm; omega
  · rw [h8]
    exact mul_nonneg (by linarith) (Nat.cast_nonneg _)

theorem qrError_zero (d : Nat) : qrError d 0 0 = 0 := by
  unfold qrError; simp

theorem nearOne_zero {A : Matrix (Fin d) (Fin d) ℂ} (h : NearOne 0 A) : A = 1 := by
  ext i j
  have := h i j
  exact sub_eq_zero.1 (norm_le_zero_iff.1 this)

/-- entries of a unitary matrix are at most 1 -/
theorem unitary_entry (T : Matrix (Fin d) (Fin d) ℂ) (hT : T ∈ unitaryGroup (Fin d) ℂ) (i j : Fin d) : ‖T i j‖ ≤ 1 := by
  have h1 := row_mass T hT i
  have h2 : ‖T i j‖ ^ 2 ≤ 1 := by
    rw [← h1]
    exact Finset.single_le_sum (f := fun c => ‖T i c‖ ^ 2) (fun _ _ => sq_nonneg _) (Finset.mem_univ j)
  have h3 := norm_nonneg (T i j)
  nlinarith

/-- if `T * U` is nearly the identity, `U` is nearly the adjoint of `T` -/
theorem near_inverse {e : ℝ} (T U : Matrix (Fin d) (Fin d) ℂ) (hT : T ∈ unitaryGroup (Fin d) ℂ) (h : NearOne e (T * U)) (i j : Fin d) :
    ‖(Tᴴ - U) i j‖ ≤ d * e := by
  have e1 : Tᴴ - U = -(Tᴴ * (T * U - 1)) := by
    have := (mem_unitaryGroup_iff').1 hT
    rw [star_eq_conjTranspose] at this
    rw [mul_sub, ← mul_assoc, this, one_mul, mul_one, neg_sub]
  have hT' : Tᴴ ∈ unitaryGroup (Fin d) ℂ := Unitary.star_mem hT
  rw [e1, Matrix.neg_apply, norm_neg, Matrix.mul_apply]
  refine le_trans (norm_sum_le _ _) ?_
  calc ∑ k, ‖Tᴴ i k * (T * U - 1) k j‖ ≤ ∑ k : Fin d, e := by
        refine Finset.sum_le_sum fun k _ => ?_
        rw [norm_mul]
        have h1 := unitary_entry Tᴴ hT' i k
        have h2 := h k j
        rw [Matrix.sub_apply]
        have h3 := norm_nonneg ((T * U) k j - (1 : Matrix (Fin d) (Fin d) ℂ) k j)
        have h4 := norm_nonneg (Tᴴ i k)
        nlinarith
    _ = d * e := by simp

theorem near_inverse' {e : ℝ} (T U : Matrix (Fin d) (Fin d) ℂ) (hU : U ∈ unitaryGroup (Fin d) ℂ) (h : NearOne e (T * U)) (i j : Fin d) :
    ‖(T - Uᴴ) i j‖ ≤ d * e := by
  have e1 : T - Uᴴ = (T * U - 1) * Uᴴ := by
    have := (mem_unitaryGroup_iff).1 hU
    rw [star_eq_conjTranspose] at this
    rw [sub_mul, mul_assoc, this, one_mul, mul_one]
  have hU' : Uᴴ ∈ unitaryGroup (Fin d) ℂ := Unitary.star_mem hU
  rw [e1, Matrix.mul_apply]
  refine le_trans (norm_sum_le _ _) ?_
  calc ∑ k, ‖(T * U - 1) i k * Uᴴ k j‖ ≤ ∑ k : Fin d, e := by
        refine Finset.sum_le_sum fun k _ => ?_
        rw [norm_mul]
        have h1 := unitary_entry Uᴴ hU' k j
        have h2 := h i k
        rw [Matrix.sub_apply]
        have h3 := norm_nonneg ((T * U) i k - (1 : Matrix (Fin d) (Fin d) ℂ) i k)
        have h4 := norm_nonneg (Uᴴ k j)
        nlinarith
    _ = d * e := by simp

theorem lineOp_dag (x : PInstr) (h : x.dagger = false) : PhasePass.lineOp d (dag x) = (PhasePass.lineOp d x)ᴴ := by
  unfold PhasePass.lineOp
  have e : PhasePass.arrayOf (dag x) = PhasePass.arrayOf x := rfl
  rw [e]
  cases PhasePass.arrayOf x with
  | none => simp
  | some r => cases r with
    | error e => simp
    | ok A => simp [dag, h]

theorem circuitOp_revDag (l : List PInstr) (h : ∀ x ∈ l, x.dagger = false) :
    circuitOp (PhasePass.lineOp d) (revDag l) = (circuitOp (PhasePass.lineOp d) l)ᴴ := by
  induction l with
  | nil => simp [revDag, circuitOp_nil]
  | cons x l ih =>
    have e : revDag (x :: l) = revDag l ++ [dag x] := by simp [revDag]
    rw [e, circuitOp_append, circuitOp_cons, circuitOp_nil, one_mul, ih (fun y hy => h y (by simp [hy])), circuitOp_cons, conjTranspose_mul,
      lineOp_dag x (h x (by simp))]

end Qudits
