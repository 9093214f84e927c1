import Verif.Lemmas.AdaFinal
import Verif.Lemmas.QrPass
import Verif.Lemmas.SameGraph
import Mathlib.Analysis.Real.Pi.Bounds
/- What the two searches return, and the passes around them. -/
namespace Qudits.Adaptive
open LGraph LocalQR Spec Matrix Qudits.Tree QRAlg Complex

variable {d : Nat} {off del : ℝ} {limit : ℝ × ℝ} {g g0 : LGraph} {lp : Equiv.Perm (Fin d)} {sp : PathFinder}

theorem frame_unitary (h : Device d g lp) : frame d g ∈ unitaryGroup (Fin d) ℂ := by
  rw [frame_eq h]
  refine mul_mem (relabelling_unitary lp) ?_
  rw [mem_unitaryGroup_iff, star_eq_conjTranspose, diagonal_conjTranspose, diagonal_mul_diagonal, ← diagonal_one]
  congr 1
  funext i
  simp only [Pi.star_apply]
  rw [RCLike.star_def, ← Complex.exp_conj, ← Complex.exp_add, ← Complex.exp_zero]
  congr 1
  simp

theorem norm_newMod_exp (x : ℝ) : ‖cexp (I * (x : ℝ)) - 1‖ ≤ |newMod x| := by
  rw [← newMod_exp]
  exact Real.norm_exp_I_mul_ofReal_sub_one_le

theorem piKindOk (g0 : LGraph) : KindOk d g0 0 (PiKind d g0) := by
  rintro g ⟨lp, η, h, ho, hs, he⟩
  refine ⟨⟨lp, h⟩, he, fun i => ?_, fun i hi => ?_⟩
  · obtain ⟨x, hx, _⟩ := hs i
    exact ⟨x, hx⟩
  · obtain ⟨x, hx, hx2, _⟩ := hs i
    rw [stored_of hx] at hi ⊢
    have h1 : Real.sin (newMod x) = 0 := by rw [(newMod_trig x).1, hx2]
    have h2 := abs_le.1 hi
    have hp := Real.pi_gt_three
    have h3 : newMod x = 0 := (Real.sin_eq_zero_iff_of_lt_of_lt (by linarith) (by linarith)).1 h1
    have := norm_newMod_exp x
    rw [h3, abs_zero] at this
    exact this

theorem directKindOk (h : Device d g lp) (hph : ∀ i : Fin d, ∃ x, value g (i : Nat) "phase_storage" = some (.flt x)) (he : EdgesIn g g0) :
    KindOk d g0 1e-4 (DirectKind d g) := by
  intro g2 e
  rw [show g2 = g from e]
  exact ⟨⟨lp, h⟩, he, hph, fun i hi => (norm_newMod_exp _).trans hi⟩

/-- what the physical search returns -/
structure PhyOut (d : Nat) (K : LGraph → Prop) (g0 : LGraph) (U : Matrix (Fin d) (Fin d) ℂ) (e : ℝ) (zProp : Bool) (limit : ℝ) (res : Result) (g1 : LGraph)
    (lp1 : Equiv.Perm (Fin d)) : Prop where
  graph : res.graph = some g1
  dev : Device d g1 lp1
  leaf : ∃ gl, K gl ∧ Device d gl lp1 ∧ g1.edges = gl.edges ∧ Spec.names g1 = Spec.names gl
  edges : EdgesIn g1 g0
  gates : ∀ x ∈ res.gates, CoupledRotation g0 x ∨ (zProp = false ∧ PhaseRotation x)
  plain : ∀ x ∈ res.gates, x.dagger = false
  clean : zProp = false → NoPhases d g1
  unitary : circuitOp (PhasePass.lineOp d) res.gates ∈ unitaryGroup (Fin d) ℂ
  near : Near e (circuitOp (PhasePass.lineOp d) res.gates * (frame d g0 * U)) (frame d g1)
  cost : ∃ c, res.cost = some c ∧ (c.2 = 0 ∨ c.2 < limit + 1e-12)

theorem unitary_of_mul {A B C : Matrix (Fin d) (Fin d) ℂ} (hB : B ∈ unitaryGroup (Fin d) ℂ) (hC : C ∈ unitaryGroup (Fin d) ℂ) (h : A * B = C) :
    A ∈ unitaryGroup (Fin d) ℂ := by
  have h1 := (mem_unitaryGroup_iff).1 hB
  have : A = C * star B := by rw [← h, mul_assoc, h1, mul_one]
  rw [this]
  exact mul_mem hC (Unitary.star_mem hB)

theorem near_mul_frame {e : ℝ} (h : Device d g lp) {A : Matrix (Fin d) (Fin d) ℂ} (hA : Near e A (frame d g)) : NearOne e (A * (frame d g)ᴴ) := by
  intro i j
  have h1 := (mem_unitaryGroup_iff).1 (frame_unitary h)
  rw [star_eq_conjTranspose] at h1
  have e1 : (A * (frame d g)ᴴ) i j - (1 : Matrix (Fin d) (Fin d) ℂ) i j = ((A - frame d g) * (frame d g)ᴴ) i j := by
    rw [sub_mul, h1]; rfl
  rw [e1, Matrix.mul_apply, Finset.sum_eq_single (lp.symm j)]
  · rw [conjTranspose_apply, frame_eq h, mul_diagonal]
    unfold relabelling
    rw [Equiv.apply_symm_apply, if_pos rfl, one_mul, norm_mul, norm_star, mul_comm I, Complex.norm_exp_ofReal_mul_I, mul_one]
    rw [frame_eq h] at hA
    exact hA i _
  · intro k _ hk
    rw [conjTranspose_apply, frame_eq h, mul_diagonal]
    unfold relabelling
    rw [if_neg, zero_mul, star_zero, mul_zero]
    rintro rfl
    exact hk (by simp)
  · simp

theorem phySearch_ok {K : LGraph → Prop} {tau : ℝ} (htau : 0 ≤ tau) (hb : BlockOk sp d g K) (hk : KindOk d g tau K) (hK : K g.phaseStoringSetup)
    (h : Device d g lp) (q : Int) (hoff : 0 ≤ off) (hdel : 0 ≤ del) (zProp : Bool) (limit : ℝ × ℝ) (u : Arr2 ℂ) (hu : Square d u) (fuel : Nat)
    (hf : 0 < fuel) :
    (phyAda fuel sp q d off del zProp limit u g = .error .recursion ∧ fuel * 8e-5 ≤ limit.2 + 1e-12) ∨
    (phyAda fuel sp q d off del zProp limit u g = .ok ⟨[], none, some g.phaseStoringSetup⟩ ∧
      ¬ Leads off phyTriples (phyStep sp d) ⟨⟨none, u, limit, []⟩, some g.phaseStoringSetup, 0⟩) ∨
    ∃ res g1 lp1, phyAda fuel sp q d off del zProp limit u g = .ok res ∧
      PhyOut d K g (u.toM d) (qrError d off del + if zProp then 0 else tau) zProp limit.2 res g1 lp1 := by
  have hI : PhyInv d K ⟨⟨none, u, limit, []⟩, some g.phaseStoringSetup, 0⟩ := ⟨hu, _, rfl, hK⟩
  rcases search_ok (off := off) (phyStep_ok hb) fuel (phyExtract q d off del zProp) limit u g hI with ⟨e1, e2⟩ | e | ⟨p, l, c1, c2, c3, c4, c5⟩
  · exact Or.inl ⟨e1, depth_fuel fuel hf _ rfl fun n hn => e2 Depth n (fun n c c' => depth_step n c c') hn⟩
  · exact Or.inr (Or.inl e)
  · right; right
    obtain ⟨f1, ⟨f2, gl, f2', f2''⟩, f3, f4, f5⟩ := chain_follows p _ l hI c1 c2 c3
    have f2 : Square d l.data.u := f2
    have f2' : l.graph = some gl := f2'
    obtain ⟨E, g1, lp1, x1, x2, x3, x4, x5, x6, x7, x8⟩ := phyExtract_ok htau hk f2'' q hoff hdel zProp p l c3 f2 c4
    have hres : phyAda fuel sp q d off del zProp limit u g = .ok ⟨nodeGates q d p ++ E, some (l.cost, l.dcost), some g1⟩ := by
      unfold phyAda
      rw [c5, f2', x1]
      rfl
    have hN := f1 q
    have hΦ0 : framed d ⟨⟨none, u, limit, []⟩, some g.phaseStoringSetup, 0⟩ = frame d g * u.toM d := by
      unfold framed
      simp only [Option.getD_some]
      rw [frame_setup h]
    have hΦl : framed d (core l) = frame d gl * l.data.u.toM d := by
      unfold framed core
      simp only [f2', Option.getD_some]
    rw [hΦ0, hΦl] at hN
    obtain ⟨⟨lpl, hdl⟩, _⟩ := hk gl f2''
    have hNu := unitary_of_mul (mul_mem (frame_unitary h) hu.unitary) (mul_mem (frame_unitary hdl) f2.unitary) hN
    refine ⟨_, g1, lp1, hres, rfl, x3.2.1, ⟨gl, f2'', x3.1, x3.2.2, (phyExtract_same x1).1⟩, x4, ?_, ?_, x6, ?_, ?_, ?_⟩
    · intro x hx
      rcases List.mem_append.1 hx with hx | hx
      · obtain ⟨r, rfl, data, hr⟩ := f3 q x hx
        exact Or.inl ⟨r.par, data, rfl, hr⟩
      · cases zProp with
        | true => rw [x5 rfl] at hx; cases hx
        | false => exact Or.inr ⟨rfl, (x2 x hx).1⟩
    · intro x hx
      rcases List.mem_append.1 hx with hx | hx
      · obtain ⟨r, rfl, _⟩ := f3 q x hx
        rfl
      · exact (x2 x hx).2
    · rw [circuitOp_append]
      refine mul_mem ?_ hNu
      exact x7
    · rw [circuitOp_append, mul_assoc, hN]
      exact x8
    · refine ⟨_, rfl, ?_⟩
      rcases f5 with f5 | f5
      · exact Or.inl (congrArg Core.dcost f5)
      · exact Or.inr f5

end Qudits.Adaptive
