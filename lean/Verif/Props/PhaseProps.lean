import Verif.Lemmas.PhasePasses
import Verif.Props.GateLawProps
/-
C29: propagating virtual Z rotations along one line.
-/
namespace Qudits
open Spec Matrix Complex PhasePass

/-- C29. For every sequence of rotations and virtual Z rotations on one line, in both directions: the result consists of
the rotations of the sequence in the same order on the same levels with the same angle (as the constructor stores it),
and one virtual Z rotation per level; all of them are again gates of these two classes on the line; and putting the
virtual Z rotations at the requested end gives the operator of the original sequence. -/
theorem C29_propagate (d : Nat) (q : Int) (line : List PInstr) (hne : line ≠ []) (hl : ∀ g ∈ line, PhaseGate d q g)
    (back : Bool) :
    ∃ rots zs, propagateZ line back = .ok (rots, zs) ∧
      circuitOp (lineOp d) (if back then zs ++ rots else rots ++ zs) = circuitOp (lineOp d) line ∧
      (∀ g ∈ rots ++ zs, PhaseGate d q g) ∧
      List.Forall₂ SameRot (rotations line) rots ∧
      List.Forall₂ (fun (i : Nat) g => ∃ p, g.kind = .virtRz p ∧ p.levA = (i : Int)) (List.range d) zs := by
  obtain ⟨g0, rest, rfl⟩ := List.exists_cons_of_ne_nil hne
  have h0 := hl g0 (by simp)
  have hzs : ∀ f : Fin d → ℝ, (∀ g ∈ (angleDict (List.finRange d) f).map (newVirtRz q d), PhaseGate d q g) ∧
      List.Forall₂ (fun (i : Nat) g => ∃ p, g.kind = .virtRz p ∧ p.levA = (i : Int)) (List.range d)
        ((angleDict (List.finRange d) f).map (newVirtRz q d)) := by
    intro f
    constructor
    · intro g hg
      unfold angleDict at hg
      rw [List.map_map, List.mem_map] at hg
      obtain ⟨a, _, rfl⟩ := hg
      change PhaseGate d q (newVirtRz q d (((a : Nat) : Int), f a))
      rw [newVirtRz_eq]
      exact ⟨rfl, rfl, rfl, rfl, Or.inr ⟨_, rfl, by simp, by simp⟩⟩
    · unfold angleDict
      rw [← List.map_coe_finRange_eq_range, List.map_map, List.forall₂_map_left_iff, List.forall₂_map_right_iff]
      rw [List.forall₂_same]
      intro a _
      change ∃ p, (newVirtRz q d (((a : Nat) : Int), f a)).kind = _ ∧ _
      rw [newVirtRz_eq]
      exact ⟨_, rfl, rfl⟩
  have hzop : ∀ f : Fin d → ℝ, circuitOp (lineOp d) ((angleDict (List.finRange d) f).map (newVirtRz q d)) = zdiag f := by
    intro f
    rw [zseq_op q f _ (List.nodup_finRange d), zdiag]
    congr 1
    funext i
    rw [if_pos (List.mem_finRange i)]
  cases back with
  | false =>
    obtain ⟨f, rs, h1, h2, h3, h4⟩ := forward q (g0 :: rest) hl
    refine ⟨rs, _, ?_, ?_, ?_, h3, (hzs f).2⟩
    · unfold propagateZ
      dsimp only
      rw [h0.1, h0.2.1, zeroAngles_eq]
      dsimp only
      rw [if_neg (by simp), h1]
      rfl
    · rw [if_neg (by simp), circuitOp_append, hzop, h4]
    · intro g hg
      rcases List.mem_append.1 hg with h | h
      · exact h2 g h
      · exact (hzs f).1 g h
  | true =>
    obtain ⟨f, rs, h1, h2, h3, h4⟩ := backward q (g0 :: rest).reverse (fun g hg => hl g (List.mem_reverse.1 hg))
    refine ⟨rs.reverse, _, ?_, ?_, ?_, ?_, (hzs f).2⟩
    · unfold propagateZ
      dsimp only
      rw [h0.1, h0.2.1, zeroAngles_eq]
      dsimp only
      rw [if_pos rfl, h1]
      rfl
    · rw [if_pos rfl, circuitOp_append, hzop]
      unfold circuitOp
      rw [List.map_reverse, List.reverse_reverse, ← h4, List.map_reverse]
    · intro g hg
      rcases List.mem_append.1 hg with h | h
      · exact h2 g (List.mem_reverse.1 h)
      · exact (hzs f).1 g h
    · rw [← List.forall₂_reverse_iff, List.reverse_reverse]
      have : (rotations (g0 :: rest)).reverse = rotations (g0 :: rest).reverse := by
        unfold rotations; rw [List.filter_reverse]
      rw [this]
      exact h3

/-- an empty sequence makes the function fail -/
theorem C29_empty (back : Bool) : propagateZ [] back = .error .indexError := rfl

example : ∀ g ∈ [(⟨.virtRz ⟨1, 0, 1, 0⟩, .one 0, 3, none, false⟩ : PInstr), ⟨.r ⟨0, 2, 1, 0⟩, .one 0, 3, none, false⟩,
    ⟨.r ⟨1, 2, 2, 1⟩, .one 0, 3, none, false⟩], PhaseGate 3 0 g := by
  intro g hg
  simp only [List.mem_cons, List.not_mem_nil, or_false] at hg
  rcases hg with rfl | rfl | rfl
  · exact ⟨rfl, rfl, rfl, rfl, Or.inr ⟨_, rfl, by decide, by decide⟩⟩
  · exact ⟨rfl, rfl, rfl, rfl, Or.inl ⟨_, rfl, by decide, by decide, by decide⟩⟩
  · exact ⟨rfl, rfl, rfl, rfl, Or.inl ⟨_, rfl, by decide, by decide, by decide⟩⟩

/-- a rotation on a qubit, as an instruction -/
noncomputable def qubitR (q : Int) (theta phi : ℝ) (dagger : Bool := false) : PInstr :=
  ⟨.r ⟨0, 1, theta, phi⟩, .one q, 2, none, dagger⟩

theorem qubitR_phase (q : Int) (theta phi : ℝ) : PhaseGate 2 q (qubitR q theta phi) :=
  ⟨rfl, rfl, rfl, rfl, Or.inl ⟨_, rfl, by simp, by simp, by simp⟩⟩

theorem good01 (theta phi : ℝ) : GoodLevels 2 ⟨0, 1, theta, phi⟩ 0 1 := ⟨rfl, rfl, by decide⟩

theorem qubitR_op (q : Int) (theta phi : ℝ) : lineOp 2 (qubitR q theta phi) = twoLevel 0 1 (rot theta phi) :=
  lineOp_r (p := ⟨0, 1, theta, phi⟩) (by rfl) (by rfl) (by rfl) (good01 theta phi)

theorem qubitR_dag_op (q : Int) (theta phi : ℝ) : lineOp 2 (qubitR q theta phi true) = (twoLevel 0 1 (rot theta phi))ᴴ := by
  obtain ⟨A, hA, _, _, h3⟩ := rArray_ok (good01 theta phi)
  unfold lineOp arrayOf qubitR
  dsimp only
  rw [hA]
  dsimp only
  rw [if_pos rfl, h3]

theorem propStep_dagger (q : Int) (d : Nat) (back : Bool) (st : PyDict Int ℝ × List PInstr) (g : PInstr) :
    propStep q d back st { g with dagger := !g.dagger } = propStep q d back st g := rfl

/-- The adjoint mark of a rotation is lost: for the adjoint of a half turn quarter the pass returns the operator of the
rotation itself, which is different. -/
theorem C29_dagger_violated :
    ∃ rots zs, propagateZ [qubitR 0 (Real.pi / 2) 0 true] false = .ok (rots, zs) ∧
      circuitOp (lineOp 2) (rots ++ zs) ≠ circuitOp (lineOp 2) [qubitR 0 (Real.pi / 2) 0 true] := by
  obtain ⟨rots, zs, h1, h2, _⟩ := C29_propagate 2 0 [qubitR 0 (Real.pi / 2) 0] (by simp)
    (by intro g hg; rw [List.mem_singleton] at hg; rw [hg]; exact qubitR_phase _ _ _) false
  refine ⟨rots, zs, h1, ?_⟩
  rw [if_neg (by simp)] at h2
  rw [h2, circuitOp_cons, circuitOp_cons, circuitOp_nil, one_mul, one_mul, qubitR_op, qubitR_dag_op]
  intro h
  have := congrFun (congrFun h 0) 1
  have hs : (Real.sin (Real.pi / 2 / 2)) ≠ 0 := by
    rw [show Real.pi / 2 / 2 = Real.pi / 4 by ring, Real.sin_pi_div_four]
    positivity
  simp [twoLevel, rot, -ofReal_sin, -ofReal_cos] at this
  have h2 : (Real.sin (Real.pi / 2 / 2) : ℂ) = 0 := by
    have h3 : I * (Real.sin (Real.pi / 2 / 2) : ℂ) + I * (Real.sin (Real.pi / 2 / 2) : ℂ) = 0 := by
      linear_combination -this
    have h4 : 2 * I * (Real.sin (Real.pi / 2 / 2) : ℂ) = 0 := by linear_combination h3
    rcases mul_eq_zero.1 h4 with h5 | h5
    · simp at h5
    · exact h5
  exact hs (by exact_mod_cast h2)

/-- Gates of any other class on the line are dropped without a message: a run of two of them becomes one virtual Z
rotation per level. -/
theorem C29_other_dropped (q : Int) (d k k' : Nat) (t t' : Bool) (back : Bool) :
    ∃ zs, propagateZ [⟨.other k, .one q, d, none, t⟩, ⟨.other k', .one q, d, none, t'⟩] back = .ok ([], zs) ∧
      circuitOp (lineOp d) zs = 1 := by
  refine ⟨(zeroAngles d).map (newVirtRz q d), ?_, ?_⟩
  · cases back <;> rfl
  · rw [zeroAngles_eq, zseq_op q _ _ (List.nodup_finRange d)]
    simp

end Qudits
