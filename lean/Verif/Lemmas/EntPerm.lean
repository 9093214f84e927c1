import Verif.Lemmas.EntCrot
import Mathlib.Tactic.Module
/- The controlled rotation of any two neighbouring levels in one block of the first line. -/
namespace Qudits.EntQR
open Matrix Complex Spec LocalQR

variable {P : Pair}

theorem rot_swap : rot Real.pi (-Real.pi / 2) = !![0, 1; -1, 0] := by
  have hII := I_mul_I
  unfold rot
  rw [show I * ((-Real.pi / 2 : ℝ) : ℂ) = -(I * ((Real.pi / 2 : ℝ) : ℂ)) by push_cast; ring, neg_neg, cexp_pi_half, cexp_neg_pi_half]
  ext i j
  fin_cases i <;> fin_cases j <;> simp

theorem rot_swap' : rot (-Real.pi) (Real.pi / 2) = !![0, 1; -1, 0] := by
  rw [rot_y, show -Real.pi / 2 = -(Real.pi / 2) by ring, Real.cos_neg, Real.sin_neg]
  ext i j
  fin_cases i <;> fin_cases j <;> simp

theorem rot_unswap : rot Real.pi (Real.pi / 2) = !![0, -1; 1, 0] := by
  rw [rot_y]
  ext i j
  fin_cases i <;> fin_cases j <;> simp

theorem swap_unitary : (!![0, 1; -1, 0] : Matrix (Fin 2) (Fin 2) ℂ) ∈ unitaryGroup (Fin 2) ℂ := by
  rw [← rot_swap]; exact rot_unitary _ _

theorem unswap_conj : (!![0, -1; 1, 0] : Matrix (Fin 2) (Fin 2) ℂ) = (!![0, 1; -1, 0] : Matrix (Fin 2) (Fin 2) ℂ)ᴴ := by
  ext i j
  fin_cases i <;> fin_cases j <;> simp

/-- the two exchanges that bring levels `x` and `x + 1` to levels 0 and 1 -/
theorem move_fst {n : Nat} (z o x y : Fin n) (hz : (z : Nat) = 0) (ho : (o : Nat) = 1) (hx : (x : Nat) ≠ 0) (hy : (y : Nat) = x + 1) :
    (twoLevel o y !![0, 1; -1, 0] * twoLevel z x !![0, 1; -1, 0]) *ᵥ ev x = ev z ∧
    (twoLevel o y !![0, 1; -1, 0] * twoLevel z x !![0, 1; -1, 0]) *ᵥ ev y = ev o := by
  have h1 : z ≠ x := by rw [Ne, Fin.ext_iff]; omega
  have h2 : o ≠ y := by rw [Ne, Fin.ext_iff]; omega
  have h3 : z ≠ o := by rw [Ne, Fin.ext_iff]; omega
  have h4 : z ≠ y := by rw [Ne, Fin.ext_iff]; omega
  have h5 : y ≠ z := by rw [Ne, Fin.ext_iff]; omega
  have h6 : y ≠ x := by rw [Ne, Fin.ext_iff]; omega
  constructor
  · rw [← mulVec_mulVec, twoLevel_snd _ h1]
    simp [twoLevel_oth _ h3 h4]
  · rw [← mulVec_mulVec, twoLevel_oth _ h5 h6, twoLevel_snd _ h2]
    simp

theorem onSecond_mul {c t : Nat} (A B : Matrix (Fin t) (Fin t) ℂ) : onSecond c A * onSecond c B = onSecond c (A * B) := by
  rw [onSecond_eq, onSecond_eq, ctlAll_mul]; rfl

theorem onSecond_conjTranspose {c t : Nat} (A : Matrix (Fin t) (Fin t) ℂ) : (onSecond c A)ᴴ = onSecond c Aᴴ := by
  rw [onSecond_eq, ctlAll_conjTranspose]; rfl

theorem onSecond_unitary {c t : Nat} (A : Matrix (Fin t) (Fin t) ℂ) (h : A ∈ unitaryGroup (Fin t) ℂ) :
    onSecond c A ∈ unitaryGroup (Fin (c * t)) ℂ := by
  rw [onSecond_eq]; exact ctlAll_unitary _ fun _ => h

theorem onSecond_to {c t : Nat} (A : Matrix (Fin t) (Fin t) ℂ) (k : Fin c) (l m : Fin t) (s : ℂ) (h : A *ᵥ ev l = s • ev m) :
    onSecond c A *ᵥ ev (jn k l) = s • ev (jn k m) := by
  rw [onSecond_ev _ _ _ _ h]
  refine vec_ext fun k' l' => ?_
  simp only [jn_div, jn_mod, Pi.smul_apply, ev_jn, ev_apply]
  by_cases hk : k' = k <;> by_cases hl : l' = m <;> simp [hk, hl, jn_inj]

theorem onFirst_to {c t : Nat} (A : Matrix (Fin c) (Fin c) ℂ) (k m : Fin c) (l : Fin t) (s : ℂ) (h : A *ᵥ ev k = s • ev m) :
    onFirst t A *ᵥ ev (jn k l) = s • ev (jn m l) := by
  rw [onFirst_ev _ _ _ _ h]
  refine vec_ext fun k' l' => ?_
  simp only [jn_div, jn_mod, Pi.smul_apply, ev_jn, ev_apply]
  by_cases hk : k' = m <;> by_cases hl : l' = l <;> simp [hk, hl, jn_inj]

/-- a marked copy of a gate -/
theorem block_dag {g : EGate} {M : Matrix (Fin (P.c * P.t)) (Fin (P.c * P.t)) ℂ} (h : Block P [g] M 0) (hp : g.dagger = false)
    (hbig : ¬(P.c = 2 ∧ P.t = 2)) : Block P [g.dag] Mᴴ 0 := by
  have hg := h.good g (by simp)
  refine ⟨by simpa using good_dag g hg, ?_, ?_, fun h1 h2 => absurd ⟨h1, h2⟩ hbig⟩
  · rw [← h.op, circuitOp_cons, circuitOp_nil, circuitOp_cons, circuitOp_nil, one_mul, one_mul, pairOp_dag g hp hg]
  · have := h.count
    cases g <;> simp_all [entangling, EGate.dag]

/-- the gates that move two neighbouring levels of the second line -/
theorem move_second (hq : P.q0 ≠ P.q1) (z o x y : Fin P.t) (hz : (z : Nat) = 0) (ho : (o : Nat) = 1) (hx : (x : Nat) ≠ 0) (hy : (y : Nat) = x + 1) :
    ∃ p0 p1 Q, mkR P.q1 P.t 0 ((x : Nat) : Int) Real.pi (-Real.pi / 2) = .ok p0 ∧
      mkR P.q1 P.t 1 (((x : Nat) + 1 : Nat) : Int) (-Real.pi) (Real.pi / 2) = .ok p1 ∧
      Q ∈ unitaryGroup (Fin (P.c * P.t)) ℂ ∧ Block P [p0, p1] Q 0 ∧ Block P [p1.dag, p0.dag] Qᴴ 0 ∧
      (∀ k, Q *ᵥ ev (jn k x) = ev (jn k z)) ∧ (∀ k, Q *ᵥ ev (jn k y) = ev (jn k o)) := by
  have hzx : z < x := by rw [Fin.lt_def]; omega
  have hoy : o < y := by rw [Fin.lt_def]; omega
  have hbig : ¬(P.c = 2 ∧ P.t = 2) := by have := y.isLt; omega
  obtain ⟨p0, e0, f0, b0⟩ := blkR_second hq z x hzx Real.pi (-Real.pi / 2)
  obtain ⟨p1, e1, f1, b1⟩ := blkR_second hq o y hoy (-Real.pi) (Real.pi / 2)
  rw [rot_swap] at b0
  rw [rot_swap'] at b1
  obtain ⟨m1, m2⟩ := move_fst z o x y hz ho hx hy
  refine ⟨p0, p1, onSecond P.c (twoLevel o y !![0, 1; -1, 0] * twoLevel z x !![0, 1; -1, 0]), ?_, ?_, ?_, ?_, ?_, ?_, ?_⟩
  · rw [← e0, hz]; rfl
  · rw [← e1, ho, hy]; rfl
  · rw [← onSecond_mul]
    exact mul_mem (onSecond_unitary _ (twoLevel_unitary _ hoy.ne swap_unitary)) (onSecond_unitary _ (twoLevel_unitary _ hzx.ne swap_unitary))
  · rw [← onSecond_mul]; exact b0.append b1
  · rw [← onSecond_mul, conjTranspose_mul]; exact (block_dag b1 f1 hbig).append (block_dag b0 f0 hbig)
  · intro k
    have := onSecond_to _ k x z 1 (by rw [m1, one_smul])
    rw [this, one_smul]
  · intro k
    have := onSecond_to _ k y o 1 (by rw [m2, one_smul])
    rw [this, one_smul]

theorem move_first (z o x y : Fin P.c) (hz : (z : Nat) = 0) (ho : (o : Nat) = 1) (hx : (x : Nat) ≠ 0) (hy : (y : Nat) = x + 1) :
    ∃ p0 p1 Q, mkR P.q0 P.c 0 ((x : Nat) : Int) Real.pi (-Real.pi / 2) = .ok p0 ∧
      mkR P.q0 P.c 1 (((x : Nat) + 1 : Nat) : Int) (-Real.pi) (Real.pi / 2) = .ok p1 ∧
      Q ∈ unitaryGroup (Fin (P.c * P.t)) ℂ ∧ Block P [p0, p1] Q 0 ∧ Block P [p1.dag, p0.dag] Qᴴ 0 ∧
      (∀ l, Q *ᵥ ev (jn x l) = ev (jn z l)) ∧ (∀ l, Q *ᵥ ev (jn y l) = ev (jn o l)) := by
  have hzx : z < x := by rw [Fin.lt_def]; omega
  have hoy : o < y := by rw [Fin.lt_def]; omega
  have hbig : ¬(P.c = 2 ∧ P.t = 2) := by have := y.isLt; omega
  obtain ⟨p0, e0, f0, b0⟩ := blkR_first (P := P) z x hzx.ne Real.pi (-Real.pi / 2)
  obtain ⟨p1, e1, f1, b1⟩ := blkR_first (P := P) o y hoy.ne (-Real.pi) (Real.pi / 2)
  rw [min_eq_left hzx.le, max_eq_right hzx.le, rot_swap] at b0
  rw [min_eq_left hoy.le, max_eq_right hoy.le, rot_swap'] at b1
  obtain ⟨m1, m2⟩ := move_fst z o x y hz ho hx hy
  refine ⟨p0, p1, onFirst P.t (twoLevel o y !![0, 1; -1, 0] * twoLevel z x !![0, 1; -1, 0]), ?_, ?_, ?_, ?_, ?_, ?_, ?_⟩
  · rw [← e0, hz]; rfl
  · rw [← e1, ho, hy]; rfl
  · rw [← onFirst_mul]
    exact mul_mem (onFirst_unitary _ (twoLevel_unitary _ hoy.ne swap_unitary)) (onFirst_unitary _ (twoLevel_unitary _ hzx.ne swap_unitary))
  · rw [← onFirst_mul]; exact b0.append b1
  · rw [← onFirst_mul, conjTranspose_mul]; exact (block_dag b1 f1 hbig).append (block_dag b0 f0 hbig)
  · intro l
    have := onFirst_to _ x z l 1 (by rw [m1, one_smul])
    rw [this, one_smul]
  · intro l
    have := onFirst_to _ y o l 1 (by rw [m2, one_smul])
    rw [this, one_smul]

/-- the gates that move a level of the first line to level 1 -/
theorem control_first (o x : Fin P.c) (ho : (o : Nat) = 1) (hx : (x : Nat) ≠ 1) :
    ∃ p p' Q s, mkR P.q0 P.c 1 ((x : Nat) : Int) Real.pi (-Real.pi / 2) = .ok p ∧
      mkR P.q0 P.c 1 ((x : Nat) : Int) Real.pi (Real.pi / 2) = .ok p' ∧
      Q ∈ unitaryGroup (Fin (P.c * P.t)) ℂ ∧ Block P [p] Q 0 ∧ Block P [p'] Qᴴ 0 ∧ ∀ l, Q *ᵥ ev (jn x l) = (s : ℂ) • ev (jn o l) := by
  have hox : o ≠ x := by rw [Ne, Fin.ext_iff]; omega
  have hmm : min o x ≠ max o x := by
    rcases lt_or_gt_of_ne hox with h | h
    · rw [min_eq_left h.le, max_eq_right h.le]; exact h.ne
    · rw [min_eq_right h.le, max_eq_left h.le]; exact h.ne
  obtain ⟨p, e, _, b⟩ := blkR_first (P := P) o x hox Real.pi (-Real.pi / 2)
  obtain ⟨p', e', _, b'⟩ := blkR_first (P := P) o x hox Real.pi (Real.pi / 2)
  rw [rot_swap] at b
  rw [rot_unswap, unswap_conj, ← twoLevel_conjTranspose _ hmm, ← onFirst_conjTranspose] at b'
  rw [ho] at e e'
  have hto : ∃ s : ℂ, twoLevel (min o x) (max o x) !![0, 1; -1, 0] *ᵥ ev x = s • ev o := by
    rcases lt_or_gt_of_ne hox with h | h
    · rw [min_eq_left h.le, max_eq_right h.le]
      refine ⟨1, ?_⟩
      rw [twoLevel_snd _ hox]; simp
    · rw [min_eq_right h.le, max_eq_left h.le]
      refine ⟨-1, ?_⟩
      rw [twoLevel_fst _ hox.symm]; simp
  obtain ⟨s, hs⟩ := hto
  exact ⟨p, p', _, s, e, e', onFirst_unitary _ (twoLevel_unitary _ hmm swap_unitary), b, b', fun l => onFirst_to _ x o l s hs⟩

/-- a block between a change of levels and its inverse -/
theorem Block.conj {there l back : List EGate} {Q : Matrix (Fin (P.c * P.t)) (Fin (P.c * P.t)) ℂ} {a b a' b' : Fin (P.c * P.t)}
    {M : Matrix (Fin 2) (Fin 2) ℂ} {n : Nat} (hab : a ≠ b) (hab' : a' ≠ b')
    (h1 : Block P there Q 0) (h2 : Block P l (twoLevel a' b' M) n) (h3 : Block P back Qᴴ 0) (hQ : Q ∈ unitaryGroup (Fin (P.c * P.t)) ℂ)
    (s : ℂ) (ha : Q *ᵥ ev a = s • ev a') (hb : Q *ᵥ ev b = s • ev b') : Block P (there ++ l ++ back) (twoLevel a b M) n := by
  have h := (h1.append h2).append h3
  rw [← mul_assoc, twoLevel_conj M hab hab' Q hQ s ha hb] at h
  simpa using h

theorem permuteCrot_ok (hq : P.q0 ≠ P.q1) (hc : 2 ≤ P.c) (x : Fin P.c) (y y' : Fin P.t) (hy : (y' : Nat) = y + 1) (theta phi : ℝ) :
    ∃ l, permuteCrot P (jn x y : Fin (P.c * P.t)) theta phi = .ok l ∧ Block P l (twoLevel (jn x y) (jn x y') (rot theta phi)) 2 := by
  have ht : 2 ≤ P.t := by have := y'.isLt; omega
  obtain ⟨l, hl, bl⟩ := crot_ok hq ⟨1, by omega⟩ (⟨0, by omega⟩ : Fin P.t) ⟨1, by omega⟩ rfl rfl rfl theta phi
  have hdiv : ((jn x y : Fin (P.c * P.t)) : Nat) / P.t = x := by
    rw [jn_val, mul_comm, Nat.mul_add_div (by omega), Nat.div_eq_of_lt y.isLt, add_zero]
  have hmod : ((jn x y : Fin (P.c * P.t)) : Nat) - P.t * x = y := by
    rw [jn_val, mul_comm]; omega
  have hne : (jn x y : Fin (P.c * P.t)) ≠ jn x y' := by
    intro h; have := (jn_inj.1 h).2; rw [Fin.ext_iff] at this; omega
  have hne' : ∀ k : Fin P.c, (jn k (⟨0, by omega⟩ : Fin P.t) : Fin (P.c * P.t)) ≠ jn k ⟨1, by omega⟩ := by
    intro k h; have := (jn_inj.1 h).2; rw [Fin.ext_iff] at this; simp at this
  unfold permuteCrot
  simp only []
  rw [hdiv, hmod, hl]
  simp only [bind, Except.bind, pure, Except.pure]
  by_cases h1 : (x : Nat) = 1 ∧ (y : Nat) = 0
  · rw [if_pos h1]
    refine ⟨l, rfl, ?_⟩
    have ex : x = ⟨1, by omega⟩ := Fin.ext h1.1
    have ey : y = ⟨0, by omega⟩ := Fin.ext h1.2
    have ey' : y' = ⟨1, by omega⟩ := Fin.ext (by rw [hy, h1.2])
    rw [ex, ey, ey']; exact bl
  rw [if_neg h1]
  by_cases hy0 : (y : Nat) = 0
  · have hx1 : (x : Nat) ≠ 1 := fun h => h1 ⟨h, hy0⟩
    obtain ⟨p, p', Q, s, e, e', hQ, b, b', hs⟩ := control_first (P := P) ⟨1, by omega⟩ x rfl hx1
    rw [if_neg (by simpa using hy0)]
    rw [if_pos hx1, e]
    simp only []
    rw [e']
    refine ⟨_, rfl, ?_⟩
    have ey : y = ⟨0, by omega⟩ := Fin.ext hy0
    have ey' : y' = ⟨1, by omega⟩ := Fin.ext (by rw [hy, hy0])
    refine Block.conj hne (hne' _) b bl b' hQ s ?_ ?_
    · rw [hs, ey]
    · rw [hs, ey']
  · obtain ⟨p0, p1, Q, e0, e1, hQ, b, b', m1, m2⟩ := move_second hq ⟨0, by omega⟩ ⟨1, by omega⟩ y y' rfl rfl hy0 hy
    rw [if_pos hy0, e0]
    simp only []
    rw [e1]
    simp only []
    by_cases hx1 : (x : Nat) = 1
    · rw [if_neg (by simpa using hx1)]
      refine ⟨_, rfl, ?_⟩
      have ex : x = ⟨1, by omega⟩ := Fin.ext hx1
      refine Block.conj hne (hne' _) b bl b' hQ 1 ?_ ?_
      · rw [m1, one_smul, ex]
      · rw [m2, one_smul, ex]
    · obtain ⟨p, p', R, s, e, e', hR, c, c', hs⟩ := control_first (P := P) ⟨1, by omega⟩ x rfl hx1
      rw [if_pos hx1, e]
      simp only []
      rw [e']
      refine ⟨_, rfl, ?_⟩
      have bb := b.append c
      have bb' := c'.append b'
      rw [← conjTranspose_mul] at bb'
      refine Block.conj hne (hne' _) bb bl bb' (mul_mem hR hQ) s ?_ ?_
      · rw [← mulVec_mulVec, m1, hs]
      · rw [← mulVec_mulVec, m2, hs]

theorem zFromCrot_ok (hq : P.q0 ≠ P.q1) (hc : 2 ≤ P.c) (x : Fin P.c) (y y' : Fin P.t) (hy : (y' : Nat) = y + 1) (phi : ℝ) :
    ∃ l, zFromCrot P (jn x y : Fin (P.c * P.t)) phi = .ok l ∧ Block P l (twoLevel (jn x y) (jn x y') (zrot phi)) 6 := by
  have hne : (jn x y : Fin (P.c * P.t)) ≠ jn x y' := by
    intro h; have := (jn_inj.1 h).2; rw [Fin.ext_iff] at this; omega
  obtain ⟨l1, e1, b1⟩ := permuteCrot_ok hq hc x y y' hy (Real.pi / 2) 0
  obtain ⟨l2, e2, b2⟩ := permuteCrot_ok hq hc x y y' hy phi (Real.pi / 2)
  obtain ⟨l3, e3, b3⟩ := permuteCrot_ok hq hc x y y' hy (-Real.pi / 2) 0
  have b := (b3.append b2).append b1
  rw [twoLevel_mul _ _ hne, twoLevel_mul _ _ hne, ← mul_assoc, rz_two] at b
  refine ⟨_, ?_, b⟩
  unfold zFromCrot
  rw [e1, e2, e3]
  rfl

end Qudits.EntQR
