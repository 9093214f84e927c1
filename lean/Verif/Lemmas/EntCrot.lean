import Verif.Lemmas.EntGates
/- The controlled rotation of two neighbouring levels. -/
namespace Qudits.EntQR
open Matrix Complex Spec LocalQR

variable {P : Pair}

/-! ### two by two matrices -/

theorem sqrt_sq : ((Real.sqrt 2 / 2 : ℝ) : ℂ) ^ 2 = 1 / 2 := by rw [pow_two]; exact sq_half

theorem cexp_mul_neg (x : ℝ) : cexp (I * x) * cexp (-(I * x)) = 1 := by
  rw [← Complex.exp_add]; simp

theorem cexp_sub_half (phi : ℝ) : cexp (I * ((phi - Real.pi / 2 : ℝ) : ℂ)) = -I * cexp (I * phi) ∧
    cexp (-(I * ((phi - Real.pi / 2 : ℝ) : ℂ))) = I * cexp (-(I * phi)) := by
  constructor
  · rw [show I * ((phi - Real.pi / 2 : ℝ) : ℂ) = I * phi + -(I * ((Real.pi / 2 : ℝ) : ℂ)) by push_cast; ring, Complex.exp_add,
      cexp_neg_pi_half]
    ring
  · rw [show -(I * ((phi - Real.pi / 2 : ℝ) : ℂ)) = -(I * phi) + I * ((Real.pi / 2 : ℝ) : ℂ) by push_cast; ring, Complex.exp_add,
      cexp_pi_half]
    ring

theorem frame_there (phi : ℝ) : rot (Real.pi / 2) (phi - Real.pi / 2) =
    ((Real.sqrt 2 / 2 : ℝ) : ℂ) • !![1, cexp (-(I * phi)); -cexp (I * phi), 1] := by
  have hII : I * I = -1 := I_mul_I
  unfold rot
  rw [(cexp_sub_half phi).1, (cexp_sub_half phi).2, show Real.pi / 2 / 2 = Real.pi / 4 by ring, Real.cos_pi_div_four, Real.sin_pi_div_four]
  ext i j
  fin_cases i <;> fin_cases j <;> simp
  · linear_combination (-((Real.sqrt 2 : ℂ) / 2) * cexp (-(I * phi))) * hII
  · linear_combination (((Real.sqrt 2 : ℂ) / 2) * cexp (I * phi)) * hII

theorem frame_back (phi : ℝ) : rot (-Real.pi / 2) (phi - Real.pi / 2) =
    ((Real.sqrt 2 / 2 : ℝ) : ℂ) • !![1, -cexp (-(I * phi)); cexp (I * phi), 1] := by
  have hII : I * I = -1 := I_mul_I
  unfold rot
  rw [(cexp_sub_half phi).1, (cexp_sub_half phi).2, show -Real.pi / 2 / 2 = -(Real.pi / 4) by ring, Real.cos_neg, Real.sin_neg,
    Real.cos_pi_div_four, Real.sin_pi_div_four]
  ext i j
  fin_cases i <;> fin_cases j <;> simp
  · linear_combination (((Real.sqrt 2 : ℂ) / 2) * cexp (-(I * phi))) * hII
  · linear_combination (-((Real.sqrt 2 : ℂ) / 2) * cexp (I * phi)) * hII

theorem frame_zrot (theta phi : ℝ) : rot (-Real.pi / 2) (phi - Real.pi / 2) * zrot theta * rot (Real.pi / 2) (phi - Real.pi / 2) = rot theta phi := by
  have hs := sqrt_sq
  have he := cexp_mul_neg phi
  have hc := cexp_I_mul (theta / 2)
  have hc' := cexp_neg_I_mul (theta / 2)
  rw [frame_there, frame_back]
  unfold zrot rot
  rw [hc, hc']
  generalize ((Real.sqrt 2 / 2 : ℝ) : ℂ) = s at *
  generalize ((Real.cos (theta / 2) : ℝ) : ℂ) = x at *
  generalize ((Real.sin (theta / 2) : ℝ) : ℂ) = y at *
  generalize cexp (-(I * phi)) = e' at *
  generalize cexp (I * phi) = e at *
  ext i j
  fin_cases i <;> fin_cases j <;> simp [Matrix.mul_apply, Fin.sum_univ_two]
  · linear_combination (2 * x) * hs + s ^ 2 * (x + y * I) * he
  · linear_combination (-2 * y * I * e') * hs
  · linear_combination (-2 * y * I * e) * hs
  · linear_combination (2 * x) * hs + s ^ 2 * (x - y * I) * he

theorem zrot_add (a b : ℝ) : zrot a * zrot b = zrot (a + b) := by
  unfold zrot
  ext i j
  fin_cases i <;> fin_cases j <;> simp [Matrix.mul_apply, Fin.sum_univ_two]
  · rw [← Complex.exp_add]; congr 1; ring
  · rw [← Complex.exp_add]; congr 1; ring

theorem zrot_zero : zrot 0 = 1 := by
  unfold zrot
  ext i j
  fin_cases i <;> fin_cases j <;> simp

theorem ph_pi : ph Real.pi = !![-1, 0; 0, 1] := by
  unfold ph
  rw [show -I * ((Real.pi : ℝ) : ℂ) = -(I * ((Real.pi : ℝ) : ℂ)) by ring, cexp_neg_I_mul]
  simp

theorem ph_neg_pi : ph (-Real.pi) = !![-1, 0; 0, 1] := by
  unfold ph
  rw [show -I * ((-Real.pi : ℝ) : ℂ) = I * ((Real.pi : ℝ) : ℂ) by push_cast; ring, cexp_I_mul]
  simp

theorem ph_comm (z : ℝ) : !![-1, 0; 0, 1] * zrot z * !![-1, 0; 0, 1] = zrot z := by
  unfold zrot
  ext i j
  fin_cases i <;> fin_cases j <;> simp [Matrix.mul_apply, Fin.sum_univ_two]

theorem inner_other (theta : ℝ) : ph Real.pi * zrot (theta / 2) * zrot (-theta / 2) * ph (-Real.pi) = 1 := by
  rw [ph_pi, ph_neg_pi, mul_assoc (!![-1, 0; 0, 1] : Matrix (Fin 2) (Fin 2) ℂ), zrot_add, ph_comm,
    show theta / 2 + -theta / 2 = 0 by ring, zrot_zero]

theorem inner_ctl (theta : ℝ) :
    ph Real.pi * zrot (theta / 2) * cexOp 0 * zrot (-theta / 2) * ph (-Real.pi) * cexOp 0 = zrot theta := by
  have hII : I * I = -1 := I_mul_I
  rw [ph_pi, ph_neg_pi]
  have e1 : (cexOp 0 : Matrix (Fin 2) (Fin 2) ℂ) = !![0, -I; -I, 0] := by
    unfold cexOp; simp
  have e2 : ∀ z, !![0, -I; -I, 0] * zrot (-z) * !![-1, 0; 0, 1] * !![0, -I; -I, 0] = !![-1, 0; 0, 1] * zrot z := by
    intro z
    unfold zrot
    ext i j
    fin_cases i <;> fin_cases j <;> simp [Matrix.mul_apply, Fin.sum_univ_two, neg_div]
    · linear_combination cexp (-(I * (z / 2))) * hII
    · linear_combination -cexp (I * (z / 2)) * hII
  rw [e1, mul_assoc (_ * zrot (theta / 2)), mul_assoc (_ * zrot (theta / 2)), mul_assoc (_ * zrot (theta / 2)),
    show -theta / 2 = -(theta / 2) by ring, e2, ← mul_assoc, ph_comm, zrot_add]
  congr 1; ring

/-! ### the controlled rotation of levels 0 and 1 -/

/-- a list of good gates with a given product and number of controlled exchanges -/
structure Block (P : Pair) (l : List EGate) (M : Matrix (Fin (P.c * P.t)) (Fin (P.c * P.t)) ℂ) (n : Nat) : Prop where
  good : ∀ g ∈ l, Good P g
  op : circuitOp (pairOp P) l = M
  count : entangling l = n
  plain : P.c = 2 → P.t = 2 → ∀ g ∈ l, g.dagger = false

theorem entangling_append (l m : List EGate) : entangling (l ++ m) = entangling l + entangling m := by
  simp [entangling]

theorem Block.append {l m : List EGate} {M N : Matrix (Fin (P.c * P.t)) (Fin (P.c * P.t)) ℂ} {a b : Nat} (h : Block P l M a) (h' : Block P m N b) :
    Block P (l ++ m) (N * M) (a + b) := by
  refine ⟨?_, ?_, ?_, ?_⟩
  · intro g hg
    rcases List.mem_append.1 hg with hg | hg
    · exact h.good g hg
    · exact h'.good g hg
  · rw [circuitOp_append, h.op, h'.op]
  · rw [entangling_append, h.count, h'.count]
  · intro h1 h2 g hg
    rcases List.mem_append.1 hg with hg | hg
    · exact h.plain h1 h2 g hg
    · exact h'.plain h1 h2 g hg

theorem Block.nil : Block P [] 1 0 := ⟨by simp, circuitOp_nil _, rfl, by simp⟩

/-- a single one-line gate -/
theorem Gives.block {k : OneKind} {q : Int} {d : Nat} {b : Bool} {M : Matrix (Fin (P.c * P.t)) (Fin (P.c * P.t)) ℂ}
    (h : Gives P (.one k q d b) M) : Block P [.one k q d b] M 0 := by
  refine ⟨by simpa using h.good, ?_, rfl, ?_⟩
  · rw [circuitOp_cons, circuitOp_nil, one_mul, h.op]
  · intro _ _ g hg; rw [List.mem_singleton] at hg; subst hg; exact h.plain

theorem Gives.blockCEx {g : CExParams} {q0 q1 : Int} {d0 d1 : Nat} {b : Bool} {M : Matrix (Fin (P.c * P.t)) (Fin (P.c * P.t)) ℂ}
    (h : Gives P (.cex g q0 q1 d0 d1 b) M) : Block P [.cex g q0 q1 d0 d1 b] M 1 := by
  refine ⟨by simpa using h.good, ?_, rfl, ?_⟩
  · rw [circuitOp_cons, circuitOp_nil, one_mul, h.op]
  · intro _ _ g hg; rw [List.mem_singleton] at hg; subst hg; exact h.plain

/-- the gates as blocks of one -/
theorem blkR_first (a b : Fin P.c) (hab : a ≠ b) (theta phi : ℝ) :
    ∃ g, mkR P.q0 P.c (a : Nat) (b : Nat) theta phi = .ok g ∧ g.dagger = false ∧
      Block P [g] (onFirst P.t (twoLevel (min a b) (max a b) (rot theta phi))) 0 := by
  obtain ⟨g, h1, h2⟩ := mkR_first (P := P) a b hab theta phi
  have h1' := h1
  unfold mkR at h1'
  cases h : newRot P.c (a : Nat) (b : Nat) theta phi with
  | error e => rw [h] at h1'; cases h1'
  | ok w =>
    rw [h] at h1'
    cases h1'
    exact ⟨_, h1, h2.plain, h2.block⟩

theorem blkR_second (hq : P.q0 ≠ P.q1) (a b : Fin P.t) (hab : a < b) (theta phi : ℝ) :
    ∃ g, mkR P.q1 P.t (a : Nat) (b : Nat) theta phi = .ok g ∧ g.dagger = false ∧
      Block P [g] (onSecond P.c (twoLevel a b (rot theta phi))) 0 := by
  obtain ⟨g, h1, h2⟩ := mkR_second hq a b hab theta phi
  have h1' := h1
  unfold mkR at h1'
  cases h : newRot P.t (a : Nat) (b : Nat) theta phi with
  | error e => rw [h] at h1'; cases h1'
  | ok w =>
    rw [h] at h1'
    cases h1'
    exact ⟨_, h1, h2.plain, h2.block⟩

theorem blkRz_first (a b : Fin P.c) (hab : a < b) (phi : ℝ) :
    ∃ g, mkRz P.q0 P.c (a : Nat) (b : Nat) phi = .ok g ∧ Block P [g] (onFirst P.t (twoLevel a b (zrot phi))) 0 := by
  obtain ⟨g, h1, h2⟩ := mkRz_first (P := P) a b hab phi
  have h1' := h1
  unfold mkRz at h1'
  cases h : rzInit P.c (.list [.int (a : Nat), .int (b : Nat), .flt phi]) with
  | error e => rw [h] at h1'; cases h1'
  | ok w =>
    rw [h] at h1'
    cases h1'
    exact ⟨_, h1, h2.block⟩

theorem blkRz_second (hq : P.q0 ≠ P.q1) (a b : Fin P.t) (hab : a < b) (phi : ℝ) :
    ∃ g, mkRz P.q1 P.t (a : Nat) (b : Nat) phi = .ok g ∧ Block P [g] (onSecond P.c (twoLevel a b (zrot phi))) 0 := by
  obtain ⟨g, h1, h2⟩ := mkRz_second hq a b hab phi
  have h1' := h1
  unfold mkRz at h1'
  cases h : rzInit P.t (.list [.int (a : Nat), .int (b : Nat), .flt phi]) with
  | error e => rw [h] at h1'; cases h1'
  | ok w =>
    rw [h] at h1'
    cases h1'
    exact ⟨_, h1, h2.block⟩

theorem blkRh_first (a b : Fin P.c) (hab : a < b) :
    ∃ g, mkRh P.q0 P.c (a : Nat) (b : Nat) = .ok g ∧ Block P [g] (onFirst P.t (twoLevel a b had)) 0 := by
  obtain ⟨g, h1, h2⟩ := mkRh_first (P := P) a b hab
  have h1' := h1
  unfold mkRh at h1'
  cases h : levelsInit P.c (.list [.int (a : Nat), .int (b : Nat)]) with
  | error e => rw [h] at h1'; cases h1'
  | ok w =>
    rw [h] at h1'
    cases h1'
    exact ⟨_, h1, h2.block⟩

theorem blkRh_second (hq : P.q0 ≠ P.q1) (a b : Fin P.t) (hab : a < b) :
    ∃ g, mkRh P.q1 P.t (a : Nat) (b : Nat) = .ok g ∧ Block P [g] (onSecond P.c (twoLevel a b had)) 0 := by
  obtain ⟨g, h1, h2⟩ := mkRh_second hq a b hab
  have h1' := h1
  unfold mkRh at h1'
  cases h : levelsInit P.t (.list [.int (a : Nat), .int (b : Nat)]) with
  | error e => rw [h] at h1'; cases h1'
  | ok w =>
    rw [h] at h1'
    cases h1'
    exact ⟨_, h1, h2.block⟩

theorem blkCEx (k1 : Fin P.c) (a b : Fin P.t) (hk : (k1 : Nat) = 1) (ha : (a : Nat) = 0) (hb : (b : Nat) = 1) :
    ∃ g, mkCEx P = .ok g ∧ Block P [g] (ctlAll fun k => if k = k1 then twoLevel a b (cexOp 0) else 1) 1 := by
  obtain ⟨g, h1, h2⟩ := mkCEx_ok (P := P) a b ha hb
  have e : (fun k : Fin P.c => if (k : Nat) = 1 then twoLevel a b (cexOp 0) else 1) =
      fun k : Fin P.c => if k = k1 then twoLevel a b (cexOp 0) else 1 := by
    funext k
    have : ((k : Nat) = 1) = (k = k1) := by rw [Fin.ext_iff, hk]
    simp only [this]
  rw [e] at h2
  have h1' := h1
  unfold mkCEx at h1'
  cases h1'
  exact ⟨_, h1, h2.blockCEx⟩

/-- the product of the eight gates of a controlled rotation -/
theorem core_op (k1 : Fin P.c) (a b : Fin P.t) (hab : a ≠ b) (theta phi : ℝ) :
    onSecond P.c (twoLevel a b (rot (-Real.pi / 2) (phi - Real.pi / 2))) *
      (onSecond P.c (twoLevel a b (ph Real.pi)) *
        (onSecond P.c (twoLevel a b (zrot (theta / 2))) *
          ((ctlAll fun k => if k = k1 then twoLevel a b (cexOp 0) else 1) *
            (onSecond P.c (twoLevel a b (zrot (-theta / 2))) *
              (onSecond P.c (twoLevel a b (ph (-Real.pi))) *
                ((ctlAll fun k => if k = k1 then twoLevel a b (cexOp 0) else 1) *
                  onSecond P.c (twoLevel a b (rot (Real.pi / 2) (phi - Real.pi / 2))))))))) =
    twoLevel (jn k1 a) (jn k1 b) (rot theta phi) := by
  rw [← ctl_twoLevel _ k1 hab]
  simp only [onSecond_eq, ctlAll_mul]
  congr 1
  funext k
  by_cases hk : k = k1
  · simp only [hk, if_true]
    simp only [twoLevel_mul _ _ hab]
    congr 1
    rw [← frame_zrot theta phi, ← inner_ctl theta]
    simp only [mul_assoc]
  · simp only [hk, if_false, one_mul]
    simp only [twoLevel_mul _ _ hab]
    rw [← twoLevel_one hab]
    congr 1
    have h := inner_other theta
    have h2 : rot (-Real.pi / 2) (phi - Real.pi / 2) * rot (Real.pi / 2) (phi - Real.pi / 2) = 1 := by
      rw [rot_add, show -Real.pi / 2 + Real.pi / 2 = 0 by ring, rot_zero]
    rw [← h2]
    calc _ = rot (-Real.pi / 2) (phi - Real.pi / 2) * (ph Real.pi * zrot (theta / 2) * zrot (-theta / 2) * ph (-Real.pi)) *
          rot (Real.pi / 2) (phi - Real.pi / 2) := by simp only [mul_assoc]
      _ = _ := by rw [h, mul_one]

/-- the eight gates of a controlled rotation, from the gates -/
theorem core_block (k1 : Fin P.c) (a b : Fin P.t) (hab : a ≠ b) (theta phi : ℝ) {ft x v zm zp vb fb : EGate}
    (hft : Block P [ft] (onSecond P.c (twoLevel a b (rot (Real.pi / 2) (phi - Real.pi / 2)))) 0)
    (hx : Block P [x] (ctlAll fun k => if k = k1 then twoLevel a b (cexOp 0) else 1) 1)
    (hv : Block P [v] (onSecond P.c (twoLevel a b (ph (-Real.pi)))) 0)
    (hzm : Block P [zm] (onSecond P.c (twoLevel a b (zrot (-theta / 2)))) 0)
    (hzp : Block P [zp] (onSecond P.c (twoLevel a b (zrot (theta / 2)))) 0)
    (hvb : Block P [vb] (onSecond P.c (twoLevel a b (ph Real.pi))) 0)
    (hfb : Block P [fb] (onSecond P.c (twoLevel a b (rot (-Real.pi / 2) (phi - Real.pi / 2)))) 0) :
    Block P [ft, x, v, zm, x, zp, vb, fb] (twoLevel (jn k1 a) (jn k1 b) (rot theta phi)) 2 := by
  have h := hft.append (hx.append (hv.append (hzm.append (hx.append (hzp.append (hvb.append hfb))))))
  rw [← core_op k1 a b hab theta phi]
  simp only [mul_assoc] at h ⊢
  exact h

theorem crot_ok (hq : P.q0 ≠ P.q1) (k1 : Fin P.c) (a b : Fin P.t) (hk : (k1 : Nat) = 1) (ha : (a : Nat) = 0) (hb : (b : Nat) = 1)
    (theta phi : ℝ) : ∃ l, crot P theta phi = .ok l ∧ Block P l (twoLevel (jn k1 a) (jn k1 b) (rot theta phi)) 2 := by
  have hab : a < b := by rw [Fin.lt_def]; omega
  have z0 : (0 : Int) = ((a : Nat) : Int) := by rw [ha]; rfl
  have z1 : (1 : Int) = ((b : Nat) : Int) := by rw [hb]; rfl
  obtain ⟨ft, ft1, _, ft2⟩ := blkR_second hq a b hab (Real.pi / 2) (phi - Real.pi / 2)
  obtain ⟨fb, fb1, _, fb2⟩ := blkR_second hq a b hab (-Real.pi / 2) (phi - Real.pi / 2)
  obtain ⟨zm, zm1, zm2⟩ := blkRz_second hq a b hab (-theta / 2)
  obtain ⟨zp, zp1, zp2⟩ := blkRz_second hq a b hab (theta / 2)
  obtain ⟨x, x1, x2⟩ := blkCEx k1 a b hk ha hb
  have v2 := (mkVirtRz_second hq a b hab.ne (-Real.pi)).block
  have vb2 := (mkVirtRz_second hq a b hab.ne Real.pi).block
  refine ⟨_, ?_, core_block k1 a b hab.ne theta phi ft2 x2 v2 zm2 zp2 vb2 fb2⟩
  unfold crot
  simp only [neg_neg]
  rw [z0, z1, fb1, zm1, zp1, ft1, x1]
  rfl

end Qudits.EntQR
