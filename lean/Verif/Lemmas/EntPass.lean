import Verif.Lemmas.EntSingle
import Mathlib.Tactic.FinCases
/- The passes for gates on two lines: marks, placements of levels, reversed lines. -/
namespace Qudits.EntQR
open Matrix Complex Spec LocalQR QRAlg

variable {P : Pair}

/-! ### the controlled exchange of any two levels -/

theorem cex_op_gen {t : Nat} (a b : Fin t) (hab : a < b) (g : CExParams) (ha : g.levA = (a : Nat)) (hb : g.levB = (b : Nat)) :
    ∃ A, cexOpArray t g = .ok A ∧ A.toM t = twoLevel a b (cexOp g.phi) := by
  have ea : g.levA.toNat = a := by rw [ha]; simp
  have eb : g.levB.toNat = b := by rw [hb]; simp
  have e1 : (-I * (Real.cos g.phi : ℝ) - (Real.sin g.phi : ℝ) : ℂ) = -I * cexp (-(I * g.phi)) := by
    rw [cexp_neg_I_mul]; linear_combination -(Real.sin g.phi : ℂ) * I_mul_I
  have e2 : (-I * (Real.cos g.phi : ℝ) + (Real.sin g.phi : ℝ) : ℂ) = -I * cexp (I * g.phi) := by
    rw [cexp_I_mul]; linear_combination (Real.sin g.phi : ℂ) * I_mul_I
  unfold cexOpArray
  rw [ea, eb]
  simp only []
  rw [e1, e2, set_ok _ _ _ _ (by simp [Arr2.identity]) (by simp [Arr2.identity])]
  simp only [bind, Except.bind]
  rw [set_ok _ _ _ _ (by simp [Arr2.identity]) (by simp [Arr2.identity])]
  simp only []
  rw [set_ok _ _ _ _ (by simp [Arr2.identity]) (by simp [Arr2.identity])]
  simp only []
  rw [set_ok _ _ _ _ (by simp [Arr2.identity]) (by simp [Arr2.identity])]
  refine ⟨_, rfl, ?_⟩
  ext r c
  simp only [Arr2.toM, Arr2.identity, twoLevel, cexOp, Fin.ext_iff, Matrix.of_apply, Matrix.cons_val',
    Matrix.cons_val_zero, Matrix.cons_val_one, Matrix.cons_val_fin_one]
  rw [Fin.lt_def] at hab
  split_ifs <;> first | rfl | (exfalso; omega)

/-- entries of the operator of a CEx -/
theorem pairOp_cex (a b : Fin P.t) (hab : a < b) (g : CExParams) (ha : g.levA = (a : Nat)) (hb : g.levB = (b : Nat)) (kc : Fin P.c)
    (hk : g.ctrl = (kc : Nat)) (q0 q1 : Int) (d0 d1 : Nat) :
    pairOp P (.cex g q0 q1 d0 d1 false) = ctlAll fun k => if k = kc then twoLevel a b (cexOp g.phi) else 1 := by
  obtain ⟨A, h1, h2⟩ := cex_op_gen a b hab g ha hb
  simp only [pairOp]
  rw [h1]
  simp only []
  rw [adjIf_false, ifFirst_eq, h2]
  congr 1
  funext k
  have : (((k : Nat) : Int) = g.ctrl) = (k = kc) := by rw [eq_iff_iff, hk, Fin.ext_iff]; omega
  simp only [this]

theorem pairPlace_jn {c t : Nat} (f0 : Equiv.Perm (Fin c)) (f1 : Equiv.Perm (Fin t)) (k : Fin c) (l : Fin t) :
    pairPlace f0 f1 (jn k l) = jn (f0 k) (f1 l) := by
  simp [pairPlace, jn]

theorem levelAt_placement {n : Nat} (f : Equiv.Perm (Fin n)) (i : Fin n) : levelAt (placementList f) ((i : Nat) : Int) = .ok ((f i : Nat) : Int) := by
  unfold levelAt placementList
  rw [if_pos (by omega)]
  simp

theorem twoLevel_relabel {t : Nat} (f : Equiv.Perm (Fin t)) (a b y y' : Fin t) (M : Matrix (Fin 2) (Fin 2) ℂ) :
    twoLevel (f a) (f b) M (f y) (f y') = twoLevel a b M y y' := by
  simp only [twoLevel, f.injective.eq_iff]

/-- the exchange with the two levels named in the other order -/
theorem twoLevel_other_order {t : Nat} (a b : Fin t) (hab : a ≠ b) (phi : ℝ) : twoLevel b a (cexOp phi) = twoLevel a b (cexOp (-phi)) := by
  rw [twoLevel_swap hab]
  congr 1
  unfold cexOp
  ext i j
  fin_cases i <;> fin_cases j <;> simp

theorem twoLevel_relabel' {t : Nat} (f : Equiv.Perm (Fin t)) (a b y y' : Fin t) (hab : a ≠ b) (phi : ℝ) :
    twoLevel (f b) (f a) (cexOp phi) (f y) (f y') = twoLevel a b (cexOp (-phi)) y y' := by
  rw [twoLevel_relabel, twoLevel_other_order a b hab]

theorem cexInit_ok (a b k : Int) (phi : ℝ) (h0 : 0 ≤ a) (hab : a < b) (h1 : 0 ≤ phi) (h2 : phi ≤ 2 * Real.pi) :
    cexInit (.list [.int a, .int b, .int k, .flt phi]) = .ok ⟨a, b, k, phi⟩ := by
  unfold cexInit
  simp only [needInt, needFlt, bind, Except.bind, pure, Except.pure]
  simp [h0, hab, h1, h2]

theorem phyCEx_up (f0 : Equiv.Perm (Fin P.c)) (f1 : Equiv.Perm (Fin P.t)) (a b : Fin P.t) (k : Fin P.c) (phi : ℝ) (m : Bool)
    (h1 : 0 ≤ phi) (h2 : phi ≤ 2 * Real.pi) (hlt : f1 a < f1 b) :
    phyCEx P (placementList f0) (placementList f1) ⟨(a : Nat), (b : Nat), (k : Nat), phi⟩ m =
      .ok (.cex ⟨(f1 a : Nat), (f1 b : Nat), (f0 k : Nat), phi⟩ P.q0 P.q1 P.c P.t false) := by
  unfold phyCEx
  simp only []
  rw [levelAt_placement, levelAt_placement, levelAt_placement]
  simp only [bind, Except.bind]
  rw [if_pos (show ((f1 a : Nat) : Int) < (f1 b : Nat) by rw [Fin.lt_def] at hlt; omega),
    cexInit_ok _ _ _ _ (by omega) (by rw [Fin.lt_def] at hlt; omega) h1 h2]
  rfl

theorem phyCEx_down (f0 : Equiv.Perm (Fin P.c)) (f1 : Equiv.Perm (Fin P.t)) (a b : Fin P.t) (k : Fin P.c) (phi : ℝ) (m : Bool)
    (h1 : 0 ≤ phi) (h2 : phi ≤ 2 * Real.pi) (hlt : f1 b < f1 a) :
    phyCEx P (placementList f0) (placementList f1) ⟨(a : Nat), (b : Nat), (k : Nat), phi⟩ m =
      .ok (.cex ⟨(f1 b : Nat), (f1 a : Nat), (f0 k : Nat), phi⟩ P.q0 P.q1 P.c P.t false) := by
  unfold phyCEx
  simp only []
  rw [levelAt_placement, levelAt_placement, levelAt_placement]
  simp only [bind, Except.bind]
  rw [if_neg (show ¬ ((f1 a : Nat) : Int) < (f1 b : Nat) by rw [Fin.lt_def] at hlt; omega),
    cexInit_ok _ _ _ _ (by omega) (by rw [Fin.lt_def] at hlt; omega) h1 h2]
  rfl

/-! ### the product of the adjoints in the original order -/

theorem rot_adj (theta phi : ℝ) : rot (-theta) (phi + Real.pi) = rot theta phi := by
  have e1 : cexp (I * ((phi + Real.pi : ℝ) : ℂ)) = -cexp (I * phi) := by
    rw [show I * ((phi + Real.pi : ℝ) : ℂ) = I * phi + Real.pi * I by push_cast; ring, Complex.exp_add, Complex.exp_pi_mul_I]; ring
  have e2 : cexp (-(I * ((phi + Real.pi : ℝ) : ℂ))) = -cexp (-(I * phi)) := by
    rw [show -(I * ((phi + Real.pi : ℝ) : ℂ)) = -(I * phi) + -(Real.pi * I) by push_cast; ring, Complex.exp_add, Complex.exp_neg (Real.pi * I),
      Complex.exp_pi_mul_I]; norm_num
  unfold rot
  rw [e1, e2, neg_div, Real.cos_neg, Real.sin_neg]
  ext i j
  fin_cases i <;> fin_cases j <;> simp

theorem cexOp_adj : (cexOp 0)ᴴ = -cexOp 0 := by
  unfold cexOp
  ext i j
  fin_cases i <;> fin_cases j <;> simp [Matrix.conjTranspose_apply]

theorem zrot_adj (phi : ℝ) : (zrot phi)ᴴ = zrot (-phi) := by
  have h1 : (starRingEnd ℂ) (cexp (I * ((phi / 2 : ℝ) : ℂ))) = cexp (-(I * ((phi / 2 : ℝ) : ℂ))) := by
    rw [← Complex.exp_conj]; simp [map_ofNat]
  have h2 : (starRingEnd ℂ) (cexp (-(I * ((phi / 2 : ℝ) : ℂ)))) = cexp (I * ((phi / 2 : ℝ) : ℂ)) := by
    rw [← Complex.exp_conj]; simp [map_ofNat]
  have h3 : -(I * ((-phi / 2 : ℝ) : ℂ)) = I * ((phi / 2 : ℝ) : ℂ) := by push_cast; ring
  have h4 : I * ((-phi / 2 : ℝ) : ℂ) = -(I * ((phi / 2 : ℝ) : ℂ)) := by push_cast; ring
  unfold zrot
  rw [h3, h4]
  ext i j
  fin_cases i <;> fin_cases j
  · exact h2
  · simp [Matrix.conjTranspose_apply]
  · simp [Matrix.conjTranspose_apply]
  · exact h1

theorem ph_adj : (ph Real.pi)ᴴ = ph Real.pi ∧ (ph (-Real.pi))ᴴ = ph (-Real.pi) := by
  rw [ph_pi, ph_neg_pi]
  constructor <;>
  · ext i j
    fin_cases i <;> fin_cases j <;> simp [Matrix.conjTranspose_apply]

/-- the adjoints of the eight gates of a controlled rotation, in the order of the gates -/
theorem core_dag (k1 : Fin P.c) (a b : Fin P.t) (hab : a ≠ b) (theta phi : ℝ) :
    (onSecond P.c (twoLevel a b (rot (-Real.pi / 2) (phi - Real.pi / 2))))ᴴ *
      ((onSecond P.c (twoLevel a b (ph Real.pi)))ᴴ *
        ((onSecond P.c (twoLevel a b (zrot (theta / 2))))ᴴ *
          ((ctlAll fun k => if k = k1 then twoLevel a b (cexOp 0) else 1)ᴴ *
            ((onSecond P.c (twoLevel a b (zrot (-theta / 2))))ᴴ *
              ((onSecond P.c (twoLevel a b (ph (-Real.pi))))ᴴ *
                ((ctlAll fun k => if k = k1 then twoLevel a b (cexOp 0) else 1)ᴴ *
                  (onSecond P.c (twoLevel a b (rot (Real.pi / 2) (phi - Real.pi / 2))))ᴴ)))))) =
    twoLevel (jn k1 a) (jn k1 b) (rot theta phi) := by
  have r1 : (rot (-Real.pi / 2) (phi - Real.pi / 2))ᴴ = rot (-Real.pi / 2) (phi + Real.pi - Real.pi / 2) := by
    rw [rot_conjTranspose, ← rot_adj]
    congr 1 <;> ring
  have r2 : (rot (Real.pi / 2) (phi - Real.pi / 2))ᴴ = rot (Real.pi / 2) (phi + Real.pi - Real.pi / 2) := by
    rw [rot_conjTranspose, ← rot_adj]
    congr 1 <;> ring
  have z1 : (zrot (theta / 2))ᴴ = zrot (-theta / 2) := by rw [zrot_adj]; congr 1; ring
  have z2 : (zrot (-theta / 2))ᴴ = zrot (- -theta / 2) := by rw [zrot_adj]; congr 1; ring
  rw [← rot_adj theta phi, ← ctl_twoLevel _ k1 hab]
  simp only [onSecond_eq, ctlAll_conjTranspose, ctlAll_mul]
  congr 1
  funext k
  by_cases hk : k = k1
  · simp only [hk, if_true]
    simp only [twoLevel_conjTranspose _ hab, twoLevel_mul _ _ hab]
    congr 1
    rw [r1, r2, z1, z2, ph_adj.1, ph_adj.2, cexOp_adj, ← frame_zrot (-theta) (phi + Real.pi), ← inner_ctl (-theta)]
    simp only [mul_assoc, neg_mul, mul_neg, neg_neg]
  · simp only [hk, if_false, conjTranspose_one, one_mul]
    simp only [twoLevel_conjTranspose _ hab, twoLevel_mul _ _ hab]
    rw [← twoLevel_one hab]
    congr 1
    rw [r1, r2, z1, z2, ph_adj.1, ph_adj.2]
    have h := inner_other (-theta)
    have h2 : rot (-Real.pi / 2) (phi + Real.pi - Real.pi / 2) * rot (Real.pi / 2) (phi + Real.pi - Real.pi / 2) = 1 := by
      rw [rot_add, show -Real.pi / 2 + Real.pi / 2 = 0 by ring, rot_zero]
    rw [← h2]
    calc _ = rot (-Real.pi / 2) (phi + Real.pi - Real.pi / 2) * (ph Real.pi * zrot (-theta / 2) * zrot (- -theta / 2) * ph (-Real.pi)) *
          rot (Real.pi / 2) (phi + Real.pi - Real.pi / 2) := by simp only [mul_assoc]
      _ = _ := by rw [h, mul_one]

theorem mkR_one {line : Int} {dim : Nat} {a b : Int} {theta phi : ℝ} {g : EGate} (h : mkR line dim a b theta phi = .ok g) :
    ∃ k line d m, g = .one k line d m := by
  unfold mkR at h
  cases hn : newRot dim a b theta phi with
  | error e => rw [hn] at h; cases h
  | ok w => rw [hn] at h; cases h; exact ⟨_, _, _, _, rfl⟩

theorem mkRz_one {line : Int} {dim : Nat} {a b : Int} {phi : ℝ} {g : EGate} (h : mkRz line dim a b phi = .ok g) :
    ∃ k line d m, g = .one k line d m := by
  unfold mkRz at h
  cases hn : rzInit dim (.list [.int a, .int b, .flt phi]) with
  | error e => rw [hn] at h; cases h
  | ok w => rw [hn] at h; cases h; exact ⟨_, _, _, _, rfl⟩

/-- the gates of a controlled rotation -/
theorem crot_gates (hq : P.q0 ≠ P.q1) (k1 : Fin P.c) (a b : Fin P.t) (hk : (k1 : Nat) = 1) (ha : (a : Nat) = 0) (hb : (b : Nat) = 1)
    (theta phi : ℝ) : ∃ ft x v zm zp vb fb, crot P theta phi = .ok [ft, x, v, zm, x, zp, vb, fb] ∧
      Gives P ft (onSecond P.c (twoLevel a b (rot (Real.pi / 2) (phi - Real.pi / 2)))) ∧
      Gives P x (ctlAll fun k => if k = k1 then twoLevel a b (cexOp 0) else 1) ∧ x = .cex ⟨0, 1, 1, 0⟩ P.q0 P.q1 P.c P.t false ∧
      Gives P v (onSecond P.c (twoLevel a b (ph (-Real.pi)))) ∧
      Gives P zm (onSecond P.c (twoLevel a b (zrot (-theta / 2)))) ∧
      Gives P zp (onSecond P.c (twoLevel a b (zrot (theta / 2)))) ∧
      Gives P vb (onSecond P.c (twoLevel a b (ph Real.pi))) ∧
      Gives P fb (onSecond P.c (twoLevel a b (rot (-Real.pi / 2) (phi - Real.pi / 2)))) ∧
      ∀ g ∈ [ft, v, zm, zp, vb, fb], ∃ k line d m, g = .one k line d m := by
  have hab : a < b := by rw [Fin.lt_def]; omega
  have z0 : (0 : Int) = ((a : Nat) : Int) := by rw [ha]; rfl
  have z1 : (1 : Int) = ((b : Nat) : Int) := by rw [hb]; rfl
  obtain ⟨ft, ft1, ft2⟩ := mkR_second hq a b hab (Real.pi / 2) (phi - Real.pi / 2)
  obtain ⟨fb, fb1, fb2⟩ := mkR_second hq a b hab (-Real.pi / 2) (phi - Real.pi / 2)
  obtain ⟨zm, zm1, zm2⟩ := mkRz_second hq a b hab (-theta / 2)
  obtain ⟨zp, zp1, zp2⟩ := mkRz_second hq a b hab (theta / 2)
  obtain ⟨x, x1, x2⟩ := mkCEx_ok (P := P) a b ha hb
  have v2 := mkVirtRz_second hq a b hab.ne (-Real.pi)
  have vb2 := mkVirtRz_second hq a b hab.ne Real.pi
  have e : (fun k : Fin P.c => if (k : Nat) = 1 then twoLevel a b (cexOp 0) else 1) =
      fun k : Fin P.c => if k = k1 then twoLevel a b (cexOp 0) else 1 := by
    funext k
    have : ((k : Nat) = 1) = (k = k1) := by rw [Fin.ext_iff, hk]
    simp only [this]
  rw [e] at x2
  refine ⟨ft, x, _, zm, zp, _, fb, ?_, ft2, x2, by unfold mkCEx at x1; cases x1; rfl, v2, zm2, zp2, vb2, fb2, ?_⟩
  rotate_left
  · intro g hg
    simp only [List.mem_cons, List.not_mem_nil, or_false] at hg
    rcases hg with rfl | rfl | rfl | rfl | rfl | rfl
    · exact mkR_one ft1
    · exact ⟨_, _, _, _, rfl⟩
    · exact mkRz_one zm1
    · exact mkRz_one zp1
    · exact ⟨_, _, _, _, rfl⟩
    · exact mkR_one fb1
  unfold crot
  simp only [neg_neg]
  rw [z0, z1, fb1, zm1, zp1, ft1, x1]
  rfl

/-! ### lines in the wrong order -/

/-- the matrix that `execute` multiplies -/
noncomputable def codeOp (P : Pair) (g : EGate) : Matrix (Fin (P.c * P.t)) (Fin (P.c * P.t)) ℂ :=
  match gateMatrix P g with
  | .ok A => A.toM (P.c * P.t)
  | .error _ => 0

theorem applySeq_code : ∀ (l : List EGate) (u : Arr2 ℂ), u.rows = P.c * P.t → u.cols = P.c * P.t →
    (∀ g ∈ l, ∃ A, gateMatrix P g = .ok A ∧ A.rows = P.c * P.t ∧ A.cols = P.c * P.t) →
    ∃ v, applySeq P u l = .ok v ∧ v.rows = P.c * P.t ∧ v.cols = P.c * P.t ∧
      v.toM (P.c * P.t) = circuitOp (codeOp P) l * u.toM (P.c * P.t) := by
  intro l
  induction l with
  | nil => intro u h1 h2 _; exact ⟨u, rfl, h1, h2, by rw [circuitOp_nil, one_mul]⟩
  | cons g l ih =>
    intro u h1 h2 hg
    obtain ⟨A, e1, e2, e3⟩ := hg g (by simp)
    obtain ⟨B, f1, f2, f3, f4⟩ := matmul_ok A u _ e2 e3 h1 h2
    obtain ⟨v, k1, k2, k3, k4⟩ := ih B f2 f3 (fun x hx => hg x (by simp [hx]))
    refine ⟨v, ?_, k2, k3, ?_⟩
    · unfold applySeq at k1 ⊢
      rw [List.foldlM_cons, e1]
      simp only [bind, Except.bind]
      rw [f1]
      exact k1
    · rw [k4, f4, circuitOp_cons, mul_assoc]
      simp only [codeOp, e1]

/-- the matrix of a CEx on two qubits given in the other order: control and target are interchanged -/
theorem codeOp_cex : (∃ A, gateMatrix ⟨1, 0, 2, 2⟩ (.cex ⟨0, 1, 1, 0⟩ 1 0 2 2 false) = .ok A ∧ A.rows = 4 ∧ A.cols = 4) ∧
    ∀ k k' l l' : Fin 2, codeOp ⟨1, 0, 2, 2⟩ (.cex ⟨0, 1, 1, 0⟩ 1 0 2 2 false) (jn k l) (jn k' l') =
      if l = l' then (if l = 1 then twoLevel (0 : Fin 2) 1 (cexOp 0) k k' else (1 : Matrix (Fin 2) (Fin 2) ℂ) k k') else 0 := by
  obtain ⟨A, h1, h2, h3, h4⟩ := cexArray_ok 1 0 2 2 ⟨0, 1, 1, 0⟩ (0 : Fin 2) 1 (by decide) rfl rfl
  have e : gateMatrix ⟨1, 0, 2, 2⟩ (.cex ⟨0, 1, 1, 0⟩ 1 0 2 2 false) = .ok A := by
    simp only [gateMatrix, EGate.toMatrix]
    rw [h1]
    rfl
  refine ⟨⟨A, e, h2, h3⟩, fun k k' l l' => ?_⟩
  simp only [codeOp, e]
  show A.at' _ _ = _
  have := h4 l l' k k' l.isLt l'.isLt
  rw [if_neg (show ¬ (1 : Int) < 0 by decide)] at this
  rw [jn_val, jn_val, this]
  have e1 : ((l : Nat) = l') = (l = l') := propext Fin.ext_iff.symm
  have e2 : (((l : Nat) : Int) = 1) = (l = 1) := by
    rw [eq_iff_iff, Fin.ext_iff]
    show ((l : Nat) : Int) = 1 ↔ (l : Nat) = 1
    omega
  simp only [e1, e2]

theorem second_diag_comm (X : Matrix (Fin (2 * 2)) (Fin (2 * 2)) ℂ) (f : Fin 2 → Matrix (Fin 2) (Fin 2) ℂ)
    (hX : ∀ k k' l l' : Fin 2, X (jn k l) (jn k' l') = if l = l' then f l k k' else 0) (D : Matrix (Fin 2) (Fin 2) ℂ)
    (h1 : D 0 1 = 0) (h2 : D 1 0 = 0) : X * onSecond 2 D = onSecond 2 D * X := by
  refine pair_ext fun k l k' l' => ?_
  rw [Matrix.mul_apply, Matrix.mul_apply, sum_jn, sum_jn]
  simp only [onSecond_eq, ctlAll_jn, hX, Fin.sum_univ_two]
  fin_cases k <;> fin_cases l <;> fin_cases k' <;> fin_cases l' <;> simp [h1, h2, mul_comm]

theorem second_square (X : Matrix (Fin (2 * 2)) (Fin (2 * 2)) ℂ)
    (hX : ∀ k k' l l' : Fin 2, X (jn k l) (jn k' l') =
      if l = l' then (if l = 1 then twoLevel (0 : Fin 2) 1 (cexOp 0) k k' else (1 : Matrix (Fin 2) (Fin 2) ℂ) k k') else 0) :
    X * X = onSecond 2 !![1, 0; 0, -1] := by
  refine pair_ext fun k l k' l' => ?_
  rw [Matrix.mul_apply, sum_jn]
  simp only [onSecond_eq, ctlAll_jn, hX, Fin.sum_univ_two]
  revert k l k' l'
  simp [Fin.forall_fin_two, twoLevel, cexOp]

theorem twoLevel_two (M : Matrix (Fin 2) (Fin 2) ℂ) : twoLevel (0 : Fin 2) 1 M = M := by
  ext i j
  fin_cases i <;> fin_cases j <;> simp [twoLevel]

/-- On two lines in the other order the matrix of a controlled rotation does not depend on the angle. -/
theorem crot_reversed (theta : ℝ) : ∃ l v, crot ⟨1, 0, 2, 2⟩ theta (Real.pi / 2) = .ok l ∧
    applySeq ⟨1, 0, 2, 2⟩ (Arr2.identity 4) l = .ok v ∧ v.toM 4 = onSecond 2 !![0, -I; I, 0] := by
  obtain ⟨ft, x, v, zm, zp, vb, fb, hl, gft, gx, ex, gv, gzm, gzp, gvb, gfb, hone⟩ :=
    crot_gates (P := ⟨1, 0, 2, 2⟩) (by decide) (1 : Fin 2) (0 : Fin 2) (1 : Fin 2) rfl rfl rfl theta (Real.pi / 2)
  have key : ∀ g M, g ∈ [ft, v, zm, zp, vb, fb] → Gives ⟨1, 0, 2, 2⟩ g M →
      (∃ A, gateMatrix ⟨1, 0, 2, 2⟩ g = .ok A ∧ A.rows = 4 ∧ A.cols = 4) ∧ codeOp ⟨1, 0, 2, 2⟩ g = M := by
    intro g M hg hM
    obtain ⟨A, h1, h2, h3, h4⟩ := gateMatrix_ok (P := ⟨1, 0, 2, 2⟩) (by decide) (0 : Fin 2) (1 : Fin 2) rfl rfl g hM.good (Or.inr (hone g hg))
    refine ⟨⟨A, h1, h2, h3⟩, ?_⟩
    simp only [codeOp, h1]
    rw [h4, hM.op]
  obtain ⟨hx1, hx2⟩ := codeOp_cex
  rw [show (EGate.cex ⟨0, 1, 1, 0⟩ 1 0 2 2 false) = x from ex.symm] at hx1 hx2
  obtain ⟨m1, n1⟩ := key ft _ (by simp) gft
  obtain ⟨m2, n2⟩ := key v _ (by simp) gv
  obtain ⟨m3, n3⟩ := key zm _ (by simp) gzm
  obtain ⟨m4, n4⟩ := key zp _ (by simp) gzp
  obtain ⟨m5, n5⟩ := key vb _ (by simp) gvb
  obtain ⟨m6, n6⟩ := key fb _ (by simp) gfb
  obtain ⟨w, w1, w2, w3, w4⟩ := applySeq_code (P := ⟨1, 0, 2, 2⟩) [ft, x, v, zm, x, zp, vb, fb] (Arr2.identity 4) rfl rfl (by
    intro g hg
    simp only [List.mem_cons, List.not_mem_nil, or_false] at hg
    rcases hg with rfl | rfl | rfl | rfl | rfl | rfl | rfl | rfl <;> assumption)
  refine ⟨_, w, hl, w1, ?_⟩
  refine w4.trans ?_
  simp only [circuitOp_cons, circuitOp_nil, one_mul]
  rw [n1, n2, n3, n4, n5, n6]
  set X := codeOp ⟨1, 0, 2, 2⟩ x with hX
  have c1 : ∀ D : Matrix (Fin 2) (Fin 2) ℂ, D 0 1 = 0 → D 1 0 = 0 → X * onSecond 2 D = onSecond 2 D * X :=
    second_diag_comm X (fun l => if l = 1 then twoLevel (0 : Fin 2) 1 (cexOp 0) else 1)
      (by intro k k' l l'; rw [hx2]; split_ifs <;> rfl)
  have c2 := second_square X hx2
  simp only [twoLevel_two]
  have hid : (Arr2.identity 4 : Arr2 ℂ).toM ((2 : Nat) * 2) = 1 := by
    ext i j
    simp [Arr2.toM, Arr2.identity, Matrix.one_apply, Fin.ext_iff]
  have hF : rot (-Real.pi / 2) (Real.pi / 2 - Real.pi / 2) * !![1, 0; 0, -1] * rot (Real.pi / 2) (Real.pi / 2 - Real.pi / 2) = !![0, -I; I, 0] := by
    rw [frame_back, frame_there, cexp_pi_half, cexp_neg_pi_half]
    have hs := sqrt_sq
    generalize ((Real.sqrt 2 / 2 : ℝ) : ℂ) = s at hs
    have hII := I_mul_I
    ext i j
    fin_cases i <;> fin_cases j <;> simp [Matrix.mul_apply, Fin.sum_univ_two]
    · linear_combination s * s * hII
    · linear_combination (-2 * I) * hs
    · linear_combination (2 * I) * hs
    · linear_combination -s * s * hII
  have hz := inner_other theta
  calc _ = onSecond 2 (rot (-Real.pi / 2) (Real.pi / 2 - Real.pi / 2)) * (onSecond 2 (ph Real.pi) * (onSecond 2 (zrot (theta / 2)) *
        ((X * onSecond 2 (zrot (-theta / 2))) * onSecond 2 (ph (-Real.pi)) * X * onSecond 2 (rot (Real.pi / 2) (Real.pi / 2 - Real.pi / 2))))) := by
        show _ * (Arr2.identity 4 : Arr2 ℂ).toM ((2 : Nat) * 2) = _
        rw [hid, mul_one]
        simp only [mul_assoc]
    _ = onSecond 2 (rot (-Real.pi / 2) (Real.pi / 2 - Real.pi / 2)) * (onSecond 2 (ph Real.pi) * (onSecond 2 (zrot (theta / 2)) *
        (onSecond 2 (zrot (-theta / 2)) * (onSecond 2 (ph (-Real.pi)) * (X * X) * onSecond 2 (rot (Real.pi / 2) (Real.pi / 2 - Real.pi / 2)))))) := by
        rw [c1 (zrot (-theta / 2)) (by simp [zrot]) (by simp [zrot])]
        rw [mul_assoc (onSecond 2 (zrot (-theta / 2))) X, c1 (ph (-Real.pi)) (by simp [ph]) (by simp [ph])]
        simp only [mul_assoc]
    _ = onSecond 2 !![0, -I; I, 0] := by
        rw [c2, ← hF]
        simp only [onSecond_eq, ctlAll_mul]
        congr 1
        funext k
        calc _ = rot (-Real.pi / 2) (Real.pi / 2 - Real.pi / 2) * (ph Real.pi * zrot (theta / 2) * zrot (-theta / 2) * ph (-Real.pi)) *
              (!![1, 0; 0, -1] * rot (Real.pi / 2) (Real.pi / 2 - Real.pi / 2)) := by simp only [mul_assoc]
          _ = _ := by rw [hz, mul_one, mul_assoc]

end Qudits.EntQR
