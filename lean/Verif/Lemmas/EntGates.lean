import Verif.Lemmas.PairOps
import Verif.Lemmas.Routing
import Verif.Lemmas.Trace
/- The gates that the generators build, as operators on the pair. -/
namespace Qudits.EntQR
open Matrix Complex Spec LocalQR

variable {P : Pair}

/-- the gate is one of the allowed ones and has an array -/
def Good (P : Pair) (g : EGate) : Prop :=
  Elementary P g ∧ match g with
    | .one k _ d _ => ∃ A, k.array d = .ok A ∧ A.rows = d ∧ A.cols = d
    | _ => True

/-- an unmarked gate with operator `M` -/
structure Gives (P : Pair) (g : EGate) (M : Matrix (Fin (P.c * P.t)) (Fin (P.c * P.t)) ℂ) : Prop where
  good : Good P g
  plain : g.dagger = false
  op : pairOp P g = M

theorem adjIf_false {n : Type} (A : Matrix n n ℂ) : adjIf false A = A := rfl
theorem adjIf_true {n : Type} (A : Matrix n n ℂ) : adjIf true A = Aᴴ := rfl

theorem gives_first (k : OneKind) (A : Arr2 ℂ) (h : k.array P.c = .ok A) (h1 : A.rows = P.c) (h2 : A.cols = P.c)
    (M : Matrix (Fin P.c) (Fin P.c) ℂ) (h3 : A.toM P.c = M) : Gives P (.one k P.q0 P.c false) (onFirst P.t M) := by
  refine ⟨⟨Or.inl ⟨rfl, rfl⟩, A, h, h1, h2⟩, rfl, ?_⟩
  simp only [pairOp]
  rw [h]
  simp only [if_true]
  rw [adjIf_false, h3]

theorem gives_second (hq : P.q0 ≠ P.q1) (k : OneKind) (A : Arr2 ℂ) (h : k.array P.t = .ok A) (h1 : A.rows = P.t) (h2 : A.cols = P.t)
    (M : Matrix (Fin P.t) (Fin P.t) ℂ) (h3 : A.toM P.t = M) : Gives P (.one k P.q1 P.t false) (onSecond P.c M) := by
  refine ⟨⟨Or.inr ⟨rfl, rfl⟩, A, h, h1, h2⟩, rfl, ?_⟩
  simp only [pairOp]
  rw [h]
  simp only []
  rw [if_neg (Ne.symm hq), adjIf_false, h3]

/-- the adjoint of an unmarked gate -/
theorem pairOp_dag (g : EGate) (h : g.dagger = false) (hg : Good P g) : pairOp P g.dag = (pairOp P g)ᴴ := by
  cases g with
  | one k line d b =>
    obtain ⟨_, A, hA, _, _⟩ := hg
    have hb : b = false := h
    subst hb
    simp only [EGate.dag, pairOp]
    rw [hA]
    simp only []
    split_ifs
    · rw [adjIf_true, adjIf_false, onFirst_conjTranspose]
    · rw [adjIf_true, adjIf_false, onSecond_eq, onSecond_eq, ctlAll_conjTranspose]
  | cex p q0 q1 d0 d1 b =>
    have hb : b = false := h
    subst hb
    simp only [EGate.dag, pairOp]
    cases cexOpArray P.t p with
    | ok A => simp only [adjIf_true, adjIf_false]
    | error e => simp

theorem good_dag (g : EGate) (hg : Good P g) : Good P g.dag := by
  cases g <;> exact hg

theorem newRot_par {d : Nat} (a b : Fin d) (hab : a ≠ b) (theta phi : ℝ) :
    ∃ g A, newRot d (a : Nat) (b : Nat) theta phi = .ok g ∧ rArray d g.par = .ok A ∧ A.rows = d ∧ A.cols = d ∧
      A.toM d = twoLevel (min a b) (max a b) (rot theta phi) := by
  have hlt : min a b < max a b := by
    rcases lt_or_gt_of_ne hab with h | h
    · rw [min_eq_left h.le, max_eq_right h.le]; exact h
    · rw [min_eq_right h.le, max_eq_left h.le]; exact h
  obtain ⟨A, h1, h2, h3, h4⟩ := rArray_ok (d := d)
    (g := ⟨((min a b : Fin d) : Nat), ((max a b : Fin d) : Nat), regulateTheta theta, phi⟩) (a := min a b) (b := max a b) ⟨rfl, rfl, hlt⟩
  exact ⟨_, A, newRot_ok a b hab theta phi, h1, h2, h3, by rw [h4, rot_regulate]⟩

theorem mkR_first (a b : Fin P.c) (hab : a ≠ b) (theta phi : ℝ) :
    ∃ g, mkR P.q0 P.c (a : Nat) (b : Nat) theta phi = .ok g ∧ Gives P g (onFirst P.t (twoLevel (min a b) (max a b) (rot theta phi))) := by
  obtain ⟨g, A, h1, h2, h3, h4, h5⟩ := newRot_par a b hab theta phi
  refine ⟨_, ?_, gives_first (.r g.par) A h2 h3 h4 _ h5⟩
  unfold mkR
  rw [h1]
  rfl

theorem mkR_second (hq : P.q0 ≠ P.q1) (a b : Fin P.t) (hab : a < b) (theta phi : ℝ) :
    ∃ g, mkR P.q1 P.t (a : Nat) (b : Nat) theta phi = .ok g ∧ Gives P g (onSecond P.c (twoLevel a b (rot theta phi))) := by
  obtain ⟨g, A, h1, h2, h3, h4, h5⟩ := newRot_par a b hab.ne theta phi
  rw [min_eq_left hab.le, max_eq_right hab.le] at h5
  refine ⟨_, ?_, gives_second hq (.r g.par) A h2 h3 h4 _ h5⟩
  unfold mkR
  rw [h1]
  rfl

theorem zrot_regulate (phi : ℝ) : zrot (regulateTheta phi) = zrot phi := by
  unfold zrot
  rw [cexp_I_mul, cexp_neg_I_mul, cexp_I_mul, cexp_neg_I_mul, cos_half_regulate, sin_half_regulate]

theorem rz_par {d : Nat} (a b : Fin d) (hab : a < b) (phi : ℝ) :
    ∃ g A, rzInit d (.list [.int (a : Nat), .int (b : Nat), .flt phi]) = .ok g ∧ rzArray d g = .ok A ∧ A.rows = d ∧ A.cols = d ∧
      A.toM d = twoLevel a b (zrot phi) := by
  have hlt : ((a : Nat) : Int) < ((b : Nat) : Int) := by rw [Fin.lt_def] at hab; omega
  have hc : 0 ≤ ((a : Nat) : Int) ∧ ((a : Nat) : Int) < d ∧ 0 ≤ ((b : Nat) : Int) ∧ ((b : Nat) : Int) < d ∧ ((a : Nat) : Int) ≠ (b : Nat) := by
    have := a.isLt; have := b.isLt; omega
  have h1 : rzInit d (.list [.int (a : Nat), .int (b : Nat), .flt phi]) = .ok ⟨(a : Nat), (b : Nat), 0, regulateTheta phi⟩ := by
    simp [rzInit, needInt, needFlt, checkLevels, hc, bind, Except.bind, pure, Except.pure]
    rw [levelsSetter_sorted hlt]
    simp
  obtain ⟨A, k1, k2, k3, k4⟩ := rzArray_ok (d := d) (g := ⟨(a : Nat), (b : Nat), 0, regulateTheta phi⟩) (a := a) (b := b) ⟨rfl, rfl, hab⟩
  refine ⟨_, A, h1, k1, k2, k3, ?_⟩
  rw [k4, rz_two]
  exact congrArg _ (zrot_regulate phi)

theorem mkRz_first (a b : Fin P.c) (hab : a < b) (phi : ℝ) :
    ∃ g, mkRz P.q0 P.c (a : Nat) (b : Nat) phi = .ok g ∧ Gives P g (onFirst P.t (twoLevel a b (zrot phi))) := by
  obtain ⟨g, A, h1, h2, h3, h4, h5⟩ := rz_par a b hab phi
  refine ⟨_, ?_, gives_first (.rz g) A h2 h3 h4 _ h5⟩
  unfold mkRz
  rw [h1]
  rfl

theorem mkRz_second (hq : P.q0 ≠ P.q1) (a b : Fin P.t) (hab : a < b) (phi : ℝ) :
    ∃ g, mkRz P.q1 P.t (a : Nat) (b : Nat) phi = .ok g ∧ Gives P g (onSecond P.c (twoLevel a b (zrot phi))) := by
  obtain ⟨g, A, h1, h2, h3, h4, h5⟩ := rz_par a b hab phi
  refine ⟨_, ?_, gives_second hq (.rz g) A h2 h3 h4 _ h5⟩
  unfold mkRz
  rw [h1]
  rfl

/-- the Hadamard gate of two levels as the library builds it -/
noncomputable def had : Matrix (Fin 2) (Fin 2) ℂ := (I * ((Real.sqrt 2 / 2 : ℝ) : ℂ)) • !![1, 1; 1, -1]

theorem rh_par {d : Nat} (a b : Fin d) (hab : a < b) :
    ∃ g A, levelsInit d (.list [.int (a : Nat), .int (b : Nat)]) = .ok g ∧ rhArray d g = .ok A ∧ A.rows = d ∧ A.cols = d ∧
      A.toM d = twoLevel a b had := by
  have hlt : ((a : Nat) : Int) < ((b : Nat) : Int) := by rw [Fin.lt_def] at hab; omega
  have hc : 0 ≤ ((a : Nat) : Int) ∧ ((a : Nat) : Int) < d ∧ 0 ≤ ((b : Nat) : Int) ∧ ((b : Nat) : Int) < d ∧ ((a : Nat) : Int) ≠ (b : Nat) := by
    have := a.isLt; have := b.isLt; omega
  have h1 : levelsInit d (.list [.int (a : Nat), .int (b : Nat)]) = .ok ⟨(a : Nat), (b : Nat), 0, 0⟩ := by
    simp [levelsInit, needInt, checkLevels, hc, bind, Except.bind, pure, Except.pure]
    rw [levelsSetter_sorted hlt]
    simp
  obtain ⟨A, k1, k2, k3, k4⟩ := rhArray_ok (d := d) (g := ⟨(a : Nat), (b : Nat), 0, 0⟩) (a := a) (b := b) ⟨rfl, rfl, hab⟩
  refine ⟨_, A, h1, k1, k2, k3, ?_⟩
  rw [k4, rh_two]
  rfl

theorem mkRh_first (a b : Fin P.c) (hab : a < b) :
    ∃ g, mkRh P.q0 P.c (a : Nat) (b : Nat) = .ok g ∧ Gives P g (onFirst P.t (twoLevel a b had)) := by
  obtain ⟨g, A, h1, h2, h3, h4, h5⟩ := rh_par a b hab
  refine ⟨_, ?_, gives_first (.rh g) A h2 h3 h4 _ h5⟩
  unfold mkRh
  rw [h1]
  rfl

theorem mkRh_second (hq : P.q0 ≠ P.q1) (a b : Fin P.t) (hab : a < b) :
    ∃ g, mkRh P.q1 P.t (a : Nat) (b : Nat) = .ok g ∧ Gives P g (onSecond P.c (twoLevel a b had)) := by
  obtain ⟨g, A, h1, h2, h3, h4, h5⟩ := rh_par a b hab
  refine ⟨_, ?_, gives_second hq (.rh g) A h2 h3 h4 _ h5⟩
  unfold mkRh
  rw [h1]
  rfl

/-- a phase on the lower of two levels -/
noncomputable def ph (phi : ℝ) : Matrix (Fin 2) (Fin 2) ℂ := !![cexp (-I * phi), 0; 0, 1]

theorem cexp_regulate (phi : ℝ) : cexp (-I * (regulateTheta phi : ℝ)) = cexp (-I * phi) := by
  have h : ∀ x : ℝ, cexp (-I * x) = cexp (-(I * ((x / 2 : ℝ) : ℂ))) * cexp (-(I * ((x / 2 : ℝ) : ℂ))) := by
    intro x
    rw [← Complex.exp_add]
    congr 1
    push_cast
    ring
  have e := congrFun (congrFun (zrot_regulate phi) 0) 0
  simp only [zrot, Matrix.of_apply, Matrix.cons_val', Matrix.cons_val_zero, Matrix.cons_val_fin_one] at e
  rw [h, h phi, e]

theorem mkVirtRz_second (hq : P.q0 ≠ P.q1) (a b : Fin P.t) (hab : a ≠ b) (phi : ℝ) :
    Gives P (mkVirtRz P.q1 P.t (a : Nat) phi) (onSecond P.c (twoLevel a b (ph phi))) := by
  unfold mkVirtRz
  have hg : virtRzInit P.t (.list [.int (a : Nat), .flt phi]) = ⟨(a : Nat), (virtRzInit P.t (.list [.int (a : Nat), .flt phi])).levB,
      (virtRzInit P.t (.list [.int (a : Nat), .flt phi])).theta, regulateTheta phi⟩ := by
    simp [virtRzInit]
  set v := virtRzInit P.t (.list [.int (a : Nat), .flt phi]) with hv
  obtain ⟨A, h1, h2, h3, h4⟩ := virtRzArray_ok v a (by rw [hg])
  refine gives_second hq (.virtRz v) A h1 h2 h3 _ ?_
  ext r s
  show A.at' r s = _
  rw [h4, show v.phi = regulateTheta phi by rw [hg], cexp_regulate]
  simp only [twoLevel, ph, Matrix.of_apply, Matrix.cons_val', Matrix.cons_val_zero, Matrix.cons_val_one, Matrix.cons_val_fin_one]
  have e : ((r : Nat) = s) = (r = s) := propext Fin.ext_iff.symm
  have e' : ((s : Nat) = a) = (s = a) := propext Fin.ext_iff.symm
  simp only [e, e']
  by_cases hra : r = a
  · subst hra
    by_cases hs : r = s
    · subst hs; simp
    · by_cases hsb : s = b
      · subst hsb; simp [hs, Ne.symm hs]
      · simp [hs, Ne.symm hs, hsb]
  · by_cases hrb : r = b
    · subst hrb
      by_cases hs : r = s
      · subst hs; simp [hra]
      · by_cases hsa : s = a
        · subst hsa; simp [hra]
        · simp [hs, Ne.symm hs, hsa, hra]
    · by_cases hs : r = s
      · subst hs; simp [hra, hrb]
      · simp [hra, hrb, hs]

theorem cex_op (a b : Fin P.t) (ha : (a : Nat) = 0) (hb : (b : Nat) = 1) :
    ∃ A, cexOpArray P.t ⟨0, 1, 1, 0⟩ = .ok A ∧ A.toM P.t = twoLevel a b (cexOp 0) := by
  have hab : a < b := by rw [Fin.lt_def]; omega
  unfold cexOpArray
  simp only []
  rw [show (0 : Int).toNat = a by rw [ha]; rfl, show (1 : Int).toNat = b by rw [hb]; rfl]
  have e1 : (-I * (Real.cos 0 : ℝ) - (Real.sin 0 : ℝ) : ℂ) = -I := by simp
  have e2 : (-I * (Real.cos 0 : ℝ) + (Real.sin 0 : ℝ) : ℂ) = -I := by simp
  rw [e1, e2, set_ok _ _ _ _ (by simp [Arr2.identity]) (by simp [Arr2.identity])]
  simp only [bind, Except.bind]
  rw [set_ok _ _ _ _ (by simp [Arr2.identity]) (by simp [Arr2.identity])]
  simp only []
  rw [set_ok _ _ _ _ (by simp [Arr2.identity]) (by simp [Arr2.identity])]
  simp only []
  rw [set_ok _ _ _ _ (by simp [Arr2.identity]) (by simp [Arr2.identity])]
  refine ⟨_, rfl, ?_⟩
  ext r s
  simp only [Arr2.toM, Arr2.identity, twoLevel, cexOp, Fin.ext_iff, Matrix.of_apply, Matrix.cons_val',
    Matrix.cons_val_zero, Matrix.cons_val_one, Matrix.cons_val_fin_one]
  rw [Fin.lt_def] at hab
  split_ifs <;> first | rfl | (exfalso; omega) | simp

theorem mkCEx_ok (a b : Fin P.t) (ha : (a : Nat) = 0) (hb : (b : Nat) = 1) :
    ∃ g, mkCEx P = .ok g ∧ Gives P g (ctlAll fun k => if (k : Nat) = 1 then twoLevel a b (cexOp 0) else 1) := by
  obtain ⟨A, h1, h2⟩ := cex_op a b ha hb
  refine ⟨.cex ⟨0, 1, 1, 0⟩ P.q0 P.q1 P.c P.t false, rfl, ⟨⟨rfl, rfl, rfl, rfl, rfl⟩, trivial⟩, rfl, ?_⟩
  simp only [pairOp]
  rw [h1]
  simp only []
  rw [adjIf_false, ifFirst_eq, h2]
  congr 1
  funext k
  have : (((k : Nat) : Int) = 1) = ((k : Nat) = 1) := by rw [eq_iff_iff]; omega
  simp only [this]

/-! ### the matrix used by `execute` -/

theorem kron_identity_right (A : Arr2 ℂ) (c t : Nat) (h1 : A.rows = c) (h2 : A.cols = c) :
    (A.kron (Arr2.identity t)).rows = c * t ∧ (A.kron (Arr2.identity t)).cols = c * t ∧
      (A.kron (Arr2.identity t)).toM (c * t) = onFirst t (A.toM c) := by
  refine ⟨by simp [Arr2.kron, Arr2.identity, h1], by simp [Arr2.kron, Arr2.identity, h2], ?_⟩
  refine pair_ext fun k l k' l' => ?_
  show (A.kron (Arr2.identity t)).at' _ _ = _
  rw [jn_val, jn_val, onFirst_jn]
  have := kron_at A (Arr2.identity t) k k' l l' (by simp [Arr2.identity]) (by simp [Arr2.identity])
  simp only [Arr2.identity] at this ⊢
  rw [this]
  by_cases h : l = l'
  · subst h; simp [Arr2.toM]
  · have : ¬ (l : Nat) = l' := fun e => h (Fin.ext e)
    simp [h, this]

theorem kron_identity_left (A : Arr2 ℂ) (c t : Nat) (h1 : A.rows = t) (h2 : A.cols = t) :
    ((Arr2.identity c).kron A).rows = c * t ∧ ((Arr2.identity c).kron A).cols = c * t ∧
      ((Arr2.identity c).kron A).toM (c * t) = onSecond c (A.toM t) := by
  refine ⟨by simp [Arr2.kron, Arr2.identity, h1], by simp [Arr2.kron, Arr2.identity, h2], ?_⟩
  refine pair_ext fun k l k' l' => ?_
  show ((Arr2.identity c).kron A).at' _ _ = _
  rw [jn_val, jn_val, onSecond_eq, ctlAll_jn]
  have := kron_at (Arr2.identity c) A k k' l l' (by rw [h1]; exact l.isLt) (by rw [h2]; exact l'.isLt)
  rw [h1, h2] at this
  rw [this]
  simp only [Arr2.identity]
  by_cases h : k = k'
  · subst h; simp [Arr2.toM]
  · have : ¬ (k : Nat) = k' := fun e => h (Fin.ext e)
    simp [h, this]

theorem toM_conjT (A : Arr2 ℂ) (n : Nat) : A.conjT.toM n = (A.toM n)ᴴ := by
  ext i j; rfl

theorem toM_adjIf (A : Arr2 ℂ) (n : Nat) (b : Bool) : (if b then A.conjT else A).toM n = adjIf b (A.toM n) := by
  cases b
  · rfl
  · exact toM_conjT A n

/-- for lines given in circuit order, and for gates on one line, the matrix that `execute` multiplies is the operator of the gate -/
theorem gateMatrix_ok (hq : P.q0 ≠ P.q1) (a b : Fin P.t) (ha : (a : Nat) = 0) (hb : (b : Nat) = 1) (g : EGate) (hg : Good P g)
    (hx : P.q0 < P.q1 ∨ ∃ k line d m, g = .one k line d m) :
    ∃ A, gateMatrix P g = .ok A ∧ A.rows = P.c * P.t ∧ A.cols = P.c * P.t ∧ A.toM (P.c * P.t) = pairOp P g := by
  cases g with
  | one k line d m =>
    obtain ⟨he, A, hA, h1, h2⟩ := hg
    set B : Arr2 ℂ := if m then A.conjT else A with hB
    have hB1 : B.rows = d := by rw [hB]; cases m <;> simp [Arr2.conjT, h1, h2]
    have hB2 : B.cols = d := by rw [hB]; cases m <;> simp [Arr2.conjT, h1, h2]
    have hT : (EGate.one k line d m).toMatrix = .ok B := by
      simp only [EGate.toMatrix]
      rw [hA]
      rfl
    by_cases hl : line = P.q0
    · have hd : d = P.c := by
        rcases he with ⟨_, h⟩ | ⟨h, _⟩
        · exact h
        · omega
      subst hd
      obtain ⟨e1, e2, e3⟩ := kron_identity_right B P.c P.t hB1 hB2
      refine ⟨_, ?_, e1, e2, ?_⟩
      · simp only [gateMatrix]
        rw [hT]
        simp only [bind, Except.bind, pure, Except.pure]
        rw [if_pos hl]
      · rw [e3]
        simp only [pairOp]
        rw [hA]
        simp only []
        rw [if_pos hl, hB, toM_adjIf]
    · have hd : d = P.t := by
        rcases he with ⟨h, _⟩ | ⟨_, h⟩
        · exact absurd h hl
        · exact h
      subst hd
      obtain ⟨e1, e2, e3⟩ := kron_identity_left B P.c P.t hB1 hB2
      refine ⟨_, ?_, e1, e2, ?_⟩
      · simp only [gateMatrix]
        rw [hT]
        simp only [bind, Except.bind, pure, Except.pure]
        rw [if_neg hl]
      · rw [e3]
        simp only [pairOp]
        rw [hA]
        simp only []
        rw [if_neg hl, hB, toM_adjIf]
  | cex p q0 q1 d0 d1 m =>
    obtain ⟨⟨rfl, rfl, rfl, rfl, rfl⟩, _⟩ := hg
    have hq : P.q0 < P.q1 := by
      rcases hx with h | ⟨_, _, _, _, h⟩
      · exact h
      · cases h
    have hab : a < b := by rw [Fin.lt_def]; omega
    obtain ⟨A, h1, h2, h3, h4⟩ := cexArray_ok P.q0 P.q1 P.c P.t ⟨0, 1, 1, 0⟩ a b hab (by simp [ha]) (by simp [hb])
    obtain ⟨C, k1, k2⟩ := cex_op (P := P) a b ha hb
    have hA : A.toM (P.c * P.t) = ifFirst P.c 1 (C.toM P.t) := by
      refine pair_ext fun k l k' l' => ?_
      show A.at' _ _ = _
      have := h4 k k' l l' k.isLt k'.isLt
      rw [if_pos hq] at this
      rw [jn_val, jn_val, this, ifFirst_eq, ctlAll_jn, k2]
      have e : ((k : Nat) = k') = (k = k') := propext Fin.ext_iff.symm
      simp only [e]
      split_ifs <;> rfl
    refine ⟨if m then A.conjT else A, ?_, ?_, ?_, ?_⟩
    · simp only [gateMatrix, EGate.toMatrix]
      rw [h1]
      rfl
    · cases m <;> simp [Arr2.conjT, h2, h3]
    · cases m <;> simp [Arr2.conjT, h2, h3]
    · rw [toM_adjIf, hA]
      simp only [pairOp]
      rw [k1]

/-- the loop over a list of gates multiplies their product -/
theorem applySeq_ok (hq : P.q0 < P.q1) (a b : Fin P.t) (ha : (a : Nat) = 0) (hb : (b : Nat) = 1) : ∀ (l : List EGate) (u : Arr2 ℂ),
    (∀ g ∈ l, Good P g) → u.rows = P.c * P.t → u.cols = P.c * P.t →
    ∃ v, applySeq P u l = .ok v ∧ v.rows = P.c * P.t ∧ v.cols = P.c * P.t ∧
      v.toM (P.c * P.t) = circuitOp (pairOp P) l * u.toM (P.c * P.t) := by
  intro l
  induction l with
  | nil => intro u _ h1 h2; exact ⟨u, rfl, h1, h2, by rw [circuitOp_nil, one_mul]⟩
  | cons g l ih =>
    intro u hg h1 h2
    obtain ⟨A, e1, e2, e3, e4⟩ := gateMatrix_ok hq.ne a b ha hb g (hg g (by simp)) (Or.inl hq)
    obtain ⟨B, f1, f2, f3, f4⟩ := matmul_ok A u _ e2 e3 h1 h2
    obtain ⟨v, k1, k2, k3, k4⟩ := ih B (fun x hx => hg x (by simp [hx])) f2 f3
    refine ⟨v, ?_, k2, k3, ?_⟩
    · unfold applySeq at k1 ⊢
      rw [List.foldlM_cons, e1]
      simp only [bind, Except.bind]
      rw [f1]
      exact k1
    · rw [k4, f4, e4, circuitOp_cons, mul_assoc]

end Qudits.EntQR
