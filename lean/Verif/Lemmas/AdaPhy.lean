import Verif.Lemmas.AdaChain
/- The physical search: frames, blocks, extraction. -/
namespace Qudits.Adaptive
open LGraph LocalQR Spec Matrix Qudits.Tree QRAlg Complex

variable {d : Nat} {off : ℝ} {limit : ℝ × ℝ} {g g0 : LGraph} {lp : Equiv.Perm (Fin d)} {sp : PathFinder}

theorem frame_eq (h : Device d g lp) : frame d g = relabelling lp * diagonal fun i => cexp (I * (stored g i : ℝ)) := by
  ext r c
  rw [mul_diagonal]
  unfold frame relabelling
  rw [h.lp c]
  by_cases hr : r = lp c
  · subst hr; simp
  · rw [if_neg hr, if_neg, zero_mul]
    intro e
    apply hr
    have : ((lp c : Fin d) : Nat) = (r : Nat) := by
      have := Option.some.inj e
      injection this with this
      exact_mod_cast this
    exact Fin.ext this.symm

theorem stored_of {i : Fin d} {x : ℝ} (h : value g (i : Nat) "phase_storage" = some (.flt x)) : stored g i = x := by
  unfold stored; rw [h]

theorem relabelling_diagonal (lp : Equiv.Perm (Fin d)) (f : Fin d → ℂ) :
    relabelling lp * diagonal (fun i => f (lp i)) = diagonal f * relabelling lp := by
  ext r c
  rw [mul_diagonal, diagonal_mul]
  unfold relabelling
  by_cases hr : r = lp c
  · subst hr; simp
  · simp [hr]

theorem frame_signed (h : Device d g lp) {η : Fin d → ℝ} (hs : Signed g lp η) : frame d g = signs η * relabelling lp := by
  rw [frame_eq h]
  unfold signs
  rw [← relabelling_diagonal]
  congr 2
  funext i
  obtain ⟨x, h1, h2, h3⟩ := hs i
  rw [stored_of h1, h3, (cexp_sign h2).1]

theorem relabelling_twoLevel (lp : Equiv.Perm (Fin d)) (a b : Fin d) (M : Matrix (Fin 2) (Fin 2) ℂ) :
    relabelling lp * twoLevel a b M = twoLevel (lp a) (lp b) M * relabelling lp := by
  have h1 := conjHom_twoLevel lp a b M
  rw [conjHom_eq] at h1
  have h2 := (mem_unitaryGroup_iff').1 (relabelling_unitary lp)
  rw [star_eq_conjTranspose] at h2
  rw [← h1, mul_assoc, h2, mul_one]

theorem signs_twoLevel (η : Fin d → ℝ) (a b : Fin d) (hab : a ≠ b) (ha : IsSign (η a)) (hb : IsSign (η b)) (theta phi : ℝ) :
    signs η * twoLevel a b (rot theta phi) = twoLevel a b (rot (η a * η b * theta) phi) * signs η := by
  rw [rot_sign (ha.mul hb)]
  have hba := hab.symm
  have sa := ha.sq
  have sb := hb.sq
  have sa' : (η a : ℂ) * (η a : ℂ) = 1 := by exact_mod_cast sa
  have sb' : (η b : ℂ) * (η b : ℂ) = 1 := by exact_mod_cast sb
  ext r c
  unfold signs
  rw [mul_diagonal, diagonal_mul]
  unfold twoLevel
  by_cases h1 : r = a
  · subst h1
    by_cases h2 : c = r
    · subst h2; simp; ring
    · by_cases h3 : c = b
      · subst h3
        simp [hba]
        linear_combination (-((η r : ℂ) * rot theta phi 0 1)) * sb'
      · simp [h2, h3]
  · by_cases h1' : r = b
    · subst h1'
      by_cases h2 : c = a
      · subst h2
        simp [hba]
        linear_combination (-((η r : ℂ) * rot theta phi 1 0)) * sa'
      · by_cases h3 : c = r
        · subst h3; simp [h1]; ring
        · simp [h1, h2, h3]
    · simp only [h1, h1', if_false]
      by_cases h2 : r = c
      · subst h2; simp
      · simp [h2]

/-- what the loop body does after the matrix has been rotated -/
def BlockOk (sp : PathFinder) (d : Nat) (g0 : LGraph) (K : LGraph → Prop) : Prop :=
  ∀ g, K g → ∀ a b : Fin d, a < b → ∀ (theta phi : ℝ) (nz : Nat), ∃ k A B r1 r2 r3 backs g',
    costCalculator sp d ⟨nm a, nm b, ⟨nm a, nm b, regulateTheta theta, phi⟩⟩ g nz = .ok k ∧
    k.placement.lpmap (a : Nat) = .ok A ∧ k.placement.lpmap (b : Nat) = .ok B ∧
    newRot d A B theta (if A > B then phi * -1 else phi) = .ok r1 ∧ gateChainCondition d k.pulses r1 = .ok r2 ∧
    graphRuleOngate d r2 k.placement = .ok r3 ∧
    (k.pulses.mapM fun p => newRot d p.par.levA p.par.levB p.par.theta (-p.par.phi)) = .ok backs ∧
    backs.foldlM (fun h p => graphRuleUpdate p h) k.placement = .ok g' ∧ K g' ∧
    (∀ q, circuitOp (PhasePass.lineOp d) ((k.pulses ++ [r3]).map (rotInstr q d)) * frame d g = frame d g' * twoLevel a b (rot theta phi)) ∧
    (∀ r ∈ k.pulses ++ [r3], ∃ data, PhysEdge g0 r.par.levA r.par.levB data) ∧ 8e-5 ≤ k.piCost + k.gateCost

/-- a device with its levels, whose stored phases are multiples of π -/
def PiKind (d : Nat) (g0 : LGraph) (g : LGraph) : Prop :=
  ∃ (lp : Equiv.Perm (Fin d)) (η : Fin d → ℝ), Device d g lp ∧ InOrder d g ∧ Signed g lp η ∧ EdgesIn g g0

/-- a rotation on levels `A`, `B` with stored phases -/
theorem ongate_op (h : Device d g lp) (a b : Fin d) (hab : a ≠ b) (x y : ℝ) (hx : value g (a : Nat) "phase_storage" = some (.flt x))
    (hy : value g (b : Nat) "phase_storage" = some (.flt y)) (phi : ℝ) (r2 : RGate) (hl : OnLevels r2.par (lp a) (lp b))
    (hp : r2.par.phi = if ((lp a : Nat) : Int) > ((lp b : Nat) : Int) then phi * -1 else phi) :
    ∃ r3, graphRuleOngate d r2 g = .ok r3 ∧ OnLevels r3.par (lp a) (lp b) ∧
      ∀ q, PhasePass.lineOp d (rotInstr q d r3) = twoLevel (lp a) (lp b) (rot r2.par.theta (phi + (y - x))) := by
  have hne : lp a ≠ lp b := fun e => hab (lp.injective e)
  rcases lt_or_gt_of_ne hne with k | k
  · obtain ⟨r3, e1, e2⟩ := h.ongate' r2 a b (by rw [hl.a_eq, min_eq_left k.le]) (by rw [hl.b_eq, max_eq_right k.le]) k x y hx hy
    have hl3 : OnLevels r3.par (lp a) (lp b) := ⟨by rw [e2]; exact hl.a_eq, by rw [e2]; exact hl.b_eq⟩
    refine ⟨r3, e1, hl3, fun q => ?_⟩
    rw [lineOp_rot q r3 _ _ hne hl3.a_eq hl3.b_eq, if_pos k, e2]
    show twoLevel _ _ (rot (regulateTheta _) (r2.par.phi - x + y)) = _
    rw [rot_regulate, hp, if_neg (by rw [Fin.lt_def] at k; omega)]
    congr 2; ring
  · obtain ⟨r3, e1, e2⟩ := h.ongate' r2 b a (by rw [hl.a_eq, min_eq_right k.le]) (by rw [hl.b_eq, max_eq_left k.le]) k y x hy hx
    have hl3 : OnLevels r3.par (lp a) (lp b) := ⟨by rw [e2]; exact hl.a_eq, by rw [e2]; exact hl.b_eq⟩
    refine ⟨r3, e1, hl3, fun q => ?_⟩
    rw [lineOp_rot q r3 _ _ hne hl3.a_eq hl3.b_eq, if_neg (not_lt.2 k.le), e2]
    show twoLevel _ _ (rot (regulateTheta _) (-(r2.par.phi - y + x))) = _
    rw [rot_regulate, hp, if_pos (by rw [Fin.lt_def] at k; omega)]
    congr 2; ring

theorem piBlock (hsp : FindsPaths sp) (g0 : LGraph) : BlockOk sp d g0 (PiKind d g0) := by
  rintro g ⟨lp, η, h, ho, hs, he⟩ a b hlt theta phi nz
  have hab := hlt.ne
  obtain ⟨p, hp1, hp2⟩ := hsp g _ _ h.wf (h.mem a) (h.conn a b)
  obtain ⟨front, e1, e2, e3, e4, e5⟩ := h.path a b hab p hp2
  obtain ⟨k, new, g', lp', s', mv, i1, i2, i3, i3', i3'', i4, i5, i6, i7, i8, i9⟩ := adaRoute_ok hsp g0 η front.length front a b [] g lp 0 [] 1
    (by simp) e2 e3 h hs (e4.imp fun x y hxy => he.levels hxy) (Or.inl ⟨rfl, rfl⟩)
  simp only [List.nil_append, zero_add] at i1 i4
  have hlen : p.length - 2 = front.length := by rw [e1]; simp
  have hroute : route sp d ⟨nm a, nm b, ⟨nm a, nm b, regulateTheta theta, phi⟩⟩ g = .ok (k, new, g') := by
    unfold route
    simp only [bind, Except.bind]
    rw [show sp g (nm a) (nm b) = .ok p from hp1]
    simp only []
    rw [hlen, e1]
    exact i1
  obtain ⟨c, hc, hc'⟩ := i2.cost hsp ⟨nm a, nm b, ⟨nm a, nm b, regulateTheta theta, phi⟩⟩ a b rfl rfl
  have hcost : costCalculator sp d ⟨nm a, nm b, ⟨nm a, nm b, regulateTheta theta, phi⟩⟩ g nz = .ok ⟨(c + k) * nz, new, g', k, c⟩ := by
    unfold costCalculator
    simp only [bind, Except.bind, pure, Except.pure]
    rw [hroute]
    simp only []
    rw [hc]
  have hne : lp' a ≠ lp' b := fun e => hab (lp'.injective e)
  obtain ⟨r, f1, f2, f3, f4, _⟩ := chain_ok new ⟨((lp' a : Fin d) : Nat), ((lp' b : Fin d) : Nat), ⟨((min (lp' a) (lp' b) : Fin d) : Nat),
      ((max (lp' a) (lp' b) : Fin d) : Nat), regulateTheta theta, if ((lp' a : Nat) : Int) > ((lp' b : Nat) : Int) then phi * -1 else phi⟩⟩
      (lp' a) (lp' b) s' hne i4 ⟨rfl, rfl⟩
  obtain ⟨x, vx, sx, cx⟩ := i3 a
  obtain ⟨y, vy, sy, cy⟩ := i3 b
  obtain ⟨r3, o1, o2, o3⟩ := ongate_op i2 a b hab x y vx vy phi r f2 f3
  obtain ⟨backs, b1, b2⟩ := updates_ok (lp := lp') new mv i6
  have ho' : InOrder d g' := i3'.trans ho
  obtain ⟨g2, u1, u2, u3, u4, u5⟩ := b2 g' η i2 ho' i3
  obtain ⟨m1, m2, m3⟩ := i8 η (by rw [one_mul]) (fun _ _ => rfl)
  have hmin := thetaCost_min theta
  refine ⟨_, _, _, _, r, r3, backs, g2, hcost, i2.lpmap a, i2.lpmap b, newRot_ok _ _ hne _ _, f1, o1, b1, u1,
    ⟨lp', _, u2, u3, u4, u5.trans (i3''.trans he)⟩, ?_, ?_, ?_⟩
  · intro q
    show circuitOp _ ((new ++ [r3]).map (rotInstr q d)) * _ = _
    rw [frame_signed h hs, frame_signed u2 u4]
    change rotsOp d q (new ++ [r3]) * _ = _
    rw [rotsOp_append, mul_assoc, m1 q, rotsOp_cons, rotsOp_nil, one_mul, o3 q, mul_assoc (signs _), relabelling_twoLevel, ← mul_assoc, ← mul_assoc]
    congr 1
    have ss := i4.sign
    have sa := i3.sign (lp' a)
    have sb := i3.sign (lp' b)
    rw [signs_twoLevel _ _ _ hne (by rw [m3]; exact sa) (by rw [m2]; exact ss.mul sb), m2, m3]
    congr 2
    obtain ⟨z1, z2⟩ := sin_sub_zero sy sx
    rw [rot_shift z1, z2, cx, cy]
    have hsg := (cos_sign sy).mul (cos_sign sx)
    rw [rot_sign hsg, f4, ← rot_sign hsg]
    show rot (_ * (s' * regulateTheta theta)) phi = _
    rw [← mul_assoc, rot_mul_regulate (hsg.mul ss)]
    congr 1; ring
  · intro z hz
    rcases List.mem_append.1 hz with hz | hz
    · have : ∀ (l : List RGate) (m : List (Fin d × Fin d × ℝ)), List.Forall₂ (fun r m => IsMove g0 r m.1 m.2.1 m.2.2) l m →
          ∀ r ∈ l, ∃ data, PhysEdge g0 r.par.levA r.par.levB data := by
        intro l m hf
        induction hf with
        | nil => simp
        | cons hm _ ih =>
          intro r hr
          rcases List.mem_cons.1 hr with rfl | hr
          · exact hm.edge
          · exact ih r hr
      exact this new mv i6 z hz
    · simp at hz; subst hz
      obtain ⟨data, hd⟩ := i7
      exact ⟨data, by rw [o2.a_eq, o2.b_eq]; exact hd⟩
  · have h1 : 0 ≤ k := le_trans (mul_nonneg (Nat.cast_nonneg _) (thetaCost_nonneg _)) i9
    have h2 : thetaCost (regulateTheta theta) ≤ c := hc'
    show 8e-5 ≤ k + c
    linarith

/-! ### no pulses -/

theorem _root_.Qudits.Spec.FindsShortest.edge (hsp : FindsShortest sp) (hw : Wf g) {a b : Int} (hab : a ≠ b) (hj : Joined g a b) : sp g a b = .ok [a, b] := by
  have hp : IsPath g a b [a, b] := ⟨rfl, rfl, by simpa using hj, by simpa using hab⟩
  obtain ⟨p, h1, h2⟩ := hsp.finds g a b hw (joined_ends hw hj).1 ⟨_, hp⟩
  have hl := hsp.shortest g a b p _ h1 hp
  rw [h1]
  congr 1
  have f := h2.first
  have l := h2.last
  match p, hl, f, l with
  | [], _, f, _ => simp at f
  | [x], _, f, l => simp at f l; exact absurd (f.symm.trans l) hab
  | [x, y], _, f, l => simp at f l; rw [f, l]
  | x :: y :: z :: r, hl, _, _ => simp at hl

/-- a device on which any two levels are coupled, with any phases -/
def DirectKind (d : Nat) (g1 : LGraph) (g : LGraph) : Prop := g = g1

theorem directBlock (hsp : FindsShortest sp) (h : Device d g lp) (hc : AllCoupled d g)
    (hph : ∀ i : Fin d, ∃ x, value g (i : Nat) "phase_storage" = some (.flt x)) (he : EdgesIn g g0) : BlockOk sp d g0 (DirectKind d g) := by
  intro g2 e
  rw [show g2 = g from e]
  clear e
  intro a b hlt theta phi nz
  have hab := hlt.ne
  have hroute : route sp d ⟨nm a, nm b, ⟨nm a, nm b, regulateTheta theta, phi⟩⟩ g = .ok (0, [], g) := by
    unfold route
    simp only [bind, Except.bind]
    rw [hsp.edge h.wf (fun e => hab (nm_injective e)) (hc a b hab)]
    rfl
  obtain ⟨c, hc1, hc'⟩ := h.cost hsp.finds ⟨nm a, nm b, ⟨nm a, nm b, regulateTheta theta, phi⟩⟩ a b rfl rfl
  have hcost : costCalculator sp d ⟨nm a, nm b, ⟨nm a, nm b, regulateTheta theta, phi⟩⟩ g nz = .ok ⟨(c + 0) * nz, [], g, 0, c⟩ := by
    unfold costCalculator
    simp only [bind, Except.bind, pure, Except.pure]
    rw [hroute]
    simp only []
    rw [hc1]
  have hne : lp a ≠ lp b := fun e => hab (lp.injective e)
  obtain ⟨x, vx⟩ := hph a
  obtain ⟨y, vy⟩ := hph b
  obtain ⟨r3, o1, o2, o3⟩ := ongate_op h a b hab x y vx vy phi ⟨((lp a : Fin d) : Nat), ((lp b : Fin d) : Nat),
    ⟨((min (lp a) (lp b) : Fin d) : Nat), ((max (lp a) (lp b) : Fin d) : Nat), regulateTheta theta,
      if ((lp a : Nat) : Int) > ((lp b : Nat) : Int) then phi * -1 else phi⟩⟩ ⟨rfl, rfl⟩ rfl
  have hmin := thetaCost_min theta
  refine ⟨_, _, _, _, _, r3, [], g, hcost, h.lpmap a, h.lpmap b, newRot_ok _ _ hne _ _, rfl, o1, rfl, rfl, rfl, ?_, ?_, ?_⟩
  · intro q
    show circuitOp _ [rotInstr q d r3] * _ = _
    rw [circuitOp_cons, circuitOp_nil, one_mul, o3 q, frame_eq h, ← mul_assoc, mul_assoc (relabelling lp)]
    have hd : (diagonal fun i => cexp (I * (stored g i : ℝ))) * twoLevel a b (rot theta phi) =
        twoLevel a b (rot theta (phi + (y - x))) * diagonal fun i => cexp (I * (stored g i : ℝ)) := by
      ext r c
      rw [mul_diagonal, diagonal_mul]
      unfold twoLevel
      have hba := hab.symm
      by_cases h1 : r = a
      · subst h1
        by_cases h2 : c = r
        · subst h2; simp [rot]; ring
        · by_cases h3 : c = b
          · subst h3
            simp only [if_true, if_neg hba, rot, Matrix.of_apply, Matrix.cons_val', Matrix.cons_val_zero, Matrix.cons_val_one,
              Matrix.cons_val_fin_one]
            rw [stored_of vx, stored_of vy]
            have : cexp (I * (x : ℂ)) * cexp (-(I * (phi : ℂ))) = cexp (-(I * ((phi + (y - x) : ℝ) : ℂ))) * cexp (I * (y : ℂ)) := by
              rw [← Complex.exp_add, ← Complex.exp_add]; congr 1; push_cast; ring
            linear_combination (-I * Real.sin (theta / 2)) * this
          · simp [h2, h3]
      · by_cases h1' : r = b
        · subst h1'
          by_cases h2 : c = a
          · subst h2
            simp only [if_true, if_neg hba, rot, Matrix.of_apply, Matrix.cons_val', Matrix.cons_val_zero, Matrix.cons_val_one,
              Matrix.cons_val_fin_one]
            rw [stored_of vx, stored_of vy]
            have : cexp (I * (y : ℂ)) * cexp (I * (phi : ℂ)) = cexp (I * ((phi + (y - x) : ℝ) : ℂ)) * cexp (I * (x : ℂ)) := by
              rw [← Complex.exp_add, ← Complex.exp_add]; congr 1; push_cast; ring
            linear_combination (-I * Real.sin (theta / 2)) * this
          · by_cases h3 : c = r
            · subst h3; simp [h1, rot]; ring
            · simp [h1, h2, h3]
        · simp only [h1, h1', if_false]
          by_cases h2 : r = c
          · subst h2; simp
          · simp [h2]
    rw [hd, ← mul_assoc, relabelling_twoLevel]
    congr 2
    show twoLevel _ _ (rot (regulateTheta theta) _) = _
    rw [rot_regulate]
  · intro z hz
    simp at hz; subst hz
    obtain ⟨data, hd⟩ := he.levels (h.levelsJoined a b (hc a b hab))
    exact ⟨data, by rw [o2.a_eq, o2.b_eq]; exact hd⟩
  · have h2 : thetaCost (regulateTheta theta) ≤ c := hc'
    show 8e-5 ≤ 0 + c
    linarith

/-! ### the physical search -/

/-- what holds at every node -/
def PhyInv (d : Nat) (K : LGraph → Prop) (c : Core) : Prop := Square d c.data.u ∧ ∃ g, c.graph = some g ∧ K g

/-- the matrix of a node, in the frame of its graph -/
noncomputable def framed (d : Nat) (c : Core) : Matrix (Fin d) (Fin d) ℂ := frame d (c.graph.getD {}) * c.data.u.toM d

/-- between coupled levels of `g0` -/
def OnEdge (g0 : LGraph) (r : RGate) : Prop := ∃ data, PhysEdge g0 r.par.levA r.par.levB data

theorem phyStep_ok {K : LGraph → Prop} (hb : BlockOk sp d g0 K) :
    StepOk phyTriples (phyStep sp d) (PhyInv d K) (Follows d (PhyInv d K) (framed d) (OnEdge g0)) := by
  classical
  rintro r news k ⟨c, a, b⟩ ht ⟨hI, g, hg, hK⟩
  have hI : Square d r.data.u := hI
  have hg : r.graph = some g := hg
  have ht : (c, a, b) ∈ phyTriples r.data.u.rows := ht
  rw [hI.rows] at ht
  obtain ⟨h1, h2, h3⟩ := phyTriples_mem ht
  simp only at h1 h2 h3
  obtain ⟨fc, hfc⟩ : ∃ f : Fin d, (f : Nat) = c := ⟨⟨c, by omega⟩, rfl⟩
  obtain ⟨fa, hfa⟩ : ∃ f : Fin d, (f : Nat) = a := ⟨⟨a, by omega⟩, rfl⟩
  obtain ⟨fb, hfb⟩ : ∃ f : Fin d, (f : Nat) = b := ⟨⟨b, by omega⟩, rfl⟩
  subst hfc hfa hfb
  have hab : fa < fb := h2
  unfold phyStep
  have htop : (withChildren r news).top = { r with size := news.length } := rfl
  simp only [htop, bind, Except.bind, pure, Except.pure, hI.get]
  split_ifs with hx
  · generalize 2 * arctan2 ‖r.data.u.toM d fb fc‖ ‖r.data.u.toM d fa fc‖ = theta
    generalize -(Real.pi / 2 + Complex.arg (r.data.u.toM d fa fc) - Complex.arg (r.data.u.toM d fb fc)) = phi
    obtain ⟨A, B, e1, e2, e3, e4, e5⟩ := rotate_ok hI fa fb hab theta phi
    rw [e1]
    simp only [e2, e3, hg]
    obtain ⟨kk, LA, LB, r1, r2, r3, backs, g', c1, c2, c3, c4, c5, c6, c7, c8, c9, c10, c11, c12⟩ := hb g hK fa fb hab theta phi (countNonzero B)
    rw [c1]
    simp only []
    split_ifs with ha
    · right
      rw [c2]
      simp only []
      rw [c3]
      simp only []
      rw [c4]
      simp only []
      rw [c5]
      simp only []
      rw [c6]
      simp only []
      rw [c7]
      simp only []
      rw [c8]
      simp only []
      refine ⟨⟨some r3, B, r.data.limit, kk.pulses⟩, some g', _, _, by rw [nodeAdd_withChildren], ⟨⟨e4, g', rfl, c9⟩, rfl, ?_, affordable_lt ha, ?_, c11⟩,
        ⟨e4, g', rfl, c9⟩⟩
      · show r.dcost + 8e-5 ≤ kk.piCost + kk.gateCost + r.dcost
        linarith
      · intro q
        show circuitOp _ ((kk.pulses ++ [r3]).map (rotInstr q d)) * (frame d (r.graph.getD {}) * r.data.u.toM d) = frame d g' * B.toM d
        rw [hg, e5, ← mul_assoc, ← mul_assoc, ← c10 q]
        rfl
    · exact Or.inl rfl
  · exact Or.inl rfl

end Qudits.Adaptive
