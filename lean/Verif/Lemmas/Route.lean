import Verif.Lemmas.Device
import Verif.Lemmas.Resynth
import Mathlib.Tactic.NoncommRing
namespace Qudits
open LGraph Spec Matrix LocalQR

variable {d : Nat} {g : LGraph} {lp : Equiv.Perm (Fin d)}

/-- the levels stored in a rotation between `a` and `b` -/
structure OnLevels (p : TwoLevel) (a b : Fin d) : Prop where
  a_eq : p.levA = ((min a b : Fin d) : Nat)
  b_eq : p.levB = ((max a b : Fin d) : Nat)

/-- sign of a pulse between `b` (first) and `c` -/
noncomputable def dir (b c : Fin d) : ℝ := if b < c then 1 else -1

theorem dir_sign (b c : Fin d) : IsSign (dir b c) := by
  unfold dir IsSign; split_ifs <;> simp

/-- The last pulse was between `b` and a level other than `a`; `s` is its direction seen from `b`. -/
def LastIs (pulses : List RGate) (a b : Fin d) (s : ℝ) : Prop :=
  (pulses = [] ∧ s = 1) ∨ ∃ l c, pulses.getLast? = some l ∧ c ≠ b ∧ c ≠ a ∧ OnLevels l.par b c ∧ s = dir b c

theorem LastIs.sign {pulses : List RGate} {a b : Fin d} {s : ℝ} (h : LastIs pulses a b s) : IsSign s := by
  rcases h with ⟨_, rfl⟩ | ⟨l, c, _, _, _, _, rfl⟩
  · exact Or.inl rfl
  · exact dir_sign b c

theorem chainTheta_eq (last cur : TwoLevel) (a b c : Fin d) (hab : a ≠ b) (hcb : c ≠ b) (hca : c ≠ a) (hl : OnLevels last b c)
    (hc : OnLevels cur a b) : chainTheta last cur = dir b c * cur.theta := by
  have h1 : (a : Nat) ≠ b := fun h => hab (Fin.ext h)
  have h2 : (c : Nat) ≠ b := fun h => hcb (Fin.ext h)
  have h3 : (c : Nat) ≠ a := fun h => hca (Fin.ext h)
  unfold chainTheta dir
  rw [hl.a_eq, hl.b_eq, hc.a_eq, hc.b_eq]
  rcases lt_or_gt_of_ne hab with h | h <;> rcases lt_or_gt_of_ne hcb with k | k
  · rw [min_eq_left h.le, max_eq_right h.le, min_eq_right k.le, max_eq_left k.le]
    rw [Fin.lt_def] at h k
    rw [if_neg (by omega), if_pos rfl, if_pos (by omega), if_neg (by rw [Fin.lt_def]; omega)]
    ring
  · rw [min_eq_left h.le, max_eq_right h.le, min_eq_left k.le, max_eq_right k.le]
    rw [Fin.lt_def] at h
    have k' := k
    rw [Fin.lt_def] at k
    rw [if_neg (by omega), if_neg (by omega), if_neg (by omega), if_pos k']
    ring
  · rw [min_eq_right h.le, max_eq_left h.le, min_eq_right k.le, max_eq_left k.le]
    rw [Fin.lt_def] at h
    rw [Fin.lt_def] at k
    rw [if_neg (by omega), if_neg (by omega), if_pos rfl, if_neg (by rw [Fin.lt_def]; omega)]
    ring
  · rw [min_eq_right h.le, max_eq_left h.le, min_eq_left k.le, max_eq_right k.le]
    rw [if_pos rfl, if_pos k, one_mul]

theorem rot_mul_regulate {e : ℝ} (he : IsSign e) (t phi : ℝ) : rot (e * regulateTheta t) phi = rot (e * t) phi := by
  rw [rot_sign he, rot_sign he, rot_regulate]

theorem chain_ok (pulses : List RGate) (cur : RGate) (a b : Fin d) (s : ℝ) (hab : a ≠ b) (hl : LastIs pulses a b s)
    (hc : OnLevels cur.par a b) : ∃ r, gateChainCondition d pulses cur = .ok r ∧ OnLevels r.par a b ∧ r.par.phi = cur.par.phi ∧
      (∀ phi, rot r.par.theta phi = rot (s * cur.par.theta) phi) ∧ (cur.par.theta = Real.pi → r.par.theta = s * Real.pi) := by
  unfold gateChainCondition
  rcases hl with ⟨rfl, rfl⟩ | ⟨l, c, h1, h2, h3, h4, rfl⟩
  · exact ⟨cur, rfl, hc, rfl, fun _ => by rw [one_mul], fun h => by rw [h, one_mul]⟩
  · rw [h1]
    simp only []
    have hne : min a b ≠ max a b := by
      rcases lt_or_gt_of_ne hab with h | h
      · rw [min_eq_left h.le, max_eq_right h.le]; exact hab
      · rw [min_eq_right h.le, max_eq_left h.le]; exact hab.symm
    rw [chainTheta_eq _ _ a b c hab h2 h3 h4 hc, hc.a_eq, hc.b_eq, newRot_ok _ _ hne]
    refine ⟨_, rfl, ⟨?_, ?_⟩, rfl, ?_, ?_⟩
    · simp
    · simp
    · intro phi
      exact rot_regulate _ _
    · intro h
      show regulateTheta _ = _
      rw [h, regulate_sign (dir_sign b c)]

/-- A pulse as the routing makes it. -/
structure IsPulse (g : LGraph) (r : RGate) (a b : Fin d) (e : ℝ) : Prop where
  ne : a ≠ b
  levels : OnLevels r.par a b
  sign : IsSign e
  theta : r.par.theta = e * Real.pi
  phi : r.par.phi = -Real.pi / 2
  edge : ∃ data, PhysEdge g r.par.levA r.par.levB data

theorem rot_pi_neg {e : ℝ} (he : IsSign e) : rot (e * Real.pi) (-(-Real.pi / 2)) = rot ((-e) * Real.pi) (-Real.pi / 2) := by
  have hne : IsSign (-e) := by rcases he with rfl | rfl <;> simp [IsSign]
  rw [pulse_matrix hne, rot_sign he]
  unfold rot
  have h1 : Complex.exp (-(Complex.I * ((-(-Real.pi / 2) : ℝ) : ℂ))) = -Complex.I := by
    rw [show -(Complex.I * ((-(-Real.pi / 2) : ℝ) : ℂ)) = -(Real.pi / 2 * Complex.I) by push_cast; ring, Complex.exp_neg,
      Complex.exp_pi_div_two_mul_I, Complex.inv_I]
  have h2 : Complex.exp (Complex.I * ((-(-Real.pi / 2) : ℝ) : ℂ)) = Complex.I := by
    rw [show Complex.I * ((-(-Real.pi / 2) : ℝ) : ℂ) = Real.pi / 2 * Complex.I by push_cast; ring, Complex.exp_pi_div_two_mul_I]
  simp only [h1, h2, Real.cos_pi_div_two, Real.sin_pi_div_two]
  ext i j
  fin_cases i <;> fin_cases j <;> simp

/-- the operator of a pulse -/
theorem IsPulse.op {r : RGate} {a b : Fin d} {e : ℝ} (h : IsPulse g r a b e) (q : Int) :
    PhasePass.lineOp d (rotInstr q d r) = twoLevel a b (rot (dir a b * e * Real.pi) (-Real.pi / 2)) := by
  rw [lineOp_rot q r a b h.ne h.levels.a_eq h.levels.b_eq, h.theta, h.phi]
  unfold dir
  split_ifs
  · rw [one_mul]
  · rw [rot_pi_neg h.sign, neg_one_mul]

/-- the pulse with the opposite axis undoes it -/
theorem IsPulse.back {r : RGate} {a b : Fin d} {e : ℝ} (h : IsPulse g r a b e) (q : Int) :
    ∃ r', newRot d r.par.levA r.par.levB r.par.theta (-r.par.phi) = .ok r' ∧
      r'.par.levA = r.par.levA ∧ r'.par.levB = r.par.levB ∧
      PhasePass.lineOp d (rotInstr q d r') = (PhasePass.lineOp d (rotInstr q d r))ᴴ := by
  have hne : min a b ≠ max a b := by
    rcases lt_or_gt_of_ne h.ne with k | k
    · rw [min_eq_left k.le, max_eq_right k.le]; exact h.ne
    · rw [min_eq_right k.le, max_eq_left k.le]; exact h.ne.symm
  have h1 := newRot_ok (min a b) (max a b) hne r.par.theta (-r.par.phi)
  rw [← h.levels.a_eq, ← h.levels.b_eq, min_eq_left min_le_max, max_eq_right min_le_max, ← h.levels.a_eq, ← h.levels.b_eq] at h1
  refine ⟨_, h1, rfl, rfl, ?_⟩
  rw [h.op]
  refine (lineOp_rot q _ a b h.ne ?_ ?_).trans ?_
  · exact h.levels.a_eq
  · exact h.levels.b_eq
  show twoLevel a b (rot (regulateTheta r.par.theta) (if a < b then -r.par.phi else - -r.par.phi)) = _
  rw [twoLevel_conjTranspose _ h.ne, rot_conjTranspose, h.theta, regulate_sign h.sign, h.phi]
  unfold dir
  split_ifs
  · rw [rot_pi_neg h.sign, one_mul, neg_mul]
  · rw [neg_neg]; congr 2; ring

/-- a level as a node name -/
def nm (i : Fin d) : Int := ((i : Nat) : Int)

theorem nodeAt_front (front : List (Fin d)) (x : Fin d) (post : List (Fin d)) (i : Nat) (h : front.length = i) :
    nodeAt ((front ++ x :: post).map nm) i = .ok (nm x) := by
  unfold nodeAt
  subst h
  simp

theorem swapElements_front (front : List (Fin d)) (x y : Fin d) (post : List (Fin d)) (i : Nat) (h : front.length = i) :
    swapElements ((front ++ x :: y :: post).map nm) (i + 1) i = .ok ((front ++ y :: x :: post).map nm) := by
  unfold swapElements
  rw [nodeAt_front front x _ i h, show front ++ x :: y :: post = (front ++ [x]) ++ y :: post by simp,
    nodeAt_front (front ++ [x]) y post (i + 1) (by simp [h])]
  subst h
  simp [bind, Except.bind, pure, Except.pure, List.set_append]

/-- physical levels that are joined -/
def LevelsJoined (g : LGraph) (a b : Fin d) : Prop :=
  ∃ data, PhysEdge g ((min a b : Fin d) : Nat) ((max a b : Fin d) : Nat) data

theorem edgeData_symm (g : LGraph) (u v : Int) : edgeData g u v = edgeData g v u := by
  unfold edgeData
  have : joins u v = joins v u := by
    funext e
    unfold joins
    rw [Bool.eq_iff_iff]
    simp only [decide_eq_true_eq, Bool.or_eq_true, Bool.and_eq_true, beq_iff_eq]
    tauto
  rw [this]

theorem Spec.Device.levelsJoined (h : Device d g lp) (i j : Fin d) (hj : Spec.Joined g (nm i) (nm j)) : LevelsJoined g (lp i) (lp j) := by
  obtain ⟨data, hd⟩ := Option.isSome_iff_exists.1 hj
  refine ⟨data, ?_⟩
  rcases le_total (lp i) (lp j) with k | k
  · rw [min_eq_left k, max_eq_right k]
    exact ⟨_, _, h.lp i, h.lp j, hd⟩
  · rw [min_eq_right k, max_eq_left k]
    exact ⟨_, _, h.lp j, h.lp i, by rw [edgeData_symm]; exact hd⟩

/-- operator of a list of rotations -/
noncomputable def rotsOp (d : Nat) (q : Int) (l : List RGate) : Matrix (Fin d) (Fin d) ℂ :=
  circuitOp (PhasePass.lineOp d) (l.map (rotInstr q d))

theorem rotsOp_nil (q : Int) : rotsOp d q [] = 1 := rfl

theorem rotsOp_append (q : Int) (l m : List RGate) : rotsOp d q (l ++ m) = rotsOp d q m * rotsOp d q l := by
  unfold rotsOp
  rw [List.map_append, circuitOp_append]

theorem rotsOp_cons (q : Int) (r : RGate) (m : List RGate) : rotsOp d q (r :: m) = rotsOp d q m * PhasePass.lineOp d (rotInstr q d r) := by
  unfold rotsOp
  rw [List.map_cons, circuitOp_cons]

theorem routeLoop_ok {sp : PathFinder} (hsp : FindsPaths sp) (g0 : LGraph) : ∀ (i : Nat) (front : List (Fin d)) (hd tgt : Fin d)
    (post : List (Fin d)) (g : LGraph) (lp : Equiv.Perm (Fin d)) (cost : ℝ) (pulses : List RGate) (s : ℝ),
    (hd :: front).length = i + 1 → (hd :: front).Nodup → tgt ∉ hd :: front → Device d g lp → NoPhases d g →
    ((hd :: front).map lp ++ [lp tgt]).IsChain (LevelsJoined g0) →
    LastIs pulses (lp ((hd :: front).getLast (by simp))) (lp tgt) s →
    ∃ k new g' lp' s', routeLoop sp d i ((hd :: front ++ tgt :: post).map nm) g cost pulses = .ok (cost + k, pulses ++ new, g') ∧
      Device d g' lp' ∧ NoPhases d g' ∧ LastIs (pulses ++ new) (lp' hd) (lp' tgt) s' ∧ new.length = i ∧
      (∀ r ∈ new, ∃ (a b : Fin d) (e : ℝ), IsPulse g0 r a b e) ∧ LevelsJoined g0 (lp' hd) (lp' tgt) ∧
      (∀ (q : Int) (theta phi : ℝ), (rotsOp d q new)ᴴ * twoLevel (lp' hd) (lp' tgt) (rot theta phi) * rotsOp d q new =
        twoLevel (lp hd) (lp tgt) (rot (s * s' * theta) phi)) ∧ i * thetaCost Real.pi ≤ k := by
  intro i
  induction i with
  | zero =>
    intro front hd tgt post g lp cost pulses s h1 h2 h3 h4 h5 h6 h7
    have : front = [] := by simpa using h1
    subst this
    refine ⟨0, [], g, lp, s, by simp [routeLoop], h4, h5, by simpa using h7, rfl, by simp, ?_, ?_, by simp⟩
    · simpa using h6
    · intro q theta phi
      rw [rotsOp_nil, h7.sign.sq]
      simp
  | succ i ih =>
    intro front hd tgt post g lp cost pulses s h1 h2 h3 h4 h5 h6 h7
    obtain ⟨fr, x, hfr⟩ : ∃ fr x, front = fr ++ [x] := by
      rcases List.eq_nil_or_concat front with h | ⟨fr, x, h⟩
      · subst h; simp at h1
      · exact ⟨fr, x, by simpa using h⟩
    subst hfr
    have hlen : (hd :: fr).length = i + 1 := by simpa using h1
    have hxt : x ≠ tgt := fun h => h3 (by simp [h])
    have hx : x ∉ hd :: fr := by
      have : (hd :: fr ++ [x]).Nodup := h2
      rw [List.nodup_append] at this
      intro h
      exact this.2.2 x h x (by simp) rfl
    have hhx : hd ≠ x := fun h => hx (by simp [h])
    have hht : hd ≠ tgt := fun h => h3 (by simp [h])
    have hlast : (hd :: (fr ++ [x])).getLast (by simp) = x := by simp
    rw [hlast] at h7
    have hne : lp x ≠ lp tgt := fun h => hxt (lp.injective h)
    obtain ⟨r1, e1, l1, p1, _, t1⟩ := chain_ok pulses ⟨((lp x : Fin d) : Nat), ((lp tgt : Fin d) : Nat), ⟨((min (lp x) (lp tgt) : Fin d) : Nat),
      ((max (lp x) (lp tgt) : Fin d) : Nat), regulateTheta Real.pi, -Real.pi / 2⟩⟩ (lp x) (lp tgt) s hne h7 ⟨rfl, rfl⟩
    have t1 := t1 regulate_pi
    have hreg : regulateTheta r1.par.theta = r1.par.theta := by rw [t1]; exact regulate_sign h7.sign
    obtain ⟨r2, e2, p2⟩ : ∃ r', graphRuleOngate d r1 g = .ok r' ∧ r'.par = r1.par := by
      rcases lt_or_gt_of_ne hne with k | k
      · refine h4.ongate r1 x tgt hxt ?_ ?_ k h5 hreg
        · rw [l1.a_eq, min_eq_left k.le]
        · rw [l1.b_eq, max_eq_right k.le]
      · refine h4.ongate r1 tgt x hxt.symm ?_ ?_ k h5 hreg
        · rw [l1.a_eq, min_eq_right k.le]
        · rw [l1.b_eq, max_eq_left k.le]
    have e3 := newRot_ok x tgt hxt r2.par.theta (r2.par.phi / 2)
    obtain ⟨k3, e4, c4⟩ := h4.cost hsp (⟨(x : Nat), (tgt : Nat), ⟨((min x tgt : Fin d) : Nat), ((max x tgt : Fin d) : Nat),
      regulateTheta r2.par.theta, r2.par.phi / 2⟩⟩ : RGate) x tgt rfl rfl
    obtain ⟨g1, e5, d5, _, n5⟩ := h4.swap tgt x
    have hp : IsPulse g0 r2 (lp x) (lp tgt) s := by
      refine ⟨hne, ⟨?_, ?_⟩, h7.sign, ?_, ?_, ?_⟩
      · rw [p2, l1.a_eq]
      · rw [p2, l1.b_eq]
      · rw [p2, t1]
      · rw [p2, p1]
      · rw [p2, l1.a_eq, l1.b_eq]
        have h6' : ((hd :: fr).map lp ++ ([lp x, lp tgt])).IsChain (LevelsJoined g0) := by
          simpa using h6
        have := List.isChain_append.1 h6'
        have h8 : LevelsJoined g0 (lp x) (lp tgt) := by simpa using this.2.1
        exact h8
    have v1 : (lp * Equiv.swap tgt x) tgt = lp x := by simp
    have v2 : ∀ n ∈ hd :: fr, (lp * Equiv.swap tgt x) n = lp n := by
      intro n hn
      rw [Equiv.Perm.mul_apply, Equiv.swap_apply_of_ne_of_ne]
      · rintro rfl; exact h3 (by rcases List.mem_cons.1 hn with h | h <;> simp [h])
      · rintro rfl; exact hx hn
    have hn2 : (hd :: fr).Nodup := by
      have : (hd :: fr ++ [x]).Nodup := h2
      exact (List.nodup_append.1 this).1
    have hn3 : tgt ∉ hd :: fr := fun h => h3 (by rcases List.mem_cons.1 h with h | h <;> simp [h])
    obtain ⟨k, new, g', lp', s', i1, i2, i3, i4, i5, i6, i7, i8, i9⟩ := ih fr hd tgt (x :: post) g1 (lp * Equiv.swap tgt x) (cost + k3)
      (pulses ++ [r2]) (dir (lp x) (lp tgt)) hlen hn2 hn3 d5 (n5 h5) (by
        rw [v1, List.map_congr_left v2]
        have h6' : (((hd :: fr).map lp ++ [lp x]) ++ [lp tgt]).IsChain (LevelsJoined g0) := by simpa using h6
        exact (List.isChain_append.1 h6').1) (by
        right
        rw [v1, v2 _ (List.getLast_mem _)]
        refine ⟨r2, lp tgt, by simp, hne.symm, ?_, hp.levels, rfl⟩
        intro h
        exact hn3 ((lp.injective h) ▸ List.getLast_mem _))
    refine ⟨k3 + k, r2 :: new, g', lp', s', ?_, i2, i3, ?_, by simp [i5], ?_, i7, ?_, ?_⟩
    · rw [routeLoop]
      have a1 : nodeAt ((hd :: (fr ++ [x]) ++ tgt :: post).map nm) (i + 1) = .ok (nm x) := by
        have := nodeAt_front (hd :: fr) x (tgt :: post) (i + 1) hlen
        simpa using this
      have a2 : nodeAt ((hd :: (fr ++ [x]) ++ tgt :: post).map nm) (i + 2) = .ok (nm tgt) := by
        have := nodeAt_front (hd :: fr ++ [x]) tgt post (i + 2) (by simpa using hlen)
        simpa using this
      have a3 : swapElements ((hd :: (fr ++ [x]) ++ tgt :: post).map nm) (i + 2) (i + 1) =
          .ok ((hd :: fr ++ tgt :: x :: post).map nm) := by
        have := swapElements_front (hd :: fr) x tgt post (i + 1) hlen
        simpa using this
      rw [a1, a2, a3]
      simp only [bind, Except.bind, nm]
      rw [h4.lpmap, h4.lpmap]
      simp only []
      rw [newRot_ok _ _ hne]
      simp only []
      rw [e1]
      simp only []
      rw [e2]
      simp only []
      rw [e3]
      simp only []
      rw [e4]
      simp only []
      rw [e5]
      simp only []
      have := i1
      simp only [List.append_assoc, List.singleton_append, add_assoc] at this ⊢
      exact this
    · simpa using i4
    · intro r hr
      rcases List.mem_cons.1 hr with rfl | hr
      · exact ⟨_, _, _, hp⟩
      · exact i6 r hr
    · intro q theta phi
      rw [rotsOp_cons, conjTranspose_mul]
      have e := i8 q theta phi
      rw [v1, v2 hd (by simp)] at e
      rw [show ∀ A B C D E : Matrix (Fin d) (Fin d) ℂ, A * B * C * (D * E) = A * (B * C * D) * E by intros; noncomm_ring, e, hp.op q,
        conj_pulse (lp hd) (lp x) (lp tgt) (fun h => hhx (lp.injective h)) (fun h => hht (lp.injective h)) hne
          ((dir_sign _ _).mul h7.sign)]
      congr 2
      have := (dir_sign (lp x) (lp tgt)).sq
      linear_combination (s * s' * theta) * this
    · have hc : thetaCost (regulateTheta r2.par.theta) = thetaCost Real.pi := by
        rw [p2, t1, regulate_sign h7.sign]
        rcases h7.sign with h | h <;> rw [h]
        · rw [one_mul]
        · unfold thetaCost; simp
      rw [hc] at c4
      push_cast
      linarith

end Qudits
