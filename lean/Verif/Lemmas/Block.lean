import Verif.Lemmas.Route
namespace Qudits
open LGraph Spec Matrix LocalQR

variable {d : Nat} {g : LGraph} {lp : Equiv.Perm (Fin d)}

theorem joined_mem (hg : Wf g) {u v : Int} (h : Spec.Joined g u v) : v ∈ Spec.names g := by
  unfold Spec.Joined edgeData at h
  rw [Option.isSome_map, List.find?_isSome] at h
  obtain ⟨e, he, hj⟩ := h
  have h1 := hg.ends e he
  unfold joins at hj
  simp only [Bool.or_eq_true, Bool.and_eq_true, beq_iff_eq] at hj
  rcases hj with ⟨_, h2⟩ | ⟨h2, _⟩
  · rw [← h2]; exact h1.2
  · rw [← h2]; exact h1.1

theorem chain_mem (hg : Wf g) : ∀ (l : List Int) (x : Int), x ∈ Spec.names g → (x :: l).IsChain (Spec.Joined g) → ∀ n ∈ x :: l, n ∈ Spec.names g := by
  intro l
  induction l with
  | nil => intro x hx _ n hn; simp at hn; rw [hn]; exact hx
  | cons y l ih =>
    intro x hx hc n hn
    rw [List.isChain_cons_cons] at hc
    rcases List.mem_cons.1 hn with rfl | hn
    · exact hx
    · exact ih y (joined_mem hg hc.1) hc.2 n hn

theorem nm_injective : Function.Injective (nm : Fin d → Int) := fun i j h => Fin.ext (by unfold nm at h; exact_mod_cast h)

theorem Spec.Device.path (h : Device d g lp) (a b : Fin d) (hab : a ≠ b) (p : List Int) (hp : IsPath g (nm a) (nm b) p) :
    ∃ front : List (Fin d), p = (a :: front ++ [b]).map nm ∧ (a :: front).Nodup ∧ b ∉ a :: front ∧
      ((a :: front).map lp ++ [lp b]).IsChain (LevelsJoined g) ∧ front.length + 2 ≤ d := by
  obtain ⟨l, rfl⟩ : ∃ l, p = nm a :: l := by
    cases p with
    | nil => have := hp.first; simp at this
    | cons x l => have := hp.first; simp at this; exact ⟨l, by rw [this]⟩
  have hmem := chain_mem h.wf l (nm a) (h.mem a) hp.steps
  obtain ⟨L, hL⟩ : ∃ L : List (Fin d), l = L.map nm := by
    have : ∀ l : List Int, (∀ n ∈ l, n ∈ Spec.names g) → ∃ L : List (Fin d), l = L.map nm := by
      intro l
      induction l with
      | nil => intro _; exact ⟨[], rfl⟩
      | cons x l ih =>
        intro hx
        obtain ⟨L, hL⟩ := ih (fun n hn => hx n (by simp [hn]))
        obtain ⟨i, hi⟩ := (h.mem_iff x).1 (hx x (by simp))
        exact ⟨i :: L, by rw [List.map_cons, ← hL, hi]; rfl⟩
    exact this l (fun n hn => hmem n (by simp [hn]))
  subst hL
  have hlast := hp.last
  rcases List.eq_nil_or_concat L with rfl | ⟨front, x, rfl⟩
  · simp at hlast; exact absurd (nm_injective hlast) hab
  · have hx : x = b := by
      have e : nm a :: (front.concat x).map nm = (nm a :: front.map nm) ++ [nm x] := by simp
      rw [e, List.getLast?_append] at hlast
      simp at hlast
      exact nm_injective hlast
    subst hx
    have e : nm a :: (front.concat x).map nm = (a :: front ++ [x]).map nm := by simp
    have hnd := hp.nodup
    have hst := hp.steps
    rw [e] at hnd hst
    have hnd := List.Nodup.of_map _ hnd
    refine ⟨front, e, (List.nodup_append.1 hnd).1, ?_, ?_, ?_⟩
    · intro hm
      exact (List.nodup_append.1 hnd).2.2 x hm x (by simp) rfl
    · rw [List.isChain_map] at hst
      have : ((a :: front ++ [x]).map lp).IsChain (LevelsJoined g) := by
        rw [List.isChain_map]
        exact hst.imp fun i j hj => h.levelsJoined i j hj
      simpa using this
    · have := hnd.length_le_card
      simp at this
      omega

/-- the pulses undone -/
theorem backs_ok (q : Int) (pulses : List RGate) (hp : ∀ r ∈ pulses, ∃ (a b : Fin d) (e : ℝ), IsPulse g r a b e) :
    ∃ backs : List RGate, (pulses.reverse.mapM fun p => newRot d p.par.levA p.par.levB p.par.theta (-p.par.phi)) = .ok backs ∧
      rotsOp d q backs = (rotsOp d q pulses)ᴴ ∧ backs.length = pulses.length ∧
      ∀ r ∈ backs, ∃ data, PhysEdge g r.par.levA r.par.levB data := by
  induction pulses with
  | nil => exact ⟨[], rfl, by rw [rotsOp_nil, conjTranspose_one], rfl, by simp⟩
  | cons p l ih =>
    obtain ⟨backs, h1, h2, h3, h4⟩ := ih (fun r hr => hp r (by simp [hr]))
    obtain ⟨a, b, e, hpp⟩ := hp p (by simp)
    obtain ⟨r', k1, k2, k3, k4⟩ := hpp.back q
    refine ⟨backs ++ [r'], ?_, ?_, by simp [h3], ?_⟩
    · rw [List.reverse_cons, List.mapM_append, h1]
      simp [bind, Except.bind, pure, Except.pure, k1]
    · rw [rotsOp_append, rotsOp_cons, rotsOp_nil, one_mul, rotsOp_cons, conjTranspose_mul, h2, k4]
    · intro r hr
      rcases List.mem_append.1 hr with hr | hr
      · exact h4 r hr
      · simp at hr; subst hr; rw [k2, k3]; exact hpp.edge

/-- What the physical decomposition puts out for one rotation. -/
theorem block_ok (h : Device d g lp) (hn : NoPhases d g) {sp : PathFinder} (hsp : FindsPaths sp) (q : Int) (a b : Fin d)
    (hb : (b : Nat) = a + 1) (theta phi : ℝ) (nz : Nat) (par : TwoLevel) :
    ∃ k out, costCalculator sp d ⟨nm a, nm b, par⟩ g nz = .ok k ∧
      phyEmit q d ⟨nm a, nm b, par⟩ (b : Nat) theta phi k.pulses k.placement = .ok out ∧
      circuitOp (PhasePass.lineOp d) out = twoLevel (lp a) (lp b) (rot theta phi) ∧
      (∀ x ∈ out, CoupledRotation g x ∧ x.dagger = false) ∧ out.length ≤ 2 * d - 3 ∧ 0 ≤ k.piCost ∧ thetaCost par.theta ≤ k.gateCost ∧
      k.total = (k.gateCost + k.piCost) * nz := by
  have hab : a ≠ b := by rintro rfl; omega
  obtain ⟨p, hp1, hp2⟩ := hsp g _ _ h.wf (h.mem a) (h.conn a b)
  obtain ⟨front, e1, e2, e3, e4, e5⟩ := h.path a b hab p hp2
  obtain ⟨k, new, g', lp', s', i1, i2, i3, i4, i5, i6, i7, i8, i9⟩ := routeLoop_ok hsp g front.length front a b [] g lp 0 [] 1
    (by simp) e2 e3 h hn e4 (Or.inl ⟨rfl, rfl⟩)
  simp only [List.nil_append, zero_add] at i1 i4
  have hlen : p.length - 2 = front.length := by rw [e1]; simp
  have hroute : route sp d ⟨nm a, nm b, par⟩ g = .ok (k, new, g') := by
    unfold route
    simp only [bind, Except.bind]
    rw [show sp g (nm a) (nm b) = .ok p from hp1]
    simp only []
    rw [hlen, e1]
    exact i1
  obtain ⟨c, hc, hc'⟩ := i2.cost hsp ⟨nm a, nm b, par⟩ a b rfl rfl
  have hcost : costCalculator sp d ⟨nm a, nm b, par⟩ g nz = .ok ⟨(c + k) * nz, new, g', k, c⟩ := by
    unfold costCalculator
    simp only [bind, Except.bind, pure, Except.pure]
    rw [hroute]
    simp only []
    rw [hc]
  have hne : lp' a ≠ lp' b := fun e => hab (lp'.injective e)
  set ph := if ((lp' a : Nat) : Int) > ((lp' b : Nat) : Int) then phi * -1 else phi with hph
  obtain ⟨r, f1, f2, f3, f4, _⟩ := chain_ok new ⟨((lp' a : Fin d) : Nat), ((lp' b : Fin d) : Nat), ⟨((min (lp' a) (lp' b) : Fin d) : Nat),
      ((max (lp' a) (lp' b) : Fin d) : Nat), regulateTheta theta, ph⟩⟩ (lp' a) (lp' b) s' hne i4 ⟨rfl, rfl⟩
  obtain ⟨backs, b1, b2, b3, b4⟩ := backs_ok q new i6
  refine ⟨_, new.map (rotInstr q d) ++ [rotInstr q d r] ++ backs.map (rotInstr q d), hcost, ?_, ?_, ?_, ?_, ?_, hc', rfl⟩
  · unfold phyEmit
    simp only [bind, Except.bind, pure, Except.pure]
    rw [show (((b : Nat) : Int) - 1) = ((a : Nat) : Int) by omega, i2.lpmap, i2.lpmap]
    simp only []
    rw [← hph, newRot_ok _ _ hne]
    simp only []
    rw [f1]
    simp only []
    rw [b1]
  · have hr : PhasePass.lineOp d (rotInstr q d r) = twoLevel (lp' a) (lp' b) (rot (s' * theta) phi) := by
      rw [lineOp_rot q r _ _ hne f2.a_eq f2.b_eq, f4, rot_mul_regulate i4.sign, f3]
      show twoLevel (lp' a) (lp' b) (rot (s' * theta) (if lp' a < lp' b then ph else -ph)) = _
      congr 2
      rcases lt_or_gt_of_ne hne with hl | hl
      · rw [if_pos hl, hph, if_neg (by rw [Fin.lt_def] at hl; omega)]
      · rw [if_neg (not_lt.2 hl.le), hph, if_pos (by rw [Fin.lt_def] at hl; omega)]; ring
    rw [circuitOp_append, circuitOp_append, circuitOp_cons, circuitOp_nil, one_mul, hr]
    change rotsOp d q backs * (_ * rotsOp d q new) = _
    rw [b2, ← mul_assoc, i8 q, one_mul, ← mul_assoc, i4.sign.sq, one_mul]
  · intro x hx
    rcases List.mem_append.1 hx with hx | hx
    · rcases List.mem_append.1 hx with hx | hx
      · obtain ⟨r, hr, rfl⟩ := List.mem_map.1 hx
        obtain ⟨a, b, e, hpp⟩ := i6 r hr
        obtain ⟨data, hd⟩ := hpp.edge
        exact ⟨⟨_, data, rfl, hd⟩, rfl⟩
      · simp at hx; subst hx
        obtain ⟨data, hd⟩ := i7
        refine ⟨⟨_, data, rfl, ?_⟩, rfl⟩
        rw [f2.a_eq, f2.b_eq]; exact hd
    · obtain ⟨r, hr, rfl⟩ := List.mem_map.1 hx
      obtain ⟨data, hd⟩ := b4 r hr
      exact ⟨⟨_, data, rfl, hd⟩, rfl⟩
  · simp only [List.length_append, List.length_map, List.length_singleton, b3, i5]
    omega
  · refine le_trans ?_ i9
    exact mul_nonneg (Nat.cast_nonneg _) (thetaCost_nonneg _)

end Qudits
