import Verif.Spec.AdaSpec
import Verif.Lemmas.Block
import Verif.Lemmas.QrPass
import Verif.Props.GraphProps
import Mathlib.Data.List.Forall2
/- Routing while phases that are multiples of π are stored: the stored signs follow the pulses. -/
namespace Qudits
open LGraph Spec Matrix LocalQR

variable {d : Nat} {g g0 : LGraph} {lp : Equiv.Perm (Fin d)}

/-! ### signs -/

theorem cos_sign {x : ℝ} (h : Real.sin x = 0) : IsSign (Real.cos x) := by
  have := Real.sin_sq_add_cos_sq x
  rw [h] at this
  have h2 : (Real.cos x - 1) * (Real.cos x + 1) = 0 := by linarith
  rcases mul_eq_zero.1 h2 with h3 | h3
  · left; linarith
  · right; linarith

theorem sin_sub_zero {x y : ℝ} (hx : Real.sin x = 0) (hy : Real.sin y = 0) : Real.sin (x - y) = 0 ∧ Real.cos (x - y) = Real.cos x * Real.cos y := by
  rw [Real.sin_sub, Real.cos_sub, hx, hy]; simp

theorem newMod_trig (x : ℝ) : Real.sin (newMod x) = Real.sin x ∧ Real.cos (newMod x) = Real.cos x := by
  obtain ⟨k, hk⟩ := newMod_period x (2 * Real.pi)
  rw [hk]
  exact ⟨Real.sin_add_int_mul_two_pi x k, Real.cos_add_int_mul_two_pi x k⟩

theorem piMod_trig (x : ℝ) : Real.sin (piMod x) = Real.sin x ∧ Real.cos (piMod x) = Real.cos x := by
  obtain ⟨k, hk⟩ := piMod_period x
  rw [hk]
  exact ⟨Real.sin_add_int_mul_two_pi x k, Real.cos_add_int_mul_two_pi x k⟩

theorem cexp_sign {y : ℝ} (h : Real.sin y = 0) : Complex.exp (Complex.I * y) = Real.cos y ∧ Complex.exp (-(Complex.I * y)) = Real.cos y := by
  constructor
  · rw [mul_comm, Complex.exp_mul_I, ← Complex.ofReal_sin, h, ← Complex.ofReal_cos]; simp
  · rw [show -(Complex.I * (y : ℂ)) = ((-y : ℝ) : ℂ) * Complex.I by push_cast; ring, Complex.exp_mul_I, ← Complex.ofReal_sin, Real.sin_neg, h,
      ← Complex.ofReal_cos, Real.cos_neg]; simp

theorem rot_shift {y : ℝ} (h : Real.sin y = 0) (theta phi : ℝ) : rot theta (phi + y) = rot (Real.cos y * theta) phi := by
  obtain ⟨e1, e2⟩ := cexp_sign h
  rw [rot_sign (cos_sign h)]
  unfold rot
  have a1 : Complex.exp (Complex.I * ((phi + y : ℝ) : ℂ)) = Complex.exp (Complex.I * (phi : ℂ)) * Real.cos y := by
    rw [← e1, ← Complex.exp_add]; congr 1; push_cast; ring
  have a2 : Complex.exp (-(Complex.I * ((phi + y : ℝ) : ℂ))) = Complex.exp (-(Complex.I * (phi : ℂ))) * Real.cos y := by
    rw [← e2, ← Complex.exp_add]; congr 1; push_cast; ring
  rw [a1, a2]
  ext i j
  fin_cases i <;> fin_cases j <;> simp <;> ring

/-- the phases stored for the physical levels are multiples of π, with signs `η` -/
def Signed (g : LGraph) (lp : Equiv.Perm (Fin d)) (η : Fin d → ℝ) : Prop :=
  ∀ i : Fin d, ∃ x, value g (i : Nat) "phase_storage" = some (.flt x) ∧ Real.sin x = 0 ∧ η (lp i) = Real.cos x

theorem Signed.sign {η : Fin d → ℝ} (h : Signed g lp η) (l : Fin d) : IsSign (η l) := by
  obtain ⟨x, _, h2, h3⟩ := h (lp.symm l)
  rw [Equiv.apply_symm_apply] at h3
  rw [h3]; exact cos_sign h2

/-- what a pulse does to the signs -/
noncomputable def updSign (a b : Fin d) (e : ℝ) (η : Fin d → ℝ) : Fin d → ℝ := fun l => if l = a then e * η b else if l = b then -e * η a else η l

/-- a pulse that exchanges the levels `a` and `b` with sign `e` -/
structure IsMove (g0 : LGraph) (r : RGate) (a b : Fin d) (e : ℝ) : Prop where
  lt : a < b
  levA : r.par.levA = (a : Nat)
  levB : r.par.levB = (b : Nat)
  angles : ∃ t y, IsSign t ∧ Real.sin y = 0 ∧ r.par.theta = t * Real.pi ∧ r.par.phi = -Real.pi / 2 + y ∧ e = t * Real.cos y
  edge : ∃ data, PhysEdge g0 r.par.levA r.par.levB data

theorem IsMove.sign {r : RGate} {a b : Fin d} {e : ℝ} (h : IsMove g0 r a b e) : IsSign e := by
  obtain ⟨t, y, h1, h2, _, _, rfl⟩ := h.angles
  exact h1.mul (cos_sign h2)

theorem IsMove.op {r : RGate} {a b : Fin d} {e : ℝ} (h : IsMove g0 r a b e) (q : Int) :
    PhasePass.lineOp d (rotInstr q d r) = twoLevel a b !![0, (e : ℂ); -e, 0] := by
  obtain ⟨t, y, h1, h2, h3, h4, h5⟩ := h.angles
  rw [lineOp_rot q r a b h.lt.ne (by rw [min_eq_left h.lt.le]; exact h.levA) (by rw [max_eq_right h.lt.le]; exact h.levB), if_pos h.lt, h3, h4,
    rot_shift h2, ← mul_assoc, mul_comm (Real.cos y), ← h5, pulse_matrix h.sign]

theorem relabelling_mul (p q : Equiv.Perm (Fin d)) : relabelling (p * q) = relabelling p * relabelling q := by
  ext r c
  rw [Matrix.mul_apply, Finset.sum_eq_single (q c)]
  · simp only [relabelling, if_true, mul_one]
    rfl
  · intro b _ hb
    simp [relabelling, hb]
  · simp

theorem relabelling_swap (lp : Equiv.Perm (Fin d)) (x y : Fin d) :
    relabelling (lp * Equiv.swap x y) = relabelling (Equiv.swap (lp x) (lp y)) * relabelling lp := by
  rw [Equiv.mul_swap_eq_swap_mul, relabelling_mul]

/-- the signs as a matrix -/
noncomputable def signs (η : Fin d → ℝ) : Matrix (Fin d) (Fin d) ℂ := diagonal fun i => (η i : ℂ)

theorem move_signs (a b : Fin d) (hab : a ≠ b) (e : ℝ) (η : Fin d → ℝ) :
    twoLevel a b !![0, (e : ℂ); -e, 0] * signs η = signs (updSign a b e η) * relabelling (Equiv.swap a b) := by
  have hba := hab.symm
  ext r c
  unfold signs
  rw [mul_diagonal, diagonal_mul]
  unfold twoLevel relabelling updSign
  by_cases h1 : r = a
  · subst h1
    by_cases h2 : c = r
    · subst h2; simp [hab]
    · by_cases h3 : c = b
      · subst h3; simp [hba]
      · have : r ≠ Equiv.swap r b c := by rw [Equiv.swap_apply_of_ne_of_ne h2 h3]; exact fun h => h2 h.symm
        simp [h2, h3, this]
  · by_cases h1' : r = b
    · subst h1'
      by_cases h2 : c = a
      · subst h2; simp [hba]
      · by_cases h3 : c = r
        · subst h3; simp [h1]
        · have : r ≠ Equiv.swap a r c := by rw [Equiv.swap_apply_of_ne_of_ne h2 h3]; exact fun h => h3 h.symm
          simp [h1, h2, h3, this]
    · simp only [h1, h1', if_false]
      by_cases h2 : c = r
      · subst h2
        rw [Equiv.swap_apply_of_ne_of_ne h1 h1']; simp
      · have : r ≠ Equiv.swap a b c := by
          intro h
          have : Equiv.swap a b r = c := by rw [h, Equiv.swap_apply_self]
          rw [Equiv.swap_apply_of_ne_of_ne h1 h1'] at this
          exact h2 this.symm
        rw [if_neg (fun h => h2 h.symm), if_neg this]; simp

/-- the effect of a list of moves -/
noncomputable def moves (l : List (Fin d × Fin d × ℝ)) (η : Fin d → ℝ) : Fin d → ℝ := l.foldl (fun η m => updSign m.1 m.2.1 m.2.2 η) η

theorem Spec.Device.ongate' (h : Device d g lp) (r : RGate) (i j : Fin d) (hi : r.par.levA = ((lp i : Fin d) : Nat))
    (hj : r.par.levB = ((lp j : Fin d) : Nat)) (hlt : lp i < lp j) (x y : ℝ) (hx : value g (i : Nat) "phase_storage" = some (.flt x))
    (hy : value g (j : Nat) "phase_storage" = some (.flt y)) :
    ∃ r', graphRuleOngate d r g = .ok r' ∧ r'.par = ⟨r.par.levA, r.par.levB, regulateTheta r.par.theta, r.par.phi - x + y⟩ := by
  unfold graphRuleOngate
  have hij : i ≠ j := by rintro rfl; exact lt_irrefl _ hlt
  rcases h.hasPhases with ⟨h1, h2⟩ | ⟨h1, h2⟩
  · rw [h1, hi, hj, h.findLogic i j]
    have hni : ((i : Nat) : Int) ≠ -1 := by omega
    have hnj : ((j : Nat) : Int) ≠ -1 := by omega
    simp only [bind, Except.bind, Bool.not_true, Bool.false_eq_true, if_false, hni, hnj, ne_eq, not_false_eq_true, if_true,
      phase_ok g _ _ hx, phase_ok g _ _ hy, pure, Except.pure]
    rw [newRot_ok (lp i) (lp j) (fun e => hij (lp.injective e))]
    refine ⟨_, rfl, ?_⟩
    rw [min_eq_left hlt.le, max_eq_right hlt.le]
  · rw [h2 i] at hx; cases hx

/-- the joined levels of one graph are joined in the other -/
def EdgesIn (g g0 : LGraph) : Prop := ∀ p q data, PhysEdge g p q data → PhysEdge g0 p q data

theorem EdgesIn.refl (g : LGraph) : EdgesIn g g := fun _ _ _ h => h

theorem EdgesIn.trans {a b c : LGraph} (h : EdgesIn a b) (k : EdgesIn b c) : EdgesIn a c := fun p q data x => k p q data (h p q data x)

theorem EdgesIn.levels {a b : LGraph} (h : EdgesIn a b) {i j : Fin d} (k : LevelsJoined a i j) : LevelsJoined b i j := by
  obtain ⟨data, hd⟩ := k
  exact ⟨data, h _ _ _ hd⟩

theorem edgesIn_renamed {σ : Equiv.Perm Int} {g h : LGraph} (hr : Renamed σ g h) : EdgesIn h g := by
  rintro p q data ⟨u, v, h1, h2, h3⟩
  exact ⟨σ u, σ v, by rw [← hr.value]; exact h1, by rw [← hr.value]; exact h2, by rw [← hr.edges]; exact h3⟩

theorem adaRoute_ok {sp : PathFinder} (hsp : FindsPaths sp) (g0 : LGraph) (ε : Fin d → ℝ) : ∀ (i : Nat) (front : List (Fin d)) (hd tgt : Fin d)
    (post : List (Fin d)) (g : LGraph) (lp : Equiv.Perm (Fin d)) (cost : ℝ) (pulses : List RGate) (s : ℝ),
    (hd :: front).length = i + 1 → (hd :: front).Nodup → tgt ∉ hd :: front → Device d g lp → Signed g lp ε →
    ((hd :: front).map lp ++ [lp tgt]).IsChain (LevelsJoined g0) →
    LastIs pulses (lp ((hd :: front).getLast (by simp))) (lp tgt) s →
    ∃ k new g' lp' s' mv, routeLoop sp d i ((hd :: front ++ tgt :: post).map nm) g cost pulses = .ok (cost + k, pulses ++ new, g') ∧
      Device d g' lp' ∧ Signed g' lp' ε ∧ names g' = names g ∧ EdgesIn g' g ∧ LastIs (pulses ++ new) (lp' hd) (lp' tgt) s' ∧ new.length = i ∧
      List.Forall₂ (fun r m => IsMove g0 r m.1 m.2.1 m.2.2) new mv ∧ LevelsJoined g0 (lp' hd) (lp' tgt) ∧
      (∀ η : Fin d → ℝ, η (lp tgt) = s * ε (lp tgt) → (∀ n ∈ hd :: front, η (lp n) = ε (lp n)) →
        (∀ q, rotsOp d q new * (signs η * relabelling lp) = signs (moves mv η) * relabelling lp') ∧
        moves mv η (lp' tgt) = s' * ε (lp' tgt) ∧ moves mv η (lp' hd) = ε (lp' hd)) ∧ i * thetaCost Real.pi ≤ k := by
  intro i
  induction i with
  | zero =>
    intro front hd tgt post g lp cost pulses s h1 h2 h3 h4 h5 h6 h7
    have : front = [] := by simpa using h1
    subst this
    refine ⟨0, [], g, lp, s, [], by simp [routeLoop], h4, h5, rfl, EdgesIn.refl g, by simpa using h7, rfl, List.Forall₂.nil, ?_, ?_, by simp⟩
    · simpa using h6
    · intro η ha hb
      exact ⟨fun q => by rw [rotsOp_nil, one_mul]; rfl, ha, hb hd (by simp)⟩
  | succ i ih =>
    intro front hd tgt post g lp cost pulses s h1 h2 h3 h4 h5 h6 h7
    obtain ⟨fr, x, hfr⟩ : ∃ fr x, front = fr ++ [x] := by
      rcases List.eq_nil_or_concat front with h | ⟨fr, x, h⟩
      · subst h; simp at h1
      · exact ⟨fr, x, by simpa using h⟩
    subst hfr
    have hlen : (hd :: fr).length = i + 1 := by simpa using h1
    have hxt : x ≠ tgt := fun h => h3 (by simp [h])
    have hx : x ∉ hd :: fr := by
      have : (hd :: fr ++ [x]).Nodup := h2
      rw [List.nodup_append] at this
      intro h
      exact this.2.2 x h x (by simp) rfl
    have hlast : (hd :: (fr ++ [x])).getLast (by simp) = x := by simp
    rw [hlast] at h7
    have hne : lp x ≠ lp tgt := fun h => hxt (lp.injective h)
    obtain ⟨r1, e1, l1, p1, _, t1⟩ := chain_ok pulses ⟨((lp x : Fin d) : Nat), ((lp tgt : Fin d) : Nat), ⟨((min (lp x) (lp tgt) : Fin d) : Nat),
      ((max (lp x) (lp tgt) : Fin d) : Nat), regulateTheta Real.pi, -Real.pi / 2⟩⟩ (lp x) (lp tgt) s hne h7 ⟨rfl, rfl⟩
    have t1 := t1 regulate_pi
    have hreg : regulateTheta r1.par.theta = r1.par.theta := by rw [t1]; exact regulate_sign h7.sign
    obtain ⟨zx, vx, sx, cx⟩ := h5 x
    obtain ⟨zt, vt, st, ct⟩ := h5 tgt
    have h6' : ((hd :: fr).map lp ++ ([lp x, lp tgt])).IsChain (LevelsJoined g0) := by simpa using h6
    have hj : LevelsJoined g0 (lp x) (lp tgt) := by
      have := List.isChain_append.1 h6'
      simpa using this.2.1
    obtain ⟨r2, e2, hp, hth⟩ : ∃ r', graphRuleOngate d r1 g = .ok r' ∧
        IsMove g0 r' (min (lp x) (lp tgt)) (max (lp x) (lp tgt)) (s * (ε (lp x) * ε (lp tgt))) ∧ r'.par.theta = s * Real.pi := by
      rcases lt_or_gt_of_ne hne with k | k
      · obtain ⟨r', f1, f2⟩ := h4.ongate' r1 x tgt (by rw [l1.a_eq, min_eq_left k.le]) (by rw [l1.b_eq, max_eq_right k.le]) k zx zt vx vt
        obtain ⟨s1, s2⟩ := sin_sub_zero st sx
        refine ⟨r', f1, ⟨by rw [min_eq_left k.le, max_eq_right k.le]; exact k, by rw [f2]; exact l1.a_eq, by rw [f2]; exact l1.b_eq,
          ⟨s, zt - zx, h7.sign, s1, by rw [f2]; show regulateTheta _ = _; rw [hreg, t1], by rw [f2]; show r1.par.phi - zx + zt = _; rw [p1]; ring, ?_⟩, ?_⟩, ?_⟩
        · rw [s2, cx, ct]; ring
        · rw [f2]; show ∃ data, PhysEdge g0 r1.par.levA r1.par.levB data
          rw [l1.a_eq, l1.b_eq]; exact hj
        · rw [f2]; show regulateTheta _ = _; rw [hreg, t1]
      · obtain ⟨r', f1, f2⟩ := h4.ongate' r1 tgt x (by rw [l1.a_eq, min_eq_right k.le]) (by rw [l1.b_eq, max_eq_left k.le]) k zt zx vt vx
        obtain ⟨s1, s2⟩ := sin_sub_zero sx st
        refine ⟨r', f1, ⟨by rw [min_eq_right k.le, max_eq_left k.le]; exact k, by rw [f2]; exact l1.a_eq, by rw [f2]; exact l1.b_eq,
          ⟨s, zx - zt, h7.sign, s1, by rw [f2]; show regulateTheta _ = _; rw [hreg, t1], by rw [f2]; show r1.par.phi - zt + zx = _; rw [p1]; ring, ?_⟩, ?_⟩, ?_⟩
        · rw [s2, cx, ct]
        · rw [f2]; show ∃ data, PhysEdge g0 r1.par.levA r1.par.levB data
          rw [l1.a_eq, l1.b_eq]; exact hj
        · rw [f2]; show regulateTheta _ = _; rw [hreg, t1]
    have e3 := newRot_ok x tgt hxt r2.par.theta (r2.par.phi / 2)
    obtain ⟨k3, e4, c4⟩ := h4.cost hsp (⟨(x : Nat), (tgt : Nat), ⟨((min x tgt : Fin d) : Nat), ((max x tgt : Fin d) : Nat),
      regulateTheta r2.par.theta, r2.par.phi / 2⟩⟩ : RGate) x tgt rfl rfl
    obtain ⟨g1, e5, d5, ren, _⟩ := h4.swap tgt x
    have hs1 : Signed g1 (lp * Equiv.swap tgt x) ε := by
      intro n
      obtain ⟨z, z1, z2, z3⟩ := h5 (Equiv.swap tgt x n)
      exact ⟨z, by rw [ren.value, swap_cast]; exact z1, z2, z3⟩
    have hlev : OnLevels r2.par (lp x) (lp tgt) := ⟨hp.levA, hp.levB⟩
    have v1 : (lp * Equiv.swap tgt x) tgt = lp x := by simp
    have v2 : ∀ n ∈ hd :: fr, (lp * Equiv.swap tgt x) n = lp n := by
      intro n hn
      rw [Equiv.Perm.mul_apply, Equiv.swap_apply_of_ne_of_ne]
      · rintro rfl; exact h3 (by rcases List.mem_cons.1 hn with h | h <;> simp [h])
      · rintro rfl; exact hx hn
    have hn2 : (hd :: fr).Nodup := by
      have : (hd :: fr ++ [x]).Nodup := h2
      exact (List.nodup_append.1 this).1
    have hn3 : tgt ∉ hd :: fr := fun h => h3 (by rcases List.mem_cons.1 h with h | h <;> simp [h])
    obtain ⟨k, new, g', lp', s', mv, i1, i2, i3, i3', i3'', i4, i5, i6, i7, i8, i9⟩ := ih fr hd tgt (x :: post) g1 (lp * Equiv.swap tgt x) (cost + k3)
      (pulses ++ [r2]) (dir (lp x) (lp tgt)) hlen hn2 hn3 d5 hs1 (by
        rw [v1, List.map_congr_left v2]
        have h6' : (((hd :: fr).map lp ++ [lp x]) ++ [lp tgt]).IsChain (LevelsJoined g0) := by simpa using h6
        exact (List.isChain_append.1 h6').1) (by
        right
        rw [v1, v2 _ (List.getLast_mem _)]
        refine ⟨r2, lp tgt, by simp, hne.symm, ?_, hlev, rfl⟩
        intro h
        exact hn3 ((lp.injective h) ▸ List.getLast_mem _))
    refine ⟨k3 + k, r2 :: new, g', lp', s', (min (lp x) (lp tgt), max (lp x) (lp tgt), s * (ε (lp x) * ε (lp tgt))) :: mv, ?_, i2, i3,
      i3'.trans ren.names, i3''.trans (edgesIn_renamed ren), ?_, by simp [i5], List.Forall₂.cons hp i6, i7, ?_, ?_⟩
    · rw [routeLoop]
      have a1 : nodeAt ((hd :: (fr ++ [x]) ++ tgt :: post).map nm) (i + 1) = .ok (nm x) := by
        have := nodeAt_front (hd :: fr) x (tgt :: post) (i + 1) hlen
        simpa using this
      have a2 : nodeAt ((hd :: (fr ++ [x]) ++ tgt :: post).map nm) (i + 2) = .ok (nm tgt) := by
        have := nodeAt_front (hd :: fr ++ [x]) tgt post (i + 2) (by simpa using hlen)
        simpa using this
      have a3 : swapElements ((hd :: (fr ++ [x]) ++ tgt :: post).map nm) (i + 2) (i + 1) =
          .ok ((hd :: fr ++ tgt :: x :: post).map nm) := by
        have := swapElements_front (hd :: fr) x tgt post (i + 1) hlen
        simpa using this
      rw [a1, a2, a3]
      simp only [bind, Except.bind, nm]
      rw [h4.lpmap, h4.lpmap]
      simp only []
      rw [newRot_ok _ _ hne]
      simp only []
      rw [e1]
      simp only []
      rw [e2]
      simp only []
      rw [e3]
      simp only []
      rw [e4]
      simp only []
      rw [e5]
      simp only []
      have := i1
      simp only [List.append_assoc, List.singleton_append, add_assoc] at this ⊢
      exact this
    · simpa using i4
    · intro η ha hb
      have sq1 := (h5.sign (lp tgt)).sq
      have sq2 := h7.sign.sq
      set η1 := updSign (min (lp x) (lp tgt)) (max (lp x) (lp tgt)) (s * (ε (lp x) * ε (lp tgt))) η with hη1
      have hmul : ∀ z : ℝ, s * (ε (lp x) * ε (lp tgt)) * (s * ε (lp tgt)) = ε (lp x) := by
        intro z
        linear_combination ε (lp x) * sq1 * (s * s) + ε (lp x) * sq2
      obtain ⟨j1, j2, j3⟩ := i8 η1 (by
        rw [v1]
        unfold dir
        rcases lt_or_gt_of_ne hne with k | k
        · rw [if_pos k, one_mul, hη1]
          unfold updSign
          rw [min_eq_left k.le, max_eq_right k.le, if_pos rfl, ha, hmul 0]
        · rw [if_neg (not_lt.2 k.le), hη1]
          unfold updSign
          rw [min_eq_right k.le, max_eq_left k.le, if_neg hne, if_pos rfl, ha, neg_mul, hmul 0, neg_one_mul]) (by
        intro n hn
        rw [v2 n hn]
        have n1 : lp n ≠ lp x := fun h => hx (lp.injective h ▸ hn)
        have n2 : lp n ≠ lp tgt := fun h => hn3 (lp.injective h ▸ hn)
        have : η1 (lp n) = η (lp n) := by
          rw [hη1]
          unfold updSign
          rcases lt_or_gt_of_ne hne with k | k
          · rw [min_eq_left k.le, max_eq_right k.le, if_neg n1, if_neg n2]
          · rw [min_eq_right k.le, max_eq_left k.le, if_neg n2, if_neg n1]
        rw [this]
        exact hb n (by rcases List.mem_cons.1 hn with h | h <;> simp [h]))
      refine ⟨?_, j2, j3⟩
      intro q
      have hsw : Equiv.swap (min (lp x) (lp tgt)) (max (lp x) (lp tgt)) = Equiv.swap (lp tgt) (lp x) := by
        rcases lt_or_gt_of_ne hne with k | k
        · rw [min_eq_left k.le, max_eq_right k.le, Equiv.swap_comm]
        · rw [min_eq_right k.le, max_eq_left k.le]
      rw [rotsOp_cons, hp.op q, mul_assoc, ← mul_assoc _ (signs η), move_signs _ _ hp.lt.ne, mul_assoc (signs _), hsw, ← relabelling_swap]
      exact j1 q
    · have hc : thetaCost (regulateTheta r2.par.theta) = thetaCost Real.pi := by
        rw [hth, regulate_sign h7.sign]
        rcases h7.sign with h | h <;> rw [h]
        · rw [one_mul]
        · unfold thetaCost; simp
      rw [hc] at c4
      push_cast
      linarith

/-! ### the stored phases follow the pulses -/

theorem Spec.InOrder.range (h : InOrder d g) : names g = (List.range (names g).length).map fun i : Nat => (i : Int) := by
  have : (names g).length = d := by rw [h]; simp
  rw [this]; exact h

/-- `swap_node_attr_simple` on a device -/
theorem Spec.Device.swapPhases (h : Device d g lp) (ho : InOrder d g) (i j : Fin d) (x y : ℝ)
    (hx : value g (i : Nat) "phase_storage" = some (.flt x)) (hy : value g (j : Nat) "phase_storage" = some (.flt y)) :
    ∃ g', g.swapNodeAttrSimple (i : Nat) (j : Nat) = .ok g' ∧ Device d g' lp ∧ InOrder d g' ∧ g'.edges = g.edges ∧
      ∀ m k, value g' m k = if k = "phase_storage" then value g (Equiv.swap ((i : Nat) : Int) ((j : Nat) : Int) m) k else value g m k := by
  have hp : g.hasPhases = .ok true := by
    rcases h.hasPhases with ⟨h1, _⟩ | ⟨_, h2⟩
    · exact h1
    · rw [h2 i] at hx; cases hx
  obtain ⟨g', e1, e2, e3, _, e5⟩ := C36_phase_swap_partial g (i : Nat) (j : Nat) x y ho.range hp hx hy
  -- the same graph, made by two updates
  have pos : ∀ n : Fin d, g.position ((n : Nat) : Int) = .ok ((n : Nat) : Int) := by
    intro n
    have hm := h.mem n
    unfold position
    rw [if_pos (show ((n : Nat) : Int) ∈ PyDict.keys g.nodes from hm)]
    have hnd : (Spec.names g).Nodup := h.wf.nodup
    have hg : (Spec.names g)[(n : Nat)]? = some ((n : Nat) : Int) := by
      rw [ho]; simp [n.isLt]
    obtain ⟨h1, h2⟩ := List.getElem?_eq_some_iff.1 hg
    have := hnd.idxOf_getElem (n : Nat) h1
    rw [h2] at this
    show Except.ok (((Spec.names g).idxOf ((n : Nat) : Int) : Nat) : Int) = _
    rw [this]
  obtain ⟨g1, a1, a2, a3, _⟩ := h.setPhase i y (by rw [hx]; rfl)
  obtain ⟨g2, b1, b2, _, _⟩ := a2.setPhase j x (by rw [a3]; split_ifs <;> simp [hy])
  have : g.swapNodeAttrSimple ((i : Nat) : Int) ((j : Nat) : Int) = .ok g2 := by
    unfold swapNodeAttrSimple
    simp only [bind, Except.bind, pos i, pos j, hp, if_true, phase_ok g _ _ hx, phase_ok g _ _ hy]
    rw [a1]
    exact b1
  rw [this] at e1
  have e1 := Except.ok.inj e1
  subst e1
  exact ⟨g2, this, b2, e2.trans ho, e3, e5⟩

/-- adding π to a stored phase -/
theorem Spec.Device.addPi (h : Device d g lp) (ho : InOrder d g) (i : Fin d) (x : ℝ) (hx : value g (i : Nat) "phase_storage" = some (.flt x)) :
    ∃ g', LocalQR.addPi g (i : Nat) = .ok g' ∧ Device d g' lp ∧ InOrder d g' ∧ g'.edges = g.edges ∧
      ∀ (m : Int) k, value g' m k = if m = (i : Nat) ∧ k = "phase_storage" then some (.flt (newMod (x + Real.pi))) else value g m k := by
  obtain ⟨g', e1, e2, e3, e4⟩ := h.setPhase i (newMod (x + Real.pi)) (by rw [hx]; rfl)
  obtain ⟨_, f1, f2, _⟩ := setPhase_ok g ((i : Nat) : Int) (newMod (x + Real.pi)) (h.mem i)
  rw [e1] at f1
  have f1 := Except.ok.inj f1
  subst f1
  refine ⟨g', ?_, e2, f2.trans ho, e4, e3⟩
  unfold LocalQR.addPi
  simp only [bind, Except.bind, phase_ok g _ _ hx]
  exact e1

theorem sign_of_sin {v : ℝ} (h1 : -Real.pi ≤ v) (h2 : v ≤ Real.pi) : (Real.sin v = 1 → 0 < v) ∧ (Real.sin v = -1 → v < 0) := by
  constructor
  · intro h
    by_contra hc
    have := Real.sin_nonpos_of_nonpos_of_neg_pi_le (not_lt.1 hc) h1
    linarith
  · intro h
    by_contra hc
    have := Real.sin_nonneg_of_nonneg_of_le_pi (not_lt.1 hc) h2
    linarith

theorem update_ok (h : Device d g lp) (ho : InOrder d g) {η : Fin d → ℝ} (hs : Signed g lp η) {r : RGate} {a b : Fin d} {e : ℝ}
    (hm : IsMove g0 r a b e) : ∃ r' g', newRot d r.par.levA r.par.levB r.par.theta (-r.par.phi) = .ok r' ∧ graphRuleUpdate r' g = .ok g' ∧
      Device d g' lp ∧ InOrder d g' ∧ Signed g' lp (updSign a b e η) ∧ EdgesIn g' g := by
  obtain ⟨t, y, ht, hy, th, ph, he⟩ := hm.angles
  have h1 := newRot_ok a b hm.lt.ne r.par.theta (-r.par.phi)
  rw [← hm.levA, ← hm.levB, min_eq_left hm.lt.le, max_eq_right hm.lt.le] at h1
  obtain ⟨i, hi⟩ : ∃ i, lp i = a := ⟨lp.symm a, by simp⟩
  obtain ⟨j, hj⟩ : ∃ j, lp j = b := ⟨lp.symm b, by simp⟩
  have hij : i ≠ j := by rintro rfl; rw [hi] at hj; exact hm.lt.ne hj
  obtain ⟨xi, vi, si, ci⟩ := hs i
  obtain ⟨xj, vj, sj, cj⟩ := hs j
  obtain ⟨g1, e1, e2, e3, e4, e5⟩ := h.swapPhases ho i j xi xj vi vj
  have hni : ((i : Nat) : Int) ≠ -1 := by omega
  have hnj : ((j : Nat) : Int) ≠ -1 := by omega
  have hnij : ((i : Nat) : Int) ≠ ((j : Nat) : Int) := fun h => hij (Fin.ext (by exact_mod_cast h))
  have w1 : value g1 (i : Nat) "phase_storage" = some (.flt xj) := by rw [e5, if_pos rfl, Equiv.swap_apply_left, vj]
  have w2 : value g1 (j : Nat) "phase_storage" = some (.flt xi) := by rw [e5, if_pos rfl, Equiv.swap_apply_right, vi]
  have w3 : ∀ n : Fin d, n ≠ i → n ≠ j → value g1 (n : Nat) "phase_storage" = value g (n : Nat) "phase_storage" := by
    intro n h1 h2
    rw [e5, if_pos rfl, swap_cast, Equiv.swap_apply_of_ne_of_ne h1 h2]
  have hp : g.hasPhases = .ok true := by
    rcases h.hasPhases with ⟨h1, _⟩ | ⟨_, h2⟩
    · exact h1
    · rw [h2 i] at vi; cases vi
  have hreg : regulateTheta r.par.theta = t * Real.pi := by rw [th, regulate_sign ht]
  set v := piMod (-r.par.phi) with hv
  obtain ⟨v1, _⟩ := piMod_trig (-r.par.phi)
  have hsin : Real.sin v = Real.cos y := by
    rw [hv, v1, ph, show -(-Real.pi / 2 + y) = Real.pi / 2 - y by ring, Real.sin_pi_div_two_sub]
  have hr := piMod_range (-r.par.phi)
  obtain ⟨q1, q2⟩ := sign_of_sin hr.1 hr.2
  have habs : |(|t * Real.pi| - Real.pi)| < 1e-2 := by
    have : |t * Real.pi| = Real.pi := by
      rcases ht with rfl | rfl
      · rw [one_mul, abs_of_pos Real.pi_pos]
      · rw [neg_one_mul, abs_neg, abs_of_pos Real.pi_pos]
    rw [this]; norm_num
  have hval : ∀ g' : LGraph, (∀ (m : Int) k, k ≠ "phase_storage" → value g' m k = value g1 m k) → g'.edges = g1.edges → EdgesIn g' g := by
    intro g' k1 k2
    rintro p q data ⟨u, w, a1, a2, a3⟩
    refine ⟨u, w, ?_, ?_, ?_⟩
    · rw [k1 _ _ (by decide), e5, if_neg (by decide)] at a1; exact a1
    · rw [k1 _ _ (by decide), e5, if_neg (by decide)] at a2; exact a2
    · unfold edgeData at a3 ⊢
      rw [k2, e4] at a3; exact a3
  have hpp := Real.pi_pos
  have hcs := cos_sign hy
  have hes : IsSign e := hm.sign
  have heq : e = 1 ∧ 0 < t * Real.pi * v ∨ e = -1 ∧ t * Real.pi * v < 0 := by
    rcases ht with rfl | rfl <;> rcases hcs with hc | hc
    · left
      have := q1 (by rw [← hv, hsin, hc])
      exact ⟨by rw [he, hc]; norm_num, by rw [one_mul]; exact mul_pos hpp this⟩
    · right
      have := q2 (by rw [← hv, hsin, hc])
      exact ⟨by rw [he, hc]; norm_num, by rw [one_mul]; exact mul_neg_of_pos_of_neg hpp this⟩
    · right
      have := q1 (by rw [← hv, hsin, hc])
      exact ⟨by rw [he, hc]; norm_num, by rw [neg_one_mul]; exact mul_neg_of_neg_of_pos (by linarith) this⟩
    · left
      have := q2 (by rw [← hv, hsin, hc])
      exact ⟨by rw [he, hc]; norm_num, by rw [neg_one_mul]; exact mul_pos_of_neg_of_neg (by linarith) this⟩
  have hpi : ∀ x : ℝ, Real.sin x = 0 → Real.sin (newMod (x + Real.pi)) = 0 ∧ Real.cos (newMod (x + Real.pi)) = -Real.cos x := by
    intro x hx
    obtain ⟨t1, t2⟩ := newMod_trig (x + Real.pi)
    rw [t1, t2, Real.sin_add_pi, Real.cos_add_pi, hx]
    simp
  have hun : ∀ n : Fin d, n ≠ i → n ≠ j → lp n ≠ a ∧ lp n ≠ b := by
    intro n h1 h2
    exact ⟨fun h => h1 (lp.injective (h.trans hi.symm)), fun h => h2 (lp.injective (h.trans hj.symm))⟩
  suffices hgoal : ∃ g', graphRuleUpdate ⟨r.par.levA, r.par.levB, ⟨((a : Nat) : Int), ((b : Nat) : Int), regulateTheta r.par.theta, -r.par.phi⟩⟩ g = .ok g' ∧
      Device d g' lp ∧ InOrder d g' ∧ Signed g' lp (updSign a b e η) ∧ EdgesIn g' g by
    obtain ⟨g', k⟩ := hgoal
    exact ⟨_, g', h1, k⟩
  unfold graphRuleUpdate
  simp only [hreg, ← hv]
  rw [if_pos habs, hp, ← hi, ← hj, h.findLogic i j]
  simp only [bind, Except.bind, Bool.not_true, Bool.false_eq_true, if_false, hni, hnj, ne_eq, not_false_eq_true, and_self, if_true]
  rw [e1]
  simp only []
  rcases heq with ⟨he1, hpos⟩ | ⟨he1, hneg⟩
  · rw [if_pos hpos]
    obtain ⟨g2, f1, f2, f3, f4, f5⟩ := e2.addPi e3 j xi w2
    refine ⟨g2, f1, f2, f3, ?_, hval g2 (fun m k hk => by rw [f5, if_neg (fun h => hk h.2)]) f4⟩
    intro n
    by_cases n1 : n = i
    · subst n1
      refine ⟨xj, by rw [f5, if_neg (fun h => hnij h.1), w1], sj, ?_⟩
      unfold updSign
      rw [if_pos rfl, he1, one_mul, cj]
    · by_cases n2 : n = j
      · subst n2
        obtain ⟨p1, p2⟩ := hpi xi si
        refine ⟨_, by rw [f5, if_pos ⟨rfl, rfl⟩], p1, ?_⟩
        unfold updSign
        rw [if_neg (fun h => hij (lp.injective h).symm), if_pos rfl, he1, ci, p2, neg_one_mul]
      · obtain ⟨x, k1, k2, k3⟩ := hs n
        refine ⟨x, ?_, k2, ?_⟩
        · rw [f5, if_neg (fun h => n2 (Fin.ext (by exact_mod_cast h.1))), w3 n n1 n2, k1]
        · unfold updSign
          rw [if_neg (fun h => n1 (lp.injective h)), if_neg (fun h => n2 (lp.injective h)), k3]
  · rw [if_neg (not_lt.2 hneg.le), if_pos hneg]
    obtain ⟨g2, f1, f2, f3, f4, f5⟩ := e2.addPi e3 i xj w1
    refine ⟨g2, f1, f2, f3, ?_, hval g2 (fun m k hk => by rw [f5, if_neg (fun h => hk h.2)]) f4⟩
    intro n
    by_cases n1 : n = i
    · subst n1
      obtain ⟨p1, p2⟩ := hpi xj sj
      refine ⟨_, by rw [f5, if_pos ⟨rfl, rfl⟩], p1, ?_⟩
      unfold updSign
      rw [if_pos rfl, he1, cj, p2, neg_one_mul]
    · by_cases n2 : n = j
      · subst n2
        refine ⟨xi, by rw [f5, if_neg (fun h => hnij h.1.symm), w2], si, ?_⟩
        unfold updSign
        rw [if_neg (fun h => hij (lp.injective h).symm), if_pos rfl, he1, ci, neg_neg, one_mul]
      · obtain ⟨x, k1, k2, k3⟩ := hs n
        refine ⟨x, ?_, k2, ?_⟩
        · rw [f5, if_neg (fun h => n1 (Fin.ext (by exact_mod_cast h.1))), w3 n n1 n2, k1]
        · unfold updSign
          rw [if_neg (fun h => n1 (lp.injective h)), if_neg (fun h => n2 (lp.injective h)), k3]

theorem updates_ok (pulses : List RGate) (mv : List (Fin d × Fin d × ℝ)) (hf : List.Forall₂ (fun r m => IsMove g0 r m.1 m.2.1 m.2.2) pulses mv) :
    ∃ backs, (pulses.mapM fun p => newRot d p.par.levA p.par.levB p.par.theta (-p.par.phi)) = .ok backs ∧
      ∀ (g : LGraph) (η : Fin d → ℝ), Device d g lp → InOrder d g → Signed g lp η →
        ∃ g', backs.foldlM (fun h p => graphRuleUpdate p h) g = .ok g' ∧ Device d g' lp ∧ InOrder d g' ∧ Signed g' lp (moves mv η) ∧ EdgesIn g' g := by
  induction hf with
  | nil => exact ⟨[], rfl, fun g η h1 h2 h3 => ⟨g, rfl, h1, h2, h3, EdgesIn.refl g⟩⟩
  | @cons r m pulses mv hm _ ih =>
    obtain ⟨backs, b1, b2⟩ := ih
    have hn := newRot_ok m.1 m.2.1 hm.lt.ne r.par.theta (-r.par.phi)
    rw [← hm.levA, ← hm.levB] at hn
    refine ⟨_, by rw [List.mapM_cons, hn, b1]; rfl, ?_⟩
    intro g η h1 h2 h3
    obtain ⟨r', g', e1, e2, e3, e4, e5, e6⟩ := update_ok h1 h2 h3 hm
    rw [hn] at e1
    have e1 := Except.ok.inj e1
    obtain ⟨g2, f1, f2, f3, f4, f5⟩ := b2 g' _ e3 e4 e5
    refine ⟨g2, ?_, f2, f3, f4, f5.trans e6⟩
    rw [List.foldlM_cons, e1, e2]
    exact f1

end Qudits
