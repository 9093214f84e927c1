import Verif.Lemmas.RoutePrice
import Verif.Props.GraphMeasureProps
import Verif.Props.RotCostProps
/-!
# C104: what a rotation costs on a device

`rotation_cost_calc` (local_compilation_minitools.py:57-74), `route_states2rotate_basic` and
`cost_calculator` (swap_routine.py:126-176).  The energy-level graph is that of a device
(`Spec.Device`); phases may be stored in it.
-/
namespace Qudits
open LGraph Spec Matrix LocalQR

variable {d : Nat} {g : LGraph} {lp : Equiv.Perm (Fin d)} {sp : PathFinder}

/-- the price of a pulse -/
theorem price_pi : thetaCost Real.pi = 4e-4 := by
  have hp := Real.pi_pos
  have e : Real.pi / Real.pi = 1 := div_self hp.ne'
  have := RotCost.pyMod_add_int 0.25 (b := 0.5) (by norm_num) 2
  rw [RotCost.pyMod_small (a := 0.25) (by norm_num) (by norm_num)] at this
  simp only [thetaCost, e, abs_one]
  rw [show (1 : ℝ) + 0.25 = 0.25 + ((2 : ℤ) : ℝ) * 0.5 by norm_num, this]
  norm_num

/-- **C104** (one rotation).  A rotation between two levels costs what its angle costs unless one of the levels is remote; then the
price is multiplied by one more than the distance of the nearer of the two from a level that can be initialised. -/
theorem C104_rotation (h : Device d g lp) (hsp : FindsShortest sp) (r : RGate) (i j : Fin d) (hi : r.origA = (i : Nat))
    (hj : r.origB = (j : Nat)) :
    (¬ Remote g (i : Nat) ∧ ¬ Remote g (j : Nat) → rotationCost sp r g = .ok (thetaCost r.par.theta)) ∧
    (Remote g (i : Nat) ∨ Remote g (j : Nat) → ∃ (f : Fin d) (k l : Nat), value g (f : Nat) "level" = some (.str "i") ∧
      Distance g (f : Nat) (i : Nat) k ∧ Distance g (f : Nat) (j : Nat) l ∧
      rotationCost sp r g = .ok ((min k l + 1) * thetaCost r.par.theta)) := by
  obtain ⟨b1, e1, q1⟩ := h.irnode_iff i
  obtain ⟨b2, e2, q2⟩ := h.irnode_iff j
  constructor
  · rintro ⟨n1, n2⟩
    have f1 : b1 = false := by simpa using fun e => n1 (q1.1 e)
    have f2 : b2 = false := by simpa using fun e => n2 (q2.1 e)
    unfold rotationCost
    rw [hi, hj, e1, e2, f1, f2]
    rfl
  · intro hr
    have hb : (b1 || b2) = true := by
      rw [Bool.or_eq_true_iff]
      exact hr.imp q1.2 q2.2
    obtain ⟨L, h1, h2⟩ := h.levelNodes "i"
    obtain ⟨j0, hj0⟩ := h.start
    obtain ⟨f, e3, hf⟩ : ∃ f : Fin d, g.fstInode = .ok ((f : Nat) : Int) ∧ value g (f : Nat) "level" = some (.str "i") := by
      unfold LGraph.fstInode
      rw [h1]
      cases L with
      | nil => exact absurd ((h2 j0).2 ⟨j0, rfl, hj0⟩) (by simp)
      | cons n ns =>
        obtain ⟨f, hf, hv⟩ := (h2 n).1 (by simp)
        exact ⟨f, by rw [← hf]; rfl, hv⟩
    have walk : ∀ a b : Fin d, ∃ p, Walk g (a : Nat) (b : Nat) p := fun a b => (h.conn a b).imp fun _ hp => walk_of_path hp
    obtain ⟨k, e4, d4⟩ := C94_distance hsp h.wf (h.mem f) (walk f i)
    obtain ⟨l, e5, d5⟩ := C94_distance hsp h.wf (h.mem f) (walk f j)
    refine ⟨f, k, l, hf, d4, d5, ?_⟩
    unfold rotationCost
    rw [e3, hi, hj, e1, e2]
    simp only [bind, Except.bind, pure, Except.pure]
    rw [e4, e5]
    simp only []
    rw [if_pos hb]
    push_cast
    rfl

/-- **C104** (routing).  Bringing two levels together takes one pulse less than there are couplings between them, and `cost_calculator`
adds the prices of the pulses to that of the rotation.  A pulse costs `4e-4`, or, if remote levels are met, at most `d` times that;
the price of the rotation is found in the placement after the pulses. -/
theorem C104_routing (h : Device d g lp) (hsp : FindsShortest sp) (a b : Fin d) (hab : a ≠ b) (par : TwoLevel) (nz : Nat) :
    ∃ (D : Nat) (c : Costs), Distance g (a : Nat) (b : Nat) D ∧ costCalculator sp d ⟨nm a, nm b, par⟩ g nz = .ok c ∧
      c.pulses.length + 1 = D ∧ (∀ r ∈ c.pulses, |r.par.theta| = Real.pi) ∧
      (D - 1) * 4e-4 ≤ c.piCost ∧ c.piCost ≤ (D - 1) * (d * 4e-4) ∧
      thetaCost par.theta ≤ c.gateCost ∧ c.gateCost ≤ d * thetaCost par.theta ∧
      c.total = (c.gateCost + c.piCost) * nz ∧
      (Plain d g → c.gateCost = thetaCost par.theta ∧ c.piCost = (D - 1) * 4e-4) := by
  obtain ⟨p, hp1, hp2⟩ := hsp.finds g _ _ h.wf (h.mem a) (h.conn a b)
  obtain ⟨front, e1, e2, e3, _, _⟩ := h.path a b hab p hp2
  obtain ⟨D, hD1, hD2⟩ := C94_distance hsp h.wf (h.mem a) ((h.conn a b).imp fun _ hp => walk_of_path hp)
  have hlenD : front.length + 1 = D := by
    unfold distanceNodes at hD1
    rw [hp1] at hD1
    have := Except.ok.inj hD1
    rw [e1] at this
    simp only [List.length_map, List.length_append, List.length_cons, List.length_nil] at this
    push_cast at this
    omega
  obtain ⟨k, new, g', lp', i1, i2, i5, i6, i9, i10, i11⟩ := routeLoop_price hsp.finds front.length front a b [] g lp 0 [] 1
    (by simp) e2 e3 h (Or.inl ⟨rfl, rfl⟩)
  simp only [List.nil_append, zero_add] at i1
  have hlen : p.length - 2 = front.length := by rw [e1]; simp
  have hroute : route sp d ⟨nm a, nm b, par⟩ g = .ok (k, new, g') := by
    unfold route
    simp only [bind, Except.bind]
    rw [show sp g (nm a) (nm b) = .ok p from hp1]
    simp only []
    rw [hlen, e1]
    exact i1
  obtain ⟨c, hc, hc1, hc2, hc3⟩ := i2.price hsp.finds ⟨nm a, nm b, par⟩ a b rfl rfl
  have hcost : costCalculator sp d ⟨nm a, nm b, par⟩ g nz = .ok ⟨(c + k) * nz, new, g', k, c⟩ := by
    unfold costCalculator
    simp only [bind, Except.bind, pure, Except.pure]
    rw [hroute]
    simp only []
    rw [hc]
  have hDr : ((D : ℝ) - 1) = (front.length : ℝ) := by
    rw [← hlenD]; push_cast; ring
  refine ⟨D, _, hD2, hcost, by rw [← hlenD, i5], i6, ?_, ?_, hc1, hc2, rfl, ?_⟩
  · rw [hDr, ← price_pi]; exact i9
  · rw [hDr, ← price_pi]; exact i10
  · intro hp
    obtain ⟨j1, j2⟩ := i11 hp
    rw [hDr, ← price_pi]
    exact ⟨hc3 j2, j1⟩

/-- **C104** (nearer is cheaper).  On a device without remote levels, of two rotations by the same angle the one between levels which
are farther apart costs more. -/
theorem C104_nearer (h : Device d g lp) (hsp : FindsShortest sp) (hp : Plain d g) (a b a' b' : Fin d) (hab : a ≠ b) (hab' : a' ≠ b')
    (D D' : Nat) (hD : Distance g (a : Nat) (b : Nat) D) (hD' : Distance g (a' : Nat) (b' : Nat) D') (hlt : D < D')
    (par par' : TwoLevel) (ht : |par.theta| = |par'.theta|) (nz : Nat) (hnz : 0 < nz) :
    ∃ c c', costCalculator sp d ⟨nm a, nm b, par⟩ g nz = .ok c ∧ costCalculator sp d ⟨nm a', nm b', par'⟩ g nz = .ok c' ∧ c.total < c'.total := by
  obtain ⟨E, c, x1, x2, _, _, _, _, _, _, xt, x3⟩ := C104_routing h hsp a b hab par nz
  obtain ⟨E', c', y1, y2, _, _, _, _, _, _, yt, y3⟩ := C104_routing h hsp a' b' hab' par' nz
  refine ⟨c, c', x2, y2, ?_⟩
  rw [xt, yt, (x3 hp).1, (x3 hp).2, (y3 hp).1, (y3 hp).2, distance_unique x1 hD, distance_unique y1 hD', ((C103_longer par.theta par'.theta).2.2 ht).1]
  have h1 : (D : ℝ) < D' := by exact_mod_cast hlt
  have h2 : (0 : ℝ) < nz := by exact_mod_cast hnz
  refine mul_lt_mul_of_pos_right ?_ h2
  linarith

/-- three levels in a row, level 2 remote -/
example (hsp : FindsShortest sp) (par : TwoLevel) : ∃ c, costCalculator sp 3 ⟨nm (0 : Fin 3), nm (2 : Fin 3), par⟩ rowDevice 9 = .ok c ∧
    c.total = (c.gateCost + c.piCost) * 9 := by
  obtain ⟨_, c, _, h1, _, _, _, _, _, _, h2, _⟩ := C104_routing rowDevice_ok.1 hsp 0 2 (by decide) par 9
  exact ⟨c, h1, by exact_mod_cast h2⟩

example (hsp : FindsShortest sp) (r : RGate) (h1 : r.origA = 0) (h2 : r.origB = 1) : rotationCost sp r rowDevice = .ok (thetaCost r.par.theta) :=
  (C104_rotation rowDevice_ok.1 hsp r 0 1 h1 h2).1 ⟨by unfold Remote; simp [value, rowDevice, PyDict.get?], by unfold Remote; simp [value, rowDevice, PyDict.get?]⟩

/-- Three levels in a row, none of them remote. -/
def plainRow : LGraph :=
  ⟨[(0, [("level", .str "i"), ("lpmap", .int 0)]), (1, [("level", .str "l"), ("lpmap", .int 1)]), (2, [("level", .str "l"), ("lpmap", .int 2)])],
    [(0, 1, []), (1, 2, [])], none⟩

theorem plainRow_ok : Device 3 plainRow 1 := by
  have hv : ∀ (i : Fin 3) (k : String), value plainRow (i : Nat) k =
      if k = "level" then some (.str (if i = 0 then "i" else "l"))
      else if k = "lpmap" then some (.int (i : Nat)) else none := by
    intro i k
    by_cases h1 : k = "level"
    · subst h1; fin_cases i <;> rfl
    · by_cases h2 : k = "lpmap"
      · subst h2; fin_cases i <;> rfl
      · rw [if_neg h1, if_neg h2]
        fin_cases i <;> simp [value, plainRow, PyDict.get?, eq_comm, h1, h2]
  have hnames : names plainRow = (List.range 3).map fun i : Nat => (i : Int) := rfl
  refine ⟨⟨by decide, by simp [plainRow, PyDict.keys], ?_, ?_⟩, ?_, by rw [hnames], ?_, ?_, ⟨0, rfl⟩, ?_, ?_⟩
  · simp [plainRow, SameEnds]
  · simp [plainRow, names, PyDict.keys]
  · intro n hn m hm k hk
    rw [hnames] at hn hm
    obtain ⟨i, hi, rfl⟩ := List.mem_map.1 hn
    obtain ⟨j, hj, rfl⟩ := List.mem_map.1 hm
    have e1 := hv ⟨i, List.mem_range.1 hi⟩ k
    have e2 := hv ⟨j, List.mem_range.1 hj⟩ k
    simp only at e1 e2
    rw [e1] at hk
    rw [e2]
    split_ifs at hk ⊢ <;> simp_all
  · intro i; fin_cases i <;> rfl
  · intro i
    rw [hv, if_pos rfl]
    exact ⟨_, rfl⟩
  · have p00 : ∀ n : Int, IsPath plainRow n n [n] := fun n => ⟨rfl, rfl, by simp, by simp⟩
    intro a b
    fin_cases a <;> fin_cases b
    · exact ⟨_, p00 _⟩
    · exact ⟨[0, 1], rfl, rfl, by simp [Spec.Joined, edgeData, joins, plainRow], by decide⟩
    · exact ⟨[0, 1, 2], rfl, rfl, by simp [Spec.Joined, edgeData, joins, plainRow], by decide⟩
    · exact ⟨[1, 0], rfl, rfl, by simp [Spec.Joined, edgeData, joins, plainRow], by decide⟩
    · exact ⟨_, p00 _⟩
    · exact ⟨[1, 2], rfl, rfl, by simp [Spec.Joined, edgeData, joins, plainRow], by decide⟩
    · exact ⟨[2, 1, 0], rfl, rfl, by simp [Spec.Joined, edgeData, joins, plainRow], by decide⟩
    · exact ⟨[2, 1], rfl, rfl, by simp [Spec.Joined, edgeData, joins, plainRow], by decide⟩
    · exact ⟨_, p00 _⟩
  · intro i v h
    rw [hv, if_neg (by decide), if_neg (by decide)] at h
    cases h

theorem plainRow_plain : Plain 3 plainRow := by
  intro i
  unfold Remote
  fin_cases i <;> simp [value, plainRow, PyDict.get?]

theorem plainRow_one : Distance plainRow 0 1 1 := by
  refine ⟨⟨[0, 1], ⟨rfl, rfl, by simp [Spec.Joined, edgeData, joins, plainRow]⟩, rfl⟩, ?_⟩
  rintro p ⟨h1, h2, _⟩
  match p, h1, h2 with
  | [], h1, _ => simp at h1
  | [x], h1, h2 => simp at h1 h2; omega
  | _ :: _ :: l, _, _ => simp

theorem plainRow_two : Distance plainRow 0 2 2 := by
  refine ⟨⟨[0, 1, 2], ⟨rfl, rfl, by simp [Spec.Joined, edgeData, joins, plainRow]⟩, rfl⟩, ?_⟩
  rintro p ⟨h1, h2, h3⟩
  match p, h1, h2, h3 with
  | [], h1, _, _ => simp at h1
  | [x], h1, h2, _ => simp at h1 h2; omega
  | [x, y], h1, h2, h3 =>
    simp at h1 h2
    subst h1 h2
    simp [Spec.Joined, edgeData, joins, plainRow] at h3
  | _ :: _ :: _ :: l, _, _, _ => simp

/-- in that row a half turn between the levels 0 and 2 costs more than one between 0 and 1 -/
example (hsp : FindsShortest sp) (phi : ℝ) : ∃ c c', costCalculator sp 3 ⟨nm (0 : Fin 3), nm (1 : Fin 3), ⟨0, 1, Real.pi, phi⟩⟩ plainRow 9 = .ok c ∧
    costCalculator sp 3 ⟨nm (0 : Fin 3), nm (2 : Fin 3), ⟨0, 2, Real.pi, phi⟩⟩ plainRow 9 = .ok c' ∧ c.total < c'.total :=
  C104_nearer plainRow_ok hsp plainRow_plain 0 1 0 2 (by decide) (by decide) 1 2 plainRow_one plainRow_two (by decide) _ _ rfl 9 (by decide)

end Qudits
