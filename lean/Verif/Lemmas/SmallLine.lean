import Verif.Lemmas.Below
import Verif.Props.QrProps
import Verif.Lemmas.SameGraph
import Verif.Spec.CompilerSpec
import Verif.Spec.SmallSpec
import Mathlib.Data.Matrix.Block
/-
A line of dimension `d` on a device with `d + k` levels: the decomposition raises AssertionError or puts out the gates it puts out for the
gate extended to all levels of the device.
-/
namespace Qudits
open Spec Matrix LGraph LocalQR Complex

variable {d k : Nat}

/-- `A` on the first `d` levels, the identity on the others -/
def padM (k : Nat) (A : Matrix (Fin d) (Fin d) ℂ) : Matrix (Fin (d + k)) (Fin (d + k)) ℂ :=
  (fromBlocks A 0 0 1).submatrix finSumFinEquiv.symm finSumFinEquiv.symm

theorem padM_mul (A B : Matrix (Fin d) (Fin d) ℂ) : padM k (A * B) = padM k A * padM k B := by
  unfold padM
  rw [submatrix_mul_equiv, fromBlocks_multiply]
  simp

theorem padM_one : padM k (1 : Matrix (Fin d) (Fin d) ℂ) = 1 := by
  unfold padM
  rw [fromBlocks_one, submatrix_one_equiv]

theorem padM_conjTranspose (A : Matrix (Fin d) (Fin d) ℂ) : padM k Aᴴ = (padM k A)ᴴ := by
  unfold padM
  rw [conjTranspose_submatrix, fromBlocks_conjTranspose]
  simp

theorem padM_unitary {A : Matrix (Fin d) (Fin d) ℂ} (h : A ∈ unitaryGroup (Fin d) ℂ) : padM k A ∈ unitaryGroup (Fin (d + k)) ℂ := by
  rw [mem_unitaryGroup_iff] at *
  rw [star_eq_conjTranspose, ← padM_conjTranspose, ← padM_mul, ← star_eq_conjTranspose, h, padM_one]

@[simp] theorem padM_low (A : Matrix (Fin d) (Fin d) ℂ) (i j : Fin d) : padM k A (Fin.castAdd k i) (Fin.castAdd k j) = A i j := by
  simp [padM]

@[simp] theorem padM_high (A : Matrix (Fin d) (Fin d) ℂ) (i j : Fin k) : padM k A (Fin.natAdd d i) (Fin.natAdd d j) = (1 : Matrix (Fin k) (Fin k) ℂ) i j := by
  simp [padM]

@[simp] theorem padM_low_high (A : Matrix (Fin d) (Fin d) ℂ) (i : Fin d) (j : Fin k) : padM k A (Fin.castAdd k i) (Fin.natAdd d j) = 0 := by
  simp [padM]

@[simp] theorem padM_high_low (A : Matrix (Fin d) (Fin d) ℂ) (i : Fin k) (j : Fin d) : padM k A (Fin.natAdd d i) (Fin.castAdd k j) = 0 := by
  simp [padM]

theorem padM_inj {A B : Matrix (Fin d) (Fin d) ℂ} (h : padM k A = padM k B) : A = B := by
  ext i j
  rw [← padM_low (k := k) A, h, padM_low]

theorem padM_ext {A : Matrix (Fin d) (Fin d) ℂ} {B : Matrix (Fin (d + k)) (Fin (d + k)) ℂ}
    (h1 : ∀ i j : Fin d, B (Fin.castAdd k i) (Fin.castAdd k j) = A i j)
    (h2 : ∀ i j : Fin k, B (Fin.natAdd d i) (Fin.natAdd d j) = if i = j then 1 else 0)
    (h3 : ∀ (i : Fin d) (j : Fin k), B (Fin.castAdd k i) (Fin.natAdd d j) = 0)
    (h4 : ∀ (i : Fin k) (j : Fin d), B (Fin.natAdd d i) (Fin.castAdd k j) = 0) : B = padM k A := by
  ext i j
  refine Fin.addCases (fun i => ?_) (fun i => ?_) i <;> refine Fin.addCases (fun j => ?_) (fun j => ?_) j
  · rw [h1, padM_low]
  · rw [h3, padM_low_high]
  · rw [h4, padM_high_low]
  · rw [h2, padM_high, Matrix.one_apply]

theorem castAdd_ne_natAdd (i : Fin d) (j : Fin k) : Fin.castAdd k i ≠ Fin.natAdd d j := by
  intro h
  have := congrArg Fin.val h
  simp at this
  have := i.isLt
  omega

theorem padM_twoLevel (a b : Fin d) (R : Matrix (Fin 2) (Fin 2) ℂ) : twoLevel (Fin.castAdd k a) (Fin.castAdd k b) R = padM k (twoLevel a b R) := by
  refine padM_ext ?_ ?_ ?_ ?_
  · intro i j
    unfold twoLevel
    simp only [Fin.castAdd_inj]
  · intro i j
    simp [twoLevel, (castAdd_ne_natAdd _ _).symm]
  · intro i j
    simp [twoLevel, (castAdd_ne_natAdd _ _).symm, castAdd_ne_natAdd]
  · intro i j
    simp [twoLevel, (castAdd_ne_natAdd _ _).symm, castAdd_ne_natAdd]

theorem padM_phase (a : Fin d) (z : ℂ) :
    (diagonal fun i : Fin (d + k) => if i = Fin.castAdd k a then z else 1) = padM k (diagonal fun i : Fin d => if i = a then z else 1) := by
  refine padM_ext ?_ ?_ ?_ ?_
  · intro i j
    simp only [diagonal_apply, Fin.castAdd_inj]
  · intro i j
    simp [diagonal_apply, (castAdd_ne_natAdd _ _).symm]
  · intro i j
    simp [diagonal_apply, castAdd_ne_natAdd]
  · intro i j
    simp [diagonal_apply, (castAdd_ne_natAdd _ _).symm]

/-! ### gates -/

/-- the same gate on a line of another dimension -/
def setDim (D : Nat) (x : PInstr) : PInstr := { x with dim := D }

/-- a rotation or phase gate on line `q` within the first `d` levels -/
def Small (d : Nat) (q : Int) (x : PInstr) : Prop :=
  OnLine q d x ∧ Confined d x

theorem small_op {q : Int} {x : PInstr} (h : Small d q x) : PhasePass.lineOp (d + k) (setDim (d + k) x) = padM k (PhasePass.lineOp d x) := by
  have key : ∀ y : PInstr, y.dagger = false → y.dim = d → y.kind = x.kind →
      PhasePass.lineOp (d + k) (setDim (d + k) y) = padM k (PhasePass.lineOp d y) := by
    intro y hy hd hk
    rcases h.2 with ⟨p, h1, h2, h3, h4⟩ | ⟨p, h1, h2, h3⟩
    · obtain ⟨a, b, hab⟩ := goodLevels_of (d := d) h2 h3 h4
      have hab' : GoodLevels (d + k) p (Fin.castAdd k a) (Fin.castAdd k b) := ⟨hab.a_eq, hab.b_eq, hab.lt⟩
      rw [PhasePass.lineOp_r hd hy (hk.trans h1) hab, PhasePass.lineOp_r (d := d + k) (g := setDim (d + k) y) rfl hy (hk.trans h1) hab', padM_twoLevel]
    · obtain ⟨a, ha⟩ : ∃ a : Fin d, p.levA = (a : Nat) := ⟨⟨p.levA.toNat, by omega⟩, by simp; omega⟩
      rw [PhasePass.lineOp_virt (a := a) hd hy (hk.trans h1) ha,
        PhasePass.lineOp_virt (d := d + k) (g := setDim (d + k) y) (a := Fin.castAdd k a) rfl hy (hk.trans h1) ha, padM_phase]
  cases hx : x.dagger with
  | false => exact key x hx h.1.2.1 rfl
  | true =>
    have e := key { x with dagger := false } rfl h.1.2.1 rfl
    have e1 : x = dag { x with dagger := false } := by
      cases x; simp only at hx; subst hx; rfl
    have e2 : setDim (d + k) x = dag (setDim (d + k) { x with dagger := false }) := by
      cases x; simp only at hx; subst hx; rfl
    rw [e2, lineOp_dag _ rfl, e, ← padM_conjTranspose, ← lineOp_dag _ rfl, ← e1]

theorem small_circuit {q : Int} {l : List PInstr} (h : ∀ x ∈ l, Small d q x) :
    circuitOp (PhasePass.lineOp (d + k)) (l.map (setDim (d + k))) = padM k (circuitOp (PhasePass.lineOp d) l) := by
  induction l with
  | nil => rw [List.map_nil, circuitOp_nil, circuitOp_nil, padM_one]
  | cons x l ih =>
    rw [List.map_cons, circuitOp_cons, circuitOp_cons, padM_mul, ih fun y hy => h y (List.mem_cons_of_mem _ hy), small_op (h x (by simp))]

/-! ### arrays -/

/-- the array of a gate and that of the gate extended to all levels -/
structure Padded (d k : Nat) (u v : Arr2 ℂ) : Prop where
  rows : u.rows = d
  cols : u.cols = d
  rows' : v.rows = d + k
  cols' : v.cols = d + k
  mat : v.toM (d + k) = padM k (u.toM d)

theorem Padded.low {u v : Arr2 ℂ} (h : Padded d k u v) {i j : Nat} (hi : i < d) (hj : j < d) : v.get i j = u.get i j := by
  have := congrFun (congrFun h.mat (Fin.castAdd k ⟨i, hi⟩)) (Fin.castAdd k ⟨j, hj⟩)
  rw [padM_low] at this
  have this : v.at' i j = u.at' i j := this
  unfold Arr2.get
  rw [if_pos ⟨by rw [h.rows']; omega, by rw [h.cols']; omega⟩, if_pos ⟨by rw [h.rows]; omega, by rw [h.cols]; omega⟩, this]

theorem Padded.high {u v : Arr2 ℂ} (h : Padded d k u v) {i j : Nat} (hi : i < d + k) (hj : j < d + k) (hd : d ≤ i) :
    v.get i j = .ok (if i = j then 1 else 0) := by
  have e : v.at' i j = if i = j then 1 else 0 := by
    by_cases hjd : j < d
    · have := congrFun (congrFun h.mat (Fin.natAdd d ⟨i - d, by omega⟩)) (Fin.castAdd k ⟨j, hjd⟩)
      rw [padM_high_low] at this
      have this : v.at' (d + (i - d)) j = 0 := this
      rw [show d + (i - d) = i by omega] at this
      rw [this, if_neg (by omega)]
    · have := congrFun (congrFun h.mat (Fin.natAdd d ⟨i - d, by omega⟩)) (Fin.natAdd d ⟨j - d, by omega⟩)
      rw [padM_high, Matrix.one_apply] at this
      have this : v.at' (d + (i - d)) (d + (j - d)) = _ := this
      rw [show d + (i - d) = i by omega, show d + (j - d) = j by omega] at this
      rw [this]
      congr 1
      rw [Fin.mk.injEq, eq_iff_iff]
      omega
  unfold Arr2.get
  rw [if_pos ⟨by rw [h.rows']; omega, by rw [h.cols']; omega⟩, e]

/-! ### rotations -/

/-- the levels of a rotation -/
def Within (d : Nat) (r : RGate) : Prop := 0 ≤ r.par.levA ∧ r.par.levA < r.par.levB ∧ r.par.levB < d

variable {E : Prop}

theorem newRot_below (a b : Int) (theta phi : ℝ) (hE : E ∨ (a < d ∧ b < d)) :
    Below E (fun r r' => r = r' ∧ Within d r) (newRot d a b theta phi) (newRot (d + k) a b theta phi) := by
  unfold newRot rInit needInt needFlt
  simp only [List.getElem?_cons_zero, List.getElem?_cons_succ, bind, Except.bind, pure, Except.pure]
  unfold checkLevels
  by_cases h : 0 ≤ a ∧ a < d ∧ 0 ≤ b ∧ b < d ∧ a ≠ b
  · rw [if_pos h, if_pos (by push_cast; omega)]
    refine .ok ⟨rfl, ?_⟩
    unfold Within levelsSetter
    simp only
    split_ifs with hab <;> simp only <;> omega
  · rcases hE with hE | ⟨h1, h2⟩
    · rw [if_neg h]
      exact Or.inl ⟨hE, rfl⟩
    · rw [if_neg h, if_neg (by push_cast; omega)]
      exact .err _

theorem newRot_below_orig (a b : Int) (theta phi : ℝ) (hE : E ∨ (a < d ∧ b < d)) :
    Below E (fun r r' => r = r' ∧ Within d r ∧ r.origA = a ∧ r.origB = b) (newRot d a b theta phi) (newRot (d + k) a b theta phi) := by
  rcases newRot_below (k := k) a b theta phi hE with h | h | ⟨r, r', h1, h2, rfl, h3⟩
  · exact Or.inl h
  · exact Or.inr (Or.inl h)
  · refine Or.inr (Or.inr ⟨r, r, h1, h2, rfl, h3, ?_⟩)
    unfold newRot at h1
    cases e : rInit d (.list [.int a, .int b, .flt theta, .flt phi]) with
    | error _ => rw [e] at h1; cases h1
    | ok p =>
      rw [e] at h1
      obtain rfl := Except.ok.inj h1
      exact ⟨rfl, rfl⟩

theorem chain_below {prev : List RGate} {cur : RGate} (h : Within d cur) :
    Below E (fun r r' => r = r' ∧ Within d r) (gateChainCondition d prev cur) (gateChainCondition (d + k) prev cur) := by
  unfold gateChainCondition
  cases prev.getLast? with
  | none => exact .ok ⟨rfl, h⟩
  | some last => exact newRot_below _ _ _ _ (Or.inr ⟨h.2.1.trans h.2.2, h.2.2⟩)

theorem ongate_below {r : RGate} (h : Within d r) (g : LGraph) :
    Below E (fun r r' => r = r' ∧ Within d r) (graphRuleOngate d r g) (graphRuleOngate (d + k) r g) := by
  unfold graphRuleOngate
  refine Below.bind (R := Eq) (.self _ fun _ _ => rfl) ?_
  rintro c _ rfl
  cases c with
  | false => exact .ok ⟨rfl, h⟩
  | true =>
    simp only [Bool.not_true, Bool.false_eq_true, if_false]
    refine Below.bind (R := Eq) (.self _ fun _ _ => rfl) ?_
    rintro n _ rfl
    have last : ∀ phi : ℝ, Below E (fun r r' => r = r' ∧ Within d r)
        (if n.2 ≠ -1 then do
          let x ← g.phase n.2
          let phi2 ← pure (phi + x)
          newRot d r.par.levA r.par.levB r.par.theta phi2
        else do
          let phi2 ← pure phi
          newRot d r.par.levA r.par.levB r.par.theta phi2)
        (if n.2 ≠ -1 then do
          let x ← g.phase n.2
          let phi2 ← pure (phi + x)
          newRot (d + k) r.par.levA r.par.levB r.par.theta phi2
        else do
          let phi2 ← pure phi
          newRot (d + k) r.par.levA r.par.levB r.par.theta phi2) := by
      intro phi
      by_cases h2 : n.2 ≠ -1
      · rw [if_pos h2, if_pos h2]
        refine Below.bind (R := Eq) (.self _ fun _ _ => rfl) ?_
        rintro p _ rfl
        exact newRot_below _ _ _ _ (Or.inr ⟨h.2.1.trans h.2.2, h.2.2⟩)
      · rw [if_neg h2, if_neg h2]
        exact newRot_below _ _ _ _ (Or.inr ⟨h.2.1.trans h.2.2, h.2.2⟩)
    by_cases h1 : n.1 ≠ -1
    · rw [if_pos h1, if_pos h1]
      refine Below.bind (R := Eq) (.self _ fun _ _ => rfl) ?_
      rintro p _ rfl
      exact last _
    · rw [if_neg h1, if_neg h1]
      exact last _

variable {sp : PathFinder}

theorem lpmap_node {D : Nat} {g : LGraph} {LP : Equiv.Perm (Fin D)} (h : Device D g LP) {x l : Int} (hx : g.lpmap x = .ok l) :
    ∃ i : Fin D, x = (i : Nat) ∧ l = ((LP i : Fin D) : Nat) := by
  have hm : x ∈ Spec.names g := by
    by_contra hn
    unfold LGraph.lpmap LGraph.node at hx
    rw [(PyDict.get?_eq_none_iff _ _).2 hn] at hx
    cases hx
  obtain ⟨i, rfl⟩ := (h.mem_iff _).1 hm
  rw [h.lpmap] at hx
  exact ⟨i, rfl, (Except.ok.inj hx).symm⟩

/-- the graph of a device that keeps the first `d` levels among themselves -/
def Inside (d k : Nat) (g : LGraph) : Prop :=
  ∃ LP : Equiv.Perm (Fin (d + k)), Device (d + k) g LP ∧ ∀ i : Fin (d + k), (i : Nat) < d → (LP i : Nat) < d

theorem Inside.lpmap {g : LGraph} (h : Inside d k g) {x l : Int} (hx : g.lpmap x = .ok l) (hd : x < d) : l < d := by
  obtain ⟨LP, h1, h2⟩ := h
  obtain ⟨i, rfl, rfl⟩ := lpmap_node h1 hx
  have := h2 i (by omega)
  omega

theorem Inside.swap {g g' : LGraph} (h : Inside d k g) {x y l m : Int} (hx : g.lpmap x = .ok l) (hxd : x < d) (hy : g.lpmap y = .ok m) (hyd : y < d)
    (hg : g.swapNodes y x = .ok g') : Inside d k g' := by
  obtain ⟨LP, h1, h2⟩ := h
  obtain ⟨i, rfl, rfl⟩ := lpmap_node h1 hx
  obtain ⟨j, rfl, rfl⟩ := lpmap_node h1 hy
  obtain ⟨g'', e1, e2, _⟩ := h1.swap j i
  rw [e1] at hg
  obtain rfl := Except.ok.inj hg
  refine ⟨_, e2, fun a ha => ?_⟩
  rw [Equiv.Perm.mul_apply]
  refine h2 _ ?_
  rw [Equiv.swap_apply_def]
  split_ifs <;> omega

theorem nodeAt_mem {path : List Int} {i : Nat} {x : Int} (h : nodeAt path i = .ok x) : x ∈ path := by
  unfold nodeAt at h
  cases e : path[i]? with
  | none => rw [e] at h; cases h
  | some y =>
    rw [e] at h
    obtain rfl := Except.ok.inj h
    exact List.mem_of_getElem? e

theorem swapElements_mem {path path' : List Int} {i j : Nat} (h : swapElements path i j = .ok path') (x : Int) (hx : x ∈ path') : x ∈ path := by
  unfold swapElements at h
  cases ha : nodeAt path i with
  | error e => rw [ha] at h; cases h
  | ok a =>
    cases hb : nodeAt path j with
    | error e => rw [ha, hb] at h; cases h
    | ok b =>
      rw [ha, hb] at h
      obtain rfl := Except.ok.inj h
      rcases List.mem_or_eq_of_mem_set hx with hx | rfl
      · rcases List.mem_or_eq_of_mem_set hx with hx | rfl
        · exact hx
        · exact nodeAt_mem hb
      · exact nodeAt_mem ha

theorem routeLoop_below (n : Nat) (path : List Int) (g : LGraph) (cost : ℝ) (pulses : List RGate) (hp : ∀ r ∈ pulses, Within d r)
    (hE : E ∨ (Inside d k g ∧ ∀ x ∈ path, x < (d : Int))) :
    Below E (fun x y => x = y ∧ (∀ r ∈ x.2.1, Within d r) ∧ (E ∨ Inside d k x.2.2)) (routeLoop sp d n path g cost pulses)
      (routeLoop sp (d + k) n path g cost pulses) := by
  induction n generalizing path g cost pulses with
  | zero => exact .ok ⟨rfl, hp, hE.imp id And.left⟩
  | succ n ih =>
    unfold routeLoop
    refine Below.bind (R := fun a b => a = b ∧ a ∈ path) (.self _ fun _ h => ⟨rfl, nodeAt_mem h⟩) ?_
    rintro x _ ⟨rfl, hx⟩
    refine Below.bind (R := fun a b => a = b ∧ a ∈ path) (.self _ fun _ h => ⟨rfl, nodeAt_mem h⟩) ?_
    rintro y _ ⟨rfl, hy⟩
    refine Below.bind (R := fun a b => a = b ∧ g.lpmap x = .ok a) (.self _ fun _ h => ⟨rfl, h⟩) ?_
    rintro px _ ⟨rfl, hpx⟩
    refine Below.bind (R := fun a b => a = b ∧ g.lpmap y = .ok a) (.self _ fun _ h => ⟨rfl, h⟩) ?_
    rintro py _ ⟨rfl, hpy⟩
    refine (newRot_below _ _ _ _ (hE.imp id fun h => ⟨h.1.lpmap hpx (h.2 x hx), h.1.lpmap hpy (h.2 y hy)⟩)).bind ?_
    rintro r0 _ ⟨rfl, h0⟩
    refine (chain_below h0).bind ?_
    rintro r1 _ ⟨rfl, h1⟩
    refine (ongate_below h1 g).bind ?_
    rintro r2 _ ⟨rfl, h2⟩
    refine (newRot_below _ _ _ _ (hE.imp id fun h => ⟨h.2 x hx, h.2 y hy⟩)).bind ?_
    rintro lr _ ⟨rfl, _⟩
    refine Below.bind (R := Eq) (.self _ fun _ _ => rfl) ?_
    rintro c _ rfl
    refine Below.bind (R := fun a b => a = b ∧ g.swapNodes y x = .ok a) (.self _ fun _ h => ⟨rfl, h⟩) ?_
    rintro g' _ ⟨rfl, hg'⟩
    refine Below.bind (R := fun a b => a = b ∧ ∀ z ∈ a, z ∈ path) (.self _ fun _ h => ⟨rfl, swapElements_mem h⟩) ?_
    rintro path' _ ⟨rfl, hpath⟩
    refine ih _ _ _ _ (fun r hr => (List.mem_append.1 hr).elim (hp r) fun hr => by rw [List.mem_singleton.1 hr]; exact h2) ?_
    exact hE.imp id fun h => ⟨h.1.swap hpx (h.2 x hx) hpy (h.2 y hy) hg', fun z hz => h.2 z (hpath z hz)⟩

theorem cost_below (r : RGate) (g : LGraph) (n m : Nat)
    (hE : E ∨ (Inside d k g ∧ ∀ p, sp g r.origA r.origB = .ok p → ∀ x ∈ p, x < (d : Int))) :
    Below E (fun x y => x.pulses = y.pulses ∧ x.placement = y.placement ∧ (∀ r ∈ x.pulses, Within d r) ∧ (E ∨ Inside d k x.placement))
      (costCalculator sp d r g n) (costCalculator sp (d + k) r g m) := by
  unfold costCalculator route
  refine Below.bind (R := fun x y => x = y ∧ (∀ r ∈ x.2.1, Within d r) ∧ (E ∨ Inside d k x.2.2)) ?_ ?_
  · refine Below.bind (R := fun a b => a = b ∧ sp g r.origA r.origB = .ok a) (.self _ fun _ h => ⟨rfl, h⟩) ?_
    rintro path _ ⟨rfl, hpath⟩
    exact routeLoop_below _ _ _ _ _ (by simp) (hE.imp id fun h => ⟨h.1, h.2 _ hpath⟩)
  · rintro x _ ⟨rfl, hx, hx'⟩
    refine Below.bind (R := Eq) (.self _ fun _ _ => rfl) ?_
    rintro c _ rfl
    exact .ok ⟨rfl, rfl, hx, hx'⟩

/-- two lists of gates that differ in the dimension of the line only -/
def SameGates (d k : Nat) (q : Int) (l l' : List PInstr) : Prop := l' = l.map (setDim (d + k)) ∧ ∀ x ∈ l, Small d q x

theorem SameGates.append {q : Int} {l l' m m' : List PInstr} (h1 : SameGates d k q l l') (h2 : SameGates d k q m m') :
    SameGates d k q (l ++ m) (l' ++ m') :=
  ⟨by rw [h1.1, h2.1, List.map_append], fun x hx => (List.mem_append.1 hx).elim (h1.2 x) (h2.2 x)⟩

theorem sameGates_rots {q : Int} {l : List RGate} (h : ∀ r ∈ l, Within d r) : SameGates d k q (l.map (rotInstr q d)) (l.map (rotInstr q (d + k))) := by
  refine ⟨by rw [List.map_map]; rfl, fun x hx => ?_⟩
  obtain ⟨r, hr, rfl⟩ := List.mem_map.1 hx
  exact ⟨⟨rfl, rfl, rfl⟩, Or.inl ⟨r.par, rfl, h r hr⟩⟩

theorem phyEmit_below (q : Int) (rot : RGate) (row : Nat) (theta phi : ℝ) (pulses : List RGate) (g : LGraph) (hp : ∀ r ∈ pulses, Within d r)
    (hrow : row < d) (hE : E ∨ Inside d k g) :
    Below E (SameGates d k q) (phyEmit q d rot row theta phi pulses g) (phyEmit q (d + k) rot row theta phi pulses g) := by
  unfold phyEmit
  refine Below.bind (R := fun x y => x = y ∧ g.lpmap ((row : Int) - 1) = .ok x) (.self _ fun _ h => ⟨rfl, h⟩) ?_
  rintro a _ ⟨rfl, ha⟩
  refine Below.bind (R := fun x y => x = y ∧ g.lpmap row = .ok x) (.self _ fun _ h => ⟨rfl, h⟩) ?_
  rintro b _ ⟨rfl, hb'⟩
  refine (newRot_below _ _ _ _ (hE.imp id fun h => ⟨h.lpmap ha (by omega), h.lpmap hb' (by omega)⟩)).bind ?_
  rintro r0 _ ⟨rfl, h0⟩
  refine (chain_below h0).bind ?_
  rintro r1 _ ⟨rfl, h1⟩
  refine (Below.mapM (P := Within d) _ fun p hp' => newRot_below _ _ _ _ (Or.inr (by
    have := hp p (List.mem_reverse.1 hp')
    exact ⟨this.2.1.trans this.2.2, this.2.2⟩))).bind ?_
  rintro bs _ ⟨rfl, hb⟩
  exact .ok (((sameGates_rots hp).append (sameGates_rots (l := [r1]) (by simpa using h1))).append (sameGates_rots hb))

/-! ### the loops -/

/-- states of the two runs -/
structure SameState (d k : Nat) (q : Int) (st st' : QrState) : Prop where
  arr : Padded d k st.u st'.u
  gates : SameGates d k q st.decomp st'.decomp

theorem within_good {r : RGate} (h : Within d r) : ∃ a b : Fin d, GoodLevels d r.par a b := goodLevels_of h.1 h.2.1 h.2.2

theorem qrStep_below {eps : ℝ} (q : Int) (g : LGraph) {c r : Nat} (hc : c < d) (hcr : c < r) (hr : r < d) {st st' : QrState} (h : SameState d k q st st')
    (hE : E ∨ (Inside d k g ∧ Stays d sp g)) :
    Below E (SameState d k q) (qrStep sp d eps (phyEmit q d) g c st r) (qrStep sp (d + k) eps (phyEmit q (d + k)) g c st' r) := by
  unfold qrStep
  rw [h.arr.low hr hc, h.arr.low (show r - 1 < d by omega) hc]
  refine Below.bind (R := Eq) (.self _ fun _ _ => rfl) ?_
  rintro x _ rfl
  by_cases hx : ‖x‖ > eps
  · rw [if_pos hx, if_pos hx]
    refine Below.bind (R := Eq) (.self _ fun _ _ => rfl) ?_
    rintro y _ rfl
    simp only
    refine (newRot_below_orig _ _ _ _ (Or.inr ⟨by omega, by omega⟩)).bind ?_
    rintro rot _ ⟨rfl, hw, ho1, ho2⟩
    obtain ⟨a, b, hab⟩ := within_good hw
    have hab' : GoodLevels (d + k) rot.par (Fin.castAdd k a) (Fin.castAdd k b) := ⟨hab.a_eq, hab.b_eq, hab.lt⟩
    obtain ⟨A, a1, a2, a3, a4⟩ := rArray_ok hab
    obtain ⟨A', b1, b2, b3, b4⟩ := rArray_ok hab'
    obtain ⟨B, c1, c2, c3, c4⟩ := matmul_ok A st.u d a2 a3 h.arr.rows h.arr.cols
    obtain ⟨B', d1, d2, d3, d4⟩ := matmul_ok A' st'.u (d + k) b2 b3 h.arr.rows' h.arr.cols'
    rw [a1, b1]
    simp only [bind, Except.bind]
    rw [c1, d1]
    refine Below.bind (cost_below rot g _ _ (hE.imp id fun h => ⟨h.1, by rw [ho1, ho2]; exact h.2 r (by omega) hr⟩)) ?_
    rintro x y ⟨p1, p2, p3, p4⟩
    rw [← p1, ← p2]
    refine Below.bind (phyEmit_below q rot r _ _ _ _ p3 hr p4) ?_
    intro l l' hl
    refine .ok ⟨⟨c2, c3, d2, d3, ?_⟩, h.gates.append hl⟩
    show B'.toM (d + k) = padM k (B.toM d)
    rw [c4, d4, a4, b4, padM_twoLevel, h.arr.mat, padM_mul]
  · rw [if_neg hx, if_neg hx]
    exact .ok h

theorem qrStep_high {eps : ℝ} (heps : 0 ≤ eps) {emit : Emit} (g : LGraph) {c r : Nat} (hc : c < r) (hr : r < d + k) (hd : d ≤ r) {u : Arr2 ℂ} {st' : QrState}
    (h : Padded d k u st'.u) : qrStep sp (d + k) eps emit g c st' r = .ok st' := by
  unfold qrStep
  rw [h.high hr (by omega) hd, if_neg (by omega)]
  simp only [bind, Except.bind, pure, Except.pure, norm_zero]
  rw [if_neg (not_lt.2 heps)]

theorem foldlM_stay {σ ι : Type} {f : σ → ι → Except PyErr σ} {s : σ} (l : List ι) (h : ∀ i ∈ l, f s i = .ok s) : l.foldlM f s = .ok s := by
  induction l with
  | nil => rfl
  | cons i l ih =>
    rw [List.foldlM_cons, h i (by simp)]
    exact ih fun j hj => h j (List.mem_cons_of_mem _ hj)

theorem rows_split {c : Nat} (hc : c < d) : rowsOf (d + k) c = (List.range' d k).reverse ++ rowsOf d c := by
  rw [rowsOf_eq _ _ (by omega), rowsOf_eq _ _ hc, ← List.reverse_append, show d + k - 1 - c = (d - 1 - c) + k by omega, ← List.range'_append_1,
    show c + 1 + (d - 1 - c) = d by omega]

theorem qrColumn_below {eps : ℝ} (heps : 0 ≤ eps) (q : Int) (g : LGraph) {c : Nat} (hc : c < d) {st st' : QrState} (h : SameState d k q st st')
    (hE : E ∨ (Inside d k g ∧ Stays d sp g)) :
    Below E (SameState d k q) (qrColumn sp d eps (phyEmit q d) g d st c) (qrColumn sp (d + k) eps (phyEmit q (d + k)) g (d + k) st' c) := by
  unfold qrColumn
  have e : (List.range' d k).reverse.foldlM (qrStep sp (d + k) eps (phyEmit q (d + k)) g c) st' = .ok st' := by
    refine foldlM_stay _ fun r hr => ?_
    rw [List.mem_reverse, List.mem_range'_1] at hr
    exact qrStep_high heps g (by omega) (by omega) (by omega) h.arr
  rw [rows_split hc, List.foldlM_append, e]
  refine Below.foldlM _ (fun r hr a b hab => ?_) _ _ h
  rw [rowsOf_eq _ _ hc, List.mem_reverse, List.mem_range'_1] at hr
  exact qrStep_below q g hc (by omega) (by omega) hab hE

theorem qrColumn_high {eps : ℝ} (heps : 0 ≤ eps) {emit : Emit} (g : LGraph) {c : Nat} (hd : d ≤ c) (hc : c < d + k) {u : Arr2 ℂ} {st' : QrState}
    (h : Padded d k u st'.u) : qrColumn sp (d + k) eps emit g (d + k) st' c = .ok st' := by
  unfold qrColumn
  rw [rowsOf_eq _ _ hc]
  refine foldlM_stay _ fun r hr => ?_
  rw [List.mem_reverse, List.mem_range'_1] at hr
  exact qrStep_high heps g (by omega) (by omega) (by omega) h

/-- the phase gates at the end -/
theorem qrPhase_below {del : ℝ} (q : Int) (g : LGraph) (u v : Arr2 ℂ) (huv : Padded d k u v) (hlp : ∀ i < d, ∃ l : Int, g.lpmap i = .ok l ∧ 0 ≤ l ∧ l < d)
    {i : Nat} (hi : i < d) {l l' : List PInstr} (h : SameGates d k q l l') :
    Below E (SameGates d k q) (qrPhase q d del (fun g i => do
        let l ← g.lpmap i
        pure (.int l)) g u l i) (qrPhase q (d + k) del (fun g i => do
        let l ← g.lpmap i
        pure (.int l)) g v l' i) := by
  unfold qrPhase
  rw [huv.low hi hi]
  refine Below.bind (R := Eq) (.self _ fun _ _ => rfl) ?_
  rintro x _ rfl
  by_cases hx : |arg x| > del
  · rw [if_pos hx, if_pos hx]
    obtain ⟨m, m1, m2, m3⟩ := hlp i hi
    simp only [m1]
    refine .ok (h.append ⟨?_, ?_⟩)
    · simp only [List.map_cons, List.map_nil, setDim, phaseInstr, virtRzInit]
      rw [if_pos ⟨m2, by push_cast; omega⟩, if_pos ⟨m2, m3⟩]
    · intro x hx
      rw [List.mem_singleton.1 hx]
      refine ⟨⟨rfl, rfl, rfl⟩, Or.inr ⟨_, rfl, ?_⟩⟩
      simp only [virtRzInit]
      rw [if_pos ⟨m2, m3⟩]
      exact ⟨m2, m3⟩
  · rw [if_neg hx, if_neg hx]
    exact .ok h

theorem qrPhase_high {del : ℝ} (hdel : 0 ≤ del) (q : Int) (g : LGraph) {levelAt : LGraph → Nat → Except PyErr PVal} (u v : Arr2 ℂ) (huv : Padded d k u v)
    {i : Nat} (hi : i < d + k) (hd : d ≤ i) (l : List PInstr) : qrPhase q (d + k) del levelAt g v l i = .ok l := by
  unfold qrPhase
  rw [huv.high hi hi hd, if_pos rfl]
  simp only [bind, Except.bind, pure, Except.pure, arg_one, abs_zero]
  rw [if_neg (not_lt.2 hdel)]

/-- pending phases -/
theorem takePhases_below (q : Int) (pre : Attrs → Except PyErr PVal) (g : LGraph) :
    Below E (fun s s' => s.1 = s'.1 ∧ s.2.1.length = s'.2.1.length ∧ s.2.2 = s'.2.2) (takePhases q d pre g) (takePhases q (d + k) pre g) := by
  unfold takePhases
  refine Below.bind (R := Eq) (.self _ fun _ _ => rfl) ?_
  rintro c _ rfl
  cases c with
  | false => exact .ok ⟨rfl, rfl, rfl⟩
  | true =>
    simp only [if_true]
    refine Below.foldlM _ ?_ _ _ ⟨rfl, rfl, rfl⟩
    rintro i _ ⟨g, out, sv⟩ ⟨g', out', sv'⟩ ⟨h1, h2, h3⟩
    simp only at h1 h2 h3
    subst h1 h3
    unfold takePhase
    refine Below.bind (R := Eq) (.self _ fun _ _ => rfl) ?_
    rintro x _ rfl
    simp only
    by_cases hz : |newMod x| > 1e-4
    · rw [if_pos hz, if_pos hz]
      refine Below.bind (R := Eq) (.self _ fun _ _ => rfl) ?_
      rintro a _ rfl
      refine Below.bind (R := Eq) (.self _ fun _ _ => rfl) ?_
      rintro l _ rfl
      refine Below.bind (R := fun (a b : List PInstr) => a.length = b.length) (.ok (by simp [h2])) ?_
      intro o o' ho
      refine Below.bind (R := Eq) (.self _ fun _ _ => rfl) ?_
      rintro g1 _ rfl
      exact .ok ⟨rfl, ho, rfl⟩
    · rw [if_neg hz, if_neg hz]
      refine Below.bind (R := fun (a b : List PInstr) => a.length = b.length) (.ok h2) ?_
      intro o o' ho
      refine Below.bind (R := Eq) (.self _ fun _ _ => rfl) ?_
      rintro g1 _ rfl
      exact .ok ⟨rfl, ho, rfl⟩

variable {g : LGraph} {lp : Equiv.Perm (Fin (d + k))}

/-- `PhyLocQRPass` for a gate of a line with fewer levels than the device. -/
theorem phyPass_below (h : Device (d + k) g lp) (hp : NoPhases (d + k) g) (hlp : ∀ i : Fin (d + k), (i : Nat) < d → (lp i : Nat) < d) (q : Int) {u v : Arr2 ℂ}
    (huv : Padded d k u v) (hE : E ∨ AlwaysStays d sp g) :
    Below E (fun x y => SameGates d k q x.1 y.1 ∧ x.2 = y.2) (phyPassGate sp q d u g) (phyPassGate sp q (d + k) v g) := by
  obtain ⟨g1, E, saved, t1, t2, t3, _, _, _, _, _, t4⟩ := takePhases_ok (C := conjHom lp) q (fun a => attr a "lpmap")
    (fun i a ha => ⟨.int ((lp i : Fin (d + k)) : Nat), by simp [attr, ha], fun x => by rw [lineOp_phase, conjHom_onePhase]⟩) h
  have t4 := t4 hp
  subst t4
  have hE' : E ∨ (Inside d k g1 ∧ Stays d sp g1) := hE.imp id fun h => ⟨⟨lp, t2, hlp⟩, h g1 t2.wf (takePhases_same t1).1 (takePhases_same t1).2⟩
  have hb := takePhases_below (E := E) (d := d) (k := k) q (fun a => attr a "lpmap") g
  rw [t1] at hb
  unfold phyPassGate phyQr execute
  simp only [Bool.false_eq_true, if_false, Bool.false_and, pure_bind]
  rcases hb.of_ok with hb | ⟨⟨g1', E', saved'⟩, hb, e1, e2, e3⟩
  · rw [hb.2]; exact Or.inl ⟨hb.1, rfl⟩
  simp only at e1 e2 e3
  subst e1 e3
  have e2 := List.length_eq_zero_iff.1 e2
  subst e2
  rw [hb, t1]
  have hlev : ∀ i < d, ∃ l : Int, g1'.lpmap i = .ok l ∧ 0 ≤ l ∧ l < d := by
    intro i hi
    refine ⟨_, t2.lpmap ⟨i, by omega⟩, by omega, ?_⟩
    have := hlp ⟨i, by omega⟩ hi
    omega
  rw [huv.cols, huv.rows, huv.cols', huv.rows']
  simp only [bind_assoc, pure_bind]
  have hcols : Below E (SameState d k q) ((List.range d).foldlM (qrColumn sp d 1e-8 (phyEmit q d) g1' d) ⟨u, [], 0, 0⟩)
      ((List.range (d + k)).foldlM (qrColumn sp (d + k) 1e-8 (phyEmit q (d + k)) g1' (d + k)) ⟨v, [], 0, 0⟩) := by
    have e : List.range (d + k) = List.range d ++ List.range' d k := by
      rw [List.range_eq_range', List.range_eq_range', ← List.range'_append_1, Nat.zero_add]
    rw [e, List.foldlM_append]
    have h1 : Below E (SameState d k q) ((List.range d).foldlM (qrColumn sp d 1e-8 (phyEmit q d) g1' d) ⟨u, [], 0, 0⟩)
        ((List.range d).foldlM (qrColumn sp (d + k) 1e-8 (phyEmit q (d + k)) g1' (d + k)) ⟨v, [], 0, 0⟩) :=
      Below.foldlM _ (fun c hc a b hab => qrColumn_below (by norm_num) q g1' (List.mem_range.1 hc) hab hE') _ _ ⟨huv, rfl, by simp⟩
    rcases h1 with h1 | ⟨e, h1, h2⟩ | ⟨a, b, h1, h2, h3⟩
    · rw [h1.2]; exact Or.inl ⟨h1.1, rfl⟩
    · rw [h1, h2]; exact .err e
    · rw [h1, h2]
      refine Or.inr (Or.inr ⟨a, b, rfl, foldlM_stay _ fun c hc => ?_, h3⟩)
      rw [List.mem_range'_1] at hc
      exact qrColumn_high (by norm_num) g1' (by omega) (by omega) h3.arr
  refine Below.bind (R := fun a b => a = (g1', [], saved') ∧ b = (g1', [], saved')) (.ok ⟨rfl, rfl⟩) ?_
  rintro _ _ ⟨rfl, rfl⟩
  refine Below.bind hcols ?_
  intro st st' hst
  have e : List.range (d + k) = List.range d ++ List.range' d k := by
    rw [List.range_eq_range', List.range_eq_range', ← List.range'_append_1, Nat.zero_add]
  rw [e, List.foldlM_append]
  have h1 := Below.foldlM (E := E) (R := SameGates d k q) (List.range d) (fun i hi a b hab => qrPhase_below (del := 1e-4) q g1' st.u st'.u hst.arr hlev
    (List.mem_range.1 hi) hab) st.decomp st'.decomp hst.gates
  rcases h1 with h1 | ⟨e, h1, h2⟩ | ⟨a, b, h1, h2, h3⟩
  · rw [h1.2]; exact Or.inl ⟨h1.1, rfl⟩
  · rw [h1, h2]; exact .err e
  · rw [h1, h2]
    have h4 : (List.range' d k).foldlM (qrPhase q (d + k) 1e-4 (fun g i => do
        let l ← g.lpmap i
        pure (.int l)) g1' st'.u) b = .ok b := by
      refine foldlM_stay _ fun c hc => ?_
      rw [List.mem_range'_1] at hc
      exact qrPhase_high (by norm_num) q g1' st.u st'.u hst.arr (by omega) (by omega) b
    simp only [bind, Except.bind] at h4 ⊢
    rw [h4]
    refine .ok ⟨⟨?_, ?_⟩, rfl⟩
    · simp only [revDag, h3.1, ← List.map_reverse, List.map_map]
      rfl
    · intro x hx
      unfold revDag at hx
      obtain ⟨y, hy, rfl⟩ := List.mem_map.1 hx
      exact h3.2 y (List.mem_reverse.1 hy)

end Qudits
