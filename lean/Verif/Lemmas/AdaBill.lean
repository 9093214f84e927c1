import Verif.Lemmas.QrBill
import Verif.Lemmas.AdaMain
/- The cost of a branch of the adaptive search and the bill of its gates. -/
namespace Qudits.Adaptive
open LGraph LocalQR Spec Qudits.Tree

variable {d : Nat} {off del : ℝ} {sp : PathFinder} {g0 g : LGraph} {lp : Equiv.Perm (Fin d)}

/-- the child `c'` of `c` is charged for what it adds -/
structure Billed (d : Nat) (I : Core → Prop) (R : ℝ → ℝ → Prop) (c c' : Core) : Prop where
  inv : I c'
  limit : c'.data.limit = c.data.limit
  within : c'.dcost < c'.data.limit.2 + 1e-12
  bill : ∀ q, R (bill ((c'.data.pulses ++ c'.data.rot.toList).map (rotInstr q d))) (c'.dcost - c.dcost)

theorem chain_billed {I : Core → Prop} {R : ℝ → ℝ → Prop} (hR : Related R) : ∀ (p : List (TNode NodeData (Option LGraph))) (c0 : Core)
    (l : TNode NodeData (Option LGraph)), I c0 → (p.map core).IsChain (Billed d I R) → (p.map core).head? = some c0 → p.getLast? = some l →
    (∀ q, R (Spec.bill (nodeGates q d p)) (l.dcost - c0.dcost)) ∧ I (core l) ∧ (core l = c0 ∨ l.dcost < c0.data.limit.2 + 1e-12) := by
  intro p
  induction p with
  | nil => intro c0 l _ _ h; simp at h
  | cons x xs ih =>
    intro c0 l hI hc hh hl
    simp only [List.map_cons, List.head?_cons, Option.some.injEq] at hh
    cases xs with
    | nil =>
      simp only [List.getLast?_singleton, Option.some.injEq] at hl
      subst hl
      refine ⟨?_, by rw [hh]; exact hI, Or.inl hh⟩
      intro q
      have : x.dcost = c0.dcost := congrArg Core.dcost hh
      simpa [nodeGates, Spec.bill, this] using hR.zero
    | cons y ys =>
      simp only [List.map_cons, List.isChain_cons_cons] at hc
      have hf : Billed d I R c0 (core y) := hh ▸ hc.1
      obtain ⟨i1, i2, i3⟩ := ih (core y) l hf.inv (by simpa using hc.2) (by simp) (by simpa using hl)
      have hng : ∀ q, nodeGates q d (x :: y :: ys) = (y.data.pulses ++ y.data.rot.toList).map (rotInstr q d) ++ nodeGates q d (y :: ys) := by
        intro q; simp [nodeGates]
      refine ⟨?_, i2, Or.inr ?_⟩
      · intro q
        rw [hng, bill_append]
        have := hR.add _ _ _ _ (hf.bill q) (i1 q)
        rw [show (core y).dcost - c0.dcost + (l.dcost - (core y).dcost) = l.dcost - c0.dcost by ring] at this
        exact this
      · have hw := hf.within
        rw [hf.limit] at hw i3
        rcases i3 with h | h
        · have : l.dcost = (core y).dcost := congrArg Core.dcost h
          rw [this]; exact hw
        · exact h

theorem logStep_billed (d : Nat) (u : Arr2 ℂ) : StepOk logTriples (logStep d) (LogInv d u) (Billed d (LogInv d u) (· = ·)) := by
  classical
  rintro r news k ⟨c, a, b⟩ ht ⟨hI, _⟩
  have hI : Square d r.data.u := hI
  rw [hI.rows] at ht
  obtain ⟨h1, h2, h3⟩ := logTriples_mem ht
  simp only at h1 h2 h3
  obtain ⟨fc, hfc⟩ : ∃ f : Fin d, (f : Nat) = c := ⟨⟨c, by omega⟩, rfl⟩
  obtain ⟨fa, hfa⟩ : ∃ f : Fin d, (f : Nat) = a := ⟨⟨a, by omega⟩, rfl⟩
  obtain ⟨fb, hfb⟩ : ∃ f : Fin d, (f : Nat) = b := ⟨⟨b, by omega⟩, rfl⟩
  subst hfc hfa hfb
  have hab : fa < fb := h2
  unfold logStep
  have htop : (withChildren r news).top = { r with size := news.length } := rfl
  simp only [htop, bind, Except.bind, pure, Except.pure, hI.get]
  split_ifs with hx
  · obtain ⟨A, B, e1, e2, e3, e4, e5⟩ := rotate_ok hI fa fb hab (2 * arctan2 ‖r.data.u.toM d fb fc‖ ‖r.data.u.toM d fa fc‖)
      (-(Real.pi / 2 + Complex.arg (r.data.u.toM d fa fc) - Complex.arg (r.data.u.toM d fb fc)))
    rw [e1]
    simp only [e2, e3]
    split_ifs with ha
    · right
      refine ⟨⟨some _, B, r.data.limit, []⟩, none, 0, _, by rw [nodeAdd_withChildren], ⟨⟨e4, Or.inl rfl⟩, rfl, affordable_lt ha, ?_⟩, ⟨e4, Or.inl rfl⟩⟩
      intro q
      show Spec.bill [rotInstr q d _] = _ + r.dcost - r.dcost
      rw [bill_rot]
      ring
    · exact Or.inl rfl
  · exact Or.inl rfl

theorem ongate_price {r r' : RGate} {theta : ℝ} (hr : r.par.theta = regulateTheta theta) (h : graphRuleOngate d r g = .ok r') :
    thetaCost r'.par.theta ≤ thetaCost r.par.theta := by
  unfold graphRuleOngate at h
  simp only [bind, pure] at h
  obtain ⟨b, _, h⟩ := bind_ok h
  cases b with
  | false => cases h; exact le_rfl
  | true =>
    simp only [Bool.not_true, Bool.false_eq_true, if_false] at h
    obtain ⟨n, _, h⟩ := bind_ok h
    have hn : ∃ phi, newRot d r.par.levA r.par.levB r.par.theta phi = .ok r' := by
      split_ifs at h <;> repeat (first | exact ⟨_, h⟩ | replace h := (bind_ok h).choose_spec.2)
    obtain ⟨phi, h⟩ := hn
    rw [(newRot_inv h).2.2.1]
    have hm := regulate_min theta
    rw [← hr] at hm
    exact price_shorter (regulate_shorter _ hm.1 hm.2)

theorem chain_theta {prev : List RGate} {cur r : RGate} {theta : ℝ} (hc : cur.par.theta = regulateTheta theta)
    (h : gateChainCondition d prev cur = .ok r) : ∃ t, r.par.theta = regulateTheta t := by
  unfold gateChainCondition at h
  cases e : prev.getLast? with
  | none => rw [e] at h; cases h; exact ⟨_, hc⟩
  | some last =>
    rw [e] at h
    exact ⟨_, (newRot_inv h).2.2.1⟩

theorem phyStep_billed {K : LGraph → Prop} (hb : BlockOk sp d g0 K) (hsp : FindsShortest sp) (hK' : ∀ g, K g → ∃ lp, Device d g lp) :
    StepOk phyTriples (phyStep sp d) (PhyInv d K) (Billed d (PhyInv d K) (· ≤ ·)) := by
  classical
  rintro r news k ⟨c, a, b⟩ ht ⟨hI, g, hg, hK⟩
  have hI : Square d r.data.u := hI
  have hg : r.graph = some g := hg
  have ht : (c, a, b) ∈ phyTriples r.data.u.rows := ht
  rw [hI.rows] at ht
  obtain ⟨h1, h2, h3⟩ := phyTriples_mem ht
  simp only at h1 h2 h3
  obtain ⟨fc, hfc⟩ : ∃ f : Fin d, (f : Nat) = c := ⟨⟨c, by omega⟩, rfl⟩
  obtain ⟨fa, hfa⟩ : ∃ f : Fin d, (f : Nat) = a := ⟨⟨a, by omega⟩, rfl⟩
  obtain ⟨fb, hfb⟩ : ∃ f : Fin d, (f : Nat) = b := ⟨⟨b, by omega⟩, rfl⟩
  subst hfc hfa hfb
  have hab : fa < fb := h2
  unfold phyStep
  have htop : (withChildren r news).top = { r with size := news.length } := rfl
  simp only [htop, bind, Except.bind, pure, Except.pure, hI.get]
  split_ifs with hx
  · generalize 2 * arctan2 ‖r.data.u.toM d fb fc‖ ‖r.data.u.toM d fa fc‖ = theta
    generalize -(Real.pi / 2 + Complex.arg (r.data.u.toM d fa fc) - Complex.arg (r.data.u.toM d fb fc)) = phi
    obtain ⟨A, B, e1, e2, e3, e4, e5⟩ := rotate_ok hI fa fb hab theta phi
    rw [e1]
    simp only [e2, e3, hg]
    obtain ⟨kk, LA, LB, r1, r2, r3, backs, g', c1, c2, c3, c4, c5, c6, c7, c8, c9, c10, c11, c12⟩ := hb g hK fa fb hab theta phi (countNonzero B)
    obtain ⟨lp, hdev⟩ := hK' g hK
    obtain ⟨D, kc, _, f1, f2, f3, f4, _, f5, _⟩ := C104_routing hdev hsp fa fb hab.ne ⟨nm fa, nm fb, regulateTheta theta, phi⟩ (countNonzero B)
    rw [c1] at f1
    cases f1
    rw [c1]
    simp only []
    split_ifs with ha
    · right
      rw [c2]
      simp only []
      rw [c3]
      simp only []
      rw [c4]
      simp only []
      rw [c5]
      simp only []
      rw [c6]
      simp only []
      rw [c7]
      simp only []
      rw [c8]
      simp only []
      refine ⟨⟨some r3, B, r.data.limit, kk.pulses⟩, some g', _, _, by rw [nodeAdd_withChildren], ⟨⟨e4, g', rfl, c9⟩, rfl, affordable_lt ha, ?_⟩,
        ⟨e4, g', rfl, c9⟩⟩
      intro q
      show Spec.bill ((kk.pulses ++ [r3]).map (rotInstr q d)) ≤ kk.piCost + kk.gateCost + r.dcost - r.dcost
      rw [List.map_append, bill_append, bill_pulses q _ f3]
      show _ + Spec.bill [rotInstr q d r3] ≤ _
      rw [bill_rot]
      have t1 := (newRot_inv c4).2.2.1
      have t2 := chain_price t1 c5
      obtain ⟨t, ht'⟩ := chain_theta t1 c5
      have t3 := ongate_price ht' c6
      rw [t1] at t2
      have hD : (D : ℝ) - 1 = kk.pulses.length := by rw [← f2]; push_cast; ring
      rw [hD] at f4
      have f5 : thetaCost (regulateTheta theta) ≤ kk.gateCost := f5
      linarith
    · exact Or.inl rfl
  · exact Or.inl rfl

theorem bill_phases {E : List PInstr} (h : AllPhases E) : Spec.bill E = 0 := by
  unfold Spec.bill
  refine List.sum_eq_zero ?_
  intro x hx
  obtain ⟨y, hy, rfl⟩ := List.mem_map.1 hx
  have := (h y hy).1
  unfold PhaseRotation at this
  unfold price
  split <;> simp_all

theorem bill_revDag (l : List PInstr) : Spec.bill (revDag l) = Spec.bill l := by
  unfold Spec.bill revDag
  rw [List.map_map, show price ∘ dag = price from rfl, List.map_reverse, List.sum_reverse]

/-- what the logical search reports and puts out -/
theorem log_billed (q : Int) (hoff : 0 ≤ off) (hdel : 0 ≤ del) (limit : ℝ × ℝ) (u : Arr2 ℂ) (hu : Square d u) (fuel : Nat) (res : Result)
    (h : logAda fuel q d off del limit u g = .ok res) :
    (res.gates = [] ∧ res.cost = none) ∨ ∃ c, res.cost = some c ∧ Spec.bill res.gates = c.2 ∧ (c.2 = 0 ∨ c.2 < limit.2 + 1e-12) := by
  have hI : LogInv d u ⟨⟨none, u, limit, []⟩, some g.phaseStoringSetup, 0⟩ := ⟨hu, Or.inr rfl⟩
  unfold logAda at h
  rcases search_ok (off := off) (logStep_billed d u) fuel (logExtract q d off del) limit u g hI with ⟨e1, _⟩ | ⟨e, _⟩ | ⟨p, l, c1, c2, c3, c4, c5⟩
  · rw [e1] at h; cases h
  · rw [e] at h; cases h; exact Or.inl ⟨rfl, rfl⟩
  · right
    obtain ⟨f1, ⟨f2, _⟩, f3⟩ := chain_billed eq_related p _ l hI c1 c2 c3
    obtain ⟨E, x1, x2, _⟩ := logExtract_ok q hoff hdel l.graph p l c3 f2 c4
    rw [c5, x1] at h
    cases h
    refine ⟨_, rfl, ?_, ?_⟩
    · show Spec.bill (nodeGates q d p ++ E) = l.dcost
      rw [bill_append, bill_phases x2, f1 q]
      ring
    · rcases f3 with f3 | f3
      · exact Or.inl (congrArg Core.dcost f3)
      · exact Or.inr f3

/-- what the physical search reports and puts out -/
theorem phy_billed {K : LGraph → Prop} {tau : ℝ} (htau : 0 ≤ tau) (hb : BlockOk sp d g K) (hk : KindOk d g tau K) (hK : K g.phaseStoringSetup)
    (hsp : FindsShortest sp) (q : Int) (hoff : 0 ≤ off) (hdel : 0 ≤ del) (zProp : Bool) (limit : ℝ × ℝ) (u : Arr2 ℂ) (hu : Square d u)
    (fuel : Nat) (res : Result) (h : phyAda fuel sp q d off del zProp limit u g = .ok res) :
    (res.gates = [] ∧ res.cost = none) ∨ ∃ c, res.cost = some c ∧ Spec.bill res.gates ≤ c.2 ∧ (c.2 = 0 ∨ c.2 < limit.2 + 1e-12) := by
  have hI : PhyInv d K ⟨⟨none, u, limit, []⟩, some g.phaseStoringSetup, 0⟩ := ⟨hu, _, rfl, hK⟩
  unfold phyAda at h
  rcases search_ok (off := off) (phyStep_billed hb hsp fun g' k => (hk g' k).1) fuel (phyExtract q d off del zProp) limit u g hI with
    ⟨e1, _⟩ | ⟨e, _⟩ | ⟨p, l, c1, c2, c3, c4, c5⟩
  · rw [e1] at h; cases h
  · rw [e] at h; cases h; exact Or.inl ⟨rfl, rfl⟩
  · right
    obtain ⟨f1, ⟨f2, gl, f2', f2''⟩, f3⟩ := chain_billed le_related p _ l hI c1 c2 c3
    have f2' : l.graph = some gl := f2'
    obtain ⟨E, g1, lp1, x1, x2, _⟩ := phyExtract_ok htau hk f2'' q hoff hdel zProp p l c3 f2 c4
    rw [c5, f2', x1] at h
    cases h
    refine ⟨_, rfl, ?_, ?_⟩
    · show Spec.bill (nodeGates q d p ++ E) ≤ l.dcost
      rw [bill_append, bill_phases x2]
      have := f1 q
      simp only [sub_zero] at this
      linarith
    · rcases f3 with f3 | f3
      · exact Or.inl (congrArg Core.dcost f3)
      · exact Or.inr f3

end Qudits.Adaptive
