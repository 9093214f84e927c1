import Verif.Lemmas.AdaPass
/- The searches can do what the QR decomposition does; the passes. -/
namespace Qudits.Adaptive
open LGraph LocalQR Spec Matrix Qudits.Tree QRAlg Complex

variable {d : Nat} {off del : ℝ} {lim : ℝ × ℝ} {g g' g0 : LGraph} {lp lp' : Equiv.Perm (Fin d)} {sp : PathFinder}

theorem affordable_of_le {a b : ℝ} (h : b ≤ a) : Affordable a b := by
  rcases h.lt_or_eq with h | h
  · left; linarith
  · right; rw [h, sub_self, abs_zero]; norm_num

theorem log_canTurn (h : Device d g lp) (hn : NoPhases d g) (hsp : FindsPaths sp) : CanTurn d sp g (logStep d) (fun _ => True) := by
  classical
  intro c col a r k nz har hsq _ hx hy hk hle
  have hlt : a < r := by rw [Fin.lt_def]; omega
  obtain ⟨k', _, b1, _, _, _, _, b6, b7, _⟩ := block_ok h hn hsp 0 a r har (2 * arctan2 ‖c.data.u.toM d r col‖ ‖c.data.u.toM d a col‖)
    (-(Real.pi / 2 + arg (c.data.u.toM d a col) - arg (c.data.u.toM d r col))) nz
    ⟨nm a, nm r, regulateTheta (2 * arctan2 ‖c.data.u.toM d r col‖ ‖c.data.u.toM d a col‖),
      -(Real.pi / 2 + arg (c.data.u.toM d a col) - arg (c.data.u.toM d r col))⟩
  rw [hk] at b1
  have e := Except.ok.inj b1
  subst e
  simp only at b7
  obtain ⟨A, B, e1, e2, e3, e4, e5⟩ := rotate_ok hsq a r hlt (2 * arctan2 ‖c.data.u.toM d r col‖ ‖c.data.u.toM d a col‖)
    (-(Real.pi / 2 + arg (c.data.u.toM d a col) - arg (c.data.u.toM d r col)))
  have haff : Affordable c.data.limit.2 (thetaCost (regulateTheta (2 * arctan2 ‖c.data.u.toM d r col‖ ‖c.data.u.toM d a col‖)) + c.dcost) :=
    affordable_of_le (by linarith)
  refine ⟨⟨⟨some ⟨nm a, nm r, ⟨nm a, nm r, regulateTheta (2 * arctan2 ‖c.data.u.toM d r col‖ ‖c.data.u.toM d a col‖),
      -(Real.pi / 2 + arg (c.data.u.toM d a col) - arg (c.data.u.toM d r col))⟩⟩, B, c.data.limit, []⟩, none, thetaCost (regulateTheta (2 * arctan2 ‖c.data.u.toM d r col‖ ‖c.data.u.toM d a col‖)) + c.dcost⟩,
    ?_, e4, e5, by simp only; linarith, rfl, trivial⟩
  · intro x news m hc
    have h1 : x.data = c.data := congrArg Core.data hc
    have h2 : x.dcost = c.dcost := congrArg Core.dcost hc
    refine ⟨0, ?_⟩
    unfold logStep
    have htop : (withChildren x news).top = { x with size := news.length } := rfl
    simp only [htop, h1, bind, Except.bind, pure, Except.pure, hsq.get]
    rw [if_pos ⟨hx, hy⟩, e1]
    simp only [e2, e3, h2]
    rw [if_pos haff, nodeAdd_withChildren]

/-! ### costs do not depend on phases -/

/-- what `levelNodes` does, read off the attributes -/
def pick (f : Int → Option PVal) (s : String) (acc : List Int) (n : Int) : Except PyErr (List Int) :=
  match f n with
  | none => .error .keyError
  | some (.str t) => .ok (if t = s then acc ++ [n] else acc)
  | some _ => .ok acc

theorem levelNodes_eq (hw : Wf g) (s : String) : g.levelNodes s = (Spec.names g).foldlM (pick (fun n => value g n "level") s) [] := by
  unfold LGraph.levelNodes Spec.names PyDict.keys
  have : ∀ (ns : PyDict Int Attrs) (acc : List Int), (∀ p ∈ ns, value g p.1 "level" = PyDict.get? p.2 "level") →
      ns.foldlM (fun acc p => do
        let v ← attr p.2 "level"
        pure (match v with
          | .str t => if t = s then acc ++ [p.1] else acc
          | _ => acc)) acc = ((List.map (fun p : Int × Attrs => p.1) ns).foldlM (pick (fun n => value g n "level") s) acc : Except PyErr (List Int)) := by
    intro ns
    induction ns with
    | nil => intro acc _; rfl
    | cons p ps ih =>
      intro acc hp
      rw [List.foldlM_cons, List.map_cons, List.foldlM_cons]
      have h1 := hp p (by simp)
      unfold attr
      simp only [pick, h1]
      cases PyDict.get? p.2 "level" with
      | none => rfl
      | some v =>
        cases v <;> exact ih _ (fun q hq => hp q (by simp [hq]))
  exact this g.nodes [] (fun p hp => value_of_mem hw.nodup p hp _)

theorem levelNodes_congr (hw : Wf g) (hw' : Wf g') (hn : Spec.names g' = Spec.names g) (hv : ∀ n, value g' n "level" = value g n "level") (s : String) :
    g'.levelNodes s = g.levelNodes s := by
  rw [levelNodes_eq hw, levelNodes_eq hw', hn, show (fun n => value g' n "level") = fun n => value g n "level" from funext hv]

theorem isPath_congr (he : g'.edges = g.edges) {a b : Int} {p : List Int} (h : IsPath g a b p) : IsPath g' a b p := by
  refine ⟨h.first, h.last, h.steps.imp ?_, h.nodup⟩
  intro u v huv
  unfold Spec.Joined edgeData at *
  rw [he]; exact huv

theorem distance_congr (hsp : FindsShortest sp) (h : Device d g lp) (h' : Device d g' lp') (he : g'.edges = g.edges) (i j : Fin d) :
    g'.distanceNodes sp (i : Nat) (j : Nat) = g.distanceNodes sp (i : Nat) (j : Nat) := by
  obtain ⟨p, p1, p2⟩ := hsp.finds g _ _ h.wf (h.mem i) (h.conn i j)
  obtain ⟨q, q1, q2⟩ := hsp.finds g' _ _ h'.wf (h'.mem i) (h'.conn i j)
  have a1 := hsp.shortest _ _ _ _ _ p1 (isPath_congr he.symm q2)
  have a2 := hsp.shortest _ _ _ _ _ q1 (isPath_congr he p2)
  unfold distanceNodes
  rw [p1, q1]
  simp only [bind, Except.bind, pure, Except.pure]
  rw [le_antisymm a1 a2]

theorem rotationCost_congr (hsp : FindsShortest sp) (h : Device d g lp) (h' : Device d g' lp') (he : g'.edges = g.edges)
    (hn : Spec.names g' = Spec.names g) (hv : ∀ n, value g' n "level" = value g n "level") (r : RGate) (i j : Fin d) (hi : r.origA = (i : Nat))
    (hj : r.origB = (j : Nat)) : rotationCost sp r g' = rotationCost sp r g := by
  have hl := levelNodes_congr h.wf h'.wf hn hv
  obtain ⟨f, hf⟩ := h.fstInode
  have hf' : g'.fstInode = .ok ((f : Nat) : Int) := by
    unfold LGraph.fstInode at hf ⊢
    rw [hl]; exact hf
  unfold rotationCost isIrnode
  rw [hl, hi, hj, hf, hf']
  simp only [bind, Except.bind, pure, Except.pure]
  rw [distance_congr hsp h h' he f i, distance_congr hsp h h' he f j]

theorem direct_cost (hsp : FindsShortest sp) (h : Device d g lp) (hc : AllCoupled d g) (a b : Fin d) (hab : a ≠ b) (par : TwoLevel) (nz : Nat) :
    ∃ c, rotationCost sp ⟨nm a, nm b, par⟩ g = .ok c ∧ costCalculator sp d ⟨nm a, nm b, par⟩ g nz = .ok ⟨(c + 0) * nz, [], g, 0, c⟩ := by
  have hroute : route sp d ⟨nm a, nm b, par⟩ g = .ok (0, [], g) := by
    unfold route
    simp only [bind, Except.bind]
    rw [hsp.edge h.wf (fun e => hab (nm_injective e)) (hc a b hab)]
    rfl
  obtain ⟨c, hc1, hc'⟩ := h.cost hsp.finds ⟨nm a, nm b, par⟩ a b rfl rfl
  refine ⟨c, hc1, ?_⟩
  unfold costCalculator
  simp only [bind, Except.bind, pure, Except.pure]
  rw [hroute]
  simp only []
  rw [hc1]

/-- `gT` is the graph of the QR decomposition, `g` the one of the search -/
theorem direct_canTurn {gT : LGraph} (hsp : FindsShortest sp) (h : Device d g lp) (hT : Device d gT lp) (hc : AllCoupled d g)
    (hph : ∀ i : Fin d, ∃ x, value g (i : Nat) "phase_storage" = some (.flt x))
    (he : gT.edges = g.edges) (hn : Spec.names gT = Spec.names g) (hv : ∀ n, value gT n "level" = value g n "level") :
    CanTurn d sp gT (phyStep sp d) (fun c => c.graph = some g) := by
  classical
  intro c col a r k nz har hsq hg hx hy hk hle
  have hlt : a < r := by rw [Fin.lt_def]; omega
  generalize hth : 2 * arctan2 ‖c.data.u.toM d r col‖ ‖c.data.u.toM d a col‖ = theta at *
  generalize hphi : -(Real.pi / 2 + arg (c.data.u.toM d a col) - arg (c.data.u.toM d r col)) = phi at *
  have hcT : AllCoupled d gT := by
    intro i j hij
    have := hc i j hij
    unfold Spec.Joined edgeData at *
    rw [he]; exact this
  obtain ⟨x, x1, x2⟩ := direct_cost hsp hT hcT a r hlt.ne ⟨nm a, nm r, regulateTheta theta, phi⟩ nz
  rw [hk] at x2
  have e := Except.ok.inj x2
  subst e
  simp only at hle
  obtain ⟨A, B, e1, e2, e3, e4, e5⟩ := rotate_ok hsq a r hlt theta phi
  obtain ⟨y, y1, y2⟩ := direct_cost hsp h hc a r hlt.ne ⟨nm a, nm r, regulateTheta theta, phi⟩ (countNonzero B)
  have hxy : x = y := by
    have := rotationCost_congr hsp h hT he hn hv ⟨nm a, nm r, ⟨nm a, nm r, regulateTheta theta, phi⟩⟩ a r rfl rfl
    rw [x1, y1] at this
    exact Except.ok.inj this
  subst hxy
  obtain ⟨k, LA, LB, r1, r2, r3, backs, g2, c1, c2, c3, c4, c5, c6, c7, c8, c9, _⟩ :=
    directBlock (g0 := g) hsp h hc hph (EdgesIn.refl _) g rfl a r hlt theta phi (countNonzero B)
  rw [y2] at c1
  have e := Except.ok.inj c1
  subst e
  have e : g2 = g := c9
  subst e
  have haff : Affordable c.data.limit.2 (0 + x + c.dcost) := affordable_of_le (by linarith)
  refine ⟨⟨⟨some r3, B, c.data.limit, []⟩, some g2, 0 + x + c.dcost⟩, ?_, e4, e5, by simp only; linarith, rfl, rfl⟩
  intro z news m hcz
  have h1 : z.data = c.data := congrArg Core.data hcz
  have h2 : z.dcost = c.dcost := congrArg Core.dcost hcz
  have h3 : z.graph = some g2 := (congrArg Core.graph hcz).trans hg
  refine ⟨(x + 0) * (countNonzero B) + z.cost, ?_⟩
  unfold phyStep
  have htop : (withChildren z news).top = { z with size := news.length } := rfl
  simp only [htop, h1, h3, bind, Except.bind, pure, Except.pure, hsq.get]
  rw [if_pos ⟨hx, hy⟩, hth, hphi, e1]
  simp only [e2, e3]
  rw [y2]
  simp only [h2]
  rw [if_pos haff]
  simp only at c2 c3 c5 c6 c7 c8
  rw [c2]
  simp only []
  rw [c3]
  simp only []
  rw [c4]
  simp only []
  rw [c5]
  simp only []
  rw [c6]
  simp only []
  rw [c7]
  simp only []
  rw [c8]
  simp only []
  rw [nodeAdd_withChildren]

end Qudits.Adaptive
