import Verif.Lemmas.AdaBill
import Verif.Props.BillProps
import Verif.Props.AdaProps
/-!
# C106: what the adaptive passes spend

`LogLocAdaPass.transpile_gate` (log_local_adaptive_decomp.py:33-50) and `PhyLocAdaPass.transpile_gate` (phy_local_adaptive_decomp.py:42-56)
run the QR decomposition first and take the costs that it reports as the limit of the search.
-/
namespace Qudits
open LGraph Spec LocalQR Adaptive

variable {d : Nat} {g : LGraph} {lp : Equiv.Perm (Fin d)} {sp : PathFinder}

/-- the flag `not_stand_alone` decides what becomes of the stored phases, not the gates -/
theorem execute_alone {q : Int} {eps del : ℝ} {pre : Attrs → Except PyErr PVal} {emit : Emit} {lev : LGraph → Nat → Except PyErr PVal}
    {u : Arr2 ℂ} {r : QrResult} (h : LocalQR.execute sp q d eps del pre emit lev false true u g = .ok r) :
    ∃ r', LocalQR.execute sp q d eps del pre emit lev false false u g = .ok r' ∧ r'.decomp = r.decomp ∧ r'.tot = r.tot := by
  unfold LocalQR.execute at h ⊢
  simp only [Bool.false_eq_true, if_false, Bool.false_and, Bool.not_false, Bool.and_true, bind, pure] at h ⊢
  obtain ⟨s, e1, h⟩ := bind_ok h
  obtain ⟨st, e2, h⟩ := bind_ok h
  obtain ⟨out, e3, h⟩ := bind_ok h
  obtain ⟨g', _, h⟩ := bind_ok h
  cases h
  refine ⟨⟨out, st.alg, st.tot, s.1⟩, ?_, rfl, rfl⟩
  rw [e1]
  simp only [Except.bind]
  rw [e2]
  simp only []
  rw [e3]
  rfl

theorem bill_nonneg (l : List PInstr) : 0 ≤ bill l := by
  unfold bill
  refine List.sum_nonneg ?_
  intro x hx
  obtain ⟨y, _, rfl⟩ := List.mem_map.1 hx
  unfold price
  split
  · unfold thetaCost
    positivity
  · exact le_rfl

/-- **C106** (reported cost, logical).  With any limit, the total cost that `LogAdaptiveDecomposition.execute` reports is the bill of the
gates it returns, and it is within the limit. -/
theorem C106_logical_cost (q : Int) (off del : ℝ) (hoff : 0 ≤ off) (hdel : 0 ≤ del) (limit : ℝ × ℝ) (u : Arr2 ℂ) (hu : UnitaryArr u d)
    (fuel : Nat) (res : Result) (c : ℝ × ℝ) (h : logAda fuel q d off del limit u g = .ok res) (hc : res.cost = some c) :
    bill res.gates = c.2 ∧ (c.2 = 0 ∨ c.2 < limit.2 + 1e-12) := by
  rcases log_billed q hoff hdel limit u (square_of hu) fuel res h with ⟨_, k⟩ | ⟨c', k1, k2⟩
  · rw [k] at hc; cases hc
  · rw [k1] at hc; cases hc; exact k2

/-- the devices for which the physical search is understood, see C68 -/
theorem phy_cost (h : Device d g lp) (hk : (InOrder d g ∧ PiPhases d g) ∨ AllCoupled d g) (hsp : FindsShortest sp) (q : Int) (off del : ℝ)
    (hoff : 0 ≤ off) (hdel : 0 ≤ del) (zProp : Bool) (limit : ℝ × ℝ) (u : Arr2 ℂ) (hu : UnitaryArr u d) (fuel : Nat) (res : Result)
    (hr : phyAda fuel sp q d off del zProp limit u g = .ok res) :
    (res.gates = [] ∧ res.cost = none) ∨ ∃ c, res.cost = some c ∧ bill res.gates ≤ c.2 ∧ (c.2 = 0 ∨ c.2 < limit.2 + 1e-12) := by
  rcases hk with ⟨ho, hp⟩ | hc
  · exact phy_billed le_rfl (piBlock hsp.finds g) (piKindOk g) (pi_start h ho hp) hsp q hoff hdel zProp limit u (square_of hu) fuel res hr
  · obtain ⟨s1, s2⟩ := setup_ok h
    exact phy_billed (tau := 1e-4) (by norm_num) (directBlock (g0 := g) hsp s1 (fun i j hij => hc i j hij) (fun i => ⟨_, s2 i⟩)
      (setup_edgesIn g)) (directKindOk s1 (fun i => ⟨_, s2 i⟩) (setup_edgesIn g)) rfl hsp q hoff hdel zProp limit u (square_of hu) fuel res hr

/-- **C106** (reported cost, physical).  The total cost that `PhyAdaptiveDecomposition.execute` reports covers the gates it returns, and it
is within the limit; on devices in their natural order whose stored phases are multiples of π, or with all levels coupled. -/
theorem C106_physical_cost (h : Device d g lp) (hk : (InOrder d g ∧ PiPhases d g) ∨ AllCoupled d g) (hsp : FindsShortest sp) (q : Int)
    (off del : ℝ) (hoff : 0 ≤ off) (hdel : 0 ≤ del) (zProp : Bool) (limit : ℝ × ℝ) (u : Arr2 ℂ) (hu : UnitaryArr u d) (fuel : Nat)
    (res : Result) (c : ℝ × ℝ) (hr : phyAda fuel sp q d off del zProp limit u g = .ok res) (hc : res.cost = some c) :
    bill res.gates ≤ c.2 ∧ (c.2 = 0 ∨ c.2 < limit.2 + 1e-12) := by
  rcases phy_cost h hk hsp q off del hoff hdel zProp limit u hu fuel res hr with ⟨_, k⟩ | ⟨c', k1, k2⟩
  · rw [k] at hc; cases hc
  · rw [k1] at hc; cases hc; exact k2

/-- **C106** (limit, logical pass).  The gates that `LogLocAdaPass` puts out for a gate cost no more than the QR decomposition of the gate
reports. -/
theorem C106_logical (h : Device d g lp) (hsp : FindsShortest sp) (q : Int) (u : Arr2 ℂ) (hu : UnitaryArr u d) (fuel : Nat) (l : List PInstr)
    (g' : Option LGraph) (hl : logAdaGate fuel sp q d u (some g) = .ok (l, g')) :
    ∃ res, logQr sp q d 1e-8 1e-4 false false u g = .ok res ∧ bill l ≤ res.tot + 1e-12 := by
  unfold logAdaGate at hl
  simp only [bind, pure] at hl
  obtain ⟨r, e1, hl⟩ := bind_ok hl
  obtain ⟨a, e2, hl⟩ := bind_ok hl
  cases hl
  obtain ⟨r', f1, _, f3⟩ := execute_alone e1
  refine ⟨r', f1, ?_⟩
  have h0 : 0 ≤ r.tot := (bill_nonneg _).trans ((C105_covers h hsp q _ _ _ _ u r).1 e1)
  rw [f3]
  rcases log_billed q (by norm_num) (by norm_num) _ u (square_of hu) fuel a e2 with ⟨k, _⟩ | ⟨c, _, k1, k2⟩
  · rw [k]; show (([] : List PInstr).map price).sum ≤ _; simp; linarith
  · have k2 : c.2 = 0 ∨ c.2 < r.tot + 1e-12 := k2
    rw [k1]
    rcases k2 with k2 | k2 <;> linarith

/-- **C106** (limit, physical pass).  The same for `PhyLocAdaPass`, whether phases are propagated or not. -/
theorem C106_physical (h : Device d g lp) (hk : (InOrder d g ∧ PiPhases d g) ∨ AllCoupled d g) (hsp : FindsShortest sp) (q : Int)
    (zProp : Bool) (u : Arr2 ℂ) (hu : UnitaryArr u d) (fuel : Nat) (l : List PInstr) (g' : Option LGraph)
    (hl : phyAdaGate fuel sp q d zProp u (some g) = .ok (l, g')) :
    ∃ res, phyQr sp q d 1e-8 1e-4 false false u g = .ok res ∧ bill l ≤ res.tot + 1e-12 := by
  unfold phyAdaGate at hl
  simp only [bind, pure] at hl
  obtain ⟨r, e1, hl⟩ := bind_ok hl
  obtain ⟨a, e2, hl⟩ := bind_ok hl
  cases hl
  obtain ⟨r', f1, _, f3⟩ := execute_alone e1
  refine ⟨r', f1, ?_⟩
  have h0 : 0 ≤ r.tot := (bill_nonneg _).trans ((C105_covers h hsp q _ _ _ _ u r).2 e1)
  rw [f3, bill_revDag]
  obtain ⟨r2, k1, r1, r2', r3, _, r5, _⟩ := phyLimit_ok h hsp.finds q u (square_of hu)
  rw [e1] at k1
  cases k1
  have hk' : (InOrder d r.graph ∧ PiPhases d r.graph) ∨ AllCoupled d r.graph := by
    rcases hk with ⟨ho, hp⟩ | hc
    · left
      refine ⟨?_, fun i => by rw [r5]; exact newMod_pi _ (hp i)⟩
      unfold InOrder at *
      rw [r3]; exact ho
    · right
      intro i j hij
      have := hc i j hij
      unfold Spec.Joined edgeData at *
      rw [r2']; exact this
  rcases phy_cost r1 hk' hsp q _ _ (by norm_num) (by norm_num) zProp _ u hu fuel a e2 with ⟨k, _⟩ | ⟨c, _, k1, k2⟩
  · rw [k]; show (([] : List PInstr).map price).sum ≤ _; simp; linarith
  · have k2 : c.2 = 0 ∨ c.2 < r.tot + 1e-12 := k2
    rcases k2 with k2 | k2 <;> linarith

/-- **C106** (no dearer).  On a device without remote levels on which neighbouring levels are coupled, the adaptive passes spend no more on
a gate than the QR passes do. -/
theorem C106_no_dearer (h : Device d g lp) (hp : Plain d g) (hc : NeighboursCoupled d g) (hsp : FindsShortest sp) (q : Int) (u : Arr2 ℂ)
    (hu : UnitaryArr u d) (fuel : Nat) (l l' : List PInstr) (g' : Option LGraph) (g'' : LGraph) :
    (logAdaGate fuel sp q d u (some g) = .ok (l, g') → logPassGate sp q d u g = .ok (l', g'') → bill l ≤ bill l' + 1e-12) ∧
    (∀ zProp, (InOrder d g ∧ PiPhases d g) ∨ AllCoupled d g → phyAdaGate fuel sp q d zProp u (some g) = .ok (l, g') →
      phyPassGate sp q d u g = .ok (l', g'') → bill l ≤ bill l' + 1e-12) := by
  constructor
  · intro h1 h2
    obtain ⟨res, e1, e2⟩ := C106_logical h hsp q u hu fuel l g' h1
    unfold logPassGate at h2
    rw [e1] at h2
    cases h2
    rw [← (C105_exact_partial h hsp hp hc q _ _ _ _ u res).1 e1]
    exact e2
  · intro zProp hk h1 h2
    obtain ⟨res, e1, e2⟩ := C106_physical h hk hsp q zProp u hu fuel l g' h1
    unfold phyPassGate at h2
    rw [e1] at h2
    cases h2
    rw [bill_revDag, ← (C105_exact_partial h hsp hp hc q _ _ _ _ u res).2 e1]
    exact e2

theorem plainRow_order : InOrder 3 plainRow ∧ PiPhases 3 plainRow := by
  refine ⟨rfl, fun i => ⟨0, ?_⟩⟩
  fin_cases i <;> simp [stored, value, plainRow, PyDict.get?]

/-- both passes end on the cyclic shift of a qutrit, and the adaptive one is no dearer -/
example (hsp : FindsShortest sp) : ∃ u fuel l g' l' g'', xArray 3 = .ok u ∧ phyAdaGate fuel sp 0 3 true u (some plainRow) = .ok (l, g') ∧
    phyPassGate sp 0 3 u plainRow = .ok (l', g'') ∧ bill l ≤ bill l' + 1e-12 := by
  obtain ⟨u, h1, h2⟩ := C06_x 3
  obtain ⟨res, _, h4, _⟩ := C35_physical_general plainRow_ok hsp.finds 0 1e-8 1e-4 (by norm_num) (by norm_num) u h2
  have hq : phyPassGate sp 0 3 u plainRow = .ok (revDag res.decomp, res.graph) := by
    unfold phyPassGate
    rw [h4]
    rfl
  obtain ⟨N, hN⟩ := C69_physical plainRow_ok plainRow_order.1 plainRow_order.2 hsp.finds 0 true u h2
  rcases hN N le_rfl with ⟨g1, e, _⟩ | ⟨l, g1, _, e, _⟩
  · exact ⟨u, N, _, _, _, _, h1, e, hq, (C106_no_dearer plainRow_ok plainRow_plain plainRow_coupled hsp 0 u h2 N _ _ _ _).2 true
      (Or.inl plainRow_order) e hq⟩
  · exact ⟨u, N, _, _, _, _, h1, e, hq, (C106_no_dearer plainRow_ok plainRow_plain plainRow_coupled hsp 0 u h2 N _ _ _ _).2 true
      (Or.inl plainRow_order) e hq⟩

end Qudits
