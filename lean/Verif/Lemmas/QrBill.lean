import Verif.Spec.BillSpec
import Verif.Lemmas.QrLine
import Verif.Props.PriceProps
/-! The bill of the QR decompositions. -/
namespace Qudits
open LGraph Spec LocalQR

variable {d : Nat} {g : LGraph} {lp : Equiv.Perm (Fin d)} {sp : PathFinder}

theorem bill_append (l m : List PInstr) : bill (l ++ m) = bill l + bill m := by
  unfold bill
  rw [List.map_append, List.sum_append]

theorem bill_rot (q : Int) (r : RGate) : bill [rotInstr q d r] = thetaCost r.par.theta := by
  simp [bill, price, rotInstr]

theorem bill_phase (q : Int) (l : PVal) (x : ℝ) : bill [phaseInstr q d l x] = 0 := by
  simp [bill, price, phaseInstr]

theorem bill_pulses (q : Int) (l : List RGate) (h : ∀ r ∈ l, |r.par.theta| = Real.pi) : bill (l.map (rotInstr q d)) = l.length * 4e-4 := by
  induction l with
  | nil => simp [bill]
  | cons r l ih =>
    have hr : thetaCost r.par.theta = 4e-4 := by
      rw [← price_pi]
      exact ((C103_longer r.par.theta Real.pi).2.2 (by rw [h r (by simp), abs_of_pos Real.pi_pos])).1
    have := bill_append (List.map (rotInstr q d) [r]) (l.map (rotInstr q d))
    rw [show (r :: l).map (rotInstr q d) = List.map (rotInstr q d) [r] ++ l.map (rotInstr q d) from rfl, this,
      ih fun x hx => h x (by simp [hx]), show List.map (rotInstr q d) [r] = [rotInstr q d r] from rfl, bill_rot, hr]
    push_cast [List.length_cons]
    ring

theorem newRot_inv {a b : Int} {theta phi : ℝ} {r : RGate} (h : newRot d a b theta phi = .ok r) :
    r.origA = a ∧ r.origB = b ∧ r.par.theta = regulateTheta theta ∧ 0 ≤ a ∧ a < d ∧ 0 ≤ b ∧ b < d ∧ a ≠ b := by
  unfold newRot rInit at h
  simp only [needInt, needFlt, bind, Except.bind, pure, Except.pure, List.getElem?_cons_zero, List.getElem?_cons_succ] at h
  by_cases hc : 0 ≤ a ∧ a < d ∧ 0 ≤ b ∧ b < d ∧ a ≠ b
  · have : checkLevels d a b = .ok () := by unfold checkLevels; rw [if_pos hc]
    rw [this] at h
    cases h
    exact ⟨rfl, rfl, rfl, hc⟩
  · have : checkLevels d a b = .error .assertionError := by unfold checkLevels; rw [if_neg hc]
    rw [this] at h
    cases h

theorem regulate_shorter (s : ℝ) (h1 : 0.2 * Real.pi ≤ |s|) (h2 : |s| < 4.2 * Real.pi) : |regulateTheta s| ≤ |s| := by
  have hp := Real.pi_pos
  have ex : |s / Real.pi| = |s| / Real.pi := by rw [abs_div, abs_of_pos hp]
  set x := |s| / Real.pi with hx
  have hs : |s| = x * Real.pi := by rw [hx]; field_simp
  have l1 : 0.2 ≤ x := by rw [hx, le_div_iff₀ hp]; exact h1
  have l2 : x < 4.2 := by rw [hx, div_lt_iff₀ hp]; exact h2
  unfold regulateTheta
  simp only [ex]
  by_cases h4 : x < 4
  · rw [RotCost.pyMod_small (by linarith) h4]
    have hx0 : |x| = x := abs_of_nonneg (by linarith)
    have hx1 : |x * -1| = x := by rw [abs_mul, hx0]; norm_num
    by_cases hn : s < 0
    · rw [if_pos hn, if_neg (by rw [hx1]; exact not_lt.2 l1), abs_mul, hx1, abs_of_pos hp, hs]
    · rw [if_neg hn, if_neg (by rw [hx0]; exact not_lt.2 l1), abs_mul, hx0, abs_of_pos hp, hs]
  · have h4 := not_lt.1 h4
    have em : pyMod x 4 = x - 4 := by
      have := RotCost.pyMod_add_int (x - 4) (b := 4) (by norm_num) 1
      rw [Int.cast_one, one_mul, sub_add_cancel] at this
      rw [this, RotCost.pyMod_small (by linarith) (by linarith)]
    rw [em]
    have hx0 : |x - 4| = x - 4 := abs_of_nonneg (by linarith)
    have hx1 : |(x - 4) * -1| = x - 4 := by rw [abs_mul, hx0]; norm_num
    by_cases hn : s < 0
    · rw [if_pos hn, if_pos (by rw [hx1]; linarith), abs_mul, abs_of_pos hp, hs, abs_of_nonneg (by linarith)]
      nlinarith
    · rw [if_neg hn, if_pos (by rw [hx0]; linarith), abs_mul, abs_of_pos hp, hs, abs_of_nonneg (by linarith)]
      nlinarith

theorem price_shorter {a b : ℝ} (h : |a| ≤ |b|) : thetaCost a ≤ thetaCost b := by
  rcases lt_or_eq_of_le h with h | h
  · exact ((C103_longer a b).1.1 h).le
  · exact ((C103_longer a b).2.2 h).1.le

theorem chain_price {prev : List RGate} {cur r : RGate} {theta : ℝ} (hc : cur.par.theta = regulateTheta theta)
    (h : gateChainCondition d prev cur = .ok r) : thetaCost r.par.theta ≤ thetaCost cur.par.theta := by
  unfold gateChainCondition at h
  cases e : prev.getLast? with
  | none => rw [e] at h; cases h; exact le_rfl
  | some last =>
    rw [e] at h
    simp only at h
    rw [(newRot_inv h).2.2.1]
    refine price_shorter ?_
    have hm := regulate_min theta
    rw [← hc] at hm
    have : |chainTheta last.par cur.par| = |cur.par.theta| := by
      unfold chainTheta
      split_ifs <;> simp [abs_mul]
    rw [← this] at hm ⊢
    exact regulate_shorter _ hm.1 hm.2

/-- `R b t`: how a bill is related to the cost that is reported -/
structure Related (R : ℝ → ℝ → Prop) : Prop where
  zero : R 0 0
  add : ∀ a b c d, R a b → R c d → R (a + c) (b + d)

/-- the bill of what is put out for a rotation is related to the cost added for it -/
def EmitBill (sp : PathFinder) (d : Nat) (g : LGraph) (emit : Emit) (R : ℝ → ℝ → Prop) : Prop :=
  ∀ (a b : Fin d), (b : Nat) = a + 1 → ∀ (par : TwoLevel) (theta phi : ℝ) (nz : Nat) (k : Costs) (out : List PInstr),
    par.theta = regulateTheta theta → costCalculator sp d ⟨nm a, nm b, par⟩ g nz = .ok k →
    emit ⟨nm a, nm b, par⟩ b theta phi k.pulses k.placement = .ok out → R (bill out) (2 * k.piCost + k.gateCost)

theorem qrStep_bill {R : ℝ → ℝ → Prop} (hR : Related R) {eps : ℝ} {emit : Emit} (he : EmitBill sp d g emit R) {c : Nat} {st st' : QrState}
    {r : Nat} (h : qrStep sp d eps emit g c st r = .ok st') :
    ∃ x y, R x y ∧ bill st'.decomp = bill st.decomp + x ∧ st'.tot = st.tot + y := by
  unfold qrStep at h
  simp only [bind, pure] at h
  obtain ⟨x, _, h⟩ := bind_ok h
  split_ifs at h with hc
  · obtain ⟨y, _, h⟩ := bind_ok h
    obtain ⟨rot, e1, h⟩ := bind_ok h
    obtain ⟨m, _, h⟩ := bind_ok h
    obtain ⟨u, _, h⟩ := bind_ok h
    obtain ⟨k, e2, h⟩ := bind_ok h
    obtain ⟨out, e3, h⟩ := bind_ok h
    cases h
    obtain ⟨i1, i2, i3, i4, i5, i6, i7, i8⟩ := newRot_inv e1
    obtain ⟨oa, ob, par⟩ := rot
    simp only at i1 i2 i3
    have hr0 : r - 1 < d := by omega
    have hr1 : r < d := by omega
    have ea : oa = nm (⟨r - 1, hr0⟩ : Fin d) := by rw [i1]; unfold nm; simp only; omega
    have eb : ob = nm (⟨r, hr1⟩ : Fin d) := by rw [i2]; rfl
    subst ea eb
    refine ⟨_, _, he ⟨r - 1, hr0⟩ ⟨r, hr1⟩ (by simp only; omega) par _ _ _ k out i3 e2 e3, ?_, rfl⟩
    rw [bill_append]
  · cases h
    exact ⟨0, 0, hR.zero, by simp, by simp⟩

theorem takePhases_bill {q : Int} {pre : Attrs → Except PyErr PVal} {s : LGraph × List PInstr × PyDict Nat ℝ}
    (h : takePhases q d pre g = .ok s) : bill s.2.1 = 0 := by
  unfold takePhases at h
  simp only [bind, pure] at h
  obtain ⟨b, _, h⟩ := bind_ok h
  have hnil : bill [] = 0 := by simp [bill]
  split_ifs at h with hb
  · refine foldlM_invariant (fun s => bill s.2.1 = 0) _ ?_ _ _ _ hnil h
    intro s i s' h0 h
    unfold takePhase at h
    simp only [bind, pure] at h
    obtain ⟨x, _, h⟩ := bind_ok h
    split_ifs at h with hz
    · obtain ⟨a, _, h⟩ := bind_ok h
      obtain ⟨l, _, h⟩ := bind_ok h
      obtain ⟨out, e, h⟩ := bind_ok h
      cases e
      obtain ⟨g', _, h⟩ := bind_ok h
      cases h
      show bill (_ ++ _) = 0
      rw [bill_append, bill_phase, h0, add_zero]
    · obtain ⟨out, e, h⟩ := bind_ok h
      cases e
      obtain ⟨g', _, h⟩ := bind_ok h
      cases h
      exact h0
  · cases h; exact hnil

theorem qrPhase_bill {q : Int} {del : ℝ} {lev : LGraph → Nat → Except PyErr PVal} {u : Arr2 ℂ} {acc acc' : List PInstr} {i : Nat} {B : ℝ}
    (h0 : bill acc = B) (h : qrPhase q d del lev g u acc i = .ok acc') : bill acc' = B := by
  unfold qrPhase at h
  simp only [bind, pure] at h
  obtain ⟨x, _, h⟩ := bind_ok h
  split_ifs at h with hc
  · obtain ⟨l, _, h⟩ := bind_ok h
    cases h
    rw [bill_append, bill_phase, h0, add_zero]
  · cases h; exact h0

/-- the columns, from any state -/
theorem qrColumns_bill {R : ℝ → ℝ → Prop} (hR : Related R) {eps : ℝ} {emit : Emit} (he : EmitBill sp d g emit R) {n : Nat} {l : List Nat}
    {st st' : QrState} (h : l.foldlM (qrColumn sp d eps emit g n) st = .ok st') (B T : ℝ) (h0 : R (bill st.decomp + B) (st.tot + T)) :
    R (bill st'.decomp + B) (st'.tot + T) := by
  have step : ∀ (c : Nat) (s : QrState) (r : Nat) (s' : QrState), R (bill s.decomp + B) (s.tot + T) → qrStep sp d eps emit g c s r = .ok s' →
      R (bill s'.decomp + B) (s'.tot + T) := by
    intro c s r s' hs e
    obtain ⟨x, y, hxy, e1, e2⟩ := qrStep_bill hR he e
    rw [e1, e2, add_right_comm, add_right_comm s.tot]
    exact hR.add _ _ _ _ hs hxy
  refine foldlM_invariant (fun st : QrState => R (bill st.decomp + B) (st.tot + T)) _ ?_ _ _ _ h0 h
  intro s1 c s2 h0 h
  unfold qrColumn at h
  exact foldlM_invariant (fun st : QrState => R (bill st.decomp + B) (st.tot + T)) _ (fun s r s' h0 h => step c s r s' h0 h) _ _ _ h0 h

theorem execute_bill {R : ℝ → ℝ → Prop} (hR : Related R) {q : Int} {eps del : ℝ} {pre : Attrs → Except PyErr PVal} {emit : Emit}
    {lev : LGraph → Nat → Except PyErr PVal} {zp ns : Bool} {u : Arr2 ℂ} {res : QrResult}
    (hz : zp = true → EmitBill sp d g emit R)
    (ht : ∀ s, takePhases q d pre g = .ok s → EmitBill sp d s.1 emit R)
    (h : execute sp q d eps del pre emit lev zp ns u g = .ok res) : R (bill res.decomp) res.tot := by
  unfold execute at h
  simp only [bind, pure] at h
  have key : ∀ (s : LGraph × List PInstr × PyDict Nat ℝ) (w : Except PyErr LGraph), bill s.2.1 = 0 → EmitBill sp d s.1 emit R →
      ((((List.range u.cols).foldlM (qrColumn sp d eps emit s.1 u.rows) ⟨u, s.2.1, 0, 0⟩).bind fun st =>
        ((List.range u.rows).foldlM (qrPhase q d del lev s.1 st.u) st.decomp).bind fun out =>
          w.bind fun g => Except.pure (⟨out, st.alg, st.tot, g⟩ : QrResult)) = .ok res) →
      R (bill res.decomp) res.tot := by
    intro s w hs he h
    obtain ⟨st, e1, h⟩ := bind_ok h
    obtain ⟨out, e2, h⟩ := bind_ok h
    obtain ⟨g', _, h⟩ := bind_ok h
    cases h
    have e3 : bill out = bill st.decomp :=
      foldlM_invariant (fun l => bill l = bill st.decomp) _ (fun _ _ _ h0 h => qrPhase_bill h0 h) _ _ _ rfl e2
    show R (bill out) st.tot
    rw [e3]
    have := qrColumns_bill hR he e1 0 0 (by rw [hs]; simpa using hR.zero)
    simpa using this
  split_ifs at h with hzp hn hn
  all_goals
    obtain ⟨s, e, h⟩ := bind_ok h
    first
      | exact key s _ (takePhases_bill e) (ht s e) h
      | (cases e; exact key _ _ (by simp [bill]) (hz hzp) h)

theorem le_related : Related (· ≤ ·) := ⟨le_rfl, fun _ _ _ _ h k => add_le_add h k⟩

theorem eq_related : Related (· = ·) := ⟨rfl, fun _ _ _ _ h k => by rw [h, k]⟩

theorem logEmit_le (h : Device d g lp) (hsp : FindsShortest sp) (q : Int) : EmitBill sp d g (logEmit q d) (· ≤ ·) := by
  intro a b hb par theta phi nz k out _ hk he
  cases he
  obtain ⟨D, c, _, e, e1, _, e2, _, e3, _⟩ := C104_routing h hsp a b (by rintro rfl; omega) par nz
  rw [hk] at e
  cases e
  rw [bill_rot]
  have : (1 : ℝ) ≤ D := by
    have : 1 ≤ D := by omega
    exact_mod_cast this
  show thetaCost par.theta ≤ _
  nlinarith

theorem backs_bill (q : Int) : ∀ (l : List RGate) (backs : List RGate), (∀ r ∈ l, |r.par.theta| = Real.pi) →
    (l.mapM fun p => newRot d p.par.levA p.par.levB p.par.theta (-p.par.phi)) = .ok backs →
    backs.length = l.length ∧ ∀ r ∈ backs, |r.par.theta| = Real.pi := by
  intro l
  induction l with
  | nil => intro backs _ h; cases h; simp
  | cons p l ih =>
    intro backs hp h
    rw [List.mapM_cons] at h
    simp only [bind, pure] at h
    obtain ⟨r, e1, h⟩ := bind_ok h
    obtain ⟨bs, e2, h⟩ := bind_ok h
    cases h
    obtain ⟨k1, k2⟩ := ih bs (fun r hr => hp r (by simp [hr])) e2
    refine ⟨by simp [k1], ?_⟩
    intro x hx
    rcases List.mem_cons.1 hx with rfl | hx
    · rw [(newRot_inv e1).2.2.1]
      have h1 := hp p (by simp)
      rcases abs_eq Real.pi_pos.le |>.1 h1 with h2 | h2
      · rw [h2, regulate_pi, abs_of_pos Real.pi_pos]
      · rw [h2, regulate_neg_pi, abs_neg, abs_of_pos Real.pi_pos]
    · exact k2 x hx

theorem phyEmit_le (h : Device d g lp) (hsp : FindsShortest sp) (q : Int) : EmitBill sp d g (phyEmit q d) (· ≤ ·) := by
  intro a b hb par theta phi nz k out ht hk he
  obtain ⟨D, c, _, e, e1, ep, e2, _, e3, _⟩ := C104_routing h hsp a b (by rintro rfl; omega) par nz
  rw [hk] at e
  cases e
  unfold phyEmit at he
  simp only [bind, pure] at he
  obtain ⟨x, _, he⟩ := bind_ok he
  obtain ⟨y, _, he⟩ := bind_ok he
  obtain ⟨r1, f1, he⟩ := bind_ok he
  obtain ⟨r2, f2, he⟩ := bind_ok he
  obtain ⟨bs, f3, he⟩ := bind_ok he
  cases he
  obtain ⟨b1, b2⟩ := backs_bill q _ bs (fun r hr => ep r (List.mem_reverse.1 hr)) f3
  have t1 := (newRot_inv f1).2.2.1
  have t2 := chain_price t1 f2
  rw [t1, ← ht] at t2
  rw [bill_append, bill_append, bill_rot, bill_pulses q _ ep, bill_pulses q _ b2, b1, List.length_reverse]
  have hD : (D : ℝ) - 1 = k.pulses.length := by rw [← e1]; push_cast; ring
  rw [hD] at e2
  linarith

theorem coupled_distance {a b : Int} {D : Nat} (hj : Joined g a b) (hD : Distance g a b D) : D ≤ 1 := by
  have := hD.2 [a, b] ⟨rfl, rfl, by simpa using hj⟩
  simpa using this

theorem direct_costs (h : Device d g lp) (hsp : FindsShortest sp) (hp : Plain d g) (hc : NeighboursCoupled d g) (a b : Fin d)
    (hb : (b : Nat) = a + 1) (par : TwoLevel) (nz : Nat) (k : Costs) (hk : costCalculator sp d ⟨nm a, nm b, par⟩ g nz = .ok k) :
    k.pulses = [] ∧ k.piCost = 0 ∧ k.gateCost = thetaCost par.theta := by
  obtain ⟨D, c, d1, e, e1, _, _, _, _, _, _, e4⟩ := C104_routing h hsp a b (by rintro rfl; omega) par nz
  rw [hk] at e
  cases e
  have := coupled_distance (hc a b hb) d1
  have hD : D = 1 := by omega
  obtain ⟨g1, g2⟩ := e4 hp
  subst hD
  refine ⟨List.length_eq_zero_iff.1 (by omega), ?_, g1⟩
  rw [g2]
  norm_num

theorem logEmit_eq (h : Device d g lp) (hsp : FindsShortest sp) (hp : Plain d g) (hc : NeighboursCoupled d g) (q : Int) :
    EmitBill sp d g (logEmit q d) (· = ·) := by
  intro a b hb par theta phi nz k out _ hk he
  cases he
  obtain ⟨_, e1, e2⟩ := direct_costs h hsp hp hc a b hb par nz k hk
  show bill _ = _
  rw [bill_rot, e1, e2]
  ring

theorem phyEmit_eq (h : Device d g lp) (hsp : FindsShortest sp) (hp : Plain d g) (hc : NeighboursCoupled d g) (q : Int) :
    EmitBill sp d g (phyEmit q d) (· = ·) := by
  intro a b hb par theta phi nz k out ht hk he
  obtain ⟨e0, e1, e2⟩ := direct_costs h hsp hp hc a b hb par nz k hk
  unfold phyEmit at he
  simp only [bind, pure] at he
  obtain ⟨x, _, he⟩ := bind_ok he
  obtain ⟨y, _, he⟩ := bind_ok he
  obtain ⟨r1, f1, he⟩ := bind_ok he
  obtain ⟨r2, f2, he⟩ := bind_ok he
  obtain ⟨bs, f3, he⟩ := bind_ok he
  rw [e0] at f2 f3 he
  cases f2
  cases f3
  cases he
  show bill _ = _
  have t1 := (newRot_inv f1).2.2.1
  simp only [List.reverse_nil, List.map_nil, List.nil_append, List.append_nil]
  rw [bill_rot, t1, ← ht, e1, e2]
  ring

end Qudits
