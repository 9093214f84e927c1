import Verif.Lemmas.QrBill
import Verif.Props.QrProps
/-!
# C105: the total cost that a QR decomposition reports

`LogLocQRPass`/`PhyLocQRPass` decompose by `QrDecomp.execute` (log_local_qr_decomp.py:61-170) and `PhyQrDecomp.execute`
(phy_local_qr_decomp.py:60-167), which return the gates together with an algorithmic and a total cost.  The total cost is compared with
the bill of the gates: the sum of the `cost`s of the rotations.
-/
namespace Qudits
open LGraph Spec LocalQR Matrix

variable {d : Nat} {g : LGraph} {lp : Equiv.Perm (Fin d)} {sp : PathFinder}

theorem logPhases_ok (h : Device d g lp) (q : Int) : ∃ s, takePhases q d (fun _ => .ok (.str "node")) g = .ok s ∧ Device d s.1 lp ∧
    s.1.edges = g.edges ∧ ∀ n, value s.1 n "level" = value g n "level" := by
  have hd : 0 < d := by
    obtain ⟨i, _⟩ := h.start
    have := i.isLt
    omega
  obtain ⟨g', E, saved, e1, e2, _, _, _, _, e7, e8, _⟩ := takePhases_ok (C := 1) q (fun _ => .ok (.str "node"))
    (fun i a _ => ⟨_, rfl, fun x => lineOp_phase_str q _ x hd⟩) h
  exact ⟨_, e1, e2, e7, fun n => e8 n _ (by decide)⟩

theorem phyPhases_ok (h : Device d g lp) (q : Int) : ∃ s, takePhases q d (fun a => attr a "lpmap") g = .ok s ∧ Device d s.1 lp ∧
    s.1.edges = g.edges ∧ ∀ n, value s.1 n "level" = value g n "level" := by
  obtain ⟨g', E, saved, e1, e2, _, _, _, _, e7, e8, _⟩ := takePhases_ok (C := conjHom lp) q (fun a => attr a "lpmap")
    (fun i a ha => ⟨.int ((lp i : Fin d) : Nat), by simp [attr, ha], fun x => by
      rw [lineOp_phase, conjHom_onePhase]⟩) h
  exact ⟨_, e1, e2, e7, fun n => e8 n _ (by decide)⟩

theorem plain_congr {g' : LGraph} (hv : ∀ n, value g' n "level" = value g n "level") (hp : Plain d g) : Plain d g' := by
  intro i
  unfold Remote
  rw [hv]
  exact hp i

theorem coupled_congr {g' : LGraph} (he : g'.edges = g.edges) (hc : NeighboursCoupled d g) : NeighboursCoupled d g' := by
  intro a b hb
  have := hc a b hb
  unfold Spec.Joined edgeData at *
  rw [he]
  exact this

/-- **C105** (never understated).  Whatever the device, the total cost reported covers the gates that are put out. -/
theorem C105_covers (h : Device d g lp) (hsp : FindsShortest sp) (q : Int) (eps del : ℝ) (zProp notStandAlone : Bool) (u : Arr2 ℂ)
    (res : QrResult) :
    (logQr sp q d eps del zProp notStandAlone u g = .ok res → bill res.decomp ≤ res.tot) ∧
    (phyQr sp q d eps del zProp notStandAlone u g = .ok res → bill res.decomp ≤ res.tot) := by
  constructor
  · intro hr
    refine execute_bill le_related (fun _ => logEmit_le h hsp q) ?_ hr
    intro s hs
    obtain ⟨s', e, h', _⟩ := logPhases_ok h q
    rw [hs] at e
    cases e
    exact logEmit_le h' hsp q
  · intro hr
    refine execute_bill le_related (fun _ => phyEmit_le h hsp q) ?_ hr
    intro s hs
    obtain ⟨s', e, h', _⟩ := phyPhases_ok h q
    rw [hs] at e
    cases e
    exact phyEmit_le h' hsp q

/-- **C105** (exact).  Full statement: the total cost reported is the bill of the gates that are put out.  Proved for devices without
remote levels on which neighbouring levels are coupled; `C105_violated` shows a device of another kind. -/
theorem C105_exact_partial (h : Device d g lp) (hsp : FindsShortest sp) (hp : Plain d g) (hc : NeighboursCoupled d g) (q : Int) (eps del : ℝ)
    (zProp notStandAlone : Bool) (u : Arr2 ℂ) (res : QrResult) :
    (logQr sp q d eps del zProp notStandAlone u g = .ok res → res.tot = bill res.decomp) ∧
    (phyQr sp q d eps del zProp notStandAlone u g = .ok res → res.tot = bill res.decomp) := by
  constructor
  · intro hr
    refine (execute_bill (R := (· = ·)) eq_related (fun _ => logEmit_eq h hsp hp hc q) ?_ hr).symm
    intro s hs
    obtain ⟨s', e, h', h2, h3⟩ := logPhases_ok h q
    rw [hs] at e
    cases e
    exact logEmit_eq h' hsp (plain_congr h3 hp) (coupled_congr h2 hc) q
  · intro hr
    refine (execute_bill (R := (· = ·)) eq_related (fun _ => phyEmit_eq h hsp hp hc q) ?_ hr).symm
    intro s hs
    obtain ⟨s', e, h', h2, h3⟩ := phyPhases_ok h q
    rw [hs] at e
    cases e
    exact phyEmit_eq h' hsp (plain_congr h3 hp) (coupled_congr h2 hc) q

theorem plainRow_coupled : NeighboursCoupled 3 plainRow := by
  intro a b hb
  fin_cases a <;> fin_cases b <;> simp at hb <;> simp [Spec.Joined, edgeData, joins, plainRow]

/-- the decompositions of the cyclic shift of a qutrit exist, and the cost is the bill -/
example (hsp : FindsShortest sp) : ∃ u res res', xArray 3 = .ok u ∧ logQr sp 0 3 1e-8 1e-4 false false u plainRow = .ok res ∧
    phyQr sp 0 3 1e-8 1e-4 false false u plainRow = .ok res' ∧ res.tot = bill res.decomp ∧ res'.tot = bill res'.decomp := by
  obtain ⟨u, h1, h2⟩ := C06_x 3
  obtain ⟨res, _, _, _, h3, _⟩ := C34_decomposition plainRow_ok hsp.finds 0 1e-8 1e-4 (by norm_num) (by norm_num) u h2
  obtain ⟨res', _, h4, _⟩ := C35_physical_general plainRow_ok hsp.finds 0 1e-8 1e-4 (by norm_num) (by norm_num) u h2
  exact ⟨u, res, res', h1, h3, h4, (C105_exact_partial plainRow_ok hsp plainRow_plain plainRow_coupled 0 _ _ false false u res).1 h3,
    (C105_exact_partial plainRow_ok hsp plainRow_plain plainRow_coupled 0 _ _ false false u res').2 h4⟩

/-- Three levels, the levels 0 and 1 coupled through level 2 only. -/
def bentRow : LGraph :=
  ⟨[(0, [("level", .str "i"), ("lpmap", .int 0)]), (1, [("level", .str "l"), ("lpmap", .int 1)]), (2, [("level", .str "l"), ("lpmap", .int 2)])],
    [(0, 2, []), (2, 1, [])], none⟩

theorem bentRow_ok : Device 3 bentRow 1 := by
  have hv : ∀ (i : Fin 3) (k : String), value bentRow (i : Nat) k =
      if k = "level" then some (.str (if i = 0 then "i" else "l"))
      else if k = "lpmap" then some (.int (i : Nat)) else none := by
    intro i k
    by_cases h1 : k = "level"
    · subst h1; fin_cases i <;> rfl
    · by_cases h2 : k = "lpmap"
      · subst h2; fin_cases i <;> rfl
      · rw [if_neg h1, if_neg h2]
        fin_cases i <;> simp [value, bentRow, PyDict.get?, eq_comm, h1, h2]
  have hnames : names bentRow = (List.range 3).map fun i : Nat => (i : Int) := rfl
  refine ⟨⟨by decide, by simp [bentRow, PyDict.keys], ?_, ?_⟩, ?_, by rw [hnames], ?_, ?_, ⟨0, rfl⟩, ?_, ?_⟩
  · simp [bentRow, SameEnds]
  · simp [bentRow, names, PyDict.keys]
  · intro n hn m hm k hk
    rw [hnames] at hn hm
    obtain ⟨i, hi, rfl⟩ := List.mem_map.1 hn
    obtain ⟨j, hj, rfl⟩ := List.mem_map.1 hm
    have e1 := hv ⟨i, List.mem_range.1 hi⟩ k
    have e2 := hv ⟨j, List.mem_range.1 hj⟩ k
    simp only at e1 e2
    rw [e1] at hk
    rw [e2]
    split_ifs at hk ⊢ <;> simp_all
  · intro i; fin_cases i <;> rfl
  · intro i
    rw [hv, if_pos rfl]
    exact ⟨_, rfl⟩
  · have p00 : ∀ n : Int, IsPath bentRow n n [n] := fun n => ⟨rfl, rfl, by simp, by simp⟩
    intro a b
    fin_cases a <;> fin_cases b
    · exact ⟨_, p00 _⟩
    · exact ⟨[0, 2, 1], rfl, rfl, by simp [Spec.Joined, edgeData, joins, bentRow], by decide⟩
    · exact ⟨[0, 2], rfl, rfl, by simp [Spec.Joined, edgeData, joins, bentRow], by decide⟩
    · exact ⟨[1, 2, 0], rfl, rfl, by simp [Spec.Joined, edgeData, joins, bentRow], by decide⟩
    · exact ⟨_, p00 _⟩
    · exact ⟨[1, 2], rfl, rfl, by simp [Spec.Joined, edgeData, joins, bentRow], by decide⟩
    · exact ⟨[2, 0], rfl, rfl, by simp [Spec.Joined, edgeData, joins, bentRow], by decide⟩
    · exact ⟨[2, 1], rfl, rfl, by simp [Spec.Joined, edgeData, joins, bentRow], by decide⟩
    · exact ⟨_, p00 _⟩
  · intro i v h
    rw [hv, if_neg (by decide), if_neg (by decide)] at h
    cases h

/-- the rotation of the levels 0 and 1 is routed -/
theorem bentRow_routed {D : Nat} (h : Distance bentRow 0 1 D) : 2 ≤ D := by
  obtain ⟨p, ⟨h1, h2, h3⟩, hl⟩ := h.1
  match p, h1, h2, h3, hl with
  | [], h1, _, _, _ => simp at h1
  | [x], h1, h2, _, _ => simp at h1 h2; omega
  | [x, y], h1, h2, h3, _ =>
    simp at h1 h2
    subst h1 h2
    simp [Spec.Joined, edgeData, joins, bentRow] at h3
  | _ :: _ :: _ :: l, _, _, _, hl => simp at hl; omega

/-- **C105** (violated).  `QrDecomp` charges for pulses that it does not put out: on a device whose levels 0 and 1 are coupled through
level 2 only, the decomposition of the cyclic shift of a qutrit is reported to cost at least two pulses more than its gates do. -/
theorem C105_violated (hsp : FindsShortest sp) (q : Int) : ∃ u res, xArray 3 = .ok u ∧
    logQr sp q 3 1e-8 1e-4 false false u bentRow = .ok res ∧ bill res.decomp + 8e-4 ≤ res.tot := by
  obtain ⟨u, h1, h2⟩ := C06_x 3
  obtain ⟨u', k1, k2, k3, k4⟩ := xArray_ok 3
  rw [h1] at k1
  cases k1
  obtain ⟨res, _, _, _, hres, _⟩ := C34_decomposition bentRow_ok hsp.finds q 1e-8 1e-4 (by norm_num) (by norm_num) u h2
  refine ⟨u, res, h1, hres, ?_⟩
  have hem := logEmit_le bentRow_ok hsp q
  have h := hres
  unfold logQr execute at h
  simp only [bind, pure, Bool.false_eq_true, if_false, Bool.false_and] at h
  have ht : takePhases q 3 (fun _ => .ok (.str "node")) bentRow = .ok (bentRow, [], []) := rfl
  rw [ht] at h
  obtain ⟨s, e, h⟩ := bind_ok h
  cases e
  obtain ⟨st, e1, h⟩ := bind_ok h
  obtain ⟨out, e2, h⟩ := bind_ok h
  obtain ⟨g', _, h⟩ := bind_ok h
  cases h
  have e3 : bill out = bill st.decomp :=
    foldlM_invariant (fun l => bill l = bill st.decomp) _ (fun _ _ _ h0 h => qrPhase_bill h0 h) _ _ _ rfl e2
  show bill out + 8e-4 ≤ st.tot
  rw [e3]
  rw [k2, k3, show List.range 3 = 0 :: [1, 2] from rfl, List.foldlM_cons] at e1
  simp only [bind] at e1
  obtain ⟨s1, f1, e1⟩ := bind_ok e1
  have := qrColumns_bill le_related hem e1 8e-4 0
  rw [add_zero, add_zero] at this
  refine this ?_
  unfold qrColumn at f1
  rw [show rowsOf 3 0 = [2, 1] from rfl, List.foldlM_cons] at f1
  simp only [bind] at f1
  obtain ⟨s2, f2, f1⟩ := bind_ok f1
  have z20 : u.get 2 0 = .ok 0 := by
    unfold Arr2.get
    rw [k2, k3, if_pos (by decide), k4 2 0 (by decide)]
    simp
  have z10 : u.get 1 0 = .ok 1 := by
    unfold Arr2.get
    rw [k2, k3, if_pos (by decide), k4 1 0 (by decide)]
    simp
  have es2 : s2 = ⟨u, [], 0, 0⟩ := by
    unfold qrStep at f2
    simp only [bind, pure] at f2
    rw [z20] at f2
    simp only [Except.bind, norm_zero] at f2
    rw [if_neg (by norm_num)] at f2
    cases f2
    rfl
  subst es2
  rw [List.foldlM_cons] at f1
  simp only [bind] at f1
  obtain ⟨s3, f3, f1⟩ := bind_ok f1
  cases f1
  unfold qrStep at f3
  simp only [bind, pure] at f3
  obtain ⟨x, ex, f3⟩ := bind_ok f3
  rw [z10] at ex
  cases ex
  rw [if_pos (by rw [norm_one]; norm_num)] at f3
  obtain ⟨y, _, f3⟩ := bind_ok f3
  obtain ⟨rot, er, f3⟩ := bind_ok f3
  obtain ⟨m, _, f3⟩ := bind_ok f3
  obtain ⟨v, _, f3⟩ := bind_ok f3
  obtain ⟨k, ek, f3⟩ := bind_ok f3
  obtain ⟨o, eo, f3⟩ := bind_ok f3
  cases f3
  cases eo
  obtain ⟨oa, ob, par⟩ := rot
  obtain ⟨i1, i2, _⟩ := newRot_inv er
  simp only at i1 i2
  have ea : oa = nm (0 : Fin 3) := by rw [i1]; rfl
  have eb : ob = nm (1 : Fin 3) := by rw [i2]; rfl
  subst ea eb
  obtain ⟨D, c, d1, d2, _, _, d5, _, d7, _⟩ := C104_routing bentRow_ok hsp 0 1 (by decide) par (countNonzero v)
  rw [ek] at d2
  cases d2
  have hD := bentRow_routed d1
  have hD' : (2 : ℝ) ≤ D := by exact_mod_cast hD
  show bill ([] ++ [rotInstr q 3 _]) + 8e-4 ≤ 0 + (2 * k.piCost + k.gateCost)
  rw [List.nil_append, bill_rot]
  show thetaCost par.theta + 8e-4 ≤ _
  linarith

end Qudits
