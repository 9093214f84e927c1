import Verif.Lemmas.EntPass
import Verif.Props.GateArrayProps
import Mathlib.Analysis.Real.Pi.Bounds
/-
The decomposition of gates on two lines into rotations and controlled exchanges: the blocks (C64), the decomposition (C65), the pass
for logical circuits (C66) and the pass for devices (C67).
-/
namespace Qudits
open Matrix Complex Spec EntQR QRAlg

variable {P : Pair}

/-! ### C64 -/

/-- C64: inside a block of the pair (the level of the first line stays the same), the generated controlled rotation is exactly the
rotation of levels `a` and `a + 1` of the pair, uses only gates on one line and CEx gates, and of the latter exactly two. -/
theorem C64_controlled_rotation (hq : P.q0 ≠ P.q1) (hc : 2 ≤ P.c) (ht : 2 ≤ P.t) (a r : Fin (P.c * P.t)) (har : (r : Nat) = a + 1)
    (hr : (r : Nat) % P.t ≠ 0) (theta phi : ℝ) :
    ∃ l, permuteCrot P a theta phi = .ok l ∧ circuitOp (pairOp P) l = twoLevel a r (rot theta phi) ∧ (∀ g ∈ l, Elementary P g) ∧
      entangling l = 2 := by
  rcases neighbours ht a r har with ⟨_, x, y, y', hy, rfl, rfl⟩ | ⟨h, _⟩
  · obtain ⟨l, hl, b⟩ := permuteCrot_ok hq hc x y y' hy theta phi
    exact ⟨l, hl, b.op, fun g hg => (b.good g hg).1, b.count⟩
  · exact absurd h hr

example : ∃ l, permuteCrot ⟨0, 1, 3, 4⟩ 5 1 2 = .ok l ∧
    circuitOp (pairOp ⟨0, 1, 3, 4⟩) l = twoLevel (5 : Fin 12) 6 (rot 1 2) ∧ (∀ g ∈ l, Elementary ⟨0, 1, 3, 4⟩ g) ∧ entangling l = 2 :=
  C64_controlled_rotation (P := ⟨0, 1, 3, 4⟩) (by decide) (by decide) (by decide) (5 : Fin 12) (6 : Fin 12) rfl (by decide) 1 2

/-- C64: across the border of two blocks, the generated partial swap is exactly the rotation of the two levels and has sixteen CEx. -/
theorem C64_partial_swap (hq : P.q0 ≠ P.q1) (ht : 2 ≤ P.t) (a r : Fin (P.c * P.t)) (har : (r : Nat) = a + 1)
    (hr : (r : Nat) % P.t = 0) (theta phi : ℝ) :
    ∃ l, permutePswap P a theta phi = .ok l ∧ circuitOp (pairOp P) l = twoLevel a r (rot theta phi) ∧ (∀ g ∈ l, Elementary P g) ∧
      entangling l = 16 := by
  rcases neighbours ht a r har with ⟨h, _⟩ | ⟨_, x, x', l0, m, hx, hl0, hm, rfl, rfl⟩
  · exact absurd hr h
  · obtain ⟨l, hl, b⟩ := permutePswap_ok hq ht x x' hx l0 m hl0 hm theta phi
    exact ⟨l, hl, b.op, fun g hg => (b.good g hg).1, b.count⟩

example : ∃ l, permutePswap ⟨0, 1, 3, 4⟩ 7 1 2 = .ok l ∧
    circuitOp (pairOp ⟨0, 1, 3, 4⟩) l = twoLevel (7 : Fin 12) 8 (rot 1 2) ∧ (∀ g ∈ l, Elementary ⟨0, 1, 3, 4⟩ g) ∧ entangling l = 16 :=
  C64_partial_swap (P := ⟨0, 1, 3, 4⟩) (by decide) (by decide) (7 : Fin 12) (8 : Fin 12) rfl (by decide) 1 2

/-- C64: the two generators of phase rotations of neighbouring levels. -/
theorem C64_phase_rotation (hq : P.q0 ≠ P.q1) (hc : 2 ≤ P.c) (ht : 2 ≤ P.t) (a r : Fin (P.c * P.t)) (har : (r : Nat) = a + 1) (phi : ℝ) :
    ∃ l, (if (r : Nat) % P.t = 0 then zPswap P a phi else zFromCrot P a phi) = .ok l ∧
      circuitOp (pairOp P) l = twoLevel a r (zrot phi) ∧ (∀ g ∈ l, Elementary P g) ∧
      entangling l = if (r : Nat) % P.t = 0 then 48 else 6 := by
  rcases neighbours ht a r har with ⟨h, x, y, y', hy, rfl, rfl⟩ | ⟨h, x, x', l0, m, hx, hl0, hm, rfl, rfl⟩
  · obtain ⟨l, hl, b⟩ := zFromCrot_ok hq hc x y y' hy phi
    rw [if_neg h, if_neg h]
    exact ⟨l, hl, b.op, fun g hg => (b.good g hg).1, b.count⟩
  · obtain ⟨l, hl, b⟩ := zPswap_ok hq ht x x' hx l0 m hl0 hm phi
    rw [if_pos h, if_pos h]
    exact ⟨l, hl, b.op, fun g hg => (b.good g hg).1, b.count⟩

example : ∃ l, zPswap ⟨3, 1, 2, 3⟩ 2 1 = .ok l ∧
    circuitOp (pairOp ⟨3, 1, 2, 3⟩) l = twoLevel (2 : Fin 6) 3 (zrot 1) ∧ (∀ g ∈ l, Elementary ⟨3, 1, 2, 3⟩ g) ∧ entangling l = 48 :=
  C64_phase_rotation (P := ⟨3, 1, 2, 3⟩) (by decide) (by decide) (by decide) (2 : Fin 6) (3 : Fin 6) rfl 1

/-! ### C65 -/

/-- C65 for lines in circuit order: the decomposition of a unitary array never fails; it consists of gates on one line and CEx gates; the
counters count the CEx gates and are bounded; the product of its gates with the array is the identity up to one global phase and the
error that the two thresholds and the rounding of angles allow. Missing: lines in the other order. -/
theorem C65_decomposition_partial (hq : P.q0 < P.q1) (hc : 2 ≤ P.c) (ht : 2 ≤ P.t) {eps del rho : ℝ} (heps : 0 ≤ eps) (hdel : 0 ≤ del)
    (rnd : ℝ → ℝ) (hrnd : ∀ x, |rnd x - x| ≤ rho) (u : Arr2 ℂ) (hu : UnitaryArr u (P.c * P.t)) :
    ∃ (st : EState) (mu : ℝ), execute P eps del rnd u = .ok st ∧ (∀ g ∈ st.decomp, Elementary P g) ∧
      st.u.toM (P.c * P.t) = circuitOp (pairOp P) st.decomp * u.toM (P.c * P.t) ∧
      NearOne (qrError (P.c * P.t) eps del + rho) (cexp (-I * mu) • (circuitOp (pairOp P) st.decomp * u.toM (P.c * P.t))) ∧
      entangling st.decomp = 2 * st.crots + 4 * st.pswaps ∧
      4 * st.crots + st.pswaps ≤ 4 * (P.c * P.t * (P.c * P.t - 1) / 2 + 3 * (P.c * P.t - 1)) := by
  obtain ⟨st, T, mu, e1, e2, _, e4, e5, e6⟩ := EntQR.execute_ok ⟨hq, hc, ht⟩ heps hdel rnd hrnd u hu.1 hu.2.1 hu.2.2
  refine ⟨st, mu, e1, fun g hg => (e2.good g hg).1, ?_, ?_, e2.count, e6⟩
  · rw [e2.op, e4]
  · rw [e2.op]; exact e5

/-- C65 without thresholds and rounding: the adjoint of the gate, up to a global phase. -/
theorem C65_exact (hq : P.q0 < P.q1) (hc : 2 ≤ P.c) (ht : 2 ≤ P.t) (u : Arr2 ℂ) (hu : UnitaryArr u (P.c * P.t)) :
    ∃ (st : EState) (mu : ℝ), execute P 0 0 id u = .ok st ∧ (∀ g ∈ st.decomp, Elementary P g) ∧
      circuitOp (pairOp P) st.decomp = cexp (I * mu) • (u.toM (P.c * P.t))ᴴ := by
  obtain ⟨st, mu, e1, e2, _, e4, _, _⟩ := C65_decomposition_partial hq hc ht le_rfl le_rfl id (rho := 0) (by simp) u hu
  refine ⟨st, mu, e1, e2, ?_⟩
  rw [qrError_zero, add_zero] at e4
  have h := nearOne_zero e4
  have hU := mem_unitaryGroup_iff.1 hu.2.2
  rw [star_eq_conjTranspose] at hU
  have hz : cexp (I * mu) * cexp (-I * mu) = 1 := by rw [← Complex.exp_add]; simp
  calc circuitOp (pairOp P) st.decomp = circuitOp (pairOp P) st.decomp * (u.toM (P.c * P.t) * (u.toM (P.c * P.t))ᴴ) := by rw [hU, mul_one]
    _ = (cexp (I * mu) * cexp (-I * mu)) • (circuitOp (pairOp P) st.decomp * u.toM (P.c * P.t)) * (u.toM (P.c * P.t))ᴴ := by
        rw [hz, one_smul, mul_assoc]
    _ = _ := by rw [mul_smul, h, smul_mul_assoc, one_mul]

theorem idArr_unitary (n : Nat) : UnitaryArr (Arr2.identity n : Arr2 ℂ) n := by
  refine ⟨rfl, rfl, ?_⟩
  have : (Arr2.identity n : Arr2 ℂ).toM n = 1 := by
    ext i j
    simp [Arr2.toM, Arr2.identity, Matrix.one_apply, Fin.ext_iff]
  rw [this]
  exact one_mem _

/-- the array of the exchange of two levels, with a sign -/
noncomputable def exchangeArr (n a r : Nat) : Arr2 ℂ :=
  ⟨n, n, fun i j => if i = a ∧ j = r then -1 else if i = r ∧ j = a then 1 else if i = j ∧ i ≠ a ∧ i ≠ r then 1 else 0⟩

theorem exchangeArr_toM {n : Nat} (a r : Fin n) (har : a ≠ r) : (exchangeArr n a r).toM n = twoLevel a r !![0, -1; 1, 0] := by
  have h : ¬ (a : Nat) = r := fun e => har (Fin.ext e)
  ext i j
  simp only [Arr2.toM, exchangeArr, twoLevel, Fin.ext_iff]
  split_ifs <;> first | rfl | (exfalso; omega)

theorem exchangeArr_unitary {n : Nat} (a r : Fin n) (har : a ≠ r) : UnitaryArr (exchangeArr n a r) n := by
  refine ⟨rfl, rfl, ?_⟩
  rw [exchangeArr_toM a r har, ← rot_unswap]
  exact twoLevel_unitary _ har (rot_unitary _ _)

example : ∃ (st : EState) (mu : ℝ), execute ⟨0, 1, 2, 3⟩ 0 0 id (exchangeArr 6 1 4) = .ok st ∧ (∀ g ∈ st.decomp, Elementary ⟨0, 1, 2, 3⟩ g) ∧
    circuitOp (pairOp ⟨0, 1, 2, 3⟩) st.decomp = cexp (I * mu) • ((exchangeArr 6 1 4).toM 6)ᴴ :=
  C65_exact (P := ⟨0, 1, 2, 3⟩) (by decide) (by decide) (by decide) _ (exchangeArr_unitary (1 : Fin 6) 4 (by decide))

example : ∃ (st : EState) (mu : ℝ), execute ⟨0, 2, 3, 2⟩ (1 / 100) (1 / 10) (fun x => x + 1 / 1000) (exchangeArr 6 0 5) = .ok st ∧
    (∀ g ∈ st.decomp, Elementary ⟨0, 2, 3, 2⟩ g) ∧
    st.u.toM 6 = circuitOp (pairOp ⟨0, 2, 3, 2⟩) st.decomp * (exchangeArr 6 0 5).toM 6 ∧
    NearOne (qrError 6 (1 / 100) (1 / 10) + 1 / 1000) (cexp (-I * mu) • (circuitOp (pairOp ⟨0, 2, 3, 2⟩) st.decomp * (exchangeArr 6 0 5).toM 6)) ∧
    entangling st.decomp = 2 * st.crots + 4 * st.pswaps ∧ 4 * st.crots + st.pswaps ≤ 120 :=
  C65_decomposition_partial (P := ⟨0, 2, 3, 2⟩) (by decide) (by decide) (by decide) (by norm_num) (by norm_num) _ (fun x => by norm_num) _
    (exchangeArr_unitary (0 : Fin 6) 5 (by decide))

/-- C65 with the constants of the code: eight digits for entries, four for phases, six for rounded angles. -/
theorem C65_code_constants (hq : P.q0 < P.q1) (hc : 2 ≤ P.c) (ht : 2 ≤ P.t) (rnd : ℝ → ℝ) (hrnd : ∀ x, |rnd x - x| ≤ 5e-7) (u : Arr2 ℂ)
    (hu : UnitaryArr u (P.c * P.t)) :
    ∃ (st : EState) (mu : ℝ), execute P 1e-8 1e-4 rnd u = .ok st ∧
      NearOne (qrError (P.c * P.t) 1e-8 1e-4 + 5e-7) (cexp (-I * mu) • (circuitOp (pairOp P) st.decomp * u.toM (P.c * P.t))) := by
  obtain ⟨st, mu, e1, _, _, e4, _, _⟩ := C65_decomposition_partial hq hc ht (eps := 1e-8) (del := 1e-4) (by norm_num) (by norm_num) rnd hrnd u hu
  exact ⟨st, mu, e1, e4⟩

example : ∃ (st : EState) (mu : ℝ), execute ⟨0, 1, 3, 3⟩ 1e-8 1e-4 (fun x => x) (exchangeArr 9 2 3) = .ok st ∧
    NearOne (qrError 9 1e-8 1e-4 + 5e-7) (cexp (-I * mu) • (circuitOp (pairOp ⟨0, 1, 3, 3⟩) st.decomp * (exchangeArr 9 2 3).toM 9)) :=
  C65_code_constants (P := ⟨0, 1, 3, 3⟩) (by decide) (by decide) (by decide) _ (fun x => by simp; norm_num) _
    (exchangeArr_unitary (2 : Fin 9) 3 (by decide))

/-- C65 fails for lines in the other order: the matrix that `execute` multiplies for a controlled rotation of two qubits does not depend
on the angle. For the angle 0 the gates of the block do nothing, but the matrix of `execute` flips the second qubit. -/
theorem C65_reversed_lines_violated (theta : ℝ) :
    ∃ l v, permuteCrot ⟨1, 0, 2, 2⟩ 2 theta (Real.pi / 2) = .ok l ∧
      circuitOp (pairOp ⟨1, 0, 2, 2⟩) l = twoLevel (2 : Fin 4) 3 (rot theta (Real.pi / 2)) ∧
      applySeq ⟨1, 0, 2, 2⟩ (Arr2.identity 4) l = .ok v ∧ v.toM 4 = onSecond 2 !![0, -I; I, 0] := by
  obtain ⟨l, v, e1, e2, e3⟩ := crot_reversed theta
  obtain ⟨l', f1, f2, _⟩ := C64_controlled_rotation (P := ⟨1, 0, 2, 2⟩) (by decide) (by decide) (by decide) (2 : Fin 4) (3 : Fin 4) rfl (by decide)
    theta (Real.pi / 2)
  have : permuteCrot ⟨1, 0, 2, 2⟩ 2 theta (Real.pi / 2) = .ok l := by
    unfold permuteCrot
    rw [e1]
    rfl
  have hl : l' = l := by
    have := f1.symm.trans this
    cases this
    rfl
  subst hl
  exact ⟨l', v, this, f2, e2, e3⟩

/-! ### C66 -/

/-- C66 for two qubits in circuit order: the translation of one gate is the gate, up to one global phase and the error of the thresholds.
Missing: other dimensions and the translation of whole circuits, where it fails. -/
theorem C66_log_gate_partial (hq : P.q0 < P.q1) (hc : P.c = 2) (ht : P.t = 2) (rnd : ℝ → ℝ) {rho : ℝ} (hrnd : ∀ x, |rnd x - x| ≤ rho)
    (u : Arr2 ℂ) (hu : UnitaryArr u (P.c * P.t)) :
    ∃ (l : List EGate) (mu : ℝ), logPassGate P rnd u = .ok l ∧ (∀ g ∈ l, Elementary P g) ∧
      Near ((P.c * P.t : Nat) * (qrError (P.c * P.t) 1e-8 1e-4 + rho)) (circuitOp (pairOp P) l) (cexp (-I * mu) • u.toM (P.c * P.t)) ∧
      circuitOp (pairOp P) l ∈ unitaryGroup (Fin (P.c * P.t)) ℂ := by
  obtain ⟨st, T, mu, e1, e2, e3, _, e5, _⟩ := EntQR.execute_ok (P := P) ⟨hq, hc.ge, ht.ge⟩ (eps := 1e-8) (del := 1e-4) (by norm_num) (by norm_num) rnd hrnd
    u hu.1 hu.2.1 hu.2.2
  refine ⟨revDag st.decomp, mu, ?_, ?_, ?_, ?_⟩
  · unfold logPassGate
    rw [e1]
    rfl
  · intro g hg
    simp only [revDag, List.mem_map, List.mem_reverse] at hg
    obtain ⟨g', h1, rfl⟩ := hg
    exact (good_dag _ (e2.good g' h1)).1
  · rw [EntQR.circuitOp_revDag _ (e2.plain hc ht) e2.good, e2.op]
    rw [← mul_smul_comm] at e5
    exact fun i j => near_inverse T _ e3 e5 i j
  · rw [EntQR.circuitOp_revDag _ (e2.plain hc ht) e2.good, e2.op]
    exact Unitary.star_mem e3

example : ∃ (l : List EGate) (mu : ℝ), logPassGate ⟨0, 1, 2, 2⟩ (fun x => x) (exchangeArr 4 1 2) = .ok l ∧
    (∀ g ∈ l, Elementary ⟨0, 1, 2, 2⟩ g) ∧
    Near ((4 : Nat) * (qrError 4 1e-8 1e-4 + 0)) (circuitOp (pairOp ⟨0, 1, 2, 2⟩) l) (cexp (-I * mu) • (exchangeArr 4 1 2).toM 4) ∧
    circuitOp (pairOp ⟨0, 1, 2, 2⟩) l ∈ unitaryGroup (Fin 4) ℂ :=
  C66_log_gate_partial (P := ⟨0, 1, 2, 2⟩) (by decide) rfl rfl _ (fun x => by simp) _ (exchangeArr_unitary (1 : Fin 4) 2 (by decide))

theorem far_of_entries {n : Nat} {A B : Matrix (Fin n) (Fin n) ℂ} (i j i' j' : Fin n) (h1 : A i j = 1) (h2 : B i j = 1) (h3 : A i' j' = -1)
    (h4 : B i' j' = 1) : ¬ ∃ z : ℂ, Near (1 / 2) A (z • B) := by
  rintro ⟨z, h⟩
  have a := h i j
  have b := h i' j'
  rw [Matrix.sub_apply, Matrix.smul_apply, h1, h2, smul_eq_mul, mul_one] at a
  rw [Matrix.sub_apply, Matrix.smul_apply, h3, h4, smul_eq_mul, mul_one] at b
  have : ‖(1 - z) - (-1 - z)‖ ≤ 1 / 2 + 1 / 2 := (norm_sub_le _ _).trans (add_le_add a b)
  rw [show (1 - z) - (-1 - z) = (2 : ℂ) by ring] at this
  norm_num at this

/-- C66 fails for a qubit and a qutrit: the marks of the gates that already are adjoints stay set, so the translation of an exchange of
two levels has a sign that the gate does not have. -/
theorem C66_marks_violated (rnd : ℝ → ℝ) (hrnd : rnd 0 = 0) :
    ∃ l, logPassGate ⟨0, 1, 2, 3⟩ rnd (exchangeArr 6 4 5) = .ok l ∧
      ¬ ∃ z : ℂ, Near (1 / 2) (circuitOp (pairOp ⟨0, 1, 2, 3⟩) l) (z • (exchangeArr 6 4 5).toM 6) := by
  obtain ⟨st, theta, phi, e1, e2, e3⟩ := execute_single (P := ⟨0, 1, 2, 3⟩) ⟨by decide, by decide, by decide⟩ (eps := 1e-8) (del := 1e-4)
    (by norm_num) (by norm_num) (by norm_num) rnd hrnd (4 : Fin 6) (5 : Fin 6) rfl (by decide) (exchangeArr 6 4 5) rfl rfl
    (exchangeArr_toM (4 : Fin 6) 5 (by decide))
  obtain ⟨lr, c1, c2⟩ := crot_ok (P := ⟨0, 1, 2, 3⟩) (by decide) (1 : Fin 2) (0 : Fin 3) (1 : Fin 3) rfl rfl rfl theta phi
  have c3 := crot_plain c1
  obtain ⟨p0, f1, f2⟩ := mkR_second (P := ⟨0, 1, 2, 3⟩) (by decide) (0 : Fin 3) (1 : Fin 3) (by decide) Real.pi (-Real.pi / 2)
  obtain ⟨p1, g1, g2⟩ := mkR_second (P := ⟨0, 1, 2, 3⟩) (by decide) (1 : Fin 3) (2 : Fin 3) (by decide) (-Real.pi) (Real.pi / 2)
  have hl : st.decomp = [p0, p1] ++ lr ++ [p1.dag, p0.dag] := by
    have : permuteCrot ⟨0, 1, 2, 3⟩ 4 theta phi = .ok ([p0, p1] ++ lr ++ [p1.dag, p0.dag]) := by
      unfold permuteCrot
      rw [c1]
      change (do
        let p0 ← mkR (1 : Int) 3 ((0 : Fin 3) : Nat) ((1 : Fin 3) : Nat) Real.pi (-Real.pi / 2)
        let p1 ← mkR (1 : Int) 3 ((1 : Fin 3) : Nat) ((2 : Fin 3) : Nat) (-Real.pi) (Real.pi / 2)
        pure ([p0, p1] ++ lr ++ [p1.dag, p0.dag])) = _
      rw [f1, g1]
      rfl
    exact Except.ok.inj (e3.symm.trans this)
  refine ⟨revDag st.decomp, ?_, ?_⟩
  · unfold logPassGate
    rw [e1]
    rfl
  have hrev : revDag st.decomp = ([p0.dag, p1.dag] ++ revDag lr) ++ [p1.dag, p0.dag] := by
    rw [hl, revDag_append, revDag_append]
    simp [revDag, dag_dag]
  rw [rot_swap] at f2
  rw [rot_swap'] at g2
  have hop : circuitOp (pairOp ⟨0, 1, 2, 3⟩) (revDag st.decomp) = ctlAll fun k : Fin 2 =>
      twoLevel (0 : Fin 3) 1 !![0, -1; 1, 0] * twoLevel (1 : Fin 3) 2 !![0, -1; 1, 0] *
        ((if k = 1 then twoLevel (0 : Fin 3) 1 !![0, -1; 1, 0] else 1) *
          (twoLevel (1 : Fin 3) 2 !![0, -1; 1, 0] * twoLevel (0 : Fin 3) 1 !![0, -1; 1, 0])) := by
    rw [hrev, circuitOp_append, circuitOp_append, EntQR.circuitOp_revDag lr c3 c2.good, c2.op, e2]
    simp only [circuitOp_cons, circuitOp_nil, one_mul]
    rw [pairOp_dag p0 f2.plain f2.good, pairOp_dag p1 g2.plain g2.good, f2.op, g2.op]
    rw [← ctl_twoLevel _ (1 : Fin 2) (show (0 : Fin 3) ≠ 1 by decide)]
    simp only [onSecond_eq, ctlAll_conjTranspose, ctlAll_mul]
    congr 1
    funext k
    rw [twoLevel_conjTranspose _ (by decide), twoLevel_conjTranspose _ (by decide), ← unswap_conj]
    split_ifs
    · rw [twoLevel_conjTranspose _ (by decide), ← unswap_conj]
    · rw [conjTranspose_one]
  have hU := exchangeArr_toM (4 : Fin 6) 5 (by decide)
  rw [hop]
  refine far_of_entries (0 : Fin 6) 0 5 4 ?_ ?_ ?_ ?_
  · show ctlAll _ (jn (0 : Fin 2) (0 : Fin 3)) (jn (0 : Fin 2) (0 : Fin 3)) = _
    rw [ctlAll_jn]
    simp [Matrix.mul_apply, Fin.sum_univ_three, twoLevel]
  · refine (congrFun (congrFun hU _) _).trans ?_; simp [twoLevel]
  · show ctlAll _ (jn (1 : Fin 2) (2 : Fin 3)) (jn (1 : Fin 2) (1 : Fin 3)) = _
    rw [ctlAll_jn]
    simp [Matrix.mul_apply, Fin.sum_univ_three, twoLevel]
  · refine (congrFun (congrFun hU _) _).trans ?_; simp [twoLevel]

/-- C66 fails for whole circuits, even of two qubits: the list of adjoints is reversed twice, so the translation of an exchange of two
levels is its adjoint. -/
theorem C66_circuit_violated (rnd : ℝ → ℝ) (hrnd : rnd 0 = 0) :
    ∃ l, logPassInCircuit ⟨0, 1, 2, 2⟩ rnd (exchangeArr 4 2 3) = .ok l ∧
      circuitOp (pairOp ⟨0, 1, 2, 2⟩) l = ((exchangeArr 4 2 3).toM 4)ᴴ ∧
      ¬ ∃ z : ℂ, Near (1 / 2) (circuitOp (pairOp ⟨0, 1, 2, 2⟩) l) (z • (exchangeArr 4 2 3).toM 4) := by
  obtain ⟨st, theta, phi, e1, e2, e3⟩ := execute_single (P := ⟨0, 1, 2, 2⟩) ⟨by decide, by decide, by decide⟩ (eps := 1e-8) (del := 1e-4)
    (by norm_num) (by norm_num) (by norm_num) rnd hrnd (2 : Fin 4) (3 : Fin 4) rfl (by decide) (exchangeArr 4 2 3) rfl rfl
    (exchangeArr_toM (2 : Fin 4) 3 (by decide))
  obtain ⟨ft, x, v, zm, zp, vb, fb, hl, gft, gx, ex, gv, gzm, gzp, gvb, gfb, _⟩ :=
    crot_gates (P := ⟨0, 1, 2, 2⟩) (by decide) (1 : Fin 2) (0 : Fin 2) (1 : Fin 2) rfl rfl rfl theta phi
  have hd : st.decomp = [ft, x, v, zm, x, zp, vb, fb] := by
    have : permuteCrot ⟨0, 1, 2, 2⟩ 2 theta phi = .ok [ft, x, v, zm, x, zp, vb, fb] := by
      unfold permuteCrot
      rw [hl]
      rfl
    exact Except.ok.inj (e3.symm.trans this)
  have hop : circuitOp (pairOp ⟨0, 1, 2, 2⟩) (revDag st.decomp).reverse = twoLevel (2 : Fin 4) 3 !![0, 1; -1, 0] := by
    rw [hd]
    simp only [revDag, List.reverse_cons, List.reverse_nil, List.nil_append, List.cons_append, List.map_cons, List.map_nil]
    simp only [circuitOp_cons, circuitOp_nil, one_mul]
    rw [pairOp_dag ft gft.plain gft.good, pairOp_dag x gx.plain gx.good, pairOp_dag v gv.plain gv.good, pairOp_dag zm gzm.plain gzm.good,
      pairOp_dag zp gzp.plain gzp.good, pairOp_dag vb gvb.plain gvb.good, pairOp_dag fb gfb.plain gfb.good,
      gft.op, gx.op, gv.op, gzm.op, gzp.op, gvb.op, gfb.op]
    have := core_dag (P := ⟨0, 1, 2, 2⟩) (1 : Fin 2) (0 : Fin 2) (1 : Fin 2) (by decide) theta phi
    rw [e2] at this
    simp only [mul_assoc]
    exact this
  have hU := exchangeArr_toM (2 : Fin 4) 3 (by decide)
  refine ⟨(revDag st.decomp).reverse, ?_, ?_, ?_⟩
  · unfold logPassInCircuit logPassGate
    rw [e1]
    rfl
  · rw [hop]
    refine Eq.trans ?_ (congrArg conjTranspose hU).symm
    rw [twoLevel_conjTranspose _ (by decide)]
    congr 1
    ext i j
    fin_cases i <;> fin_cases j <;> simp [Matrix.conjTranspose_apply]
  · rw [hop]
    rintro ⟨z, hz⟩
    refine far_of_entries (A := twoLevel (2 : Fin 4) 3 !![0, 1; -1, 0]) (0 : Fin 4) 0 3 2 ?_ ?_ ?_ ?_ ⟨z, hz⟩
    · simp [twoLevel]
    · refine (congrFun (congrFun hU _) _).trans ?_; simp [twoLevel]
    · simp [twoLevel]
    · refine (congrFun (congrFun hU _) _).trans ?_; simp [twoLevel]

/-! ### C67 -/

/-- C67 for a CEx whose two levels keep their order: the translated gate is the gate with its levels at their places. -/
theorem C67_cex_partial (f0 : Equiv.Perm (Fin P.c)) (f1 : Equiv.Perm (Fin P.t)) (a b : Fin P.t) (hab : a < b) (k : Fin P.c) (phi : ℝ)
    (h1 : 0 ≤ phi) (h2 : phi ≤ 2 * Real.pi) (hlt : f1 a < f1 b) :
    ∃ h, phyCEx P (placementList f0) (placementList f1) ⟨(a : Nat), (b : Nat), (k : Nat), phi⟩ false = .ok h ∧
      (pairOp P h).submatrix (pairPlace f0 f1) (pairPlace f0 f1) =
        pairOp P (.cex ⟨(a : Nat), (b : Nat), (k : Nat), phi⟩ P.q0 P.q1 P.c P.t false) := by
  refine ⟨_, phyCEx_up f0 f1 a b k phi false h1 h2 hlt, ?_⟩
  rw [pairOp_cex (f1 a) (f1 b) hlt _ rfl rfl (f0 k) rfl, pairOp_cex a b hab _ rfl rfl k rfl]
  refine pair_ext fun x y x' y' => ?_
  rw [Matrix.submatrix_apply, pairPlace_jn, pairPlace_jn, ctlAll_jn, ctlAll_jn]
  simp only [f0.injective.eq_iff]
  split_ifs
  · exact twoLevel_relabel f1 a b y y' _
  · simp [Matrix.one_apply, f1.injective.eq_iff]
  · rfl

example : ∃ h, phyCEx ⟨0, 1, 2, 3⟩ (placementList (Equiv.swap (0 : Fin 2) 1)) (placementList (Equiv.swap (1 : Fin 3) 2)) ⟨0, 1, 1, 1⟩ false = .ok h ∧
    (pairOp ⟨0, 1, 2, 3⟩ h).submatrix (pairPlace (Equiv.swap (0 : Fin 2) 1) (Equiv.swap (1 : Fin 3) 2))
      (pairPlace (Equiv.swap (0 : Fin 2) 1) (Equiv.swap (1 : Fin 3) 2)) = pairOp ⟨0, 1, 2, 3⟩ (.cex ⟨0, 1, 1, 1⟩ 0 1 2 3 false) :=
  C67_cex_partial (P := ⟨0, 1, 2, 3⟩) (Equiv.swap (0 : Fin 2) 1) (Equiv.swap (1 : Fin 3) 2) 0 1 (by decide) 1 1 (by norm_num)
    (by linarith [Real.pi_gt_three]) (by decide)

/-- C67 for a CEx whose two levels change their order: the translated gate is the gate with the opposite phase, its levels at their
places. -/
theorem C67_cex_reordered (f0 : Equiv.Perm (Fin P.c)) (f1 : Equiv.Perm (Fin P.t)) (a b : Fin P.t) (hab : a < b) (k : Fin P.c) (phi : ℝ)
    (h1 : 0 ≤ phi) (h2 : phi ≤ 2 * Real.pi) (hlt : f1 b < f1 a) :
    ∃ h, phyCEx P (placementList f0) (placementList f1) ⟨(a : Nat), (b : Nat), (k : Nat), phi⟩ false = .ok h ∧
      (pairOp P h).submatrix (pairPlace f0 f1) (pairPlace f0 f1) =
        pairOp P (.cex ⟨(a : Nat), (b : Nat), (k : Nat), -phi⟩ P.q0 P.q1 P.c P.t false) := by
  refine ⟨_, phyCEx_down f0 f1 a b k phi false h1 h2 hlt, ?_⟩
  rw [pairOp_cex (f1 b) (f1 a) hlt _ rfl rfl (f0 k) rfl, pairOp_cex a b hab _ rfl rfl k rfl]
  refine pair_ext fun x y x' y' => ?_
  rw [Matrix.submatrix_apply, pairPlace_jn, pairPlace_jn, ctlAll_jn, ctlAll_jn]
  simp only [f0.injective.eq_iff]
  split_ifs
  · exact twoLevel_relabel' f1 a b y y' hab.ne _
  · simp [Matrix.one_apply, f1.injective.eq_iff]
  · rfl

example : ∃ h, phyCEx ⟨0, 1, 2, 3⟩ (placementList (1 : Equiv.Perm (Fin 2))) (placementList (Equiv.swap (0 : Fin 3) 2)) ⟨0, 1, 1, 1⟩ false = .ok h ∧
    (pairOp ⟨0, 1, 2, 3⟩ h).submatrix (pairPlace (1 : Equiv.Perm (Fin 2)) (Equiv.swap (0 : Fin 3) 2))
      (pairPlace (1 : Equiv.Perm (Fin 2)) (Equiv.swap (0 : Fin 3) 2)) = pairOp ⟨0, 1, 2, 3⟩ (.cex ⟨0, 1, 1, -1⟩ 0 1 2 3 false) :=
  C67_cex_reordered (P := ⟨0, 1, 2, 3⟩) (1 : Equiv.Perm (Fin 2)) (Equiv.swap (0 : Fin 3) 2) 0 1 (by decide) 1 1 (by norm_num)
    (by linarith [Real.pi_gt_three]) (by decide)

/-- C67 fails if the levels change their order: the phase π/2 on two qubits with the levels of the second exchanged. -/
theorem C67_phase_violated :
    ∃ h, phyCEx ⟨0, 1, 2, 2⟩ (placementList (1 : Equiv.Perm (Fin 2))) (placementList (Equiv.swap (0 : Fin 2) 1)) ⟨0, 1, 1, Real.pi / 2⟩ false = .ok h ∧
      ¬ ∃ z : ℂ, Near (1 / 2) ((pairOp ⟨0, 1, 2, 2⟩ h).submatrix (pairPlace (1 : Equiv.Perm (Fin 2)) (Equiv.swap (0 : Fin 2) 1))
          (pairPlace (1 : Equiv.Perm (Fin 2)) (Equiv.swap (0 : Fin 2) 1)))
        (z • pairOp ⟨0, 1, 2, 2⟩ (.cex ⟨0, 1, 1, Real.pi / 2⟩ 0 1 2 2 false)) := by
  obtain ⟨h, e1, e2⟩ := C67_cex_reordered (P := ⟨0, 1, 2, 2⟩) (1 : Equiv.Perm (Fin 2)) (Equiv.swap (0 : Fin 2) 1) 0 1 (by decide) 1 (Real.pi / 2)
    (by positivity) (by linarith [Real.pi_pos]) (by decide)
  refine ⟨h, e1, ?_⟩
  have h1 := pairOp_cex (P := ⟨0, 1, 2, 2⟩) (0 : Fin 2) (1 : Fin 2) (by decide) ⟨0, 1, 1, -(Real.pi / 2)⟩ rfl rfl (1 : Fin 2) rfl 0 1 2 2
  have h2 := pairOp_cex (P := ⟨0, 1, 2, 2⟩) (0 : Fin 2) (1 : Fin 2) (by decide) ⟨0, 1, 1, Real.pi / 2⟩ rfl rfl (1 : Fin 2) rfl 0 1 2 2
  have hm := e2.trans h1
  have c1 := cexp_pi_half
  have c2 := cexp_neg_pi_half
  have c3 : cexp (I * ((-(Real.pi / 2) : ℝ) : ℂ)) = -I := by
    rw [show I * ((-(Real.pi / 2) : ℝ) : ℂ) = -(I * ((Real.pi / 2 : ℝ) : ℂ)) by push_cast; ring]; exact c2
  refine far_of_entries (jn (0 : Fin 2) (0 : Fin 2)) (jn 0 0) (jn (1 : Fin 2) (1 : Fin 2)) (jn 1 0) ?_ ?_ ?_ ?_
  · refine (congrFun (congrFun hm _) _).trans ?_
    rw [ctlAll_jn]; simp
  · refine (congrFun (congrFun h2 _) _).trans ?_
    rw [ctlAll_jn]; simp
  · refine (congrFun (congrFun hm _) _).trans ?_
    rw [ctlAll_jn]
    simp only [if_true, twoLevel_two, cexOp]
    simp only [Matrix.of_apply, Matrix.cons_val_one, Matrix.cons_val_zero, Matrix.cons_val', Matrix.cons_val_fin_one]
    rw [c3]
    linear_combination I_mul_I
  · refine (congrFun (congrFun h2 _) _).trans ?_
    rw [ctlAll_jn]
    simp only [if_true, twoLevel_two, cexOp]
    simp only [Matrix.of_apply, Matrix.cons_val_one, Matrix.cons_val_zero, Matrix.cons_val', Matrix.cons_val_fin_one]
    rw [c1]
    linear_combination -I_mul_I

/-- C67 fails for a marked CEx: the translated gate is not marked. -/
theorem C67_mark_violated :
    ∃ h, phyCEx ⟨0, 1, 2, 2⟩ (placementList (1 : Equiv.Perm (Fin 2))) (placementList (1 : Equiv.Perm (Fin 2))) ⟨0, 1, 1, 0⟩ true = .ok h ∧
      pairOp ⟨0, 1, 2, 2⟩ h = (pairOp ⟨0, 1, 2, 2⟩ (.cex ⟨0, 1, 1, 0⟩ 0 1 2 2 true))ᴴ ∧
      ∀ z : ℂ, pairOp ⟨0, 1, 2, 2⟩ h ≠ z • pairOp ⟨0, 1, 2, 2⟩ (.cex ⟨0, 1, 1, 0⟩ 0 1 2 2 true) := by
  have h1 := pairOp_cex (P := ⟨0, 1, 2, 2⟩) (0 : Fin 2) (1 : Fin 2) (by decide) ⟨0, 1, 1, 0⟩ rfl rfl (1 : Fin 2) rfl 0 1 2 2
  have h2 : pairOp ⟨0, 1, 2, 2⟩ (.cex ⟨0, 1, 1, 0⟩ 0 1 2 2 true) = (pairOp ⟨0, 1, 2, 2⟩ (.cex ⟨0, 1, 1, 0⟩ 0 1 2 2 false))ᴴ :=
    pairOp_dag (P := ⟨0, 1, 2, 2⟩) (.cex ⟨0, 1, 1, 0⟩ 0 1 2 2 false) rfl ⟨⟨rfl, rfl, rfl, rfl, rfl⟩, trivial⟩
  refine ⟨_, phyCEx_up (P := ⟨0, 1, 2, 2⟩) (1 : Equiv.Perm (Fin 2)) (1 : Equiv.Perm (Fin 2)) 0 1 1 0 true le_rfl (by positivity) (by decide), ?_, ?_⟩
  · rw [h2, conjTranspose_conjTranspose]
    rfl
  · intro z hz
    have hz' : pairOp ⟨0, 1, 2, 2⟩ (.cex ⟨0, 1, 1, 0⟩ 0 1 2 2 false) = z • (pairOp ⟨0, 1, 2, 2⟩ (.cex ⟨0, 1, 1, 0⟩ 0 1 2 2 false))ᴴ := by
      rw [← h2]; exact hz
    rw [h1, ctlAll_conjTranspose] at hz'
    have a := congrFun (congrFun hz' (jn (0 : Fin 2) (0 : Fin 2))) (jn (0 : Fin 2) (0 : Fin 2))
    have b := congrFun (congrFun hz' (jn (1 : Fin 2) (1 : Fin 2))) (jn (1 : Fin 2) (0 : Fin 2))
    rw [Matrix.smul_apply, ctlAll_jn, ctlAll_jn] at a b
    simp [twoLevel_two, cexOp] at a b
    rw [← a] at b
    have := congrArg Complex.im b
    norm_num at this

/-- C67 fails for other gates on two lines: the placement of the levels is ignored. With the levels of the first qubit exchanged, the
translation of an exchange is the exchange itself, not the exchange with its levels at their places. -/
theorem C67_placement_violated (rnd : ℝ → ℝ) (hrnd : rnd 0 = 0) :
    ∃ l, phyOther ⟨0, 1, 2, 2⟩ (placementList (Equiv.swap (0 : Fin 2) 1)) (placementList (1 : Equiv.Perm (Fin 2))) rnd (exchangeArr 4 2 3) = .ok l ∧
      circuitOp (pairOp ⟨0, 1, 2, 2⟩) l = (exchangeArr 4 2 3).toM 4 ∧
      ¬ ∃ z : ℂ, Near (1 / 2) ((circuitOp (pairOp ⟨0, 1, 2, 2⟩) l).submatrix (pairPlace (Equiv.swap (0 : Fin 2) 1) (1 : Equiv.Perm (Fin 2)))
          (pairPlace (Equiv.swap (0 : Fin 2) 1) (1 : Equiv.Perm (Fin 2)))) (z • (exchangeArr 4 2 3).toM 4) := by
  have hU := exchangeArr_toM (2 : Fin 4) 3 (by decide)
  obtain ⟨st, theta, phi, e1, e2, e3⟩ := execute_single (P := ⟨0, 1, 2, 2⟩) ⟨by decide, by decide, by decide⟩ (eps := 1e-8) (del := 1e-4)
    (by norm_num) (by norm_num) (by norm_num) rnd hrnd (2 : Fin 4) (3 : Fin 4) rfl (by decide) (exchangeArr 4 2 3) rfl rfl hU
  obtain ⟨l, c1, c2⟩ := crot_ok (P := ⟨0, 1, 2, 2⟩) (by decide) (1 : Fin 2) (0 : Fin 2) (1 : Fin 2) rfl rfl rfl theta phi
  have hd : st.decomp = l := by
    have : permuteCrot ⟨0, 1, 2, 2⟩ 2 theta phi = .ok l := by
      unfold permuteCrot
      rw [c1]
      rfl
    exact Except.ok.inj (e3.symm.trans this)
  have hop : circuitOp (pairOp ⟨0, 1, 2, 2⟩) (revDag st.decomp) = twoLevel (2 : Fin 4) 3 !![0, -1; 1, 0] := by
    rw [hd, EntQR.circuitOp_revDag l (crot_plain c1) c2.good, c2.op, e2, unswap_conj]
    exact twoLevel_conjTranspose _ (by decide)
  refine ⟨revDag st.decomp, ?_, hop.trans hU.symm, ?_⟩
  · unfold phyOther
    rw [e1]
    rfl
  · rintro ⟨z, hz⟩
    have h := hz (jn (0 : Fin 2) (0 : Fin 2)) (jn (0 : Fin 2) (1 : Fin 2))
    rw [Matrix.sub_apply, Matrix.submatrix_apply, pairPlace_jn, pairPlace_jn, hop, Matrix.smul_apply] at h
    have h1 : (exchangeArr 4 2 3).toM 4 (jn (0 : Fin 2) (0 : Fin 2)) (jn (0 : Fin 2) (1 : Fin 2)) = 0 := by
      refine (congrFun (congrFun hU _) _).trans ?_
      show twoLevel (2 : Fin 4) 3 _ 0 1 = 0
      simp [twoLevel]
    have h2 : twoLevel (2 : Fin 4) 3 !![0, -1; 1, 0] (jn ((Equiv.swap (0 : Fin 2) 1) 0) ((1 : Equiv.Perm (Fin 2)) 0))
        (jn ((Equiv.swap (0 : Fin 2) 1) 0) ((1 : Equiv.Perm (Fin 2)) 1)) = (-1 : ℂ) := by
      show twoLevel (2 : Fin 4) 3 _ 2 3 = _
      simp [twoLevel]
    rw [h1, smul_zero, sub_zero] at h
    have h3 := congrArg norm h2
    rw [norm_neg, norm_one] at h3
    have : ‖twoLevel (2 : Fin 4) 3 !![0, -1; 1, 0] (jn ((Equiv.swap (0 : Fin 2) 1) 0) ((1 : Equiv.Perm (Fin 2)) 0))
        (jn ((Equiv.swap (0 : Fin 2) 1) 0) ((1 : Equiv.Perm (Fin 2)) 1))‖ ≤ 1 / 2 := h
    rw [h3] at this
    norm_num at this

end Qudits
