import Verif.Lemmas.Ansatz
import Verif.Props.VarSearchProps
import Mathlib.Data.Fin.VecNotation
import Mathlib.Tactic.FinCases

/-
Property C45: the matrix that is optimised and the circuit that is emitted for the same parameters.
-/
namespace Qudits
open Variational Spec Matrix

/-- A gate without controls on both lines of a two-line circuit, not daggered, with an array of the right shape. -/
def PairGate (d : Fin 2 → Nat) (u : AGate) : Prop :=
  u.gate.dims = [d 0, d 1] ∧ u.gate.target = .many [0, 1] ∧ u.gate.controls = none ∧ u.gate.dagger = false ∧
    u.arr.rows = d 0 * d 1 ∧ u.arr.cols = d 0 * d 1

namespace Variational

theorem pairGate_op (d : Fin 2 → Nat) (u : AGate) (h : PairGate d u) : HasOperator d u.gate u.arr (regM d u.arr) := by
  obtain ⟨h1, h2, h3, h4, h5, h6⟩ := h
  obtain ⟨A, a1, a2, a3, a4⟩ := pair_register d u.gate 0 1 (by decide) u.arr (by rw [h1]; simp) (by rw [h2]; simp) h3 h4 h5 h6
  refine ⟨A, a1, a2, a3, fun x y => ?_⟩
  rw [a4, if_pos (by intro i h0 h1; fin_cases i <;> simp at h0 h1), if_pos (by decide)]
  have hi : ∀ z : Reg d, idx d z = (z 0 : Nat) * d 1 + z 1 := by
    intro z; simp [idx, index]
  rw [regM, hi, hi]

/-- the gate and the array of a layer belong together -/
theorem layer_ok (d : Fin 2 → Nat) (hd : ∀ i, 2 ≤ d i) (t : AnsatzType) (ht : t ≠ .other) (custom : Option AGate)
    (hcu : t = .cu → ∃ u, custom = some u ∧ PairGate d u) :
    ∃ u, layerArray t (custom.map AGate.arr) (d 0) (d 1) = .ok (some u.arr) ∧
      layerGate t [d 0, d 1] custom (d 0) (d 1) = .ok (some u) ∧ PairGate d u := by
  have hpi : 0 < Real.pi := Real.pi_pos
  cases t with
  | cu =>
    obtain ⟨u, rfl, hu⟩ := hcu rfl
    exact ⟨u, rfl, rfl, hu⟩
  | ms =>
    obtain ⟨m, m1, m2, m3, _⟩ := msArray_ok (d 0) (d 1) (hd 0) (hd 1) (Real.pi / 2)
    have ha : angleInit (Real.pi / 2) = .ok (Real.pi / 2) := by
      unfold angleInit; rw [if_pos ⟨by positivity, by linarith⟩]
    refine ⟨⟨⟨[d 0, d 1], "MS", .two, .many [0, 1], none, false, false⟩, m⟩, ?_, ?_, rfl, rfl, rfl, rfl, m2, m3⟩
    · simp [layerArray, ha, m1, bind, Except.bind, pure, Except.pure]
    · simp [layerGate, ha, m1, init_pair, bind, Except.bind, pure, Except.pure]
  | ls =>
    obtain ⟨m, m1, m2, m3, _⟩ := lsArray_ok (d 0) (d 1) (lsAngle [d 0, d 1])
    have ha : angleInit (lsAngle [d 0, d 1]) = .ok (lsAngle [d 0, d 1]) := by
      unfold angleInit
      rw [if_pos]
      unfold lsAngle
      split_ifs <;> constructor <;> first | positivity | linarith
    refine ⟨⟨⟨[d 0, d 1], "LS", .two, .many [0, 1], none, false, false⟩, m⟩, ?_, ?_, rfl, rfl, rfl, rfl, m2, m3⟩
    · simp [layerArray, ha, m1, bind, Except.bind, pure, Except.pure]
    · simp [layerGate, ha, m1, init_pair, bind, Except.bind, pure, Except.pure]
  | other => exact absurd rfl ht

/-- matrix and circuit for given chunks -/
theorem instance_ok (d : Fin 2 → Nat) (hd : ∀ i, 2 ≤ d i) (t : AnsatzType) (ht : t ≠ .other) (custom : Option AGate)
    (hcu : t = .cu → ∃ u, custom = some u ∧ PairGate d u) (k : Nat) (chunks : List (List ℝ))
    (hl : chunks.map List.length = (List.replicate k [d 0 ^ 2 - 1, d 1 ^ 2 - 1]).flatten) :
    ∃ u A gates, layerArray t (custom.map AGate.arr) (d 0) (d 1) = .ok (some u) ∧
      ansatzMatrix t (custom.map AGate.arr) (d 0) (d 1) chunks.flatten = .ok A ∧
      createInstance t [d 0, d 1] custom (d 0) (d 1) chunks.flatten = .ok gates ∧
      A.rows = ∏ i, d i ∧ A.cols = ∏ i, d i ∧
      List.Forall₂ (fun (g : AGate) M => HasOperator d g.gate g.arr M) gates (opsFrom d (regM d u) 0 chunks) ∧
      regM d A = (opsFrom d (regM d u) 0 chunks).prod := by
  obtain ⟨u, l1, l2, hu⟩ := layer_ok d hd t ht custom hcu
  have hpos : 0 < (d 0 ^ 2 - 1) + (d 1 ^ 2 - 1) := by
    have : 2 ^ 2 ≤ d 0 ^ 2 := Nat.pow_le_pow_left (hd 0) 2
    omega
  have hsplit := (C43_split (d 0) (d 1) hpos chunks.flatten chunks).2 ⟨k, rfl, hl⟩
  obtain ⟨s, s1, s2, s3, s4⟩ := start_ok d
  have hprod : ∏ i, d i = d 0 * d 1 := by simp [Fin.prod_univ_two]
  obtain ⟨k', A, gates, r1, r2, r3, r4, r5, r6⟩ := ansatz_loops d u (regM d u.arr) (by rw [hu.2.2.2.2.1, hprod])
    (by rw [hu.2.2.2.2.2, hprod]) rfl (pairGate_op d u hu) chunks 0 (by omega) (good_of_lengths d k chunks hl).1 s [] [] s2 s3 .nil
    (by rw [s4]; rfl)
  refine ⟨u.arr, A, gates, l1, ?_, ?_, r3, r4, by simpa using r5, by simpa using r6⟩
  · simp only [ansatzMatrix, hsplit, l1, prepareAnsatz, dimAt, bind, Except.bind, pure, Except.pure, List.getElem?_cons_zero, s1, r1]
  · simp only [createInstance, hsplit, l2, ansatzDecompose, bind, Except.bind, pure, Except.pure, r2]

theorem phasePair_zero (d a b : Nat) : phasePair d a b 0 = 1 := by
  ext r c
  simp [phasePair, Matrix.one_apply]

theorem planeTurn_zero (d a b : Nat) : planeTurn d a b 0 = 1 := by
  ext r c
  simp only [planeTurn, Matrix.one_apply, Real.cos_zero, Real.sin_zero, Complex.ofReal_one, Complex.ofReal_zero, neg_zero, Fin.ext_iff]
  split_ifs <;> first | rfl | omega

theorem sud_two (p : Nat → Nat → ℝ) :
    sudMatrix 2 p = phasePair 2 0 1 (p 0 0) * (phasePair 2 0 1 (p 1 0) * planeTurn 2 0 1 (p 0 1)) := by
  simp [sudMatrix, levelPairs, List.range_succ, List.range'_succ]

theorem embed1_one_reg {n : Nat} (d : Fin n → Nat) (q : Fin n) : embed1 (X := LvOf d) q (1 : Matrix (Fin (d q)) (Fin (d q)) ℂ) = 1 := by
  ext x y
  simp only [embed1, Matrix.one_apply]
  by_cases h : x = y
  · subst h; simp
  · rw [if_neg h]
    split_ifs with h1 h2
    · exfalso
      apply h
      funext i
      by_cases hi : i = q
      · subst hi; exact h2
      · exact h1 i hi
    · rfl
    · rfl

theorem hasOperator_unique {n : Nat} (d : Fin n → Nat) (g : Gate) (arr : Arr2 ℂ) (M N : Matrix (Reg d) (Reg d) ℂ)
    (h1 : HasOperator d g arr M) (h2 : HasOperator d g arr N) : M = N := by
  obtain ⟨A, a1, _, _, a4⟩ := h1
  obtain ⟨B, b1, _, _, b4⟩ := h2
  rw [a1] at b1
  cases b1
  ext x y
  rw [← a4, b4]

theorem operators_unique {n : Nat} (d : Fin n → Nat) : ∀ (l : List AGate) (Ms Ns : List (Matrix (Reg d) (Reg d) ℂ)),
    List.Forall₂ (fun (g : AGate) M => HasOperator d g.gate g.arr M) l Ms →
    List.Forall₂ (fun (g : AGate) M => HasOperator d g.gate g.arr M) l Ns → Ms = Ns
  | [], _, _, .nil, .nil => rfl
  | _ :: l, _, _, .cons a1 a2, .cons b1 b2 => by
    rw [hasOperator_unique d _ _ _ _ a1 b1, operators_unique d l _ _ a2 b2]

end Variational

/-- C45 (partial): for every ansatz, all dimensions and every parameter vector of `k` blocks, both functions succeed, and the
optimised matrix is the product of the operators of the emitted gates *from left to right*. It is the operator of the emitted
circuit when there is at most one block. Missing: equality with the operator of the circuit for more blocks, where the last gate
comes first in the product; this fails, see `C45_order_violated`. -/
theorem C45_reversed_partial (d : Fin 2 → Nat) (hd : ∀ i, 2 ≤ d i) (t : AnsatzType) (ht : t ≠ .other) (custom : Option AGate)
    (hcu : t = .cu → ∃ u, custom = some u ∧ PairGate d u) (k : Nat) (p : List ℝ)
    (hp : p.length = k * ((d 0 ^ 2 - 1) + (d 1 ^ 2 - 1))) :
    ∃ A gates Ms, ansatzMatrix t (custom.map AGate.arr) (d 0) (d 1) p = .ok A ∧
      createInstance t [d 0, d 1] custom (d 0) (d 1) p = .ok gates ∧
      List.Forall₂ (fun (g : AGate) M => HasOperator d g.gate g.arr M) gates Ms ∧
      gates.length = 3 * k - 1 ∧
      A.rows = ∏ i, d i ∧ A.cols = ∏ i, d i ∧
      (∀ x y, A.at' (idx d x) (idx d y) = Ms.prod x y) ∧
      (k ≤ 1 → ∀ x y, A.at' (idx d x) (idx d y) = Ms.reverse.prod x y) := by
  have hs := chunks_spec (d 0 ^ 2 - 1) (d 1 ^ 2 - 1) k p hp
  set chunks := (List.range k).flatMap _ with hch
  obtain ⟨u, A, gates, h1, h2, h3, h4, h5, h6, h7⟩ := instance_ok d hd t ht custom hcu k chunks hs.2
  rw [hs.1] at h2 h3
  have hlen : ∀ (k : Nat) (ch : List (List ℝ)), ch.length = 2 * k →
      (opsFrom d (regM d u) 2 ch).length = 3 * k ∧ (opsFrom d (regM d u) 0 ch).length = 3 * k - 1 := by
    intro k
    induction k with
    | zero =>
      intro ch h
      have : ch = [] := by simpa using h
      subst this; simp [opsFrom]
    | succ k ih =>
      intro ch h
      match ch, h with
      | a :: b :: ch, h =>
        have := ih ch (by simp at h; omega)
        simp only [opsFrom, if_true, List.length_cons, Nat.reduceAdd, OfNat.one_ne_ofNat, if_false,
          OfNat.zero_ne_ofNat, Nat.zero_add, this.1]
        omega
  have hcl : chunks.length = 2 * k := by
    have := congrArg List.length hs.2
    simpa [Nat.mul_comm] using this
  refine ⟨A, gates, _, h2, h3, h6, ?_, h4, h5, fun x y => by rw [← h7]; rfl, ?_⟩
  · rw [h6.length_eq, (hlen k chunks hcl).2]
  · intro hk x y
    have e : A.at' (idx d x) (idx d y) = regM d A x y := rfl
    rw [e, h7]
    congr 1
    match k, hk, chunks, hcl with
    | 0, _, [], _ => rfl
    | 1, _, [a, b], _ =>
      simp only [opsFrom, OfNat.zero_ne_ofNat, if_false, Nat.zero_add, OfNat.one_ne_ofNat, List.reverse_cons, List.reverse_nil,
        List.nil_append, List.cons_append, List.prod_cons, List.prod_nil, mul_one, localOp, if_true, Nat.one_ne_zero]
      exact congrFun (congrFun (embed1_commute (α := ℂ) (X := LvOf d) 0 1 (by decide) _ _) x) y

/-- the products of the operators in both orders for a rotation behind a light-shift gate -/
theorem Variational.order_witness (u : Arr2 ℂ)
    (m4 : ∀ r c, r < 2 * 2 → c < 2 * 2 → u.at' r c =
      if r = c then Complex.exp (if c / 2 = c % 2 then -Complex.I * (Real.pi / 2 : ℝ) else 0) else 0) :
    ¬ ∃ c : ℂ, ∀ x y : Reg (fun _ : Fin 2 => 2),
      (opsFrom (fun _ : Fin 2 => 2) (regM _ u) 0 [[0, 0, 0], [0, 0, 0], [0, Real.pi / 2, 0], [0, 0, 0]]).prod x y =
      c * (opsFrom (fun _ : Fin 2 => 2) (regM _ u) 0 [[0, 0, 0], [0, 0, 0], [0, Real.pi / 2, 0], [0, 0, 0]]).reverse.prod x y := by
  rintro ⟨c, hc⟩
  have hone : ∀ k, localOp (fun _ : Fin 2 => 2) k [0, 0, 0] = 1 := by
    intro k
    have hs : (sudMatrix 2 fun r c => ([0, 0, 0] : List ℝ).getD (r * 2 + c) 0) = 1 := by
      rw [sud_two]
      simp [phasePair_zero, planeTurn_zero]
    unfold localOp
    split_ifs
    · rw [hs]; exact embed1_one_reg _ 0
    · rw [hs]; exact embed1_one_reg _ 1
  have hR : localOp (fun _ : Fin 2 => 2) 0 [0, Real.pi / 2, 0] =
      embed1 (X := LvOf fun _ : Fin 2 => 2) 0 (planeTurn 2 0 1 (Real.pi / 2)) := by
    unfold localOp
    rw [if_pos rfl, sud_two]
    simp [phasePair_zero]
  have hU : regM (fun _ : Fin 2 => 2) u = diagonal fun x => Complex.exp (if (x 0).1 = (x 1).1 then -Complex.I * (Real.pi / 2 : ℝ) else 0) := by
    ext x y
    have hi : ∀ z : Reg (fun _ : Fin 2 => 2), idx _ z = (z 0 : Nat) * 2 + z 1 := by
      intro z; simp [idx, index]
    have hlt : ∀ z : Reg (fun _ : Fin 2 => 2), (z 0 : Nat) * 2 + z 1 < 2 * 2 := by
      intro z; have := (z 0).2; have := (z 1).2; simp only at *; omega
    rw [regM, hi, hi, m4 _ _ (hlt x) (hlt y), diagonal_apply]
    have e1 : ∀ z : Reg (fun _ : Fin 2 => 2), ((z 0 : Nat) * 2 + z 1) / 2 = z 0 ∧ ((z 0 : Nat) * 2 + z 1) % 2 = z 1 := by
      intro z; have := (z 1).2; simp only at *; omega
    by_cases hxy : x = y
    · subst hxy
      rw [if_pos rfl, if_pos rfl, (e1 x).1, (e1 x).2]
    · rw [if_neg hxy, if_neg]
      intro h
      apply hxy
      apply idx_injective
      rw [hi, hi, h]
  have hops : opsFrom (fun _ : Fin 2 => 2) (regM _ u) 0 [[0, 0, 0], [0, 0, 0], [0, Real.pi / 2, 0], [0, 0, 0]] =
      [1, 1, regM _ u, embed1 (X := LvOf fun _ : Fin 2 => 2) 0 (planeTurn 2 0 1 (Real.pi / 2)), 1] := by
    simp only [opsFrom, OfNat.zero_ne_ofNat, if_false, Nat.zero_add, OfNat.one_ne_ofNat, Nat.reduceAdd, if_true, hone, hR]
  rw [hops] at hc
  simp only [List.reverse_cons, List.reverse_nil, List.nil_append, List.cons_append, List.prod_cons, List.prod_nil, mul_one, one_mul,
    hU, diagonal_mul, mul_diagonal] at hc
  have c1 := hc ![0, 0] ![1, 0]
  have c2 := hc ![1, 0] ![0, 0]
  have hexp : Complex.exp (-(Complex.I * (Real.pi / 2))) = -Complex.I := by
    rw [mul_comm, Complex.exp_neg, Complex.exp_pi_div_two_mul_I, Complex.inv_I]
  simp [embed1, planeTurn, Fin.forall_fin_two] at c1 c2
  rw [hexp] at c1 c2
  rw [← c1, neg_mul_neg, Complex.I_mul_I] at c2
  norm_num at c2

/-- C45 does not hold: for the light-shift ansatz on two qubits there are parameters for which the operator of the emitted circuit
is not the optimised matrix, not even up to a global phase. -/
theorem C45_order_violated :
    ∃ p A gates, ansatzMatrix .ls none 2 2 p = .ok A ∧ createInstance .ls [2, 2] none 2 2 p = .ok gates ∧
      ∃ Ms, List.Forall₂ (fun (g : AGate) M => HasOperator (fun _ : Fin 2 => 2) g.gate g.arr M) gates Ms ∧
        ¬ ∃ c : ℂ, ∀ x y : Reg (fun _ : Fin 2 => 2), A.at' (idx _ x) (idx _ y) = c * Ms.reverse.prod x y := by
  obtain ⟨u, A, gates, h1, h2, h3, h4, h5, h6, h7⟩ := instance_ok (fun _ : Fin 2 => 2) (fun _ => le_refl 2) .ls (by decide) none
    (by simp) 2 [[0, 0, 0], [0, 0, 0], [0, Real.pi / 2, 0], [0, 0, 0]] (by simp [List.replicate])
  refine ⟨_, A, gates, h2, h3, _, h6, ?_⟩
  have hA : ∀ x y, A.at' (idx _ x) (idx _ y) = regM (fun _ : Fin 2 => 2) A x y := fun _ _ => rfl
  obtain ⟨m, m1, m2, m3, m4⟩ := lsArray_ok 2 2 (Real.pi / 2)
  have hu : u = m := by
    have hpi := Real.pi_pos
    have ha : angleInit (Real.pi / 2) = .ok (Real.pi / 2) := by
      unfold angleInit; rw [if_pos ⟨by positivity, by linarith⟩]
    have hls : lsAngle [2, 2] = Real.pi / 2 := by simp [lsAngle]
    simp only [layerArray, hls, ha, m1, bind, Except.bind, pure, Except.pure] at h1
    exact (Option.some.inj (Except.ok.inj h1)).symm
  subst hu
  rintro ⟨c, hc⟩
  refine order_witness u m4 ⟨c, fun x y => ?_⟩
  rw [← h7, ← hA]
  exact hc x y

/-- C45 (lines): whatever two lines `q0`, `q1` of a circuit the target is on, and whatever the optimiser finds, all gates emitted
by the Mølmer–Sørensen and light-shift ansatz sit on the lines 0 and 1 of the circuit. For targets on other lines the emitted
circuit therefore does not implement the target. -/
theorem C45_lines_violated (cdims : List Nat) (q0 q1 : Nat) (tol : ℝ) (t : AnsatzType) (ht : t = .ms ∨ t = .ls) (layers : Int)
    (custom : Option AGate) (run : Nat → ℝ × List ℝ) (gates : List AGate)
    (h : variationalCompile cdims q0 q1 tol t layers custom run = .ok gates) :
    ∀ g ∈ gates, g.gate.controls = none ∧ ∀ i ∈ g.gate.target.lines, i = 0 ∨ i = 1 := by
  unfold variationalCompile at h
  simp only [bind, Except.bind, pure, Except.pure] at h
  split at h
  · cases h
  rename_i d0 _
  split at h
  · cases h
  rename_i d1 _
  split at h
  · cases h
  rename_i best _
  unfold createInstance at h
  simp only [bind, Except.bind, pure, Except.pure] at h
  split at h
  · cases h
  rename_i chunks _
  split at h
  · cases h
  rename_i u hu
  have hu' : ∀ v, u = some v → v.gate.controls = none ∧ ∀ i ∈ v.gate.target.lines, i = 0 ∨ i = 1 := by
    intro v hv
    subst hv
    rcases ht with rfl | rfl
    · simp only [layerGate, bind, Except.bind, pure, Except.pure, init_pair] at hu
      split at hu
      · cases hu
      · split at hu
        · cases hu
        · cases hu
          exact ⟨rfl, by simp [Target.lines]⟩
    · simp only [layerGate, bind, Except.bind, pure, Except.pure, init_pair] at hu
      split at hu
      · cases hu
      · split at hu
        · cases hu
        · cases hu
          exact ⟨rfl, by simp [Target.lines]⟩
  cases u with
  | none => cases h
  | some v =>
    have hv := hu' v rfl
    simp only [ansatzDecompose, bind, Except.bind, pure, Except.pure] at h
    split at h
    · cases h
    rename_i st hst
    cases h
    have key : ∀ (ch : List (List ℝ)) (s0 s1 : Nat × List AGate), s0.1 ≤ 2 →
        (∀ g ∈ s0.2, g.gate.controls = none ∧ ∀ i ∈ g.gate.target.lines, i = 0 ∨ i = 1) →
        ch.foldlM (decomposeStep cdims v [d0, d1]) s0 = .ok s1 →
        ∀ g ∈ s1.2, g.gate.controls = none ∧ ∀ i ∈ g.gate.target.lines, i = 0 ∨ i = 1 := by
      intro ch
      induction ch with
      | nil => intro s0 s1 _ h0 e; cases e; exact h0
      | cons p ps ih =>
        rintro ⟨k, l⟩ s1 hk h0 e
        rw [List.foldlM_cons] at e
        simp only [bind, Except.bind] at e
        split at e
        · cases e
        rename_i s' hs'
        have main : ∃ k' l' g, k' < 2 ∧ (∀ g ∈ l', g.gate.controls = none ∧ ∀ i ∈ g.gate.target.lines, i = 0 ∨ i = 1) ∧
            s' = (k' + 1, l' ++ [g]) ∧ ∃ s, customOne cdims k' s = .ok g := by
          unfold decomposeStep at hs'
          by_cases h2 : k = 2
          · simp only [if_pos h2, bind, Except.bind, pure, Except.pure] at hs'
            split at hs'
            · cases hs'
            split at hs'
            · cases hs'
            rename_i sud _
            split at hs'
            · cases hs'
            rename_i g hg
            cases hs'
            refine ⟨0, l ++ [v], g, by omega, ?_, rfl, sud, hg⟩
            intro g' hg'
            rcases List.mem_append.1 hg' with h | h
            · exact h0 g' h
            · rw [List.mem_singleton.1 h]; exact hv
          · simp only [if_neg h2, bind, Except.bind, pure, Except.pure] at hs'
            split at hs'
            · cases hs'
            split at hs'
            · cases hs'
            rename_i sud _
            split at hs'
            · cases hs'
            rename_i g hg
            cases hs'
            exact ⟨k, l, g, by simp only at hk; omega, h0, rfl, sud, hg⟩
        obtain ⟨k', l', g, hk', hl', rfl, sud, hg⟩ := main
        refine ih (k' + 1, l' ++ [g]) s1 (by simp only; omega) ?_ e
        intro g' hg'
        rcases List.mem_append.1 hg' with h | h
        · exact hl' g' h
        · rw [List.mem_singleton.1 h]
          unfold customOne at hg
          rw [init_single] at hg
          cases hg
          refine ⟨rfl, ?_⟩
          intro i hi
          simp only [Target.lines, List.mem_singleton] at hi
          omega
    exact key chunks (0, []) st (by simp) (by simp) hst

/-- two blocks of the Mølmer–Sørensen ansatz on a qubit and a qutrit -/
example : ∃ A gates Ms, ansatzMatrix .ms none 2 3 (List.replicate 22 1) = .ok A ∧
    createInstance .ms [2, 3] none 2 3 (List.replicate 22 1) = .ok gates ∧
    List.Forall₂ (fun (g : AGate) M => HasOperator ![2, 3] g.gate g.arr M) gates Ms ∧ gates.length = 5 := by
  obtain ⟨A, gates, Ms, h1, h2, h3, h4, _⟩ := C45_reversed_partial ![2, 3] (by intro i; fin_cases i <;> simp) .ms (by decide) none (by simp) 2
    (List.replicate 22 1) (by simp)
  exact ⟨A, gates, Ms, h1, h2, h3, h4⟩

/-- a target on the lines 1 and 2 of three qubits: gates are emitted, none of them on line 2 -/
example : ∃ gates, variationalCompile [2, 2, 2] 1 2 (1 / 2) .ls 0 none (fun _ => (0, List.replicate 6 0)) = .ok gates ∧ gates.length = 2 := by
  obtain ⟨s, s1, _⟩ := genericSud_ok [0, 0, 0] 2 (by simp)
  obtain ⟨m, m1, _⟩ := lsArray_ok 2 2 (Real.pi / 2)
  have hpi := Real.pi_pos
  have ha : angleInit (Real.pi / 2) = .ok (Real.pi / 2) := by
    unfold angleInit; rw [if_pos ⟨by positivity, by linarith⟩]
  have hls : lsAngle [2, 2] = Real.pi / 2 := by simp [lsAngle]
  have hb : binarySearchCompile (fun _ => ((0 : ℝ), List.replicate 6 (0 : ℝ))) [] (1 / 2) 0 = .ok (0, ((0 : ℝ) : WithTop ℝ), List.replicate 6 0) := by
    unfold binarySearchCompile
    rw [if_neg (by decide), searchLoop]
    norm_num
    rw [searchLoop]
    norm_num
  have hsp := (C43_split 2 2 (by decide) (List.replicate 6 (0 : ℝ)) [[0, 0, 0], [0, 0, 0]]).2
    ⟨1, by simp [List.replicate], by simp [List.replicate]⟩
  refine ⟨[⟨⟨[2, 2, 2], "CUo_SUD", .single, .one 0, none, false, false⟩, s⟩, ⟨⟨[2, 2, 2], "CUo_SUD", .single, .one 1, none, false, false⟩, s⟩], ?_, rfl⟩
  simp only [variationalCompile, dimAt, List.getElem?_cons_succ, List.getElem?_cons_zero, hb, createInstance, hsp, bind, Except.bind,
    layerGate, hls, ha, m1, init_pair, pure, Except.pure, ansatzDecompose]
  simp [decomposeStep, dimAt, s1, customOne, init_single, bind, Except.bind, pure, Except.pure]

end Qudits
