import Verif.Lemmas.Law
import Verif.Props.ShotsProps
/- C86: the mean over the errors of a noisy run of tnsim. -/
namespace Qudits.Shots
open Spec Matrix Complex NoisyFactory DD
variable {n : Nat} {d : Fin n → Nat}

theorem outcomes_ofFn (rng : Draws) (Ps : List (List ℝ)) : outcomes rng 0 Ps = List.ofFn fun k : Fin Ps.length => rng k % Ps[k].length := by
  unfold outcomes
  apply List.ext_getElem
  · simp
  · intro k h1 h2
    simp

theorem density_diag (psi : Reg d → ℂ) (x : Reg d) : (density d psi x x).re = ‖psi x‖ ^ 2 := by
  unfold density
  have := Complex.mul_conj' (psi x)
  rw [show star (psi x) = (starRingEnd ℂ) (psi x) from rfl, this]
  norm_cast

/-- the real part of a diagonal entry, as a linear map -/
noncomputable def diagL (x : Reg d) : DensityOp d →ₗ[ℝ] ℝ where
  toFun rho := (rho x x).re
  map_add' a b := rfl
  map_smul' c a := by simp

/-- C86: the errors of a noisy run. If the noise model fits the circuit, the generator is asked for draws with the same lists of probabilities whatever the outcomes
are; the state of a shot depends on these outcomes only; and the mean of its density operator over the outcomes is the state that quantum channels make of |0...0⟩:
after each gate, for each entry of the noise model, the depolarizing channel on every selected line (mathematical noise), or the Pauli errors within the pairs of
levels and the dephasing of the levels outside (physical noise). The probability of an outcome of a measurement at the end is a diagonal entry. -/
theorem C86_law (hn : 0 < n) (hpos : ∀ i, 0 < d i) (circ : List (Instr × Arr2 ℂ)) (Ms : List (Matrix (Reg d) (Reg d) ℂ)) (hops : Operators d circ Ms) (errs : Errors)
    (ha : Ascending errs) (hp : NoiseFits (List.ofFn d) errs (circ.map Prod.fst)) :
    ∃ (Ps : List (List ℝ)) (psi : List Nat → Reg d → ℂ),
      (∀ p ∈ Ps, (∀ x ∈ p, 0 ≤ x) ∧ p.sum = 1) ∧
      (∀ rng, ∃ s, generateP rng (List.ofFn d) errs (circ.map Prod.fst) = .ok s ∧ s.asked = Ps) ∧
      (∀ draws off, ∃ v, tnState draws (List.ofFn d) errs circ off = .ok (v, off + Ps.length) ∧
        Lists d v (psi (List.ofFn fun k : Fin Ps.length => draws (off + k) % Ps[k].length))) ∧
      mean Ps (fun l => density d (psi l)) = noisyChannel d errs ((circ.map Prod.fst).zip Ms) (density d (zeroState d)) ∧
      ∀ x, mean Ps (fun l => ‖psi l x‖ ^ 2) = (noisyChannel d errs ((circ.map Prod.fst).zip Ms) (density d (zeroState d)) x x).re := by
  have hf := operators_flagged hops
  obtain ⟨Ps, out, c1, c2, c3⟩ := circuit_law hpos ha (circ.map Prod.fst) (by
    intro i hi
    obtain ⟨c, hc, rfl⟩ := List.mem_map.1 hi
    exact hf c hc) hp
  have hlen : Ms.length = (circ.map Prod.fst).length := by
    rw [List.length_map]
    exact hops.length_eq.symm
  have hmean : mean Ps (fun l => density d ((semList d (out l) Ms).reverse.prod *ᵥ zeroState d)) =
      noisyChannel d errs ((circ.map Prod.fst).zip Ms) (density d (zeroState d)) := by
    rw [← c3 Ms hlen]
    simp only [conjBy_density]
  refine ⟨Ps, fun l => (semList d (out l) Ms).reverse.prod *ᵥ zeroState d, c2, ?_, ?_, hmean, ?_⟩
  · intro rng
    obtain ⟨s, h1, -, -, h4⟩ := c1 rng ⟨⟨[], 0, 0⟩, []⟩
    exact ⟨s, h1, by simpa using h4⟩
  · intro draws off
    obtain ⟨s, h1, h2, h3, -⟩ := c1 (fun k => draws (off + k)) ⟨⟨[], 0, 0⟩, []⟩
    have hgen : generateP (fun k => draws (off + k)) (List.ofFn d) errs (circ.map Prod.fst) = .ok s := h1
    have hinter := (C23_noisy_circuit _ _ _ _ _ (generateP_refine hgen)).1
    obtain ⟨ops, ho⟩ := noisyOps_fits hp hinter rfl hf
    have hsem := noisyOps_sem hinter rfl hops ho
    obtain ⟨w, w1, w2⟩ := C15_execute d hn hpos ops _ hsem
    refine ⟨w, ?_, ?_⟩
    · unfold tnState
      simp only [hgen, bind, Except.bind, ho, w1, pure, Except.pure]
      rw [h3]
      simp
    · rw [← outcomes_ofFn (fun k => draws (off + k)) Ps]
      have : s.instrs = out (outcomes (fun k => draws (off + k)) 0 Ps) := by simpa using h2
      rw [this] at w2
      exact w2
  · intro x
    rw [← hmean]
    have := mean_linear (diagL x) Ps fun l => density d ((semList d (out l) Ms).reverse.prod *ᵥ zeroState d)
    refine Eq.trans ?_ this.symm
    refine mean_congr Ps fun l _ => ?_
    exact (density_diag _ x).symm

theorem sem_unitary (e : NoisyInstr) : sem d e ∈ unitaryGroup (Reg d) ℂ := by
  by_cases h : ∃ M, ErrorOp d e M
  · obtain ⟨M, hM⟩ := h
    rw [sem_eq hM]
    exact errorOp_unitary hM
  · unfold sem
    rw [dif_neg h]
    exact one_mem _

theorem semList_unitary : ∀ (l : List NoisyInstr) (Ms : List (DensityOp d)), (∀ M ∈ Ms, M ∈ unitaryGroup (Reg d) ℂ) → ∀ N ∈ semList d l Ms, N ∈ unitaryGroup (Reg d) ℂ
  | [], Ms, _, N, hN => by simp [semList] at hN
  | e :: l, Ms, h, N, hN => by
    cases e with
    | orig i =>
      cases Ms with
      | nil => simp [semList] at hN
      | cons M Ms =>
        rcases List.mem_cons.1 (show N ∈ M :: semList d l Ms from hN) with rfl | hN
        · exact h N (by simp)
        · exact semList_unitary l Ms (fun M hM => h M (by simp [hM])) N hN
    | _ =>
      rw [semList_cons rfl] at hN
      rcases List.mem_cons.1 hN with rfl | hN
      · exact sem_unitary _
      · exact semList_unitary l Ms h N hN

theorem sum_getD : ∀ p : List ℝ, ∑ k ∈ Finset.range p.length, p.getD k 0 = p.sum
  | [] => rfl
  | x :: p => by
    rw [List.length_cons, Finset.sum_range_succ', List.sum_cons, ← sum_getD p, add_comm]
    rfl

theorem mean_const (c : ℝ) : ∀ (Ps : List (List ℝ)), (∀ p ∈ Ps, p.sum = 1) → mean Ps (fun _ => c) = c
  | [], _ => rfl
  | p :: Ps, h => by
    unfold mean
    dsimp only
    rw [mean_const c Ps fun p hp => h p (by simp [hp]), ← Finset.sum_smul, sum_getD, h p (by simp), one_smul]

/-- C86: the result of the channels is normalised if the gates are unitary. -/
theorem C86_trace (hpos : ∀ i, 0 < d i) (circ : List (Instr × Arr2 ℂ)) (Ms : List (Matrix (Reg d) (Reg d) ℂ)) (hops : Operators d circ Ms)
    (hu : ∀ M ∈ Ms, M ∈ unitaryGroup (Reg d) ℂ) (errs : Errors) (ha : Ascending errs) (hp : NoiseFits (List.ofFn d) errs (circ.map Prod.fst)) :
    ∑ x, (noisyChannel d errs ((circ.map Prod.fst).zip Ms) (density d (zeroState d)) x x).re = 1 := by
  have hf := operators_flagged hops
  obtain ⟨Ps, out, c1, c2, c3⟩ := circuit_law hpos ha (circ.map Prod.fst) (by
    intro i hi
    obtain ⟨c, hc, rfl⟩ := List.mem_map.1 hi
    exact hf c hc) hp
  rw [← c3 Ms (by rw [List.length_map]; exact hops.length_eq.symm)]
  simp only [conjBy_density]
  have h1 : ∀ x, (mean Ps (fun l => density d ((semList d (out l) Ms).reverse.prod *ᵥ zeroState d)) x x).re =
      mean Ps fun l => ‖((semList d (out l) Ms).reverse.prod *ᵥ zeroState d) x‖ ^ 2 := by
    intro x
    refine (mean_linear (diagL x) Ps fun l => density d ((semList d (out l) Ms).reverse.prod *ᵥ zeroState d)).trans ?_
    exact mean_congr Ps fun l _ => density_diag _ x
  simp only [h1]
  rw [← mean_sum]
  refine Eq.trans (mean_congr Ps fun l _ => ?_) (mean_const 1 Ps fun p hp => (c2 p hp).2)
  have hN := prod_unitary (semList_unitary (out l) Ms hu)
  have := sum_sq ((semList d (out l) Ms).reverse.prod *ᵥ zeroState d)
  rw [Custom.norm_kept hN, Custom.zeroState_norm d hpos] at this
  exact_mod_cast this.symm

/-! ### physical noise and depolarizing -/

section
variable {m : Nat} {a b : Fin m}

theorem pairX (hab : a ≠ b) (i j : Fin m) : twoLevel a b !![(0 : ℂ), 1; 1, 0] i j = if j = Equiv.swap a b i then 1 else 0 := by
  unfold twoLevel
  simp only [of_apply, cons_val', cons_val_zero, cons_val_one, cons_val_fin_one]
  by_cases h1 : i = a
  · subst h1
    rw [if_pos rfl, Equiv.swap_apply_left]
    split_ifs <;> simp_all
  · rw [if_neg h1]
    by_cases h2 : i = b
    · subst h2
      rw [if_pos rfl, Equiv.swap_apply_right]
      split_ifs <;> simp_all
    · rw [if_neg h2, Equiv.swap_apply_of_ne_of_ne h1 h2]
      simp [eq_comm]

/-- the entries of the Pauli matrix Y -/
noncomputable def signY (a b : Fin m) (i : Fin m) : ℂ := if i = a then -I else if i = b then I else 1

theorem pairY (hab : a ≠ b) (i j : Fin m) : twoLevel a b !![(0 : ℂ), -I; I, 0] i j = if j = Equiv.swap a b i then signY a b i else 0 := by
  unfold twoLevel signY
  simp only [of_apply, cons_val', cons_val_zero, cons_val_one, cons_val_fin_one]
  by_cases h1 : i = a
  · subst h1
    rw [if_pos rfl, Equiv.swap_apply_left]
    split_ifs <;> simp_all
  · rw [if_neg h1]
    by_cases h2 : i = b
    · subst h2
      rw [if_pos rfl, Equiv.swap_apply_right]
      split_ifs <;> simp_all
    · rw [if_neg h2, Equiv.swap_apply_of_ne_of_ne h1 h2]
      simp only [if_neg h1, if_neg h2]
      simp [eq_comm]

theorem pairZ (hab : a ≠ b) (i j : Fin m) : twoLevel a b !![(1 : ℂ), 0; 0, -1] i j = if j = id i then (if i = b then -1 else 1) else 0 := by
  rw [← sign_twoLevel hab]
  simp [eq_comm]

end

/-- the entries after physical noise -/
theorem pauli_entry (q : Fin n) {a b : Fin (d q)} (hab : a ≠ b) (p : ℝ) (rho : DensityOp d) (x y : Reg d) : pauliNoise q a b p rho x y =
    (1 - 3 * p / 4) * rho x y + p / 4 * (rho (Function.update x q (Equiv.swap a b (x q))) (Function.update y q (Equiv.swap a b (y q))) +
      signY a b (x q) * star (signY a b (y q)) * rho (Function.update x q (Equiv.swap a b (x q))) (Function.update y q (Equiv.swap a b (y q))) +
      (if x q = b then -1 else 1) * star (if y q = b then (-1 : ℂ) else 1) * rho x y) := by
  unfold pauliNoise
  simp only [Matrix.add_apply, Matrix.smul_apply]
  rw [conj_monomial q (pairX hab), conj_monomial q (pairY hab), conj_monomial q (pairZ hab)]
  simp only [id, Function.update_eq_self, Complex.real_smul]
  push_cast
  simp

/-- C86: physical noise within the levels `a` and `b` is the depolarizing channel of these two levels, for states with no other level of the line: with
probability `p` the line is replaced by the even mixture of the two levels. -/
theorem C86_pair (q : Fin n) (a b : Fin (d q)) (hab : a ≠ b) (p : ℝ) (rho : DensityOp d)
    (hrho : ∀ x y, rho x y ≠ 0 → (x q = a ∨ x q = b) ∧ (y q = a ∨ y q = b)) :
    pauliNoise q a b p rho = (1 - p) • rho + p • Matrix.of fun x y => if x q = y q ∧ (x q = a ∨ x q = b) then
      1 / 2 * (rho (Function.update x q a) (Function.update y q a) + rho (Function.update x q b) (Function.update y q b)) else 0 := by
  funext x y
  rw [pauli_entry q hab]
  simp only [Matrix.add_apply, Matrix.smul_apply, Complex.real_smul, Matrix.of_apply]
  push_cast
  have hz : ∀ x y : Reg d, ¬ ((x q = a ∨ x q = b) ∧ (y q = a ∨ y q = b)) → rho x y = 0 := fun x y h => by
    by_contra hc
    exact h (hrho x y hc)
  have hup : ∀ (x : Reg d) (c : Fin (d q)), x q = c → Function.update x q c = x := fun x c h => by rw [← h, Function.update_eq_self]
  have hI : (-I : ℂ) * I = 1 := by rw [neg_mul, I_mul_I, neg_neg]
  by_cases hx : x q = a ∨ x q = b
  · by_cases hy : y q = a ∨ y q = b
    · rcases hx with hx | hx <;> rcases hy with hy | hy
      · rw [hx, hy, Equiv.swap_apply_left, hup x a hx, hup y a hy]
        simp [signY, hab]
        ring
      · rw [hx, hy, Equiv.swap_apply_left, Equiv.swap_apply_right, hup x a hx, hup y b hy]
        simp [signY, hab, hab.symm]
        ring
      · rw [hx, hy, Equiv.swap_apply_left, Equiv.swap_apply_right, hup x b hx, hup y a hy]
        simp [signY, hab, hab.symm]
        ring
      · rw [hx, hy, Equiv.swap_apply_right, hup x b hx, hup y b hy]
        simp [signY, hab.symm]
        ring
    · have h1 : rho x y = 0 := hz x y (by tauto)
      have h2 : rho (Function.update x q (Equiv.swap a b (x q))) (Function.update y q (Equiv.swap a b (y q))) = 0 := by
        apply hz
        rintro ⟨-, h⟩
        rw [Function.update_self, Equiv.swap_apply_of_ne_of_ne (by tauto) (by tauto)] at h
        exact hy h
      have h3 : ¬ (x q = y q ∧ (x q = a ∨ x q = b)) := by
        rintro ⟨h, h3⟩
        rw [h] at h3
        exact hy h3
      rw [h1, h2, if_neg h3]
      simp
  · have h1 : rho x y = 0 := hz x y (by tauto)
    have h2 : rho (Function.update x q (Equiv.swap a b (x q))) (Function.update y q (Equiv.swap a b (y q))) = 0 := by
      apply hz
      rintro ⟨h, -⟩
      rw [Function.update_self, Equiv.swap_apply_of_ne_of_ne (by tauto) (by tauto)] at h
      exact hx h
    have h3 : ¬ (x q = y q ∧ (x q = a ∨ x q = b)) := fun h => hx h.2
    rw [h1, h2, if_neg h3]
    simp

/-- C86: on a line with two levels, physical noise is the depolarizing channel of the line. -/
theorem C86_qubit (q : Fin n) (a b : Fin (d q)) (hab : a ≠ b) (h2 : d q = 2) (p : ℝ) (rho : DensityOp d) : pauliNoise q a b p rho = depolarize q p rho := by
  have hall : ∀ c : Fin (d q), c = a ∨ c = b := by
    intro c
    have h3 : (a : Nat) ≠ b := fun h => hab (Fin.ext h)
    have := a.2; have := b.2; have := c.2
    rw [Fin.ext_iff, Fin.ext_iff]
    omega
  rw [C86_pair q a b hab p rho fun x y _ => ⟨hall _, hall _⟩]
  unfold depolarize
  congr 2
  ext x y
  have hsum : ∀ f : Fin (d q) → ℂ, ∑ j, f j = f a + f b := by
    intro f
    have : (Finset.univ : Finset (Fin (d q))) = {a, b} := by
      ext c
      simp [hall c]
    rw [this, Finset.sum_pair hab]
  unfold evenMix
  rw [Matrix.of_apply, hsum]
  by_cases hxy : x q = y q
  · rw [if_pos ⟨hxy, hall _⟩, if_pos hxy, h2]
    norm_num
  · rw [if_neg (by tauto), if_neg hxy]

/-- C86 fails beyond the two levels: physical noise within the levels 0 and 1 of a qutrit is no depolarizing of these levels. A superposition of the levels 0 and 2,
in which level 1 does not occur, gets a coherence between the levels 1 and 2, for every probability but zero; a replacement of the levels 0 and 1 by their mixture
would leave none. -/
theorem C86_coherence_violated (p : ℝ) (hp : p ≠ 0) : ∃ psi : Reg (fun _ : Fin 1 => 3) → ℂ, ∑ x, ‖psi x‖ ^ 2 = 1 ∧ psi (fun _ => (1 : Fin 3)) = 0 ∧
    pauliNoise (d := fun _ : Fin 1 => 3) 0 (0 : Fin 3) (1 : Fin 3) p (density _ psi) (fun _ => (1 : Fin 3)) (fun _ => (2 : Fin 3)) ≠ 0 := by
  refine ⟨fun x => if x 0 = (1 : Fin 3) then 0 else ((1 / Real.sqrt 2 : ℝ) : ℂ), ?_, by simp, ?_⟩
  · rw [Fintype.sum_equiv (Equiv.piUnique fun _ : Fin 1 => Fin 3) (fun x => ‖(if x 0 = (1 : Fin 3) then 0 else ((1 / Real.sqrt 2 : ℝ) : ℂ))‖ ^ 2)
      (fun k : Fin 3 => ‖(if k = 1 then 0 else ((1 / Real.sqrt 2 : ℝ) : ℂ))‖ ^ 2) (fun x => rfl)]
    rw [Fin.sum_univ_three]
    simp
    norm_num
  · rw [pauli_entry (d := fun _ : Fin 1 => 3) 0 (by decide : (0 : Fin 3) ≠ 1)]
    have h1 : Equiv.swap (0 : Fin 3) 1 1 = 0 := by decide
    have h2 : Equiv.swap (0 : Fin 3) 1 2 = 2 := by decide
    unfold density signY
    simp [h1, h2]
    refine ⟨hp, fun h => ?_⟩
    have hs : (((Real.sqrt 2 : ℝ) : ℂ))⁻¹ * ((Real.sqrt 2 : ℝ) : ℂ)⁻¹ = 1 / 2 := by
      rw [← mul_inv, ← Complex.ofReal_mul, Real.mul_self_sqrt (by norm_num)]
      norm_num
    rw [hs] at h
    have := congrArg Complex.re h
    norm_num at this

/-- The gate X on a qubit with depolarizing noise 1 / 2: a measurement gives 1 with probability 3 / 4. -/
example (A : Arr2 ℂ) (hops : Operators ![2] (flipCirc A) [flipOp]) : ∃ (Ps : List (List ℝ)) (psi : List Nat → Reg ![2] → ℂ),
    (∀ draws off, ∃ v, tnState draws [2] flipNoise (flipCirc A) off = .ok (v, off + Ps.length) ∧
      Lists ![2] v (psi (List.ofFn fun k : Fin Ps.length => draws (off + k) % Ps[k].length))) ∧
    mean Ps (fun l => ‖psi l fun i => ⟨1, by revert i; decide⟩‖ ^ 2) = 3 / 4 := by
  obtain ⟨Ps, psi, -, -, h1, -, h2⟩ := C86_law (d := ![2]) (by omega) (by decide) (flipCirc A) [flipOp] hops flipNoise flipNoise_ascending (flipNoise_fits A)
  refine ⟨Ps, psi, h1, ?_⟩
  rw [h2]
  have hx : noisyChannel ![2] flipNoise (((flipCirc A).map Prod.fst).zip [flipOp]) (density ![2] (zeroState ![2])) =
      depolarize (d := ![2]) (0 : Fin 1) (1 / 2) (density ![2] (flipOp *ᵥ zeroState ![2])) := by
    rw [← conjBy_density]
    rfl
  have hone : ∀ x : Reg ![2], (flipOp *ᵥ zeroState ![2]) x = if (x 0 : Nat) = 1 then 1 else 0 := by
    intro x
    have := embed1_mulVec (X := LvOf ![2]) (0 : Fin 1) (fun i j : Fin 2 => if (i : Nat) = (j + 1) % 2 then (1 : ℂ) else 0) (zeroState ![2]) x
    refine Eq.trans this ?_
    refine (Fin.sum_univ_two _).trans ?_
    have h2 : ∀ k : Fin 2, zeroState (α := ℂ) ![2] (Function.update x 0 k) = if (k : Nat) = 0 then 1 else 0 := by
      intro k
      unfold zeroState
      have e : Function.update x 0 k 0 = k := Function.update_self ..
      congr 1
      refine propext ⟨fun h => ?_, fun h i => ?_⟩
      · exact (congrArg Fin.val e).symm.trans (h 0)
      · obtain rfl : i = 0 := Subsingleton.elim _ _
        exact (congrArg Fin.val e).trans h
    rw [h2, h2]
    simp
  have hd : ∀ (rho : DensityOp ![2]) (x : Reg ![2]), depolarize (d := ![2]) (0 : Fin 1) (1 / 2) rho x x =
      1 / 2 * rho x x + 1 / 2 * (1 / 2 * (rho (Function.update x 0 (0 : Fin 2)) (Function.update x 0 (0 : Fin 2)) +
        rho (Function.update x 0 (1 : Fin 2)) (Function.update x 0 (1 : Fin 2)))) := by
    intro rho x
    have hs : ∀ f : Fin 2 → ℂ, ∑ j : Fin ((![2] : Fin 1 → Nat) 0), f j = f 0 + f 1 := fun f => Fin.sum_univ_two f
    have he : evenMix (d := ![2]) (0 : Fin 1) rho x x =
        1 / 2 * ∑ j : Fin ((![2] : Fin 1 → Nat) 0), rho (Function.update x 0 j) (Function.update x 0 j) := by
      refine (if_pos rfl).trans ?_
      norm_num
    refine (show _ = ((1 - (1 / 2 : ℝ) : ℝ) : ℂ) * rho x x + ((1 / 2 : ℝ) : ℂ) * evenMix (d := ![2]) (0 : Fin 1) rho x x from ?_).trans ?_
    · unfold depolarize
      simp
    · rw [he, hs fun j => rho (Function.update x 0 j) (Function.update x 0 j)]
      push_cast
      ring
  rw [hx, hd]
  unfold density
  rw [hone, hone, hone]
  have e : ∀ (x : Reg ![2]) (k : Fin 2), ((Function.update x 0 k : Reg ![2]) 0 : Nat) = k :=
    fun x k => congrArg Fin.val (Function.update_self (0 : Fin 1) k x)
  rw [e, e]
  simp
  norm_num

end Qudits.Shots
