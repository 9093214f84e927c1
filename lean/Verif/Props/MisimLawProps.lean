import Verif.Lemmas.MisimLaw
import Verif.Props.LawProps
/- C87: the mean over the errors of a noisy run of misim. -/
namespace Qudits.Misim
open Spec Matrix Complex DD Shots
variable {n : Nat} {d : Fin n → Nat}

theorem hits_ofFn (rng : Chance ℝ) (ps : List ℝ) : hits rng 0 ps = List.ofFn fun k : Fin ps.length => rng k ps[k] := by
  unfold hits
  apply List.ext_getElem
  · simp
  · intro k h1 h2
    simp

theorem forall₂_opOf {gs : List PyGate} {Ms : List (DensityOp d)} (h : List.Forall₂ (GateOp d) gs Ms) : Ms = gs.map (opOf d) := by
  induction h with
  | nil => rfl
  | cons h _ ih => rw [List.map_cons, opOf_eq h, ← ih]

theorem zip_gateOp {gs : List PyGate} {arrs : List (Arr2 ℂ)} (h1 : List.Forall₂ (fun (g : PyGate) a => g.array = .ok a) gs arrs) :
    ∀ {Ms : List (DensityOp d)}, List.Forall₂ (fun op M => (∃ ls, Flagged d op.1 ls) ∧ HasOperator d op.1 op.2 M) ((gs.map (·.gate)).zip arrs) Ms →
    List.Forall₂ (GateOp d) gs Ms := by
  induction h1 with
  | nil =>
    intro Ms h
    cases h
    exact .nil
  | cons ha _ ih =>
    intro Ms h
    cases h with
    | cons h hs => exact .cons ⟨_, ha, h.2⟩ (ih hs)

/-- a run of the circuit with its errors -/
theorem execute_ops (H : Hashes) (hpos : ∀ i, 0 < d i) (gs : List PyGate) (h : ∀ g ∈ gs, Common d g) :
    ∃ v, execute H (List.ofFn d) gs = .ok v ∧ Lists d v (opsOf d gs *ᵥ zeroState d) := by
  obtain ⟨arrs, Ms, v, h1, h2, h3, h4⟩ := misim_lists H d hpos gs h
  refine ⟨v, h3, ?_⟩
  unfold opsOf
  rw [← forall₂_opOf (zip_gateOp h1 h2)]
  exact h4

theorem run_law (H : Hashes) (hd : ∀ i, 2 ≤ d i ∧ d i ≤ 7) (noise : PyDict String (PyDict String (Noise ℝ))) (hk : Keyed noise) (hpr : Probabilities noise)
    (gs : List PyGate) (hc : ∀ g ∈ gs, Common d g) (ha : Applicable d noise gs) :
    ∃ (ps : List ℝ) (out : List Bool → List PyGate), (∀ p ∈ ps, 0 ≤ p ∧ p ≤ 1) ∧ (∀ l, ∀ e ∈ out l, Common d e) ∧
      (∀ rng, ∃ v, executeNoisy H rng (List.ofFn d) (asModel noise) gs = .ok v ∧
        Lists d v (opsOf d (out (List.ofFn fun k : Fin ps.length => rng k ps[k])) *ᵥ zeroState d)) ∧
      ∀ rho : DensityOp d, mean (ps.map bern) (fun l => conjBy (opsOf d (out (l.map asHit))) rho) = commonChannel d noise (gs.zip (gs.map (opOf d))) rho := by
  obtain ⟨m, hm, hl⟩ := parseNoise_ok noise hk
  obtain ⟨ps, out, c1, c2, c3, c4⟩ := circuit_law hd hk hpr hl gs hc ha
  refine ⟨ps, out, c1, c2, fun rng => ?_, c4⟩
  obtain ⟨v, h1, h2⟩ := execute_ops H (fun i => by have := (hd i).1; omega) (out (hits rng 0 ps)) (c2 _)
  rw [← hits_ofFn]
  refine ⟨v, ?_, h2⟩
  have hg := c3 rng ⟨[], 0⟩
  rw [List.nil_append] at hg
  unfold executeNoisy generate
  rw [hm]
  simp only [bind, Except.bind]
  rw [hg]
  exact h1

/-- C87: the errors of a noisy run of the decision-diagram simulator. The generator is asked for draws with the same probabilities whatever their outcomes are; the
result depends on these outcomes only; and the mean of its density operator is the state that the channels of the entries make of |0...0⟩: with one probability all
lines that an entry means get an error for depolarisation together, with the other probability all get an error for dephasing. -/
theorem C87_law (H : Hashes) (hd : ∀ i, 2 ≤ d i ∧ d i ≤ 7) (noise : PyDict String (PyDict String (Noise ℝ))) (hk : Keyed noise) (hpr : Probabilities noise)
    (gs : List PyGate) (hc : ∀ g ∈ gs, Common d g) (ha : Applicable d noise gs) (Ms : List (DensityOp d))
    (hM : List.Forall₂ (fun g M => ∃ A, g.array = .ok A ∧ HasOperator d g.gate A M) gs Ms) :
    ∃ (ps : List ℝ) (psi : List Bool → Reg d → ℂ), (∀ p ∈ ps, 0 ≤ p ∧ p ≤ 1) ∧
      (∀ rng, ∃ v, executeNoisy H rng (List.ofFn d) (asModel noise) gs = .ok v ∧ Lists d v (psi (List.ofFn fun k : Fin ps.length => rng k ps[k]))) ∧
      mean (ps.map fun p => [1 - p, p]) (fun l => density d (psi (l.map fun k => k = 1))) = commonChannel d noise (gs.zip Ms) (density d (zeroState d)) ∧
      ∀ x, mean (ps.map fun p => [1 - p, p]) (fun l => ‖psi (l.map fun k => k = 1) x‖ ^ 2) =
        (commonChannel d noise (gs.zip Ms) (density d (zeroState d)) x x).re := by
  obtain ⟨ps, out, c1, -, c3, c4⟩ := run_law H hd noise hk hpr gs hc ha
  obtain rfl := forall₂_opOf hM
  have hmean := c4 (density d (zeroState d))
  simp only [conjBy_density] at hmean
  refine ⟨ps, fun l => opsOf d (out l) *ᵥ zeroState d, c1, c3, hmean, fun x => ?_⟩
  rw [← hmean]
  refine Eq.trans ?_ (mean_linear (diagL x) _ fun l => density d (opsOf d (out (l.map asHit)) *ᵥ zeroState d)).symm
  exact mean_congr _ fun l _ => (density_diag _ x).symm

/-- C87: the channels keep the state normalised. -/
theorem C87_trace (hd : ∀ i, 2 ≤ d i ∧ d i ≤ 7) (noise : PyDict String (PyDict String (Noise ℝ))) (hk : Keyed noise) (hpr : Probabilities noise)
    (gs : List PyGate) (hc : ∀ g ∈ gs, Common d g) (ha : Applicable d noise gs) (Ms : List (DensityOp d))
    (hM : List.Forall₂ (fun g M => ∃ A, g.array = .ok A ∧ HasOperator d g.gate A M) gs Ms) :
    ∑ x, (commonChannel d noise (gs.zip Ms) (density d (zeroState d)) x x).re = 1 := by
  have hpos : ∀ i, 0 < d i := fun i => by have := (hd i).1; omega
  obtain ⟨m, hm, hl⟩ := parseNoise_ok noise hk
  obtain ⟨ps, out, c1, c2, -, c4⟩ := circuit_law hd hk hpr hl gs hc ha
  obtain rfl := forall₂_opOf hM
  rw [← c4]
  simp only [conjBy_density]
  have h1 : ∀ x, (mean (ps.map bern) (fun l => density d (opsOf d (out (l.map asHit)) *ᵥ zeroState d)) x x).re =
      mean (ps.map bern) fun l => ‖(opsOf d (out (l.map asHit)) *ᵥ zeroState d) x‖ ^ 2 := by
    intro x
    refine (mean_linear (diagL x) _ fun l => density d (opsOf d (out (l.map asHit)) *ᵥ zeroState d)).trans ?_
    exact mean_congr _ fun l _ => density_diag _ x
  simp only [h1]
  rw [← mean_sum]
  refine Eq.trans (mean_congr _ fun l _ => ?_) (mean_const 1 (ps.map bern) fun p hp => ?_)
  · have hN : opsOf d (out (l.map asHit)) ∈ unitaryGroup (Reg d) ℂ := by
      refine prod_unitary fun N hN => ?_
      obtain ⟨e, he, rfl⟩ := List.mem_map.1 hN
      obtain ⟨A, M, hA, -, hop, -⟩ := common_agree ⟨fun _ _ _ _ => 0, fun _ _ _ _ => 0, fun _ _ => 0⟩ hpos e (c2 _ e he)
      rw [opOf_eq ⟨A, hA, hop⟩]
      exact common_unitary (c2 _ e he) hA hop
    have := sum_sq (opsOf d (out (l.map asHit)) *ᵥ zeroState d)
    rw [Custom.norm_kept hN, Custom.zeroState_norm d hpos] at this
    exact_mod_cast this.symm
  · obtain ⟨q, -, rfl⟩ := List.mem_map.1 hp
    simp [bern]

/-! ### the noise is no depolarizing channel -/

theorem shift_entry {m : Nat} (h : 2 ≤ m) (i j : Fin m) : (of fun i j : Fin m => if (i : Nat) = (j + 1) % m then (1 : ℂ) else 0) i j =
    if j = back 1 i then (fun _ => 1 : Fin m → ℂ) i else 0 := by
  show (if (i : Nat) = (j + 1) % m then (1 : ℂ) else 0) = _
  simp only [eq_back (show 1 < m by omega)]

theorem conj_shift (q : Fin n) (h : 2 ≤ d q) (rho : DensityOp d) (x y : Reg d) :
    conjBy (embed1 (X := LvOf d) q (of fun i j : Fin (d q) => if (i : Nat) = (j + 1) % d q then (1 : ℂ) else 0)) rho x y =
      rho (Function.update x q (back 1 (x q))) (Function.update y q (back 1 (y q))) := by
  rw [conj_monomial q (shift_entry h)]
  simp

theorem flipError_plain {g : PyGate} (ht : ¬ (g.tag = "rxy" ∨ g.tag = "rz" ∨ g.tag = "virtrz")) (m : Nat) :
    flipError g m = of fun i j : Fin m => if (i : Nat) = (j + 1) % m then (1 : ℂ) else 0 := by
  unfold flipError
  rw [if_neg ht]

theorem withChance_zero (E rho : DensityOp d) : withChance 0 E rho = rho := by
  unfold withChance
  simp

theorem local_lines {g : PyGate} {ts : List (Fin n)} (h : g.gate.target.lines = ts.map fun i : Fin n => ((i : Nat) : Int)) :
    errorLines n g "local" = ts := by
  show (g.gate.target.lines).filterMap (below? n) = ts
  rw [h, filterMap_fin]

/-- C87 is violated if the noise is meant to be depolarizing: the depolarisation of a line (after a gate that is no rotation) differs from the depolarizing
channel, with which the other backends work, whatever its probability is. -/
theorem C87_depolarizing_violated (g : PyGate) (q : Fin n) (hd : 2 ≤ d q) (hg : g.gate.target = .one ((q : Nat) : Int)) (hpos : ∀ i, 0 < d i)
    (ht : ¬ (g.tag = "rxy" ∨ g.tag = "rz" ∨ g.tag = "virtrz")) (p p' : ℝ) (hp : p ≠ 0) : ∃ psi : Reg d → ℂ,
    commonEntry d g ("local", ⟨p, 0⟩) (density d psi) ≠ depolarize q p' (density d psi) := by
  have hl : errorLines n g "local" = [q] := local_lines (by rw [hg]; rfl)
  have hE : ∀ rho x y, commonEntry d g ("local", ⟨p, 0⟩) rho x y =
      (1 - p) * rho x y + p * rho (Function.update x q (back 1 (x q))) (Function.update y q (back 1 (y q))) := by
    intro rho x y
    unfold commonEntry
    dsimp only
    rw [withChance_zero, hl]
    have : together [q] (fun q => flipError g (d q)) = embed1 (X := LvOf d) q (flipError g (d q)) := mul_one _
    rw [this, flipError_plain ht]
    unfold withChance
    rw [Matrix.add_apply, Matrix.smul_apply, Matrix.smul_apply, conj_shift q hd]
    simp [Complex.real_smul]
  by_contra hcon
  push Not at hcon
  let z : Reg d := fun i => ⟨0, hpos i⟩
  let i0 : Fin (d q) := ⟨0, by omega⟩
  let i1 : Fin (d q) := ⟨1, by omega⟩
  have hne : i0 ≠ i1 := by simp [i0, i1]
  have e1 := congrFun (congrFun (hcon fun _ => 1) (Function.update z q i0)) (Function.update z q i1)
  rw [hE] at e1
  have hp' : p' = 0 := by
    unfold depolarize at e1
    rw [Matrix.add_apply, Matrix.smul_apply, Matrix.smul_apply] at e1
    unfold evenMix density at e1
    rw [if_neg (by rw [Function.update_self, Function.update_self]; exact hne)] at e1
    simp only [star_one, mul_one, smul_zero, add_zero, Complex.real_smul] at e1
    have : ((1 : ℝ) : ℂ) = ((1 - p' : ℝ) : ℂ) := by
      rw [← e1]
      push_cast
      ring
    have := Complex.ofReal_injective this
    linarith
  have e2 := congrFun (congrFun (hcon fun x => if x q = i0 then 1 else 0) (Function.update z q i0)) (Function.update z q i0)
  have h0 : ∀ rho : DensityOp d, depolarize q 0 rho = rho := fun rho => by
    unfold depolarize
    simp
  rw [hE, hp', h0] at e2
  have hb : back 1 i0 ≠ i0 := by
    intro h
    have := (eq_back (show 1 < d q by omega) i0 i0).2 h.symm
    rw [Nat.mod_eq_of_lt (show (i0 : Nat) + 1 < d q by simp [i0]; omega)] at this
    omega
  unfold density at e2
  simp only [Function.update_self, hb, if_false, if_true, add_zero, star_one, mul_one, mul_zero, star_zero] at e2
  have : ((1 - p : ℝ) : ℂ) = ((1 : ℝ) : ℂ) := by
    push_cast
    exact e2
  have := Complex.ofReal_injective this
  exact hp (by linarith)

/-- C87 is violated for the two backends: the same entry of a noise model, for a gate on one line that is no rotation, means different channels for the tensor-network
simulator and for the decision-diagram simulator. -/
theorem C87_backends_violated (g : PyGate) (levels : Option (Int × Int)) (q : Fin n) (hd : 2 ≤ d q) (hg : g.gate.target = .one ((q : Nat) : Int))
    (hctl : g.gate.controls = none) (hpos : ∀ i, 0 < d i) (ht : ¬ (g.tag = "rxy" ∨ g.tag = "rz" ∨ g.tag = "virtrz")) (p : ℝ) (hp : p ≠ 0) : ∃ psi : Reg d → ℂ,
    commonEntry d g ("local", ⟨p, 0⟩) (density d psi) ≠ entryChannel d ⟨g.gate, g.tag, levels⟩ ("local", .math ⟨p, 0⟩) (density d psi) := by
  obtain ⟨psi, h⟩ := C87_depolarizing_violated (d := d) g q hd hg hpos ht p p hp
  refine ⟨psi, ?_⟩
  have : entryChannel d ⟨g.gate, g.tag, levels⟩ ("local", .math ⟨p, 0⟩) (density d psi) = depolarize q p (density d psi) := by
    have hm : modeLines ⟨g.gate, g.tag, levels⟩ "local" = [((q : Nat) : Int)] := by
      unfold modeLines
      dsimp only
      rw [if_pos (.inl rfl), hctl, hg]
      rfl
    unfold entryChannel
    dsimp only
    rw [hm, List.filterMap_cons, below_fin]
    rfl
  rw [this]
  exact h

/-- C87 is violated if the errors of different lines are meant to be independent: after a gate on two lines that started from |0...0⟩, either both lines have the
error or none of them; the outcome with an error on just one of them has probability zero. -/
theorem C87_independent_violated (g : PyGate) (c q : Fin n) (hcq : c ≠ q) (hc : 2 ≤ d c) (hq : 2 ≤ d q)
    (hg : g.gate.target = .many [((c : Nat) : Int), ((q : Nat) : Int)]) (ht : ¬ (g.tag = "rxy" ∨ g.tag = "rz" ∨ g.tag = "virtrz")) (p : ℝ) (x : Reg d) :
    (commonEntry d g ("local", ⟨p, 0⟩) (density d (zeroState d)) x x).re =
      if ∀ i, (x i : Nat) = 0 then 1 - p else if ∀ i, (x i : Nat) = if i = c ∨ i = q then 1 else 0 then p else 0 := by
  have hl : errorLines n g "local" = [c, q] := local_lines (by rw [hg]; rfl)
  unfold commonEntry
  dsimp only
  rw [withChance_zero, hl]
  have : together [c, q] (fun q => flipError g (d q)) = embed1 (X := LvOf d) q (flipError g (d q)) * embed1 (X := LvOf d) c (flipError g (d c)) := by
    unfold together
    simp only [List.foldl_cons, List.foldl_nil, mul_one]
  rw [this, flipError_plain ht, flipError_plain ht]
  unfold withChance
  rw [Matrix.add_apply, Matrix.smul_apply, Matrix.smul_apply, conjBy_mul, conj_shift q hq, conj_shift c hc, Function.update_of_ne hcq]
  have hz : ∀ y : Reg d, density d (zeroState d) y y = if ∀ i, (y i : Nat) = 0 then 1 else 0 := by
    intro y
    unfold density zeroState
    split_ifs <;> simp
  rw [hz, hz]
  have hb : ∀ {m : Nat} (_ : 2 ≤ m) (i : Fin m), ((back 1 i : Fin m) : Nat) = 0 ↔ (i : Nat) = 1 := by
    intro m hm i
    have := i.2
    unfold back
    dsimp only
    split_ifs with h
    · omega
    · rw [Nat.mod_eq_of_lt (by omega)]
      omega
  have hall : (∀ i, ((Function.update (Function.update x q (back 1 (x q))) c (back 1 (x c)) i : Fin (d i)) : Nat) = 0) ↔
      ∀ i, (x i : Nat) = if i = c ∨ i = q then 1 else 0 := by
    refine forall_congr' fun i => ?_
    by_cases h1 : i = c
    · subst h1
      rw [Function.update_self, hb hc, if_pos (.inl rfl)]
    · rw [Function.update_of_ne h1]
      by_cases h2 : i = q
      · subst h2
        rw [Function.update_self, hb hq, if_pos (.inr rfl)]
      · rw [Function.update_of_ne h2, if_neg (by tauto)]
  simp only [hall]
  by_cases h1 : ∀ i, (x i : Nat) = 0
  · have h2 : ¬ ∀ i, (x i : Nat) = if i = c ∨ i = q then 1 else 0 := by
      intro h
      have := h c
      rw [if_pos (.inl rfl), h1 c] at this
      omega
    rw [if_pos h1, if_pos h1, if_neg h2]
    simp
  · rw [if_neg h1, if_neg h1]
    split_ifs <;> simp

/-- the gate CSum on a qubit and a qutrit -/
def sumGate : PyGate := ⟨⟨[2, 3], "csum", .two, .many [0, 1], none, false, false⟩, "csum", [2, 3], .none⟩

/-- errors on both lines with probability 1 / 4 and 1 / 8 -/
noncomputable def sumNoise : PyDict String (PyDict String (Noise ℝ)) := [("csum", [("local", ⟨1 / 4, 1 / 8⟩)])]

theorem sumGate_common : Common ![2, 3] sumGate := .csum _ 0 1 ⟨rfl, "csum", _, 0, rfl, rfl⟩ (by decide) (by decide) (by decide)

/-- The gate CSum with errors: the hypotheses of `C87_law` and `C87_trace` hold. -/
example (H : Hashes) : ∃ (M : DensityOp ![2, 3]) (ps : List ℝ) (psi : List Bool → Reg ![2, 3] → ℂ),
    (∀ rng, ∃ v, executeNoisy H rng [2, 3] (asModel sumNoise) [sumGate] = .ok v ∧
      Lists ![2, 3] v (psi (List.ofFn fun k : Fin ps.length => rng k ps[k]))) ∧
    mean (ps.map fun p => [1 - p, p]) (fun l => density ![2, 3] (psi (l.map fun k => k = 1))) =
      commonChannel ![2, 3] sumNoise [(sumGate, M)] (density ![2, 3] (zeroState ![2, 3])) ∧
    ∑ x, (commonChannel ![2, 3] sumNoise [(sumGate, M)] (density ![2, 3] (zeroState ![2, 3])) x x).re = 1 := by
  have hd : ∀ i, 2 ≤ (![2, 3] : Fin 2 → Nat) i ∧ (![2, 3] : Fin 2 → Nat) i ≤ 7 := by decide
  obtain ⟨A, M, hA, -, hop, -⟩ := common_agree (d := ![2, 3]) H (by decide) sumGate sumGate_common
  have hM : List.Forall₂ (fun (g : PyGate) (M : DensityOp ![2, 3]) => ∃ A, g.array = .ok A ∧ HasOperator ![2, 3] g.gate A M) [sumGate] [M] :=
    .cons ⟨A, hA, hop⟩ .nil
  have hk : Keyed sumNoise := by
    constructor
    · simp [sumNoise, PyDict.keys]
    · simp [sumNoise, PyDict.keys]
  have hpr : Probabilities sumNoise := by
    intro e he f hf
    obtain rfl := List.mem_singleton.1 he
    obtain rfl := List.mem_singleton.1 hf
    norm_num
  have hc : ∀ g ∈ [sumGate], Common ![2, 3] g := by
    intro g hg
    rw [List.mem_singleton.1 hg]
    exact sumGate_common
  have ha : Applicable ![2, 3] sumNoise [sumGate] := by
    intro g hg modes hm e he
    obtain rfl := List.mem_singleton.1 hg
    have h1 : modes = [("local", ⟨1 / 4, 1 / 8⟩)] := by
      have : PyDict.get? sumNoise sumGate.tag = some [("local", ⟨1 / 4, 1 / 8⟩)] := rfl
      rw [this] at hm
      exact (Option.some.inj hm).symm
    subst h1
    obtain rfl := List.mem_singleton.1 he
    exact ⟨by simp, fun h => absurd h (by decide), fun h => absurd h (by decide)⟩
  obtain ⟨ps, psi, -, h1, h2, -⟩ := C87_law H hd sumNoise hk hpr [sumGate] hc ha [M] hM
  exact ⟨M, ps, psi, h1, h2, C87_trace hd sumNoise hk hpr [sumGate] hc ha [M] hM⟩

/-- With probability 1 / 4 both lines are at level 1; never just one of them. -/
example : (commonEntry ![2, 3] sumGate ("local", ⟨1 / 4, 0⟩) (density _ (zeroState ![2, 3])) (fun i => ⟨1, by revert i; decide⟩) (fun i => ⟨1, by revert i; decide⟩)).re =
      1 / 4 ∧
    (commonEntry ![2, 3] sumGate ("local", ⟨1 / 4, 0⟩) (density _ (zeroState ![2, 3])) (fun i => ⟨![1, 0] i, by revert i; decide⟩)
      (fun i => ⟨![1, 0] i, by revert i; decide⟩)).re = 0 := by
  constructor
  · rw [C87_independent_violated (d := ![2, 3]) sumGate 0 1 (by decide) (by decide) (by decide) rfl (by decide)]
    rw [if_neg (fun h => absurd (h 0) (by decide)), if_pos (fun i => by revert i; decide)]
  · rw [C87_independent_violated (d := ![2, 3]) sumGate 0 1 (by decide) (by decide) (by decide) rfl (by decide)]
    rw [if_neg (fun h => absurd (h 0) (by decide)), if_neg (fun h => absurd (h 1) (by decide))]

/-- The gate H on a qutrit. -/
example : ∃ psi : Reg (fun _ : Fin 1 => 3) → ℂ, commonEntry (fun _ : Fin 1 => 3) ⟨⟨[3], "h", .single, .one 0, none, false, false⟩, "h", [3], .none⟩
    ("local", ⟨1 / 2, 0⟩) (density _ psi) ≠ entryChannel (fun _ : Fin 1 => 3) ⟨⟨[3], "h", .single, .one 0, none, false, false⟩, "h", none⟩
      ("local", .math ⟨1 / 2, 0⟩) (density _ psi) :=
  C87_backends_violated (d := fun _ : Fin 1 => 3) ⟨⟨[3], "h", .single, .one 0, none, false, false⟩, "h", [3], .none⟩ none 0 (by decide) rfl rfl (by simp)
    (by decide) (1 / 2) (by norm_num)

end Qudits.Misim
