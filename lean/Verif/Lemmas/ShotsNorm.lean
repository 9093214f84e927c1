import Verif.Lemmas.NoisyTn
import Verif.Props.GateArrayProps
/- Lemmas for C83: norms, the outcomes of measurements, and which noise models fit a circuit. -/
namespace Qudits.Shots
open Spec Matrix Complex NoisyFactory DD
variable {n : Nat} {d : Fin n → Nat}

theorem diag_mem {m : Nat} (w : Fin m → ℂ) (hw : ∀ i, ‖w i‖ = 1) :
    (fun i j : Fin m => if i = j then w j else 0 : Matrix (Fin m) (Fin m) ℂ) ∈ unitaryGroup (Fin m) ℂ := by
  have : (fun i j : Fin m => if i = j then w j else 0 : Matrix (Fin m) (Fin m) ℂ) = diagonal w := by
    ext i j
    by_cases hij : i = j
    · subst hij; simp
    · simp [hij]
  rw [this]
  change diagonal w ∈ unitaryGroup (Fin m) ℂ
  rw [mem_unitaryGroup_iff, star_eq_conjTranspose, diagonal_conjTranspose, diagonal_mul_diagonal, ← diagonal_one]
  congr 1
  funext i
  rw [Pi.star_apply, ← starRingEnd_apply, Complex.mul_conj, Complex.normSq_eq_norm_sq, hw i]
  simp

theorem errorOp_unitary {e : NoisyInstr} {M : Matrix (Reg d) (Reg d) ℂ} (h : ErrorOp d e M) : M ∈ unitaryGroup (Reg d) ℂ := by
  cases h with
  | x q =>
    apply embed1_mem_unitary
    refine perm_unitary _ (fun c : Fin (d q) => (⟨((c : Nat) + 1) % d q, Nat.mod_lt _ c.pos⟩ : Fin (d q))) ?_ ?_
    · intro a b hab
      have h := congrArg Fin.val hab
      dsimp only at h
      have ha := a.2
      have hb := b.2
      apply Fin.ext
      have := Nat.ModEq.add_right_cancel' 1 (h : (a : Nat) + 1 ≡ b + 1 [MOD d q])
      rwa [Nat.ModEq, Nat.mod_eq_of_lt ha, Nat.mod_eq_of_lt hb] at this
    · intro r c
      simp [Fin.ext_iff]
  | z q =>
    apply embed1_mem_unitary
    refine diag_mem (m := d q) (fun j => cexp (2 * Real.pi * I / d q * (j : Nat))) fun j => ?_
    rw [show (2 * Real.pi * I / d q * (j : Nat) : ℂ) = ((2 * Real.pi / d q * (j : Nat) : ℝ) : ℂ) * I by push_cast; ring]
    exact Complex.norm_exp_ofReal_mul_I _
  | noisex q a b x y hab _ _ =>
    apply embed1_mem_unitary
    exact twoLevel_unitary _ (ne_of_lt hab) (swap_unitary 1 1 (by simp) (by simp))
  | noisey q a b x y hab _ _ =>
    apply embed1_mem_unitary
    exact twoLevel_unitary _ (ne_of_lt hab) (swap_unitary (-I) I (by simp) (by simp))
  | noisez q l =>
    apply embed1_mem_unitary
    have : (fun i j : Fin (d q) => if i = j then (if i = l then -1 else 1) else 0 : Matrix (Fin (d q)) (Fin (d q)) ℂ) =
        fun i j : Fin (d q) => if i = j then (if j = l then -1 else 1) else 0 := by
      funext i j
      by_cases hij : i = j
      · subst hij; rfl
      · rw [if_neg hij, if_neg hij]
    refine this ▸ diag_mem (m := d q) (fun j => if j = l then -1 else 1) fun j => ?_
    split_ifs <;> simp

theorem errorOps_unitary {es : List NoisyInstr} {Es : List (Matrix (Reg d) (Reg d) ℂ)} (h : List.Forall₂ (ErrorOp d) es Es) :
    ∀ M ∈ Es, M ∈ unitaryGroup (Reg d) ℂ := by
  induction h with
  | nil => simp
  | cons h _ ih =>
    intro M hM
    rcases List.mem_cons.1 hM with rfl | hM
    · exact errorOp_unitary h
    · exact ih M hM

theorem withErrorOps_unitary {errs : Errors} {l : List (Instr × Matrix (Reg d) (Reg d) ℂ)} {Ns : List (Matrix (Reg d) (Reg d) ℂ)}
    (h : WithErrorOps d errs l Ns) (hu : ∀ p ∈ l, p.2 ∈ unitaryGroup (Reg d) ℂ) : ∀ M ∈ Ns, M ∈ unitaryGroup (Reg d) ℂ := by
  induction h with
  | nil => simp
  | cons i M es Es rest out _ h2 _ ih =>
    intro N hN
    rw [List.mem_cons, List.mem_append] at hN
    rcases hN with rfl | hN | hN
    · exact hu (i, N) (by simp)
    · exact errorOps_unitary h2 N hN
    · exact ih (fun p hp => hu p (by simp [hp])) N hN

theorem prod_unitary {Ns : List (Matrix (Reg d) (Reg d) ℂ)} (h : ∀ M ∈ Ns, M ∈ unitaryGroup (Reg d) ℂ) : Ns.reverse.prod ∈ unitaryGroup (Reg d) ℂ :=
  Submonoid.list_prod_mem _ fun M hM => h M (List.mem_reverse.1 hM)

theorem sum_sq (psi : Reg d → ℂ) : star psi ⬝ᵥ psi = ((∑ x, ‖psi x‖ ^ 2 : ℝ) : ℂ) := by
  unfold dotProduct
  push_cast
  apply Finset.sum_congr rfl
  intro x _
  rw [Pi.star_apply, ← starRingEnd_apply, mul_comm, Complex.mul_conj, Complex.normSq_eq_norm_sq]
  push_cast
  rfl

theorem noisyState_norm (hpos : ∀ i, 0 < d i) {errs : Errors} {circ : List (Instr × Arr2 ℂ)} {Ms : List (Matrix (Reg d) (Reg d) ℂ)}
    (hu : ∀ M ∈ Ms, M ∈ unitaryGroup (Reg d) ℂ) {psi : Reg d → ℂ} (h : NoisyState d errs circ Ms psi) : ∑ x, ‖psi x‖ ^ 2 = 1 := by
  obtain ⟨Ns, h1, rfl⟩ := h
  have hN := prod_unitary (withErrorOps_unitary h1 fun p hp => hu p.2 (List.of_mem_zip (a := p.1) (b := p.2) hp).2)
  have := sum_sq (Ns.reverse.prod *ᵥ zeroState d)
  rw [Custom.norm_kept hN, Custom.zeroState_norm d hpos] at this
  exact_mod_cast this.symm

/-! ### the outcomes -/

theorem lists_ofFn {v : List ℂ} {psi : Reg d → ℂ} (h : Lists d v psi) : v = List.ofFn fun k => psi ((idxEquiv d).symm k) := by
  apply List.ext_getElem?
  intro i
  by_cases hi : i < ∏ i, d i
  · obtain ⟨x, rfl⟩ := idx_surjective d i hi
    rw [h.entry, List.getElem?_ofFn, dif_pos hi]
    congr 2
    exact ((idxEquiv d).symm_apply_apply x).symm
  · rw [List.getElem?_eq_none (by rw [h.length]; omega), List.getElem?_eq_none (by rw [List.length_ofFn]; omega)]

theorem take_sum {v : List ℂ} {psi : Reg d → ℂ} (h : Lists d v psi) (k : Nat) :
    ((v.map fun z => ‖z‖ ^ 2).take k).sum = ∑ x with idx d x < k, ‖psi x‖ ^ 2 := by
  rw [lists_ofFn h, List.map_ofFn, List.sum_take_ofFn]
  refine Finset.sum_bij' (fun k _ => (idxEquiv d).symm k) (fun x _ => idxEquiv d x) ?_ ?_ ?_ ?_ ?_
  · intro a ha
    simp only [Finset.mem_filter, Finset.mem_univ, true_and] at ha ⊢
    have : idx d ((idxEquiv d).symm a) = a := congrArg Fin.val ((idxEquiv d).apply_symm_apply a)
    omega
  · intro x hx
    simp only [Finset.mem_filter, Finset.mem_univ, true_and] at hx ⊢
    exact hx
  · simp
  · simp
  · simp

theorem total_sum {v : List ℂ} {psi : Reg d → ℂ} (h : Lists d v psi) : (v.map fun z => ‖z‖ ^ 2).sum = ∑ x, ‖psi x‖ ^ 2 := by
  have := take_sum h (∏ i, d i)
  rw [List.take_of_length_le (by rw [List.length_map, h.length])] at this
  rw [this]
  apply Finset.sum_congr _ fun _ _ => rfl
  apply Finset.filter_true_of_mem
  intro x _
  exact idx_lt d x

theorem take_succ_sum {v : List ℂ} {psi : Reg d → ℂ} (h : Lists d v psi) (x : Reg d) :
    ((v.map fun z => ‖z‖ ^ 2).take (idx d x + 1)).sum = ∑ y with idx d y < idx d x, ‖psi y‖ ^ 2 + ‖psi x‖ ^ 2 := by
  rw [← take_sum h, List.take_add_one, List.getElem?_map, h.entry]
  simp

theorem measure_born {W : World} {m : Moment} (h0 : ∀ s, 0 ≤ W.first s ∧ W.first s < 1) {v : List ℂ} {psi : Reg d → ℂ} (h : Lists d v psi)
    (h1 : ∑ x, ‖psi x‖ ^ 2 = 1) : (∃ x, measureState W m v = .ok (idx d x)) ∧
      ∀ x, measureState W m v = .ok (idx d x) ↔ Born d psi (W.first (seed W m)) x := by
  have hs := total_sum h
  rw [h1] at hs
  have := choice_spec (p := v.map fun z => ‖z‖ ^ 2) (u := W.first (seed W m)) (by
    intro x hx
    obtain ⟨z, _, rfl⟩ := List.mem_map.1 hx
    positivity) (by rw [hs]; simp [atol]) (h0 _).1 (h0 _).2
  rw [hs, mul_one] at this
  obtain ⟨⟨i, hi, he⟩, h3⟩ := this
  rw [List.length_map, h.length] at hi
  refine ⟨?_, fun x => ?_⟩
  · obtain ⟨x, rfl⟩ := idx_surjective d i hi
    exact ⟨x, he⟩
  · unfold measureState
    rw [h3 _ (by rw [List.length_map, h.length]; exact idx_lt d x), take_sum h, take_succ_sum h]
    rfl

/-! ### which noise models fit a circuit -/

theorem foldlM_iff {E α β : Type} {f : β → α → Except E β} {P : α → Prop} : ∀ {l : List α}, (∀ a ∈ l, ∀ b, (∃ b', f b a = .ok b') ↔ P a) →
    ∀ b, (∃ b', l.foldlM f b = .ok b') ↔ ∀ a ∈ l, P a
  | [], _, b => by simp only [List.not_mem_nil, false_imp_iff, implies_true, iff_true]; exact ⟨b, rfl⟩
  | a :: l, h, b => by
    have ih := fun b => foldlM_iff (l := l) (fun x hx => h x (by simp [hx])) b
    rw [List.forall_mem_cons]
    constructor
    · rintro ⟨b', hb⟩
      rw [List.foldlM_cons] at hb
      cases h1 : f b a with
      | error e => rw [h1] at hb; cases hb
      | ok b1 =>
        rw [h1] at hb
        exact ⟨(h a (by simp) b).1 ⟨b1, h1⟩, (ih b1).1 ⟨b', hb⟩⟩
    · rintro ⟨h1, h2⟩
      obtain ⟨b1, h1⟩ := (h a (by simp) b).2 h1
      obtain ⟨b2, h2⟩ := (ih b1).2 h2
      exact ⟨b2, by rw [List.foldlM_cons, h1]; exact h2⟩

theorem flagged_reference {g : Gate} {ls : List (Fin n)} (hf : Flagged d g ls) : g.referenceLines = .ok (ls.map fun q : Fin n => ((q : Nat) : Int)) := by
  unfold Gate.referenceLines
  rw [hf.lines]
  simp [hf.nonempty]

/-- the lines of a mode: there is an answer exactly if the mode fits, and then it consists of the selected lines -/
theorem affected_iff {i : Instr} {ls : List (Fin n)} (hf : Flagged d i.gate ls) (mode : String) :
    (ModeFits i mode → ∃ qs, affected i mode = .ok qs ∧ ∀ q, q ∈ qs ↔ Selected i mode q) ∧ (¬ ModeFits i mode → ∃ e, affected i mode = .error e) := by
  have href := flagged_reference hf
  have hlines := hf.lines
  have hsel : ∀ q, Selected i mode q ↔ ((mode = "local" ∧ q ∈ i.gate.controlLines ++ i.gate.target.lines) ∨ (mode = "all" ∧ 0 ≤ q ∧ q < i.gate.dims.length) ∨
      (mode = "nonlocal" ∧ i.gate.gateType ≠ .single ∧ q ∈ i.gate.controlLines ++ i.gate.target.lines) ∨
      (mode = "control" ∧ i.gate.gateType = .two ∧ ∃ rest, i.gate.target = .many (q :: rest)) ∨
      (mode = "target" ∧ ((i.gate.gateType ≠ .single ∧ ∃ a rest, i.gate.controlLines ++ i.gate.target.lines = a :: rest ∧ q ∈ rest) ∨
        (i.gate.gateType = .single ∧ i.gate.target = .one q)))) := fun q => Iff.rfl
  simp only [hsel, hlines]
  unfold affected ModeFits
  by_cases h1 : mode = "local"
  · subst h1
    refine ⟨fun _ => ⟨_, by rw [if_pos rfl]; exact href, fun q => by simp⟩, fun h => absurd (.inl rfl) h⟩
  rw [if_neg h1]
  by_cases h2 : mode = "all"
  · subst h2
    refine ⟨fun _ => ⟨_, by rw [if_pos rfl], fun q => ?_⟩, fun h => absurd (.inr (.inl rfl)) h⟩
    simp only [List.mem_map, List.mem_range]
    constructor
    · rintro ⟨a, ha, rfl⟩
      exact .inr (.inl ⟨trivial, by omega, by omega⟩)
    · rintro (h | ⟨-, h3, h4⟩ | h | h | h)
      · exact absurd h.1 (by decide)
      · exact ⟨q.toNat, by omega, by omega⟩
      · exact absurd h.1 (by decide)
      · exact absurd h.1 (by decide)
      · exact absurd h.1 (by decide)
  rw [if_neg h2]
  by_cases h3 : mode = "nonlocal"
  · subst h3
    rw [if_pos rfl]
    by_cases ht : i.gate.gateType = .single
    · simp [ht]
    · rw [if_neg ht, href]
      simp [ht]
  rw [if_neg h3]
  by_cases h4 : mode = "control"
  · subst h4
    rw [if_pos rfl]
    by_cases ht : i.gate.gateType = .two
    · rw [if_neg (by simpa using ht)]
      cases hg : i.gate.target with
      | one q => simp
      | many qs =>
        refine ⟨fun _ => ⟨_, rfl, fun q => ?_⟩, fun h => absurd (.inr (.inr (.inr (.inl ⟨rfl, ht, _, rfl⟩)))) h⟩
        cases qs <;> simp [ht, eq_comm]
    · rw [if_pos (by simpa using ht)]
      simp [ht]
  rw [if_neg h4]
  by_cases h5 : mode = "target"
  · subst h5
    rw [if_pos rfl]
    by_cases ht : i.gate.gateType = .single
    · rw [if_neg (by simpa using ht)]
      cases hg : i.gate.target with
      | one q => simp [ht, eq_comm]
      | many qs => simp [ht]
    · rw [if_pos (by simpa using ht), href]
      refine ⟨fun _ => ⟨_, rfl, fun q => ?_⟩, fun h => absurd (.inr (.inr (.inr (.inr ⟨rfl, .inl ht⟩)))) h⟩
      cases ls with
      | nil => exact absurd rfl hf.nonempty
      | cons l ls => simp [ht]
  rw [if_neg h5]
  simp [h1, h2, h3, h4, h5]

theorem rectify_ok {m m' : SubspaceNoise ℝ} {i : Instr} (h : rectify m i = .ok m') (a b : Int) : (a, b) ∈ PyDict.keys m' ↔ NoisePair m i a b := by
  refine ⟨rectify_pairs h a b, ?_⟩
  obtain ⟨g, t, lev⟩ := i
  unfold rectify at h
  unfold NoisePair
  unfold PyDict.keys
  rcases m with _ | ⟨⟨k, n⟩, _ | ⟨k', m⟩⟩ <;> rcases lev with _ | ⟨x, y⟩
  · cases h; exact id
  · cases h; exact id
  · cases h; exact id
  · simp only [needsCorrection, decide_eq_true_eq] at h
    dsimp only
    split_ifs at h ⊢ with hk
    · rintro ⟨rfl, rfl⟩
      obtain ⟨_, rfl, _⟩ := SubspaceNoise.addNoise_ok h
      simp
    · cases h
      rintro rfl
      simp
  · cases h; exact id
  · simp only [needsCorrection, Bool.false_eq_true, if_false] at h
    cases h
    exact id

/-- the levels of physical noise are found, if they are in ascending order -/
theorem rectify_exists {m : SubspaceNoise ℝ} {i : Instr} (h : ∀ a b, NoisePair m i a b → a < b) : ∃ m', rectify m i = .ok m' := by
  obtain ⟨g, t, lev⟩ := i
  unfold rectify
  unfold NoisePair at h
  rcases m with _ | ⟨⟨k, n⟩, _ | ⟨k', m⟩⟩ <;> rcases lev with _ | ⟨x, y⟩
  · exact ⟨_, rfl⟩
  · exact ⟨_, rfl⟩
  · exact ⟨_, rfl⟩
  · simp only [needsCorrection, decide_eq_true_eq]
    dsimp only at h
    split_ifs at h ⊢ with hk
    · have := h _ _ ⟨rfl, rfl⟩
      exact ⟨_, SubspaceNoise.addNoise_accepts (by rintro rfl; simp at this) (by simp [PyDict.keys]) (fun _ => rfl) (by simp [PyDict.keys])⟩
    · exact ⟨_, rfl⟩
  · exact ⟨_, rfl⟩
  · exact ⟨_, by simp only [needsCorrection, Bool.false_eq_true, if_false]; rfl⟩

/-- the levels that are found are in ascending order, if the stored ones are -/
theorem rectify_ascending {m m' : SubspaceNoise ℝ} {i : Instr} (h : rectify m i = .ok m') (hm : ∀ k ∈ m.map Prod.fst, k.1 < k.2) (a b : Int)
    (hab : NoisePair m i a b) : a < b := by
  obtain ⟨g, t, lev⟩ := i
  unfold rectify at h
  unfold NoisePair at hab
  rcases m with _ | ⟨⟨k, n⟩, _ | ⟨k', m⟩⟩ <;> rcases lev with _ | ⟨x, y⟩
  · exact hm _ hab
  · exact hm _ hab
  · exact hm _ hab
  · simp only [needsCorrection, decide_eq_true_eq] at h
    dsimp only at hab
    split_ifs at h hab with hk
    · obtain ⟨rfl, rfl⟩ := hab
      obtain ⟨hne, _⟩ := SubspaceNoise.addNoise_ok h
      omega
    · exact hm (a, b) (by simp [hab])
  · exact hm _ hab
  · exact hm _ hab

theorem depolMath_ok (hpos : ∀ i, 0 < d i) (rng : Draws) (q : Fin n) (s : St) : ∃ s', depolMath rng (List.ofFn d) ((q : Nat) : Int) s = .ok s' := by
  unfold depolMath
  rw [dimAt_ok]
  simp only [bind, Except.bind]
  rw [if_neg (by have := hpos q; omega)]
  exact ⟨_, rfl⟩

theorem depolSubOne_iff (rng : Draws) (dim : Nat) (dit : Int) (l : Int × Int) (s : St) :
    (∃ s', depolSubOne rng dim dit s l = .ok s') ↔ (0 ≤ l.1 ∧ l.1 < dim) ∧ 0 ≤ l.2 ∧ l.2 < dim := by
  unfold depolSubOne
  split_ifs with h
  · simp only [exists_false, false_iff]
    tauto
  · simp only [not_or, not_not] at h
    simp only [h, and_self, iff_true]
    split_ifs <;> exact ⟨_, rfl⟩

theorem dephaseOne_iff (rng : Draws) (dim : Nat) (dit : Int) (l : Int × Int) (s : St) :
    (∃ s', dephaseOne rng dim dit s l = .ok s') ↔ (0 ≤ l.1 ∧ l.1 < dim) ∧ 0 ≤ l.2 ∧ l.2 < dim := by
  unfold dephaseOne
  split_ifs with h
  · simp only [exists_false, false_iff]
    tauto
  · simp only [not_or, not_not] at h
    simp only [h, and_self, iff_true]
    exact ⟨_, rfl⟩

theorem bind_iff {E α β : Type} {x : Except E α} {f : α → Except E β} {P Q : Prop} (h1 : (∃ a, x = .ok a) ↔ P) (h2 : ∀ a, x = .ok a → ((∃ b, f a = .ok b) ↔ Q)) :
    (∃ b, (x >>= f) = .ok b) ↔ P ∧ Q := by
  cases x with
  | error e =>
    simp only [reduceCtorEq, exists_false, false_iff] at h1
    constructor
    · rintro ⟨b, hb⟩; cases hb
    · rintro ⟨h, -⟩; exact absurd h h1
  | ok a =>
    have : P := h1.1 ⟨a, rfl⟩
    simp only [this, true_and]
    exact h2 a rfl

theorem lineDim_line (q : Fin n) (dim : Nat) : LineDim (List.ofFn d) ((q : Nat) : Int) dim ↔ dim = d q := by
  refine ⟨lineDim_eq, ?_⟩
  rintro rfl
  unfold LineDim
  rw [if_pos (by omega)]
  simp

theorem applyMode_iff (hpos : ∀ i, 0 < d i) {i : Instr} {ls : List (Fin n)} (hf : Flagged d i.gate ls) (e : String × NoiseObj ℝ)
    (ha : ∀ m, e.2 = .sub m → ∀ k ∈ m.map Prod.fst, k.1 < k.2) (rng : Draws) (s : St) :
    (∃ s', applyMode rng (List.ofFn d) i s e = .ok s') ↔ ModeFits i e.1 ∧ LevelsFit (List.ofFn d) i e.1 e.2 := by
  obtain ⟨mode, o⟩ := e
  obtain ⟨h1, h2⟩ := affected_iff hf mode
  unfold applyMode
  by_cases hm : ModeFits i mode
  swap
  · obtain ⟨e, he⟩ := h2 hm
    simp only [he, bind, Except.bind, hm, false_and, iff_false]
    rintro ⟨s', h⟩
    cases h
  obtain ⟨qs, hq, hsel⟩ := h1 hm
  simp only [hq, hm, true_and]
  have hline : ∀ q ∈ qs, ∃ k : Fin n, q = ((k : Nat) : Int) := fun q h => selected_line hf ((hsel q).1 h)
  cases o with
  | math noise =>
    simp only [bind, Except.bind, resolveInfo, applyDepol, applyDephase, LevelsFit, iff_true]
    obtain ⟨s', hs⟩ := (foldlM_iff (f := fun s dit => depolMath rng (List.ofFn d) dit s) (P := fun _ => True) (l := qs)
      (by
        intro a ha b
        obtain ⟨q, rfl⟩ := hline a ha
        simp only [iff_true]
        exact depolMath_ok hpos rng q b) s).2 fun _ _ => trivial
    rw [hs]
    exact ⟨_, rfl⟩
  | sub m =>
    have hm := ha m rfl
    simp only [resolveInfo, LevelsFit]
    constructor
    · rintro ⟨s', h⟩
      obtain ⟨_, ho, h⟩ := bindOk h
      cases ho
      obtain ⟨o', ho, h⟩ := bindOk h
      obtain ⟨m', hm', ho⟩ := bindOk ho
      cases ho
      obtain ⟨s1, h1, -⟩ := bindOk h
      intro a b hab
      refine ⟨rectify_ascending hm' hm a b hab, fun q dim hsq hdim => ?_⟩
      have hmem := (hsel q).2 hsq
      obtain ⟨k, rfl⟩ := hline q hmem
      obtain rfl := lineDim_eq hdim
      have := (foldlM_iff (P := fun q : Int => ∀ k : Fin n, q = ((k : Nat) : Int) → ∀ l ∈ PyDict.keys m', (0 ≤ l.1 ∧ l.1 < d k) ∧ 0 ≤ l.2 ∧ l.2 < d k)
        (l := qs) (f := fun s dit => do
          let dim ← dimAt (List.ofFn d) dit
          (PyDict.keys m').foldlM (fun s l => depolSubOne rng dim dit s l) s) (by
        intro q hq s
        obtain ⟨k, rfl⟩ := hline q hq
        simp only [dimAt_ok, bind, Except.bind]
        rw [foldlM_iff fun l _ s => depolSubOne_iff rng (d k) ((k : Nat) : Int) l s]
        constructor
        · intro h k' hk'
          obtain rfl : k = k' := Fin.ext (by omega)
          exact h
        · intro h
          exact h k rfl) s).1 ⟨s1, h1⟩ _ hmem k rfl (a, b) ((rectify_ok hm' a b).2 hab)
      exact ⟨this.1.1, this.2.2⟩
    · intro h
      obtain ⟨m', hm'⟩ := rectify_exists fun a b hab => (h a b hab).1
      have hin : ∀ q : Fin n, ((q : Nat) : Int) ∈ qs → ∀ l ∈ PyDict.keys m', (0 ≤ l.1 ∧ l.1 < d q) ∧ 0 ≤ l.2 ∧ l.2 < d q := by
        rintro q hq ⟨a, b⟩ hab
        obtain ⟨h1, h2⟩ := h a b ((rectify_ok hm' a b).1 hab)
        obtain ⟨h3, h4⟩ := h2 _ _ ((hsel _).1 hq) ((lineDim_line q _).2 rfl)
        dsimp only
        omega
      simp only [hm', bind, Except.bind, pure, Except.pure, applyDepol, applyDephase]
      obtain ⟨s1, h1⟩ := (foldlM_iff (P := fun _ => True) (l := qs) (f := fun s dit => (dimAt (List.ofFn d) dit).bind fun dim =>
          (PyDict.keys m').foldlM (fun s l => depolSubOne rng dim dit s l) s) (by
        intro q hq s
        obtain ⟨k, rfl⟩ := hline q hq
        simp only [dimAt_ok, Except.bind, iff_true]
        exact (foldlM_iff fun l _ s => depolSubOne_iff rng (d k) ((k : Nat) : Int) l s) s |>.2 (hin k hq)) s).2 fun _ _ => trivial
      obtain ⟨s2, h2⟩ := (foldlM_iff (P := fun _ => True) (l := qs) (f := fun s dit => (dimAt (List.ofFn d) dit).bind fun dim =>
          (PyDict.keys m').foldlM (fun s l => dephaseOne rng dim dit s l) s) (by
        intro q hq s
        obtain ⟨k, rfl⟩ := hline q hq
        simp only [dimAt_ok, Except.bind, iff_true]
        exact (foldlM_iff fun l _ s => dephaseOne_iff rng (d k) ((k : Nat) : Int) l s) s |>.2 (hin k hq)) s1).2 fun _ _ => trivial
      refine ⟨s2, ?_⟩
      have h1' : (List.foldlM (fun s dit => (dimAt (List.ofFn d) dit).bind fun dim =>
          (PyDict.keys m').foldlM (fun s l => depolSubOne rng dim dit s l) s) s qs) = .ok s1 := h1
      have h2' : (List.foldlM (fun s dit => (dimAt (List.ofFn d) dit).bind fun dim =>
          (PyDict.keys m').foldlM (fun s l => dephaseOne rng dim dit s l) s) s1 qs) = .ok s2 := h2
      simp only [Except.bind] at h1' h2'
      rw [h1']
      exact h2'

theorem operators_flagged {circ : List (Instr × Arr2 ℂ)} {Ms : List (Matrix (Reg d) (Reg d) ℂ)} (h : Operators d circ Ms) :
    ∀ c ∈ circ, ∃ ls, Flagged d c.1.gate ls := by
  unfold Operators at h
  induction h with
  | nil => simp
  | cons h _ ih =>
    intro c hc
    rcases List.mem_cons.1 hc with rfl | hc
    · exact h.1
    · exact ih c hc

theorem rectify_noises {m m' : SubspaceNoise ℝ} {i : Instr} (h : rectify m i = .ok m') : m'.map Prod.snd = m.map Prod.snd := by
  obtain ⟨g, t, lev⟩ := i
  unfold rectify at h
  rcases m with _ | ⟨⟨k, n⟩, _ | ⟨k', m⟩⟩ <;> rcases lev with _ | ⟨x, y⟩
  · cases h; rfl
  · cases h; rfl
  · cases h; rfl
  · simp only [needsCorrection, decide_eq_true_eq] at h
    split_ifs at h with hk
    · obtain ⟨_, rfl, _⟩ := SubspaceNoise.addNoise_ok h
      simp
    · cases h
      rfl
  · cases h; rfl
  · simp only [needsCorrection, Bool.false_eq_true, if_false] at h
    cases h
    rfl

/-- the dimension of a line, as a total function -/
def dimOf (d : Fin n → Nat) (q : Int) : Nat := (List.ofFn d).getD q.toNat 0

theorem dimOf_line (q : Fin n) : dimOf d ((q : Nat) : Int) = d q := by
  unfold dimOf
  simp

/-- what a mode does: a sequence of draws -/
theorem applyModeP_sites (hpos : ∀ i, 0 < d i) {i : Instr} {ls : List (Fin n)} (hf : Flagged d i.gate ls) {mode : String} {o : NoiseObj ℝ} (hm : ModeFits i mode)
    (hl : LevelsFit (List.ofFn d) i mode o) : ∃ qs info, affected i mode = .ok qs ∧ (∀ q, q ∈ qs ↔ Selected i mode q) ∧ (∀ q ∈ qs, ∃ k : Fin n, q = ((k : Nat) : Int)) ∧
      resolveInfo o i = .ok info ∧ (∀ q ∈ qs, InRange (dimOf d q) info) ∧
      ∀ rng s, applyModeP rng (List.ofFn d) i s (mode, o) =
        runSites rng ((qs.flatMap fun q => depolSites (dimOf d q) q info) ++ qs.flatMap fun q => dephaseSites (dimOf d q) q info) s := by
  obtain ⟨qs, hq, hsel⟩ := (affected_iff hf mode).1 hm
  have hline : ∀ q ∈ qs, ∃ k : Fin n, q = ((k : Nat) : Int) := fun q h => selected_line hf ((hsel q).1 h)
  have hinfo : ∃ info, resolveInfo o i = .ok info ∧ ∀ q ∈ qs, InRange (dimOf d q) info := by
    cases o with
    | math noise =>
      refine ⟨_, rfl, fun q h => ?_⟩
      obtain ⟨k, rfl⟩ := hline q h
      rw [dimOf_line]
      exact hpos k
    | sub m =>
      obtain ⟨m', hm'⟩ := rectify_exists fun a b hab => (hl a b hab).1
      refine ⟨.sub m', by simp only [resolveInfo, hm', bind, Except.bind, pure, Except.pure], fun q hq e he => ?_⟩
      obtain ⟨k, rfl⟩ := hline q hq
      have := (rectify_ok hm' e.1.1 e.1.2).1 (by unfold PyDict.keys; exact List.mem_map.2 ⟨e, he, rfl⟩)
      obtain ⟨h1, h2⟩ := hl _ _ this
      obtain ⟨h3, h4⟩ := h2 _ _ ((hsel _).1 hq) ((lineDim_line k _).2 rfl)
      rw [dimOf_line]
      omega
  obtain ⟨info, hi, hr⟩ := hinfo
  refine ⟨qs, info, hq, hsel, hline, hi, hr, fun rng s => ?_⟩
  have hd : ∀ q ∈ qs, dimAt (List.ofFn d) q = .ok (dimOf d q) := by
    intro q hq
    obtain ⟨k, rfl⟩ := hline q hq
    rw [dimOf_line]
    exact dimAt_ok ..
  unfold applyModeP
  simp only [hq, hi]
  rw [runSites_append, ← applyDepolP_eq rng (dimOf d) hd hr]
  simp only [bind, Except.bind]
  split
  · rfl
  · rename_i s1 _
    exact applyDephaseP_eq rng (dimOf d) hd hr s1

theorem applyModeP_iff (hpos : ∀ i, 0 < d i) {i : Instr} {ls : List (Fin n)} (hf : Flagged d i.gate ls) (e : String × NoiseObj ℝ)
    (ha : ∀ m, e.2 = .sub m → ∀ k ∈ m.map Prod.fst, k.1 < k.2) (rng : Draws) (s : StP) :
    (∃ s', applyModeP rng (List.ofFn d) i s e = .ok s') ↔
      ModeFits i e.1 ∧ LevelsFit (List.ofFn d) i e.1 e.2 ∧ ProbabilitiesFit (List.ofFn d) i e.1 e.2 := by
  rw [← and_assoc]
  by_cases hfit : ModeFits i e.1 ∧ LevelsFit (List.ofFn d) i e.1 e.2
  swap
  · simp only [hfit, false_and, iff_false]
    rintro ⟨s', h⟩
    exact hfit ((applyMode_iff hpos hf e ha rng s.toSt).1 ⟨_, applyModeP_refine h⟩)
  simp only [hfit, true_and, and_self]
  obtain ⟨mode, o⟩ := e
  obtain ⟨qs, info, hq, hsel, hline, hi, hr, hrun⟩ := applyModeP_sites hpos hf hfit.1 hfit.2
  rw [hrun, runSites_iff]
  cases o with
  | math noise =>
    obtain rfl : info = .math noise := by
      unfold resolveInfo at hi
      exact (Except.ok.inj hi).symm
    have e2 : (qs.flatMap fun q => dephaseSites (dimOf d q) q (.math noise)) = [] := by simp [dephaseSites]
    rw [e2, List.append_nil]
    simp only [depolSites, ProbabilitiesFit]
    rw [flatMap_one]
    simp only [List.mem_map, forall_exists_index, and_imp, forall_apply_eq_imp_iff₂]
    constructor
    · intro h q dim hs hd h1
      have hq := (hsel q).2 hs
      obtain ⟨k, rfl⟩ := hline q hq
      obtain rfl := lineDim_eq hd
      have := h _ hq
      rw [dimOf_line] at this
      exact (mathSite_valid (hpos k) _ _).1 this h1
    · intro h q hq
      obtain ⟨k, rfl⟩ := hline q hq
      rw [dimOf_line]
      exact (mathSite_valid (hpos k) _ _).2 fun h1 => h _ _ ((hsel _).1 hq) ((lineDim_line k _).2 rfl) h1
  | sub m =>
    have : ∃ m', rectify m i = .ok m' ∧ info = .sub m' := by
      unfold resolveInfo at hi
      obtain ⟨m', h1, h2⟩ := bindOk hi
      exact ⟨m', h1, (Except.ok.inj h2).symm⟩
    obtain ⟨m', hm', rfl⟩ := this
    have hasc := rectify_ascending hm' (ha m rfl)
    have hno : ∀ P : Noise ℝ → Prop, (∀ e ∈ m, P e.2) ↔ ∀ e ∈ m', P e.2 := by
      intro P
      have := rectify_noises hm'
      constructor
      · intro h e he
        have : e.2 ∈ m.map Prod.snd := by rw [← this]; exact List.mem_map.2 ⟨e, he, rfl⟩
        obtain ⟨e', h1, h2⟩ := List.mem_map.1 this
        rw [← h2]
        exact h e' h1
      · intro h e he
        have : e.2 ∈ m'.map Prod.snd := by rw [this]; exact List.mem_map.2 ⟨e, he, rfl⟩
        obtain ⟨e', h1, h2⟩ := List.mem_map.1 this
        rw [← h2]
        exact h e' h1
    simp only [ProbabilitiesFit]
    rw [hno fun nz => ∀ q dim, Selected i mode q → LineDim (List.ofFn d) q dim → (0 ≤ nz.depolarizing ∧ 3 * nz.depolarizing ≤ 4) ∧
      (2 < dim → 0 ≤ nz.dephasing ∧ nz.dephasing ≤ 1)]
    have hoth : ∀ k : Fin n, ((k : Nat) : Int) ∈ qs → ∀ e ∈ m', (others (d k) e.1 ≠ [] ↔ 2 < d k) := by
      intro k hk e he
      have h1 := hr _ hk e he
      rw [dimOf_line] at h1
      have h2 := hasc e.1.1 e.1.2 ((rectify_ok hm' e.1.1 e.1.2).1 (by unfold PyDict.keys; exact List.mem_map.2 ⟨e, he, rfl⟩))
      exact others_nonempty h1.1.1 h2 h1.2.2
    simp only [depolSites, dephaseSites, List.mem_append, List.mem_flatMap, List.mem_map]
    constructor
    · intro h e he q dim hs hd
      have hq := (hsel q).2 hs
      obtain ⟨k, rfl⟩ := hline q hq
      obtain rfl := lineDim_eq hd
      refine ⟨(subSite_valid _ _).1 (h _ (.inl ⟨_, hq, e, he, rfl⟩)), fun h2 => ?_⟩
      obtain ⟨l, hl⟩ := List.exists_mem_of_ne_nil _ ((hoth k hq e he).2 h2)
      exact (levelSite_valid ((k : Nat) : Int) e.2.dephasing l).1 (h _ (.inr ⟨_, hq, e, he, l, by rw [dimOf_line]; exact hl, rfl⟩))
    · rintro h t (⟨q, hq, e, he, rfl⟩ | ⟨q, hq, e, he, l, hl, rfl⟩)
      · obtain ⟨k, rfl⟩ := hline q hq
        exact (subSite_valid _ _).2 (h e he _ _ ((hsel _).1 hq) ((lineDim_line k _).2 rfl)).1
      · obtain ⟨k, rfl⟩ := hline q hq
        rw [dimOf_line] at hl
        exact (levelSite_valid ..).2 ((h e he _ _ ((hsel _).1 hq) ((lineDim_line k _).2 rfl)).2
          ((hoth k hq e he).1 (List.ne_nil_of_mem hl)))

/-- a noisy circuit is made exactly if the noise model fits -/
theorem generateP_iff (hpos : ∀ i, 0 < d i) {errs : Errors} (ha : Ascending errs) {instrs : List Instr} (hf : ∀ i ∈ instrs, ∃ ls, Flagged d i.gate ls)
    (rng : Draws) : (∃ s, generateP rng (List.ofFn d) errs instrs = .ok s) ↔ NoiseFits (List.ofFn d) errs instrs := by
  unfold generateP NoiseFits
  apply foldlM_iff
  intro i hi s
  obtain ⟨ls, hl⟩ := hf i hi
  unfold applyNoiseP
  cases hg : PyDict.get? errs i.tag with
  | none => simp
  | some modes =>
    simp only [Option.some.injEq, forall_eq']
    apply foldlM_iff
    intro e he s
    obtain ⟨mode, o⟩ := e
    exact applyModeP_iff hpos hl _ (fun m hm => by
      dsimp only at hm
      subst hm
      exact ha _ _ hg _ _ he) rng s

theorem levels_ok {m : Nat} {a b : Int} (h0 : 0 ≤ a) (hab : a < b) (hb : b < m) : ∃ g x y, levelsInit m (.list [.int a, .int b]) = .ok g ∧ GoodLevels m g x y := by
  have hl : ∃ g, levelsInit m (.list [.int a, .int b]) = .ok g := by
    have hc : checkLevels m a b = .ok () := by
      unfold checkLevels
      rw [if_pos ⟨by omega, by omega, by omega, by omega, by omega⟩]
    unfold levelsInit
    simp only [needInt, List.getElem?_cons_zero, List.getElem?_cons_succ, bind, Except.bind, hc]
    exact ⟨_, rfl⟩
  obtain ⟨g, hl⟩ := hl
  obtain ⟨_, _, x, y, _, _, _, hg, _⟩ := levelsInit_ok hl
  exact ⟨g, x, y, hl, hg⟩

theorem noisyOps_fits {errs : Errors} {instrs : List Instr} (hp : NoiseFits (List.ofFn d) errs instrs) {out : List NoisyInstr}
    (hi : Interleaved (AllowedError (List.ofFn d) errs) instrs out) {circ : List (Instr × Arr2 ℂ)} (hc : circ.map Prod.fst = instrs)
    (hf : ∀ c ∈ circ, ∃ ls, Flagged d c.1.gate ls) :
    ∃ ops, noisyOps (List.ofFn d) out (circ.map Prod.snd) = .ok ops := by
  induction hi generalizing circ with
  | nil => exact ⟨[], by unfold noisyOps; rfl⟩
  | cons i ins rest out hall hrest ih =>
    match circ, hc with
    | c :: circ, hc =>
      rw [List.map_cons, List.cons.injEq] at hc
      obtain ⟨rfl, rfl⟩ := hc
      obtain ⟨ops, ho⟩ := ih (fun i hi => hp i (List.mem_cons_of_mem _ hi)) rfl fun c hc => hf c (by simp [hc])
      obtain ⟨ls, hl⟩ := hf c (by simp)
      have key : ∀ ins : List NoisyInstr, (∀ e ∈ ins, AllowedError (List.ofFn d) errs c.1 e) →
          ∃ ops, noisyOps (List.ofFn d) (ins ++ out) (circ.map Prod.snd) = .ok ops := by
        intro ins
        induction ins with
        | nil => intro _; exact ⟨ops, ho⟩
        | cons e ins ihi =>
          intro h
          obtain ⟨ops', ho'⟩ := ihi fun e he => h e (by simp [he])
          have hne : ∀ j, e ≠ .orig j := by
            rintro j rfl
            exact allowed_not_orig (h (.orig j) (by simp))
          obtain ⟨modes, mode, o, q, g1, g2, g3, g4⟩ := h e (by simp)
          obtain ⟨k, rfl⟩ := selected_line hl g3
          have hfit := (hp c.1 (List.mem_cons_self ..) _ g1 _ g2).2.1
          have hop : ∃ op, errorOp (List.ofFn d) e = .ok op := by
            cases o with
            | math noise =>
              rcases g4 with rfl | rfl
              · obtain ⟨A, hA, _⟩ := xArray_ok (d k)
                unfold errorOp
                simp only [dimAt_ok, init_one, hA, bind, Except.bind, pure, Except.pure]
                exact ⟨_, rfl⟩
              · obtain ⟨A, hA, _⟩ := zArray_ok (d k)
                unfold errorOp
                simp only [dimAt_ok, init_one, hA, bind, Except.bind, pure, Except.pure]
                exact ⟨_, rfl⟩
            | sub m =>
              obtain ⟨a, b, dim, hab, hdim, g5⟩ := g4
              obtain rfl := lineDim_eq hdim
              obtain ⟨hlt, hq⟩ := hfit a b hab
              obtain ⟨h0, hb⟩ := hq _ _ g3 hdim
              obtain ⟨g, x, y, hg, hgood⟩ := levels_ok h0 hlt hb
              have hz : ∀ l : Int, 0 ≤ l → l < d k → ∃ op, errorOp (List.ofFn d) (.noisez ((k : Nat) : Int) l) = .ok op := by
                intro l l0 l1
                lift l to Nat using l0
                have hl : l < d k := by exact_mod_cast l1
                have hinit : (virtRzInit (d k) (.list [.int l, .flt Real.pi])).levA = l := by
                  unfold virtRzInit
                  dsimp only
                  rw [if_pos (by omega)]
                obtain ⟨A, hA, _⟩ := virtRzArray_ok (d := d k) (virtRzInit (d k) (.list [.int l, .flt Real.pi])) ⟨l, hl⟩ (by rw [hinit])
                unfold errorOp
                simp only [dimAt_ok, init_one, bind, Except.bind, pure, Except.pure, hA]
                exact ⟨_, rfl⟩
              rcases g5 with ⟨_, _, _, _, rfl | rfl | rfl⟩ | ⟨lev, -, -, l0, l1, rfl⟩
              · obtain ⟨A, hA, _⟩ := noiseX_ok hgood
                unfold errorOp
                simp only [dimAt_ok, init_one, hg, hA, bind, Except.bind, pure, Except.pure]
                exact ⟨_, rfl⟩
              · obtain ⟨A, hA, _⟩ := noiseY_ok hgood
                unfold errorOp
                simp only [dimAt_ok, init_one, hg, hA, bind, Except.bind, pure, Except.pure]
                exact ⟨_, rfl⟩
              · exact hz b (by omega) hb
              · exact hz lev l0 l1
          obtain ⟨op, hop⟩ := hop
          rw [List.cons_append, noisyOps_cons hne, hop]
          simp only [bind, Except.bind, ho']
          exact ⟨_, rfl⟩
      obtain ⟨ops', ho'⟩ := key ins hall
      rw [List.map_cons]
      unfold noisyOps
      simp only [bind, Except.bind, ho']
      exact ⟨_, rfl⟩

theorem tnState_fits (hn : 0 < n) (hpos : ∀ i, 0 < d i) {draws : Draws} {errs : Errors} (ha : Ascending errs) {circ : List (Instr × Arr2 ℂ)}
    {Ms : List (Matrix (Reg d) (Reg d) ℂ)} (hops : Operators d circ Ms) (off : Nat) :
    (∃ r, tnState draws (List.ofFn d) errs circ off = .ok r) ↔ NoiseFits (List.ofFn d) errs (circ.map Prod.fst) := by
  have hf := operators_flagged hops
  have hgen := generateP_iff hpos ha (instrs := circ.map Prod.fst) (by
    intro i hi
    obtain ⟨c, hc, rfl⟩ := List.mem_map.1 hi
    exact hf c hc) fun k => draws (off + k)
  constructor
  · rintro ⟨r, hr⟩
    unfold tnState at hr
    obtain ⟨s, hs, -⟩ := bindOk hr
    exact hgen.1 ⟨s, hs⟩
  · intro hp
    obtain ⟨s, hs⟩ := hgen.2 hp
    obtain ⟨ops, ho⟩ := noisyOps_fits hp (C23_noisy_circuit _ _ _ _ _ (generateP_refine hs)).1 rfl hf
    obtain ⟨Ns, _, n2⟩ := noisyOps_ok (C23_noisy_circuit _ _ _ _ _ (generateP_refine hs)).1 rfl hops ho
    obtain ⟨w, w1, _⟩ := C15_execute d hn hpos ops Ns n2
    unfold tnState
    simp only [hs, bind, Except.bind, ho, w1]
    exact ⟨_, rfl⟩

end Qudits.Shots
