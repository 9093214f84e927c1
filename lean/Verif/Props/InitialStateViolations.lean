import Verif.Props.InitialStateShared
import Verif.Props.StatePrepViolations
import Verif.Lemmas.RunCompiled
/-! # `set_initial_state` followed by `simulate`: states that are not simulated -/
namespace Qudits
open Spec MicroDD StatePrep LocalQR Matrix
open PhasePass (GateSemantics)

/-- (3/5 |0> + 4/5 |1>) ⊗ (3/5 |00> + 4/5 |11>) -/
noncomputable def pairState : List ℂ := [9 / 25, 0, 0, 12 / 25, 12 / 25, 0, 0, 16 / 25]

/-- the basis state of three qubits with the given levels -/
def three (a b c : Fin 2) : Reg ![2, 2, 2] := fun i => ⟨![a, b, c] i, by revert i a b c; decide⟩

theorem idx_three : ∀ a b c : Fin 2, idx ![2, 2, 2] (three a b c) = 4 * a + 2 * b + c := by decide

theorem close_entry {n : Nat} {d : Fin n → Nat} {p q : Reg d → ℂ} {e : ℝ} (he : 0 ≤ e) (h : ∑ x, ‖p x - q x‖ ^ 2 ≤ e ^ 2) (x : Reg d) : ‖p x - q x‖ ≤ e := by
  have := Finset.single_le_sum (f := fun x => ‖p x - q x‖ ^ 2) (fun x _ => by positivity) (Finset.mem_univ x)
  exact abs_le_of_sq_le_sq' (this.trans h) he |>.2

/-- On three qubits `simulate` raises an IndexError after `set_initial_state` with the unit vector (3/5 |0> + 4/5 |1>) ⊗ (3/5 |00> + 4/5 |11>): the first
line is shared, so the gates on the last line are controlled by the second one alone. -/
theorem C88_violated : vecNorm pairState = 1 ∧ SharableState (List.ofFn ![2, 2, 2]) pairState ∧
    ∀ H : List (Int × ℂ) → Int, (∀ t, create (List.ofFn ![2, 2, 2]) pairState = .ok t → NoCollision H t) → ∀ del : ℝ, 0 ≤ del → del ≤ 1 / 1000 → ∀ tol,
      ∃ ops, setInitialState H del tol (List.ofFn ![2, 2, 2]) [] pairState false = .ok ops ∧ Tnsim.execute (List.ofFn ![2, 2, 2]) ops = .error .indexError := by
  have hnorm : vecNorm pairState = 1 := vecNorm_eq (by norm_num) (by simp [pairState]; norm_num)
  have hd : ∀ i : Fin 3, 2 ≤ (![2, 2, 2] : Fin 3 → Nat) i := by decide
  have hS : SharableState (List.ofFn ![2, 2, 2]) pairState := by
    refine ⟨fun _ _ => ⟨9 / 25, by simp [slice, pairState], by norm_num⟩, fun i hi => ⟨fun _ _ => ?_, fun _ _ => trivial⟩⟩
    change i < 2 at hi
    interval_cases i
    · exact ⟨9 / 25, by simp [slice, pairState], by norm_num⟩
    · exact ⟨12 / 25, by simp [slice, pairState], by norm_num⟩
  have hne : ∃ x ∈ pairState, x ≠ 0 := ⟨9 / 25, by simp [pairState], by norm_num⟩
  have hF : Factors ((![2, 2, 2] : Fin 3 → Nat) 0) (List.ofFn fun i : Fin 2 => (![2, 2, 2] : Fin 3 → Nat) i.succ).prod pairState := by
    have e0 : slice pairState 0 4 = [9 / 25, 0, 0, 12 / 25] := by simp [slice, pairState]
    have e1 : slice pairState 1 4 = [12 / 25, 0, 0, 16 / 25] := by simp [slice, pairState]
    change Factors 2 4 pairState
    refine ⟨⟨0, 1, by norm_num, by norm_num, by norm_num, ⟨9 / 25, by simp [e0], by norm_num⟩, ⟨12 / 25, by simp [e1], by norm_num⟩⟩, ?_⟩
    intro i j hi hj _ _
    interval_cases i <;> interval_cases j
    · exact ⟨1, one_pos, by simp⟩
    · exact ⟨3 / 4, by norm_num, by rw [e0, e1]; simp; norm_num⟩
    · exact ⟨4 / 3, by norm_num, by rw [e0, e1]; simp; norm_num⟩
    · exact ⟨1, one_pos, by simp⟩
  refine ⟨hnorm, hS, fun H hH del hdel hsmall tol => ?_⟩
  obtain ⟨out, hout⟩ := C56_returns (by norm_num) hd (by decide) (by simp [pairState]) hne hS hH hdel
  obtain ⟨ops, e1, e2⟩ := C88_shared_first (tol := tol) hd (by simp [pairState]) hF hS hH hout
  refine ⟨ops, e1, ?_⟩
  rcases e2 with ⟨h, _⟩ | ⟨v, hv, _, f, hf⟩
  · exact h
  exfalso
  obtain ⟨ops', e1', _, e3⟩ := C88_partial (tol := tol) (by norm_num) hd (by simp [pairState]) hne hS hH hdel hout
  rw [e1] at e1'
  injection e1' with e1'
  subst e1'
  have hb := (e3 v hv).2
  rw [hnorm] at hb
  have hp : ∏ i : Fin 3, (((![2, 2, 2] : Fin 3 → Nat) i : Nat) : ℝ) = 8 := by
    rw [Fin.prod_univ_three]
    change (((2 : Nat) : ℝ) * ((2 : Nat) : ℝ)) * ((2 : Nat) : ℝ) = 8
    norm_num
  rw [hp] at hb
  have hc := close_entry (by positivity) hb
  have key : ∀ a b c : Fin 2, ‖v.getD (4 * a + 2 * b + c) 0 - pairState.getD (4 * a + 2 * b + c) 0‖ ≤ 8 / 1000 := by
    intro a b c
    have := hc (three a b c)
    rw [idx_three] at this
    simp only [Complex.ofReal_one, div_one] at this
    linarith
  have hm : v.getD 0 0 * v.getD 3 0 = v.getD 1 0 * v.getD 2 0 := by
    have k : ∀ a b c : Fin 2, v.getD (4 * a + 2 * b + c) 0 = f 0 a * f 1 b * f 2 c := by
      intro a b c
      rw [← idx_three, hf, Fin.prod_univ_three]
      rfl
    have k0 := k 0 0 0
    have k1 := k 0 0 1
    have k2 := k 0 1 0
    have k3 := k 0 1 1
    norm_num at k0 k1 k2 k3
    rw [← List.getD_eq_getElem?_getD] at k0 k1 k2 k3
    rw [k0, k1, k2, k3]
    ring
  have a0 := key 0 0 0
  have a1 := key 0 0 1
  have a2 := key 0 1 0
  have a3 := key 0 1 1
  norm_num [pairState] at a0 a1 a2 a3
  rw [← List.getD_eq_getElem?_getD] at a0 a1 a2 a3
  have n0 : 44 / 125 ≤ ‖v.getD 0 0‖ := by
    have := norm_sub_norm_le (9 / 25 : ℂ) (v.getD 0 0)
    rw [norm_sub_rev] at this
    have h9 : ‖(9 / 25 : ℂ)‖ = 9 / 25 := by rw [show (9 / 25 : ℂ) = ((9 / 25 : ℝ) : ℂ) by norm_num, Complex.norm_real]; norm_num
    linarith
  have n3 : 59 / 125 ≤ ‖v.getD 3 0‖ := by
    have := norm_sub_norm_le (12 / 25 : ℂ) (v.getD 3 0)
    rw [norm_sub_rev] at this
    have h9 : ‖(12 / 25 : ℂ)‖ = 12 / 25 := by rw [show (12 / 25 : ℂ) = ((12 / 25 : ℝ) : ℂ) by norm_num, Complex.norm_real]; norm_num
    linarith
  have hnn := congrArg norm hm
  rw [norm_mul, norm_mul] at hnn
  have := mul_le_mul n0 n3 (by norm_num) (norm_nonneg _)
  have := mul_le_mul a1 a2 (norm_nonneg _) (by norm_num)
  linarith

/-! ### gates that skip a line -/

/-- gates on other lines keep a line at level 0 -/
theorem zero_run {n : Nat} {d : Fin n → Nat} {γ : Type} {sem : γ → Matrix (Reg d) (Reg d) ℂ} (j : Fin n) : ∀ (l : List γ),
    (∀ g ∈ l, ∀ x y, sem g x y ≠ 0 → y j = x j) → ∀ ψ : Reg d → ℂ, (∀ x, ((x j : Fin (d j)) : Nat) ≠ 0 → ψ x = 0) →
    ∀ x, ((x j : Fin (d j)) : Nat) ≠ 0 → (circuitOp sem l *ᵥ ψ) x = 0
  | [], _, ψ, h, x, hx => by rw [circuitOp_nil, one_mulVec]; exact h x hx
  | g :: l, hl, ψ, h, x, hx => by
    rw [circuitOp_cons, ← mulVec_mulVec]
    refine zero_run j l (fun g hg => hl g (by simp [hg])) _ ?_ x hx
    intro x hx
    rw [mulVec, dotProduct]
    refine Finset.sum_eq_zero fun y _ => ?_
    by_cases h0 : sem g x y = 0
    · rw [h0, zero_mul]
    · rw [h y (by rw [hl g (by simp) x y h0]; exact hx), mul_zero]

/-- a gate of a preparation on another line -/
theorem other_line {n : Nat} {d : Fin n → Nat} {sem : PInstr → Matrix (Reg d) (Reg d) ℂ} (hsem : GateSemantics d sem) {g : PInstr} {k j : Fin n}
    (hg : g.target = .one (k : Nat)) (hjk : j ≠ k) (x y : Reg d) (h : sem g x y ≠ 0) : y j = x j := by
  have key : ∀ M : Matrix (Fin (d k)) (Fin (d k)) ℂ, embed1 (X := LvOf d) k M x y ≠ 0 → y j = x j := by
    intro M h
    unfold embed1 at h
    split at h
    · rename_i h'
      exact (h' j hjk).symm
    · exact absurd rfl h
  obtain ⟨M, _, h1, h2⟩ := hsem.1 g k hg
  cases hc : g.controls with
  | none => rw [h1 hc] at h; exact key M h
  | some c =>
    obtain ⟨lev, _, e⟩ := h2 c hc
    rw [e] at h
    unfold controlled at h
    split at h
    · exact key M h
    · split at h
      · rename_i hxy
        rw [hxy]
      · exact absurd rfl h

/-- 3/5 |0> ⊗ a ⊗ |0> + 4/5 |1> ⊗ a ⊗ |1> for a = 3/5 |0> + 4/5 |1> -/
noncomputable def skipState : List ℂ := [9 / 25, 0, 12 / 25, 0, 0, 12 / 25, 0, 16 / 25]

/-- On three qubits `simulate` raises a ValueError after `set_initial_state` with the unit vector 3/5 |0> ⊗ a ⊗ |0> + 4/5 |1> ⊗ a ⊗ |1>: the second line
is shared, so the gates on the last line are controlled by the first one alone, and the flag for gates that skip a line is not set (C04). -/
theorem C88_skip_violated : vecNorm skipState = 1 ∧ SharableState (List.ofFn ![2, 2, 2]) skipState ∧
    ∀ H : List (Int × ℂ) → Int, (∀ t, create (List.ofFn ![2, 2, 2]) skipState = .ok t → NoCollision H t) → ∀ del : ℝ, 0 ≤ del → del ≤ 1 / 1000 → ∀ tol,
      ∃ ops, setInitialState H del tol (List.ofFn ![2, 2, 2]) [] skipState false = .ok ops ∧ Tnsim.execute (List.ofFn ![2, 2, 2]) ops = .error .valueError := by
  have hnorm : vecNorm skipState = 1 := vecNorm_eq (by norm_num) (by simp [skipState]; norm_num)
  have hd : ∀ i : Fin 3, 2 ≤ (![2, 2, 2] : Fin 3 → Nat) i := by decide
  have hlen : skipState.length = (List.ofFn (![2, 2, 2] : Fin 3 → Nat)).prod := by simp [skipState]
  have hS : SharableState (List.ofFn ![2, 2, 2]) skipState := by
    refine ⟨fun _ _ => ⟨9 / 25, by simp [slice, skipState], by norm_num⟩, fun i hi => ⟨fun _ _ => ?_, fun _ _ => trivial⟩⟩
    change i < 2 at hi
    interval_cases i
    · exact ⟨9 / 25, by simp [slice, skipState], by norm_num⟩
    · exact ⟨12 / 25, by simp [slice, skipState], by norm_num⟩
  have hne : ∃ x ∈ skipState, x ≠ 0 := ⟨9 / 25, by simp [skipState], by norm_num⟩
  refine ⟨hnorm, hS, fun H hH del hdel hsmall tol => ?_⟩
  obtain ⟨out, hout⟩ := C56_returns (by norm_num) hd (by decide) hlen hne hS hH hdel
  obtain ⟨ops, e1, e2, e3⟩ := C88_partial (tol := tol) (by norm_num) hd hlen hne hS hH hdel hout
  refine ⟨ops, e1, ?_⟩
  obtain ⟨t, h1, h2, h3, h4, h5, h6⟩ := compile_tree (by norm_num) hd hlen hne hS
  have hf : fromTree H del (List.ofFn ![2, 2, 2]) t = .ok out := by
    rw [compileState, h1] at hout; exact hout
  have p0 : slice skipState 0 4 = [9 / 25, 0, 12 / 25, 0] := by simp [slice, skipState]
  have p1 : slice skipState 1 4 = [0, 12 / 25, 0, 16 / 25] := by simp [slice, skipState]
  obtain ⟨f, N, hNz, hch, hfs⟩ := build_parts (c := 2) (c' := 2) (cs := [2]) (data := skipState) (t := t) (by decide) hlen h1 h5
  have hw : ∀ i, i < 2 → (f i).weight ≠ 0 := by
    intro i hi
    refine (hfs i hi).2.2.1.2 ?_
    interval_cases i
    · exact ⟨9 / 25, by change _ ∈ slice skipState 0 4; simp [p0], by norm_num⟩
    · exact ⟨12 / 25, by change _ ∈ slice skipState 1 4; simp [p1], by norm_num⟩
  have hcol := hH t h1
  have hmem : ∀ i, i < 2 → (f i).setWeight ((f i).weight / N) ∈ t.children := fun i hi => by
    rw [hch]; exact List.mem_map.2 ⟨i, List.mem_range.2 hi, rfl⟩
  have hnot : ¬ SameHash H t := by
    intro hsame
    have hh := hsame.2 _ _ (hmem 0 (by norm_num)) (hmem 1 (by norm_num)) (by rw [weight_setWeight]; exact div_ne_zero (hw 0 (by norm_num)) hNz)
      (by rw [weight_setWeight]; exact div_ne_zero (hw 1 (by norm_num)) hNz)
    have hNt := h2
    rw [show List.ofFn (![2, 2, 2] : Fin 3 → Nat) = [2, 2, 2] from rfl] at hNt
    rcases hNt with ⟨h, _⟩ | ⟨_, _, _, _, hcN⟩
    · rw [h5] at h; cases h
    have := (hash_inj hcol [2, 2] _ _ (by decide) (hcN _ (hmem 0 (by norm_num))) (hcN _ (hmem 1 (by norm_num)))
      (fun x hx => .deeper h5 (hmem 0 (by norm_num)) hx) (fun x hx => .deeper h5 (hmem 1 (by norm_num)) hx) hh).2 [0, 0] rfl
    rw [ampRel_setWeight, ampRel_setWeight] at this
    have a0 := (hfs 0 (by norm_num)).2.2.2 [0, 0] (by simp [Levels])
    have a1 := (hfs 1 (by norm_num)).2.2.2 [0, 0] (by simp [Levels])
    change amp (f 0) [0, 0] = (slice skipState 0 4).getD 0 0 at a0
    change amp (f 1) [0, 0] = (slice skipState 1 4).getD 0 0 at a1
    rw [p0] at a0
    rw [p1] at a1
    unfold amp at a0 a1
    simp only [List.getD_cons_zero] at a0 a1
    rw [this, (mul_eq_zero.1 a1).resolve_left (hw 1 (by norm_num)), mul_zero] at a0
    norm_num at a0
  have hsame : ∀ u ∈ t.children, u.info.terminal = false → SameHash H u := by
    intro u hu hut
    rw [hch] at hu
    obtain ⟨i, hi, rfl⟩ := List.mem_map.1 hu
    have hi := List.mem_range.1 hi
    have hb := (hfs i hi).1
    have hF : Factors 2 2 (slice skipState i 4) := by
      have q0 : ∀ a b c d : ℂ, slice [a, b, c, d] 0 2 = [a, b] := fun a b c d => by simp [slice]
      have q1 : ∀ a b c d : ℂ, slice [a, b, c, d] 1 2 = [c, d] := fun a b c d => by simp [slice]
      interval_cases i
      · rw [p0]
        refine ⟨⟨0, 1, by norm_num, by norm_num, by norm_num, ⟨9 / 25, by rw [q0]; simp, by norm_num⟩, ⟨12 / 25, by rw [q1]; simp, by norm_num⟩⟩, ?_⟩
        intro i j hi hj _ _
        interval_cases i <;> interval_cases j
        · exact ⟨1, one_pos, by simp⟩
        · exact ⟨3 / 4, by norm_num, by rw [q0, q1]; simp; norm_num⟩
        · exact ⟨4 / 3, by norm_num, by rw [q0, q1]; simp; norm_num⟩
        · exact ⟨1, one_pos, by simp⟩
      · rw [p1]
        refine ⟨⟨0, 1, by norm_num, by norm_num, by norm_num, ⟨12 / 25, by rw [q0]; simp, by norm_num⟩, ⟨16 / 25, by rw [q1]; simp, by norm_num⟩⟩, ?_⟩
        intro i j hi hj _ _
        interval_cases i <;> interval_cases j
        · exact ⟨1, one_pos, by simp⟩
        · exact ⟨3 / 4, by norm_num, by rw [q0, q1]; simp; norm_num⟩
        · exact ⟨4 / 3, by norm_num, by rw [q0, q1]; simp; norm_num⟩
        · exact ⟨1, one_pos, by simp⟩
    have hut' : (f i).info.terminal = false := by
      rcases hfs i hi with ⟨_, hn, _⟩
      exact hn.live_weight (hw i hi)
    have : SameHash H (f i) :=
      factors_sameHash (c := 2) (c' := 2) (cs := []) (by decide) (by interval_cases i <;> simp [slice, skipState]) hb hut' hF
    exact this
  have hg := fromTree_skip (m := 0) hd h2 h3 h4 hcol h5 hnot hsame hf
  cases hr : out.findSome? refusal with
  | some e =>
    obtain ⟨g, hgm, hge⟩ := List.exists_of_findSome?_eq_some hr
    rcases (hg g hgm).1 with h | h
    · rw [h] at hge; cases hge
    · rw [h] at hge
      rw [e2, hr, hge]
  | none =>
    exfalso
    have hr' := List.findSome?_eq_none_iff.1 hr
    obtain ⟨new, n1, n2, n3⟩ := C88_appended (tol := tol) (by norm_num) hd hlen hne hS hH hout (old := []) (Ms := []) .nil
    rw [e1] at n1
    injection n1 with n1
    rw [← n1] at n2 n3
    cases hv : Tnsim.execute (List.ofFn ![2, 2, 2]) ops with
    | error e => rw [(e2 e).1 hv] at hr; cases hr
    | ok v =>
      obtain ⟨sem, hsem⟩ := gateSemantics_exists ![2, 2, 2] (by decide)
      have hl := n3 v hv sem hsem
      simp only [List.reverse_nil, List.prod_nil, one_mulVec] at hl
      have hz := zero_run (sem := sem) (2 : Fin 3) out (by
        intro g hgm x y hxy
        obtain ⟨o, k, A, cs, lev, hform⟩ := fromTree_forms hd h2 h3 hcol hf g hgm
        refine other_line hsem hform.target ?_ x y hxy
        rintro rfl
        have := (hg g hgm).2 hform.target
        rw [hr' g hgm] at this
        cases this) (zeroState ![2, 2, 2]) (by
        intro x hx
        unfold zeroState
        rw [if_neg fun h => hx (h 2)]) (three 1 0 1) (by decide)
      have hb := (e3 v hv).2
      rw [hnorm] at hb
      have hp : ∏ i : Fin 3, (((![2, 2, 2] : Fin 3 → Nat) i : Nat) : ℝ) = 8 := by
        rw [Fin.prod_univ_three]
        change (((2 : Nat) : ℝ) * ((2 : Nat) : ℝ)) * ((2 : Nat) : ℝ) = 8
        norm_num
      rw [hp] at hb
      have hc := close_entry (by positivity) hb (three 1 0 1)
      rw [List.getD_eq_getElem?_getD, hl.entry, hz, idx_three] at hc
      norm_num [skipState] at hc
      linarith

/-! ### a circuit that is not empty -/

/-- the array of X on a qubit -/
def xQubit : Arr2 ℂ := ⟨2, 2, fun i j => if i = j then 0 else 1⟩

/-- On a qubit with the gate X in the circuit already, `set_initial_state([1, 0])` and `simulate` return a vector at a distance of more than 1 from the
state |0> that was asked for: the preparation is applied to |1>. -/
theorem C88_nonempty_violated (H : List (Int × ℂ) → Int) (hH : ∀ t, create [2] [1, 0] = .ok t → NoCollision H t) (del : ℝ) (hdel : 0 ≤ del)
    (hsmall : del ≤ 1 / 10) (tol : ℝ) : ∃ g ops v, Gate.init [2] "" .single (.one 0) none = .ok g ∧
      setInitialState H del tol [2] [(g, xQubit)] [1, 0] false = .ok ops ∧ Tnsim.execute [2] ops = .ok v ∧
      1 < ∑ x : Reg ![2], ‖v.getD (idx ![2] x) 0 - ([1, 0] : List ℂ).getD (idx ![2] x) 0‖ ^ 2 := by
  have hd : ∀ i : Fin 1, 2 ≤ (![2] : Fin 1 → Nat) i := by decide
  have hD : List.ofFn (![2] : Fin 1 → Nat) = [2] := rfl
  have hne : ∃ x ∈ ([1, 0] : List ℂ), x ≠ 0 := ⟨1, by simp, one_ne_zero⟩
  have hnorm : vecNorm ([1, 0] : List ℂ) = 1 := vecNorm_eq (by norm_num) (by simp)
  obtain ⟨g, g1, g2, g3⟩ := Compiler.made_one (d := ![2]) (0 : Fin 1) false xQubit rfl rfl
  have hold : List.Forall₂ (fun (op : Gate × Arr2 ℂ) M => (∃ ls, Flagged ![2] op.1 ls) ∧ HasOperator ![2] op.1 op.2 M) [(g, xQubit)]
      [embed1 (X := LvOf ![2]) (0 : Fin 1) (xQubit.toM 2)] := .cons ⟨g2, g3⟩ .nil
  have hS : SharableState (List.ofFn ![2]) ([1, 0] : List ℂ) := trivial
  obtain ⟨out, hout⟩ := C56_returns (d := ![2]) (by norm_num) hd (by decide) (by simp) hne hS hH hdel
  obtain ⟨new, n1, n2, _⟩ := C88_appended (tol := tol) (by norm_num) hd (by simp) hne hS hH hout hold
  obtain ⟨t, h1, h2, h3, h4, h5, h6⟩ := compile_tree (d := ![2]) (by norm_num) hd (by simp) hne hS
  have hf : fromTree H del (List.ofFn ![2]) t = .ok out := by
    rw [compileState, h1] at hout; exact hout
  cases hv : Tnsim.execute (List.ofFn ![2]) ([(g, xQubit)] ++ new) with
  | error e =>
    exfalso
    obtain ⟨g, hg, hr⟩ := List.exists_of_findSome?_eq_some ((n2 e).1 hv)
    obtain ⟨o, k, A, cs, lev, hform⟩ := fromTree_forms hd h2 h3 (hH t h1) hf g hg
    rw [hform.two (by norm_num)] at hr
    cases hr
  | ok v =>
    refine ⟨g, _, v, g1, n1, hv, ?_⟩
    have hb := C88_old_remains (tol := tol) (d := ![2]) (by norm_num) hd (by simp) hne hS hH hdel hold n1 hv
    rw [hnorm] at hb
    simp only [Complex.ofReal_one, div_one] at hb
    have hW : ∀ x : Reg ![2], (([embed1 (X := LvOf ![2]) (0 : Fin 1) (xQubit.toM 2)].reverse.prod) *ᵥ zeroState (α := ℂ) ![2]) x =
        if ((x 0 : Fin 2) : Nat) = 1 then 1 else 0 := by
      intro x
      rw [List.reverse_singleton, List.prod_singleton]
      refine (embed1_mulVec (X := LvOf ![2]) (0 : Fin 1) (xQubit.toM 2) (zeroState ![2]) x).trans ?_
      refine (Fin.sum_univ_two _).trans ?_
      have hz : ∀ k : Fin 2, zeroState (α := ℂ) ![2] (Function.update x 0 k) = if (k : Nat) = 0 then 1 else 0 := by
        intro k
        unfold zeroState
        have e : Function.update x 0 k 0 = k := Function.update_self ..
        congr 1
        refine propext ⟨fun h => ?_, fun h i => ?_⟩
        · exact (congrArg Fin.val e).symm.trans (h 0)
        · obtain rfl : i = 0 := Subsingleton.elim _ _
          exact (congrArg Fin.val e).trans h
      rw [hz, hz]
      have hx : ((x 0 : Fin 2) : Nat) < 2 := (x 0).2
      simp only [Arr2.toM, xQubit, Fin.val_zero, Fin.val_one]
      interval_cases h : ((x 0 : Fin 2) : Nat) <;> simp
    have hsum : ∑ x : Reg ![2], ‖(([embed1 (X := LvOf ![2]) (0 : Fin 1) (xQubit.toM 2)].reverse.prod) *ᵥ zeroState (α := ℂ) ![2]) x - zeroState ![2] x‖ ^ 2 = 2 := by
      have hall : ∀ x : Reg ![2], ‖(([embed1 (X := LvOf ![2]) (0 : Fin 1) (xQubit.toM 2)].reverse.prod) *ᵥ zeroState (α := ℂ) ![2]) x - zeroState ![2] x‖ ^ 2 = 1 := by
        intro x
        rw [hW]
        have hz : zeroState (α := ℂ) ![2] x = if ((x 0 : Fin 2) : Nat) = 0 then 1 else 0 := by
          unfold zeroState
          congr 1
          refine propext ⟨fun h => h 0, fun h i => ?_⟩
          obtain rfl : i = 0 := Subsingleton.elim _ _
          exact h
        rw [hz]
        have hx : ((x 0 : Fin 2) : Nat) < 2 := (x 0).2
        interval_cases h : ((x 0 : Fin 2) : Nat) <;> simp
      rw [Finset.sum_congr rfl fun x _ => hall x, Finset.sum_const, nsmul_eq_mul, mul_one]
      have : Fintype.card (Reg ![2]) = 2 := by decide
      rw [Finset.card_univ, this]
      norm_num
    rw [hsum] at hb
    have hp : ∏ i : Fin 1, (((![2] : Fin 1 → Nat) i : Nat) : ℝ) = 2 := by
      rw [Fin.prod_univ_one]
      norm_num
    rw [hp] at hb
    have hs : (1.4 : ℝ) ≤ Real.sqrt 2 := Real.le_sqrt_of_sq_le (by norm_num)
    have h7 := (abs_le.1 hb).1
    have h8 : (1.2 : ℝ) ≤ Real.sqrt (∑ x : Reg ![2], ‖v.getD (idx ![2] x) 0 - ([1, 0] : List ℂ).getD (idx ![2] x) 0‖ ^ 2) := by linarith
    by_contra hcon
    push Not at hcon
    have := Real.sqrt_le_sqrt hcon
    rw [Real.sqrt_one] at this
    linarith

end Qudits
