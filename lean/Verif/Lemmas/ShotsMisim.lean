import Verif.Lemmas.ShotsNorm
import Verif.Props.MisimNoiseProps
/- Lemmas for C83: the gates of C18 and C80 are unitary, so that the states of the decision-diagram simulator are normalised. -/
namespace Qudits.Shots
open Spec Matrix Complex DD
variable {n : Nat} {d : Fin n → Nat}

theorem operator_unique {g : Gate} {A : Arr2 ℂ} {M N : Matrix (Reg d) (Reg d) ℂ} (h : HasOperator d g A M) (h' : HasOperator d g A N) : M = N := by
  obtain ⟨B, h1, _, _, h2⟩ := h
  obtain ⟨B', h1', _, _, h2'⟩ := h'
  rw [h1] at h1'
  cases h1'
  funext x y
  rw [← h2, ← h2']

theorem made_unitary {g : Gate} {t : Target} {ts : List (Fin n)} (hg : Made d g t ts) (hne : ts ≠ []) (hnd : ts.Nodup) {A : Arr2 ℂ}
    (hA : UnitaryArr A (∏ i ∈ ts.toFinset, d i)) {M : Matrix (Reg d) (Reg d) ℂ} (hM : HasOperator d g A M) : M ∈ unitaryGroup (Reg d) ℂ := by
  obtain ⟨_, _, _, hop⟩ := made_ok d g t ts hg A hne hnd hA.1 hA.2.1
  rw [operator_unique hM hop]
  have : embed ts.toFinset (onLines d ts.toFinset A.at') ∈ unitaryGroup (Reg d) ℂ := by
    apply embed_mem_unitary
    rw [onLines_eq, submatrix_mem_unitary]
    exact hA.2.2
  split
  · exact Unitary.star_mem this
  · exact this

theorem made_target {g : Gate} {t : Target} {ts : List (Fin n)} (hg : Made d g t ts) (hne : ts ≠ []) (hnd : ts.Nodup) : g.target = t :=
  (made_ok d g t ts hg ⟨_, _, fun _ _ => 0⟩ hne hnd rfl rfl).2.1

theorem common_unitary {p : PyGate} (h : Common d p) {A : Arr2 ℂ} (hA : p.array = .ok A) {M : Matrix (Reg d) (Reg d) ℂ}
    (hM : HasOperator d p.gate A M) : M ∈ unitaryGroup (Reg d) ℂ := by
  have one : ∀ (g : Gate) (q : Fin n), Made d g (.one (q : Nat)) [q] → UnitaryArr A (d q) → HasOperator d g A M → M ∈ unitaryGroup (Reg d) ℂ := by
    intro g q hg hu hM
    exact made_unitary hg (by simp) (by simp) (by simpa using hu) hM
  have two : ∀ (g : Gate) (c q : Fin n), c ≠ q → Made d g (.many [(c : Nat), (q : Nat)]) [c, q] → UnitaryArr A (d c * d q) →
      HasOperator d g A M → M ∈ unitaryGroup (Reg d) ℂ := by
    intro g c q hcq hg hu hM
    exact made_unitary hg (by simp) (by simp [hcq]) (by simpa [hcq] using hu) hM
  cases h with
  | plain g q tag hg h2 h7 ht =>
    refine one g q hg ?_ hM
    simp only [List.mem_cons, List.not_mem_nil, or_false] at ht
    rcases ht with rfl | rfl | rfl
    · obtain ⟨B, h1, h2⟩ := C06_x (d q)
      cases h1.symm.trans hA; exact h2
    · obtain ⟨B, h1, h2⟩ := C06_z (d q)
      cases h1.symm.trans hA; exact h2
    · obtain ⟨B, h1, h2⟩ := C06_h (d q)
      cases h1.symm.trans hA; exact h2
  | s g q hg h2 h7 hp =>
    refine one g q hg ?_ hM
    have hs := (C51_s_prime (d q)).2 hp
    obtain ⟨B, h1, h2⟩ := C06_s (d q) hs
    replace hA : (do sInit (d q); sArray (d q)) = .ok A := hA
    rw [hs] at hA
    cases h1.symm.trans hA; exact h2
  | rxy g q a b theta phi hg h7 hab =>
    refine one g q hg ?_ hM
    obtain ⟨_, r, _, _, hr, _, _⟩ := rxy_ok hab theta phi
    obtain ⟨B, h1, h2⟩ := C06_r (d q) _ _ hr
    replace hA : (do rArray (d q) (← rInit (d q) _)) = .ok A := hA
    rw [hr] at hA
    cases h1.symm.trans hA; exact h2
  | rz g q a b phi hg h7 hab =>
    refine one g q hg ?_ hM
    obtain ⟨_, r, _, _, hr, _, _⟩ := rz_ok hab phi
    obtain ⟨B, h1, h2⟩ := C06_rz (d q) _ _ hr
    replace hA : (do rzArray (d q) (← rzInit (d q) _)) = .ok A := hA
    rw [hr] at hA
    cases h1.symm.trans hA; exact h2
  | rh g q a b hg h7 hab =>
    refine one g q hg ?_ hM
    obtain ⟨_, r, _, _, hr, _, _⟩ := rh_ok hab
    obtain ⟨B, h1, h2⟩ := C06_rh (d q) _ _ hr
    replace hA : (do rhArray (d q) (← levelsInit (d q) _)) = .ok A := hA
    rw [hr] at hA
    cases h1.symm.trans hA; exact h2
  | virtrz g q a phi hg h2 h7 =>
    refine one g q hg ?_ hM
    obtain ⟨B, h1, h2⟩ := C06_virtrz (d q) (by omega) (.list [.int (a : Nat), .flt phi])
    cases h1.symm.trans hA; exact h2
  | cx g c q l a b phi hg hcq h7 hab hp0 hp1 =>
    refine two g c q hcq hg ?_ hM
    have ht := made_target hg (by simp) (by simp [hcq])
    have hp : cexInit (.list [.int (a : Nat), .int (b : Nat), .int (l : Nat), .flt phi]) = .ok ⟨(a : Nat), (b : Nat), (l : Nat), phi⟩ := by
      have hl' : ((a : Nat) : Int) < ((b : Nat) : Int) := by exact_mod_cast hab
      simp only [cexInit, needInt, needFlt, bind, Except.bind, pure, Except.pure, List.getElem?_cons_zero, List.getElem?_cons_succ]
      rw [if_pos ⟨by omega, hl', hp0, hp1⟩]
    obtain ⟨B, h1, h2⟩ := C06_cex (c : Nat) (q : Nat) (d c) (d q) _ _ hp (by have := b.isLt; dsimp only; omega)
    unfold PyGate.array at hA
    dsimp only at hA
    rw [ht] at hA
    dsimp only at hA
    rw [hp] at hA
    cases h1.symm.trans hA; exact h2
  | csum g c q hg hcq h2 h7 =>
    refine two g c q hcq hg ?_ hM
    obtain ⟨B, h1, h2⟩ := C06_csum (c : Nat) (q : Nat) (d c) (d q)
    unfold PyGate.array at hA
    dsimp only at hA
    have ht := made_target hg (by simp) (by simp [hcq])
    rw [ht] at hA
    dsimp only at hA
    cases h1.symm.trans hA; exact h2

/-- the state of a circuit of such gates, and its norm -/
theorem common_state (H : Hashes) (hpos : ∀ i, 0 < d i) (gs : List PyGate) (h : ∀ g ∈ gs, Common d g) :
    ∃ v psi, Misim.execute H (List.ofFn d) gs = .ok v ∧ Lists d v psi ∧ ∑ x, ‖psi x‖ ^ 2 = 1 := by
  obtain ⟨arrs, Ms, v, h1, h2, h3, h4⟩ := misim_lists H d hpos gs h
  refine ⟨v, _, h3, h4, ?_⟩
  have hu : ∀ M ∈ Ms, M ∈ unitaryGroup (Reg d) ℂ := by
    clear h3 h4
    induction h1 generalizing Ms with
    | nil => cases h2; simp
    | cons ha _ ih =>
      rw [List.map_cons, List.zip_cons_cons] at h2
      cases h2 with
      | cons hb hr =>
        intro M hM
        rcases List.mem_cons.1 hM with rfl | hM
        · exact common_unitary (h _ (by simp)) ha hb.2
        · exact ih (fun g hg => h g (List.mem_cons_of_mem _ hg)) _ hr M hM
  have := sum_sq (Ms.reverse.prod *ᵥ zeroState d)
  rw [Custom.norm_kept (prod_unitary hu), Custom.zeroState_norm d hpos] at this
  exact_mod_cast this.symm

end Qudits.Shots
