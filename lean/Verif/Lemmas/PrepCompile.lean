import Verif.Lemmas.PrepFinal
namespace Qudits
open Spec MicroDD StatePrep LocalQR Matrix
open PhasePass (GateSemantics Matches arrayOf)

variable {n : Nat} {d : Fin n → Nat}

theorem dims_ge_two (hd : ∀ i, 2 ≤ d i) : ∀ e ∈ List.ofFn d, 2 ≤ e := by
  intro e he
  obtain ⟨i, rfl⟩ := (List.mem_ofFn' _ _).1 he
  exact hd i

/-- the all-zero state as a function on line numbers -/
noncomputable def groundAll : (Nat → Nat) → ℂ := fun x => open Classical in if ∀ i, x i = 0 then 1 else 0

theorem ground_ext (x : Reg d) : ground d x = groundAll (ext x) := by
  unfold ground groundAll
  have hiff : (∀ i, ((x i : Fin (d i)) : Nat) = 0) ↔ ∀ i, ext x i = 0 := ?_
  · by_cases h : ∀ i, ext x i = 0
    · rw [if_pos h, if_pos (hiff.2 h)]
    · rw [if_neg h, if_neg (fun hh => h (hiff.1 hh))]
  constructor
  · intro h i
    by_cases hi : i < n
    · exact (ext_apply x ⟨i, hi⟩).trans (h ⟨i, hi⟩)
    · unfold ext; rw [dif_neg hi]
  · intro h i
    rw [← ext_apply]; exact h i

theorem nrm_ground (hd : ∀ i, 0 < d i) : nrm (ground d) = 1 := by
  have h : nrm (ground d) ^ 2 = 1 := by
    rw [nrm_sq, Finset.sum_eq_single (fun i => ⟨0, hd i⟩ : Reg d)]
    · unfold ground; simp
    · intro x _ hx
      have : ground d x = 0 := by
        unfold ground
        rw [if_neg]
        intro h
        apply hx
        funext i
        exact Fin.ext (h i)
      rw [this]; simp
    · intro h; exact absurd (Finset.mem_univ _) h
  have := nrm_nonneg (ground d)
  nlinarith

theorem mapM_length {α β : Type} {f : α → Except PyErr (List β)} (h1 : ∀ a gs, f a = .ok gs → gs.length ≤ 1) :
    ∀ (l : List α) (outs : List (List β)), l.mapM f = .ok outs → outs.flatten.length ≤ l.length
  | [], outs, h => by rw [List.mapM_nil] at h; injection h with h; simp [← h]
  | a :: l, outs, h => by
    rw [List.mapM_cons] at h
    cases e1 : f a with
    | error e => rw [e1] at h; cases h
    | ok gs =>
    rw [e1] at h
    cases e2 : l.mapM f with
    | error e => simp only [bind, Except.bind, e2] at h; cases h
    | ok rest =>
    simp only [bind, Except.bind, e2, pure, Except.pure, Except.ok.injEq] at h
    subst h
    have := mapM_length h1 l rest e2
    have := h1 a gs e1
    simp only [List.flatten_cons, List.length_append, List.length_cons]
    omega

theorem instrOf_length {dims : List Nat} {del : ℝ} {o : PrepOp} {gs : List PInstr} (h : instrOf dims del o = .ok gs) : gs.length ≤ 1 := by
  unfold instrOf at h
  split at h
  · simp only [bind, Except.bind, pure, Except.pure] at h
    split at h
    · split at h
      · cases h
      split at h
      · cases h
      injection h with h
      subst h; simp
    · cases h
  · injection h with h; subst h; simp

/-- what `compile_state` makes of a normalised tree -/
theorem fromTree_exact (hd : ∀ i, 2 ≤ d i) {H : List (Int × ℂ) → Int} {t : MicroDD} (hN : Normal (List.ofFn d) t) (hSh : Shape (List.ofFn d) t)
    (hH : NoCollision H t) (ht : t.info.terminal = false) {del : ℝ} (hdel : 0 ≤ del) :
    ((∀ i j, i ≤ j → d j ≤ d i) → ∃ out, fromTree H del (List.ofFn d) t = .ok out) ∧
    ∀ out, fromTree H del (List.ofFn d) t = .ok out → out.length + 2 ≤ 2 * (List.ofFn d).prod ∧
      ∀ sem, GateSemantics d sem →
        nrm (circuitOp sem out *ᵥ ground d - fun x => made H (List.ofFn d) t (List.ofFn fun i => ((x i : Fin (d i)) : Nat))) ≤ del * (List.ofFn d).prod := by
  obtain ⟨t', hagg, hsyn⟩ := prep_exact (H := H) (List.ofFn d) (dims_ge_two hd) (List.ofFn d) 0 t rfl hH hN hSh
  obtain ⟨ops, hops, hlen, hterm, hok, hact⟩ := hsyn [] ⟨List.Pairwise.nil, by simp⟩
  have hrun : fromTree H del (List.ofFn d) t = (ops.mapM (instrOf (List.ofFn d) del)).bind fun out => .ok out.flatten := by
    unfold fromTree
    rw [hagg]
    simp only [bind, Except.bind, hops, pure, Except.pure]
  rw [hrun]
  constructor
  · intro hanti
    have : ∃ outs, ops.mapM (instrOf (List.ofFn d) del) = .ok outs := by
      have h : ∀ o ∈ ops, ∃ gs, instrOf (List.ofFn d) del o = .ok gs := fun o ho => instrOf_ok hd hanti (hok o ho).1 del
      clear hact hrun hops hlen hok hterm
      induction ops with
      | nil => exact ⟨[], rfl⟩
      | cons o os ih =>
        obtain ⟨gs, hgs⟩ := h o (by simp)
        obtain ⟨outs, houts⟩ := ih fun o ho => h o (by simp [ho])
        exact ⟨gs :: outs, by rw [List.mapM_cons, hgs]; simp only [bind, Except.bind, houts, pure, Except.pure]⟩
    obtain ⟨outs, houts⟩ := this
    rw [houts]
    exact ⟨_, rfl⟩
  · intro out hout
    cases houts : ops.mapM (instrOf (List.ofFn d) del) with
    | error e => rw [houts] at hout; cases hout
    | ok outs =>
    rw [houts] at hout
    injection hout with hout
    subst hout
    have hll := mapM_length (fun a gs => instrOf_length) ops outs houts
    refine ⟨by omega, ?_⟩
    intro sem hsem
    have h1 := (instrs_near hd hsem ops outs (fun o ho => (hok o ho).1) houts).2 groundAll (ground d) ground_ext
    rw [nrm_ground (fun i => by have := hd i; omega), mul_one, max_eq_left hdel] at h1
    have h2 : (fun x : Reg d => acts (List.ofFn d) ops groundAll (ext x)) =
        fun x => made H (List.ofFn d) t (List.ofFn fun i => ((x i : Fin (d i)) : Nat)) := by
      funext x
      rw [hact (Or.inl ht) groundAll (ext x) (ext_valid x) (by intro p hp; cases hp), lvl_ext]
      · have : groundAll (zeroFrom 0 (ext x)) = 1 := by
          unfold groundAll zeroFrom; simp
        rw [this, one_mul]
      · rintro x' _ _ ⟨i, _, hi⟩
        unfold groundAll
        exact if_neg fun h => hi (h i)
    rw [h2] at h1
    refine h1.trans ?_
    have : (ops.length : ℝ) ≤ 2 * (List.ofFn d).prod := by exact_mod_cast (show ops.length ≤ 2 * (List.ofFn d).prod by omega)
    nlinarith

/-- the same where sharing is harmless -/
theorem fromTree_spec (hd : ∀ i, 2 ≤ d i) {H : List (Int × ℂ) → Int} {t : MicroDD} (hN : Normal (List.ofFn d) t) (hSh : Shape (List.ofFn d) t)
    (hS : SharableTree (List.ofFn d) t) (hH : NoCollision H t) (ht : t.info.terminal = false) {del : ℝ} (hdel : 0 ≤ del) :
    ((∀ i j, i ≤ j → d j ≤ d i) → ∃ out, fromTree H del (List.ofFn d) t = .ok out) ∧
    ∀ out, fromTree H del (List.ofFn d) t = .ok out → out.length + 2 ≤ 2 * (List.ofFn d).prod ∧
      ∀ sem, GateSemantics d sem →
        nrm (circuitOp sem out *ᵥ ground d - fun x => ampRel t (List.ofFn fun i => ((x i : Fin (d i)) : Nat))) ≤ del * (List.ofFn d).prod := by
  have h := fromTree_exact hd hN hSh hH ht hdel
  have e : ∀ x : Reg d, made H (List.ofFn d) t (List.ofFn fun i => ((x i : Fin (d i)) : Nat)) = ampRel t (List.ofFn fun i => ((x i : Fin (d i)) : Nat)) :=
    fun x => made_sharable _ t (dims_ge_two hd) hH hN hS _ (by simp)
  simp only [e] at h
  exact h

end Qudits
