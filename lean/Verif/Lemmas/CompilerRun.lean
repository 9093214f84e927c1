import Verif.Lemmas.CompilerGates
/- The loop over the gates of a circuit. -/
namespace Qudits.Compiler
open Spec Matrix LGraph LocalQR PhasePass
open scoped Matrix.Norms.L2Operator

variable {n : Nat} {d : Fin n → Nat} {lp : ∀ i, Equiv.Perm (Fin (d i))} {sem : Op (Arr2 ℂ) → Matrix (Reg d) (Reg d) ℂ}

theorem Translated.nil {b0 : Graphs} : Translated d lp sem b0 0 1 [] := by
  refine ⟨?_, one_mem _, ⟨1, norm_one, ?_⟩, by simp⟩
  · rw [circuitOp_nil]; exact one_mem _
  · rw [circuitOp_nil, one_smul, placed_one, sub_self, norm_zero]

theorem Translated.append {b0 : Graphs} {e1 e2 : ℝ} {A B : Matrix (Reg d) (Reg d) ℂ} {l m : List CInstr} (h : Translated d lp sem b0 e1 A l)
    (k : Translated d lp sem b0 e2 B m) : Translated d lp sem b0 (e1 + e2) (B * A) (l ++ m) := by
  obtain ⟨z, hz, hn⟩ := h.near
  obtain ⟨w, hw, kn⟩ := k.near
  refine ⟨?_, mul_mem k.target h.target, ⟨w * z, by rw [norm_mul, hz, hw, one_mul], ?_⟩, ?_⟩
  · rw [circuitOp_append]; exact mul_mem k.unitary h.unitary
  · rw [circuitOp_append, placed_mul]
    set C1 := circuitOp (instrOp d sem) l
    set C2 := circuitOp (instrOp d sem) m
    have e : C2 * C1 - (w * z) • (placed lp B * placed lp A) = C2 * (C1 - z • placed lp A) + (C2 - w • placed lp B) * (z • placed lp A) := by
      rw [mul_sub, sub_mul, smul_mul_smul_comm]; abel
    rw [e]
    refine (norm_add_le _ _).trans (add_le_add ?_ ?_)
    · rw [CStarRing.norm_mem_unitary_mul _ k.unitary]; exact hn
    · rw [mul_smul_comm, norm_smul, hz, one_mul, CStarRing.norm_mul_mem_unitary _ (placed_unitary h.target)]; exact kn
  · intro x hx
    rcases List.mem_append.1 hx with hx | hx
    · exact h.native x hx
    · exact k.native x hx

theorem Translated.mono {b0 : Graphs} {e1 e2 : ℝ} {A : Matrix (Reg d) (Reg d) ℂ} {l : List CInstr} (h : Translated d lp sem b0 e1 A l) (he : e1 ≤ e2) :
    Translated d lp sem b0 e2 A l := by
  obtain ⟨z, hz, hn⟩ := h.near
  exact ⟨h.unitary, h.target, ⟨z, hz, hn.trans he⟩, h.native⟩

/-- `F fuel b g` translates `g` if there is enough stack, and else fails for lack of it. -/
def Translates (d : Fin n → Nat) (lp : ∀ i, Equiv.Perm (Fin (d i))) (sem : Op (Arr2 ℂ) → Matrix (Reg d) (Reg d) ℂ) (b0 : Graphs)
    (F : Nat → Graphs → Op (Arr2 ℂ) → Except PyErr (List CInstr × Graphs)) (e : Op (Arr2 ℂ) → ℝ) (g : Op (Arr2 ℂ)) : Prop :=
  ∀ b, AllKept d lp b0 b → ∃ N l b', (∀ fuel, F fuel b g = .ok (l, b') ∨ (fuel < N ∧ F fuel b g = .error .recursion)) ∧ AllKept d lp b0 b' ∧
    Translated d lp sem b0 (e g) (sem g) l

theorem collect_ok {b0 : Graphs} {F : Nat → Graphs → Op (Arr2 ℂ) → Except PyErr (List CInstr × Graphs)} {e : Op (Arr2 ℂ) → ℝ} (gs : List (Op (Arr2 ℂ)))
    (hg : ∀ g ∈ gs, Translates d lp sem b0 F e g) (b : Graphs) (hb : AllKept d lp b0 b) :
    ∃ N l b', (∀ fuel, collect (F fuel) b gs = .ok (l, b') ∨ (fuel < N ∧ collect (F fuel) b gs = .error .recursion)) ∧ AllKept d lp b0 b' ∧
      Translated d lp sem b0 (gs.map e).sum (circuitOp sem gs) l := by
  induction gs generalizing b with
  | nil =>
    refine ⟨0, [], b, fun _ => Or.inl rfl, hb, ?_⟩
    rw [circuitOp_nil]
    exact Translated.nil
  | cons g gs ih =>
    obtain ⟨N, l, b1, h1, hb1, h2⟩ := hg g (by simp) b hb
    obtain ⟨M, m, b2, k1, hb2, k2⟩ := ih (fun x hx => hg x (List.mem_cons_of_mem _ hx)) b1 hb1
    refine ⟨max N M, l ++ m, b2, fun fuel => ?_, hb2, ?_⟩
    · unfold collect
      simp only [bind, Except.bind, pure, Except.pure]
      rcases h1 fuel with h | ⟨h, h'⟩
      · rw [h]
        simp only
        rcases k1 fuel with k | ⟨k, k'⟩
        · rw [k]; exact Or.inl rfl
        · rw [k']; exact Or.inr ⟨lt_max_of_lt_right k, rfl⟩
      · rw [h']; exact Or.inr ⟨lt_max_of_lt_left h, rfl⟩
    · rw [List.map_cons, List.sum_cons, circuitOp_cons]
      exact h2.append k2

theorem collect_congr {f f' : Graphs → Op (Arr2 ℂ) → Except PyErr (List CInstr × Graphs)} (gs : List (Op (Arr2 ℂ))) (h : ∀ g ∈ gs, ∀ b, f b g = f' b g)
    (b : Graphs) : collect f b gs = collect f' b gs := by
  induction gs generalizing b with
  | nil => rfl
  | cons g gs ih =>
    unfold collect
    rw [h g (by simp)]
    simp only [bind, Except.bind]
    cases f' b g with
    | error e => rfl
    | ok v => simp only; rw [ih fun x hx => h x (List.mem_cons_of_mem _ hx)]

theorem mappings_ok {b : Graphs} (h : ReadsPlaces d lp b) : mappings b (List.ofFn d) = .ok (List.ofFn fun i => placementList (lp i)) := by
  choose gr h1 h2 using h
  have hz : b.zip (List.ofFn d) = List.ofFn fun i => (some (gr i), d i) := by
    refine List.ext_getElem? fun k => ?_
    by_cases hk : k < n
    · have := h1 ⟨k, hk⟩
      simp only at this
      simp [List.getElem?_zip_eq_some, hk]
      exact this
    · simp [List.zip, hk]
  unfold mappings
  rw [hz]
  have : ∀ l : List (Fin n), (l.map fun i => (some (gr i), d i)).mapM (fun gd => levelsOf gd.1 gd.2) = .ok (l.map fun i => placementList (lp i)) := by
    intro l
    induction l with
    | nil => rfl
    | cons i l ih =>
      rw [List.map_cons, List.mapM_cons, ih, h2 i]
      rfl
  have e := this (List.finRange n)
  rw [← List.ofFn_eq_map, ← List.ofFn_eq_map] at e
  exact e

theorem finish_reads {b : Graphs} (h : ReadsPlaces d lp b) (l : List CInstr) :
    finish (List.ofFn d) (l, b) = .ok ⟨l, List.ofFn fun i => placementList (lp i), b⟩ := by
  unfold finish
  simp only [bind, Except.bind, pure, Except.pure]
  rw [mappings_ok h]

theorem finish_ok {b : Graphs} (h : Backend d lp b) (l : List CInstr) :
    finish (List.ofFn d) (l, b) = .ok ⟨l, List.ofFn fun i => placementList (lp i), b⟩ := finish_reads (AllKept.start h).reads l

end Qudits.Compiler
