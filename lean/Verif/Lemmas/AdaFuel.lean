import Verif.Lemmas.AdaOut
/- A search that ends within the recursion depth ends in the same way within a larger one. -/
namespace Qudits.Adaptive
open LGraph LocalQR

theorem visit_mono {f f' : STree → Nat → Except PyErr (STree × Nat × Bool)} (hf : ∀ c k r, f c k = .ok r → f' c k = .ok r) (cs : List STree) (k : Nat)
    (r : List STree × Nat × Bool) (h : visit f cs k = .ok r) : visit f' cs k = .ok r := by
  induction cs generalizing k r with
  | nil => exact h
  | cons c cs ih =>
    unfold visit at h ⊢
    simp only [bind, Except.bind, pure, Except.pure] at h ⊢
    cases h1 : f c k with
    | error e => rw [h1] at h; cases h
    | ok v =>
      obtain ⟨c', k', found⟩ := v
      rw [h1] at h
      rw [hf _ _ _ h1]
      simp only at h ⊢
      cases found with
      | true => exact h
      | false =>
        simp only [Bool.false_eq_true, if_false] at h ⊢
        cases h2 : visit f cs k' with
        | error e => rw [h2] at h; cases h
        | ok w => rw [h2] at h; rw [ih _ _ h2]; exact h

theorem dfs_mono {off : ℝ} {triples : Nat → List (Nat × Nat × Nat)} {step : Step} (fuel : Nat) (t : STree) (k : Nat) (r : STree × Nat × Bool)
    (h : dfs off triples step fuel t k = .ok r) : dfs off triples step (fuel + 1) t k = .ok r := by
  induction fuel generalizing t k r with
  | zero => cases h
  | succ fuel ih =>
    obtain ⟨d, cs⟩ := t
    rw [dfs] at h ⊢
    split_ifs at h ⊢ with hd
    · exact h
    · simp only [bind, Except.bind, pure, Except.pure] at h ⊢
      cases h1 : (triples d.data.u.rows).foldlM step (.node d cs, k) with
      | error e => rw [h1] at h; cases h
      | ok v =>
        obtain ⟨⟨d', cs'⟩, k'⟩ := v
        rw [h1] at h
        simp only at h ⊢
        cases h2 : visit (dfs off triples step fuel) cs' k' with
        | error e => rw [h2] at h; cases h
        | ok w => rw [h2] at h; rw [visit_mono (fun c k r => ih c k r) _ _ _ h2]; exact h

theorem execute_mono {off : ℝ} {triples : Nat → List (Nat × Nat × Nat)} {step : Step} {extract : Extract} {limit : ℝ × ℝ} {u : Arr2 ℂ} {g0 : LGraph}
    (fuel : Nat) (r : Result) (h : execute fuel off triples step extract limit u g0 = .ok r) :
    execute (fuel + 1) off triples step extract limit u g0 = .ok r := by
  unfold execute at h ⊢
  simp only [bind, Except.bind] at h ⊢
  cases h1 : dfs off triples step fuel (Tree.new 0 ⟨none, u, limit, []⟩ (some g0.phaseStoringSetup) 0 0 none) 0 with
  | error e => rw [h1] at h; cases h
  | ok v => rw [h1] at h; rw [dfs_mono _ _ _ _ h1]; exact h

theorem phyAdaGate_mono {sp : PathFinder} {q : Int} {d : Nat} {zProp : Bool} {u : Arr2 ℂ} {g : Option LGraph} {r : List PInstr × Option LGraph}
    {fuel fuel' : Nat} (hf : fuel ≤ fuel') (h : phyAdaGate fuel sp q d zProp u g = .ok r) : phyAdaGate fuel' sp q d zProp u g = .ok r := by
  induction fuel', hf using Nat.le_induction with
  | base => exact h
  | succ fuel' _ ih =>
    cases g with
    | none => cases ih
    | some g =>
      unfold phyAdaGate phyAda at ih ⊢
      simp only [bind, Except.bind] at ih ⊢
      split at ih
      · cases ih
      · rename_i v hv
        split at ih
        · cases ih
        · rename_i w hw
          rw [execute_mono _ _ hw]
          exact ih

/-- What holds of a search that ends within some depth and otherwise fails for lack of it. -/
theorem phyAdaGate_any {sp : PathFinder} {q : Int} {d : Nat} {zProp : Bool} {u : Arr2 ℂ} {g : LGraph} {r : List PInstr × Option LGraph} {N : Nat}
    {q0 : QrResult} (h0 : phyQr sp q d 1e-8 1e-4 false true u g = .ok q0) (hN : phyAdaGate N sp q d zProp u (some g) = .ok r)
    (hlt : ∀ fuel > 0, phyAda fuel sp q d 1e-4 1e-4 zProp (q0.alg, q0.tot) u q0.graph = .error .recursion ∨
      ∃ a, phyAda fuel sp q d 1e-4 1e-4 zProp (q0.alg, q0.tot) u q0.graph = .ok a) (fuel : Nat) :
    phyAdaGate fuel sp q d zProp u (some g) = .ok r ∨ (fuel < N ∧ phyAdaGate fuel sp q d zProp u (some g) = .error .recursion) := by
  by_cases hf : N ≤ fuel
  · exact Or.inl (phyAdaGate_mono hf hN)
  · have he : ∀ a, phyAda fuel sp q d 1e-4 1e-4 zProp (q0.alg, q0.tot) u q0.graph = a →
        phyAdaGate fuel sp q d zProp u (some g) = a.bind fun a => .ok (revDag a.gates, a.graph) := by
      intro a ha
      unfold phyAdaGate
      simp only [bind, Except.bind, pure, Except.pure]
      rw [h0]
      simp only
      rw [ha]
    have h1 : phyAda fuel sp q d 1e-4 1e-4 zProp (q0.alg, q0.tot) u q0.graph = .error .recursion ∨
        ∃ a, phyAda fuel sp q d 1e-4 1e-4 zProp (q0.alg, q0.tot) u q0.graph = .ok a := by
      rcases Nat.eq_zero_or_pos fuel with rfl | hp
      · exact Or.inl rfl
      · exact hlt fuel hp
    rcases h1 with k | ⟨a, k⟩
    · exact Or.inr ⟨by omega, he _ k⟩
    · refine Or.inl ?_
      have := phyAdaGate_mono (fuel' := N) (by omega) (he _ k)
      rw [hN] at this
      rw [he _ k, this]
      rfl

end Qudits.Adaptive
