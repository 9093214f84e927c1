import Verif.Model.VarTimer
import Verif.Spec.VarTimerSpec
import Verif.Props.VarSearchProps
/-
C102: the runs of the variational search and the state they share.
-/
namespace Qudits
open Variational Spec

variable {β : Type}

/-- the state holds a solution with its true error -/
private def SolOk (err : β → Except PyErr ℝ) (tol : ℝ) (st : OptState β) : Prop := ∀ e x, st.sol = some (e, x) → err x = .ok e ∧ e < tol

private theorem solveT_sound {err : β → Except PyErr ℝ} {tol : ℝ} {result : β} : ∀ {xs : List β} {st : OptState β} {q : Option (ℝ × β)} {st' : OptState β},
    SolOk err tol st → solveT err tol result xs st = .ok (q, st') → SolOk err tol st' ∧ ∀ e x, q = some (e, x) → err x = .ok e
  | [], st, q, st', hs, h => by
    unfold solveT at h
    cases he : err result with
    | error a => rw [he] at h; cases h
    | ok e =>
      rw [he] at h
      cases h
      exact ⟨hs, fun _ _ q => by cases q; exact he⟩
  | x :: xs, st, q, st', hs, h => by
    unfold solveT at h
    cases he : err x with
    | error a => rw [he] at h; cases h
    | ok e =>
      rw [he] at h
      simp only [bind, Except.bind, pure, Except.pure] at h
      by_cases h1 : e < tol
      · rw [if_pos h1] at h
        cases h
        exact ⟨fun _ _ q => by cases q; exact ⟨he, h1⟩, fun _ _ q => by cases q; exact he⟩
      · rw [if_neg h1] at h
        by_cases h2 : st.fired = true
        · rw [if_pos h2] at h
          cases h
          exact ⟨hs, fun _ _ q => (hs _ _ q).1⟩
        · rw [if_neg h2] at h
          exact solveT_sound (st := { st with clock := st.clock + 1 }) hs h

private theorem searchT_sound {err : β → Except PyErr ℝ} {tol : ℝ} {D : Nat} {visits : Nat → Visits β} (low high : Int) (best : Nat × WithTop ℝ × β)
    (st : OptState β) (hs : SolOk err tol st) (empty : β)
    (hb : best.2 = (⊤, empty) ∨ ∃ e : ℝ, best.2.1 = e ∧ err best.2.2 = .ok e ∧ e ≤ tol) {r : (Nat × WithTop ℝ × β) × OptState β}
    (h : searchT err tol D visits low high best st = .ok r) :
    r.1.2 = (⊤, empty) ∨ ∃ e : ℝ, r.1.2.1 = e ∧ err r.1.2.2 = .ok e ∧ e ≤ tol := by
  unfold searchT at h
  by_cases hl : low ≤ high
  · rw [dif_pos hl] at h
    simp only at h
    cases hr : runT err tol D (visits (low + (high - low) / 2).toNat) st with
    | error a => rw [hr] at h; cases h
    | ok p =>
      obtain ⟨q, st'⟩ := p
      rw [hr] at h
      have hsnd := solveT_sound (st := { st with timers := (st.clock + D) :: st.timers }) hs hr
      cases q with
      | none => cases h
      | some ex =>
        obtain ⟨e, x⟩ := ex
        simp only at h
        by_cases hgt : e > tol
        · rw [if_pos hgt] at h
          exact searchT_sound _ _ best st' hsnd.1 empty hb h
        · rw [if_neg hgt] at h
          exact searchT_sound _ _ _ st' hsnd.1 empty (Or.inr ⟨e, rfl, hsnd.2 e x rfl, not_lt.1 hgt⟩) h
  · rw [dif_neg hl] at h
    cases h
    exact hb
termination_by (high + 1 - low).toNat
decreasing_by all_goals omega

/-- C102: whenever timers fire, and whatever was compiled before: if the search returns then either nothing was found or the returned parameters have the
returned error, which is within the tolerance. -/
theorem C102_sound (err : β → Except PyErr ℝ) (empty : β) (tol : ℝ) (D : Nat) (visits : Nat → Visits β) (maxLayer : Int) (st : OptState β)
    {r : (Nat × WithTop ℝ × β) × OptState β} (h : compileT err empty tol D visits maxLayer st = .ok r) :
    r.1.2 = (⊤, empty) ∨ ∃ e : ℝ, r.1.2.1 = e ∧ err r.1.2.2 = .ok e ∧ e ≤ tol := by
  unfold compileT at h
  by_cases h0 : maxLayer < 0
  · rw [if_pos h0] at h; cases h
  · rw [if_neg h0] at h
    exact searchT_sound 0 maxLayer _ { st with sol := none } (fun _ _ q => by cases q) empty (Or.inl rfl) h

private theorem solveT_quiet (err : β → ℝ) (tol : ℝ) (result : β) : ∀ (xs : List β) (st : OptState β), (∀ t ∈ st.timers, st.clock + xs.length ≤ t) →
    ∃ st', solveT (fun x => .ok (err x)) tol result xs st = .ok (some (undisturbed err tol ⟨xs, result⟩), st') ∧ st'.timers = st.timers ∧
      st'.clock ≤ st.clock + xs.length
  | [], st, _ => ⟨st, rfl, rfl, by simp⟩
  | x :: xs, st, ht => by
    classical
    unfold solveT
    simp only [bind, Except.bind, pure, Except.pure]
    by_cases h1 : err x < tol
    · refine ⟨{ st with clock := st.clock + 1, sol := some (err x, x) }, ?_, rfl, by simp⟩
      rw [if_pos h1]
      unfold undisturbed
      simp [List.find?, h1]
    · rw [if_neg h1]
      have hf : ¬ st.fired = true := by
        unfold OptState.fired
        rw [List.any_eq_true]
        rintro ⟨t, m, q⟩
        have := ht t m
        rw [List.length_cons] at this
        have := of_decide_eq_true q
        omega
      rw [if_neg hf]
      obtain ⟨st', a, b, c⟩ := solveT_quiet err tol result xs { st with clock := st.clock + 1 } (fun t m => by
        have := ht t m
        rw [List.length_cons] at this
        simp only
        omega)
      refine ⟨st', a.trans ?_, b, by rw [List.length_cons]; simp only at c; omega⟩
      unfold undisturbed
      simp [List.find?, h1]

private theorem searchT_quiet (err : β → ℝ) (tol : ℝ) (D N : Nat) (visits : Nat → Visits β) (hN : ∀ k, (visits k).points.length ≤ N)
    (low high : Int) (best : Nat × WithTop ℝ × β) (st : OptState β) (c : Nat) (hD : N * (high + 1 - low).toNat ≤ D)
    (ht : ∀ t ∈ st.timers, st.clock + N * (high + 1 - low).toNat ≤ t) :
    ∃ st', searchT (fun x => .ok (err x)) tol D visits low high best st =
      .ok ((searchLoop (fun k => undisturbed err tol (visits k)) tol low high best c).1, st') := by
  unfold searchT searchLoop
  by_cases hl : low ≤ high
  · rw [dif_pos hl, dif_pos hl]
    simp only
    have hb : N * 1 ≤ N * (high + 1 - low).toNat := Nat.mul_le_mul_left _ (by omega)
    obtain ⟨st', a, b, cc⟩ := solveT_quiet err tol (visits (low + (high - low) / 2).toNat).result (visits (low + (high - low) / 2).toNat).points
      { st with timers := (st.clock + D) :: st.timers } (by
        intro t m
        have := hN (low + (high - low) / 2).toNat
        simp only at m ⊢
        rcases List.mem_cons.1 m with rfl | m
        · omega
        · have := ht t m
          omega)
    have a' : runT (fun x => .ok (err x)) tol D (visits (low + (high - low) / 2).toNat) st =
      .ok (some (undisturbed err tol (visits (low + (high - low) / 2).toNat)), st') := a
    have rest : ∀ lo hi : Int, (hi + 1 - lo).toNat + 1 ≤ (high + 1 - low).toNat → N * (hi + 1 - lo).toNat ≤ D ∧
        ∀ t ∈ st'.timers, st'.clock + N * (hi + 1 - lo).toNat ≤ t := by
      intro lo hi hh
      have h1 : N * (hi + 1 - lo).toNat + N ≤ N * (high + 1 - low).toNat := by
        have := Nat.mul_le_mul_left N hh
        rw [Nat.mul_add, Nat.mul_one] at this
        exact this
      have h2 := hN (low + (high - low) / 2).toNat
      simp only at cc b
      refine ⟨by omega, fun t m => ?_⟩
      rw [b] at m
      rcases List.mem_cons.1 m with rfl | m
      · omega
      · have := ht t m
        omega
    rw [a']
    simp only
    by_cases hg : (undisturbed err tol (visits (low + (high - low) / 2).toNat)).1 > tol
    · rw [if_pos hg, if_pos hg]
      obtain ⟨r1, r2⟩ := rest (low + (high - low) / 2 + 1) high (by omega)
      exact searchT_quiet err tol D N visits hN _ _ best st' _ r1 r2
    · rw [if_neg hg, if_neg hg]
      obtain ⟨r1, r2⟩ := rest low (low + (high - low) / 2 - 1) (by omega)
      exact searchT_quiet err tol D N visits hN _ _ _ st' _ r1 r2
  · rw [dif_neg hl, dif_neg hl]
    exact ⟨st, rfl⟩
termination_by (high + 1 - low).toNat
decreasing_by all_goals omega

/-- C102, partial: as long as no timer can fire during the search (neither one of its own nor one left from before), it is the search over independent
runs, so that the reported number of layers is that of the run which found the parameters. Missing: `C102_layers_violated`, `C102_later_violated`. -/
theorem C102_quiet_partial (err : β → ℝ) (empty : β) (tol : ℝ) (D N : Nat) (visits : Nat → Visits β) (hN : ∀ k, (visits k).points.length ≤ N)
    (maxLayer : Nat) (st : OptState β) (hD : N * (maxLayer + 1) ≤ D) (ht : ∀ t ∈ st.timers, st.clock + N * (maxLayer + 1) ≤ t) :
    ∃ r st', compileT (fun x => .ok (err x)) empty tol D visits maxLayer st = .ok (r, st') ∧
      ((r.2 = (⊤, empty) ∧ tol < (undisturbed err tol (visits (maxLayer / 2))).1) ∨
        (r.1 ≤ maxLayer ∧ (undisturbed err tol (visits r.1)).1 ≤ tol ∧ r.2.1 = ((undisturbed err tol (visits r.1)).1 : ℝ) ∧
          r.2.2 = (undisturbed err tol (visits r.1)).2)) := by
  obtain ⟨r, h1, h2, _⟩ := C44_sound (fun k => undisturbed err tol (visits k)) empty tol maxLayer
  obtain ⟨st', hs⟩ := searchT_quiet err tol D N visits hN 0 maxLayer (((maxLayer : Int) / 2).toNat, ⊤, empty) { st with sol := none } 0
    (by rw [show ((maxLayer : Int) + 1 - 0).toNat = maxLayer + 1 from by omega]; exact hD)
    (by rw [show ((maxLayer : Int) + 1 - 0).toNat = maxLayer + 1 from by omega]; exact ht)
  unfold binarySearchCompile at h1
  rw [if_neg (by omega)] at h1
  rw [Except.ok.inj h1] at hs
  refine ⟨r, st', ?_, ?_⟩
  · unfold compileT
    rw [if_neg (by omega)]
    exact hs
  · rcases h2 with ⟨k, a, b, rfl⟩ | h
    · exact Or.inr ⟨a, b, rfl, rfl⟩
    · exact Or.inl h

/-- A run that is cut off returns the solution of an earlier run of the same search: with at most two layers, where the run with one layer finds `x` and the
run with none only visits `y`, the search reports zero layers with the parameters `x` of one layer. -/
theorem C102_layers_violated (err : β → ℝ) (empty x y : β) (tol : ℝ) (hx : err x < tol) (hy : tol ≤ err y) :
    ∃ st', compileT (fun z => .ok (err z)) empty tol 1 (fun k => if k = 1 then ⟨[x], x⟩ else ⟨[y], y⟩) 2 {} = .ok ((0, ((err x : ℝ) : WithTop ℝ), x), st') ∧
      ∃ t ∈ st'.timers, t ≤ st'.clock := by
  have hx' : ¬ err x > tol := not_lt.2 hx.le
  have hy' : ¬ err y < tol := not_lt.2 hy
  have hf : OptState.fired ⟨0 + 1, [0 + 1 + 1, 0 + 1], some (err x, x)⟩ = true := rfl
  refine ⟨⟨2, [2, 1], some (err x, x)⟩, ?_, 1, by simp, by simp⟩
  unfold compileT
  rw [if_neg (by decide)]
  unfold searchT
  rw [dif_pos (by decide)]
  simp only [runT, solveT, bind, Except.bind, pure, Except.pure, show ((0 : Int) + (2 - 0) / 2).toNat = 1 from by decide, if_true, hx, hx', if_false]
  unfold searchT
  rw [dif_pos (by decide)]
  simp only [runT, solveT, bind, Except.bind, pure, Except.pure, show ((0 : Int) + ((0 + (2 - 0) / 2 - 1) - 0) / 2).toNat = 0 from by decide, if_false, hy', hf, if_true,
    show (0 : Nat) = 1 ↔ False from by decide, hx']
  unfold searchT
  rw [dif_neg (by decide)]

/-- Once a timer has fired it stops all later compilations of the process: unless the very first point visited is within the tolerance, the comparison of
the empty list with the tolerance raises, although the run would find a solution. -/
theorem C102_later_violated (err : β → ℝ) (empty : β) (tol : ℝ) (D : Nat) (visits : Nat → Visits β) (maxLayer : Nat) (st : OptState β)
    (hfired : ∃ t ∈ st.timers, t ≤ st.clock) {y : β} {ys : List β} (hv : (visits (maxLayer / 2)).points = y :: ys) (hy : tol ≤ err y) :
    compileT (fun z => .ok (err z)) empty tol D visits maxLayer st = .error .typeError := by
  unfold compileT
  rw [if_neg (by omega)]
  unfold searchT
  rw [dif_pos (by omega)]
  have hm : ((0 : Int) + ((maxLayer : Int) - 0) / 2).toNat = maxLayer / 2 := by omega
  simp only [hm, runT, hv]
  have hf : OptState.fired { clock := st.clock, timers := (st.clock + D) :: st.timers, sol := (none : Option (ℝ × β)) } = true := by
    obtain ⟨t, m, q⟩ := hfired
    unfold OptState.fired
    rw [List.any_eq_true]
    exact ⟨t, List.mem_cons_of_mem _ m, decide_eq_true q⟩
  unfold solveT
  simp only [bind, Except.bind, pure, Except.pure, if_neg (not_lt.2 hy), if_pos hf]

/-- both together: after the search of `C102_layers_violated` a search whose first point is not good enough raises, though its second one is -/
example : ∃ r st', compileT (fun z : ℝ => .ok z) 5 (1 / 2) 1 (fun k => if k = 1 then ⟨[0], 0⟩ else ⟨[3], 3⟩) 2 {} = .ok (r, st') ∧
    compileT (fun z : ℝ => .ok z) 5 (1 / 2) 100 (fun _ => ⟨[3, 0], 0⟩) (2 : Nat) st' = .error .typeError := by
  obtain ⟨st', h, hf⟩ := C102_layers_violated (fun z : ℝ => z) 5 0 3 (1 / 2) (by norm_num) (by norm_num)
  exact ⟨_, st', h, C102_later_violated (fun z : ℝ => z) 5 (1 / 2) 100 (fun _ => ⟨[3, 0], 0⟩) 2 st' hf rfl (by norm_num)⟩

/-- the hypotheses of `C102_quiet_partial`: runs of two points, four layers, timers of twenty evaluations -/
example : ∃ r st', compileT (fun z : ℝ => .ok z) 5 (1 / 2) 20 (fun _ => ⟨[3, 0], 0⟩) (4 : Nat) {} = .ok (r, st') ∧ r.2.2 = 0 := by
  have hu : undisturbed (fun z : ℝ => z) (1 / 2) ⟨[3, 0], 0⟩ = (0, 0) := by
    unfold undisturbed
    simp [List.find?]
    norm_num
  obtain ⟨r, st', h, q⟩ := C102_quiet_partial (fun z : ℝ => z) 5 (1 / 2) 20 2 (fun _ => ⟨[3, 0], 0⟩) (fun _ => le_refl _) 4 {} (by norm_num) (by simp)
  refine ⟨r, st', h, ?_⟩
  rcases q with ⟨_, q⟩ | ⟨_, _, _, q⟩
  · rw [hu] at q; norm_num at q
  · rw [q, hu]

end Qudits
