import Verif.Props.ApproxProps
import Verif.Props.StatePrepViolations
/-! # Approximation: a state that is not prepared -/
namespace Qudits
open Spec MicroDD StatePrep LocalQR Matrix
open PhasePass (GateSemantics)

theorem lost_prob (a : Nat) (p : List Nat) (ha : a < 3) (hp : p = [] ∨ ∃ b < 2, p = [b]) :
    prob (branch [3, 2] lostState (a :: p)) = 0 ∨ 9 / 25 ≤ prob (branch [3, 2] lostState (a :: p)) := by
  have n1 : ‖(3 / 5 : ℂ)‖ = 3 / 5 := by rw [show (3 / 5 : ℂ) = ((3 / 5 : ℝ) : ℂ) by norm_num, Complex.norm_real]; norm_num
  have n2 : ‖(4 / 5 : ℂ)‖ = 4 / 5 := by rw [show (4 / 5 : ℂ) = ((4 / 5 : ℝ) : ℂ) by norm_num, Complex.norm_real]; norm_num
  rcases hp with rfl | ⟨b, hb, rfl⟩
  · interval_cases a <;> simp [branch, prob, lostState, List.take] <;> norm_num
  · interval_cases a <;> interval_cases b <;> simp [branch, prob, lostState, List.take] <;> norm_num

theorem normalize_unit {w : ℂ} {out : List ℂ} (h : (out.map fun x => x.re ^ 2 + x.im ^ 2).sum = 1) : MicroDD.normalize w out = (w, out) := by
  unfold MicroDD.normalize
  rw [h, Real.sqrt_one]
  simp

/-- nothing is cut from the tree of `lostState`, and its weights are normalised already -/
theorem approximate_lost {t : MicroDD} (h : create [3, 2] lostState = .ok t) : approximate (1 / 100) 2 t = t := by
  have n1 : ‖(3 / 5 : ℂ)‖ = 3 / 5 := by rw [show (3 / 5 : ℂ) = ((3 / 5 : ℝ) : ℂ) by norm_num, Complex.norm_real]; norm_num
  have n2 : ‖(4 / 5 : ℂ)‖ = 4 / 5 := by rw [show (4 / 5 : ℂ) = ((4 / 5 : ℝ) : ℂ) by norm_num, Complex.norm_real]; norm_num
  obtain ⟨t', h1, h2, h3, h4⟩ := build_spec [3, 2] lostState (by decide) rfl
  have e : t' = t := by
    have : create [3, 2] lostState = .ok t' := h1
    rw [h] at this
    exact (Except.ok.inj this).symm
  rw [e] at h1 h2 h4
  obtain ⟨_, b, c, _⟩ := cutBranches_spec rfl h2 h4 (1 / 100)
  have hc : cutBranches (contributions 2 t) (1 / 100) = [] := by
    by_contra hne
    have hs := c hne
    obtain ⟨q, hq⟩ := List.exists_mem_of_ne_nil _ hne
    obtain ⟨⟨p1, p2, p3⟩, p0⟩ := b q hq
    have hle : prob (branch [3, 2] lostState q) ≤ ((cutBranches (contributions 2 t) (1 / 100)).map fun q => prob (branch [3, 2] lostState q)).sum :=
      List.single_le_sum (by
        intro x hx
        obtain ⟨q, _, rfl⟩ := List.mem_map.1 hx
        exact prob_nonneg _) _ (List.mem_map.2 ⟨q, hq, rfl⟩)
    have hl := hle.trans_lt hs
    match q, p1, p3, p0, hl with
    | [a], _, .cons ha _, p0, hl =>
      rcases lost_prob a [] ha (Or.inl rfl) with h | h
      · exact p0 h
      · linarith
    | [a, b], _, .cons ha (.cons hb _), p0, hl =>
      rcases lost_prob a [b] ha (Or.inr ⟨b, hb, rfl⟩) with h | h
      · exact p0 h
      · linarith
    | a :: b :: c :: q, _, p3, _, _ => cases p3 with | cons _ p3 => cases p3 with | cons _ p3 => cases p3
  have ht : t = _ := Except.ok.inj (h.symm.trans build_lost)
  unfold approximate cutTree
  rw [hc, List.foldr_nil, ht]
  have hb : ∀ w : ℂ, w ≠ 0 → normalizeAll 1 (lostBranch.setWeight w) = lostBranch.setWeight w := by
    intro w hw
    simp only [lostBranch, prepLeaf, setWeight, info, children, normalizeAll, List.map_cons, List.map_nil, weight]
    rw [normalize_unit (by simp)]
    simp [hw, setWeight, info, children]
  have hdead : normalizeAll 1 (prepDead.setWeight 0) = prepDead.setWeight 0 := by
    simp [prepDead, setWeight, info, children, normalizeAll]
  rw [normalizeAll]
  simp only [List.map_cons, List.map_nil, hb _ (show (3 / 5 : ℂ) ≠ 0 by norm_num), hb _ (show (4 / 5 : ℂ) ≠ 0 by norm_num), hdead, weight_setWeight]
  rw [normalize_unit (by norm_num)]
  simp [setWeight, info, children, prepDead, lostBranch]

/-- With the tolerance 1/100 of the code the unit vector 3/5 |11> + 4/5 |21> on lines of three and two levels is compiled without an error;
but the state prepared is orthogonal to it, up to the rotations left out, where the overlap should be at least `sqrt (99/100)`. Nothing is
cut: the loss is that of `C40_violated`. No collision of hashes is involved. -/
theorem C57_violated : vecNorm lostState = 1 ∧ lostState.length = (List.ofFn ![3, 2]).prod ∧
    ∀ H : List (Int × ℂ) → Int, (∀ t, create (List.ofFn ![3, 2]) lostState = .ok t → NoCollision H (approximate (1 / 100) 2 t)) →
      ∀ del : ℝ, 0 ≤ del → ∃ out, compileApprox H del (1 / 100) (List.ofFn ![3, 2]) lostState = .ok out ∧
        ∀ sem, GateSemantics ![3, 2] sem →
          ‖∑ x : Reg ![3, 2], starRingEnd ℂ (lostState.getD (idx ![3, 2] x) 0) * (circuitOp sem out *ᵥ ground ![3, 2]) x‖ ≤ 3 * del := by
  have n1 : ‖(3 / 5 : ℂ)‖ = 3 / 5 := by rw [show (3 / 5 : ℂ) = ((3 / 5 : ℝ) : ℂ) by norm_num, Complex.norm_real]; norm_num
  have n2 : ‖(4 / 5 : ℂ)‖ = 4 / 5 := by rw [show (4 / 5 : ℂ) = ((4 / 5 : ℝ) : ℂ) by norm_num, Complex.norm_real]; norm_num
  refine ⟨C40_violated.1, rfl, fun H hH del hdel => ?_⟩
  have hT : create (List.ofFn ![3, 2]) lostState = .ok _ := build_lost
  have happ := approximate_lost hT
  have hH' : ∀ t, create (List.ofFn ![3, 2]) lostState = .ok t → NoCollision H t := by
    intro t ht
    have := hH t ht
    rwa [approximate_lost ht] at this
  obtain ⟨out, ho, hs⟩ := lost_prepared H hH' del hdel
  refine ⟨out, ?_, fun sem hsem => ?_⟩
  · rw [← ho]
    unfold compileApprox compileState
    rw [hT]
    simp only [bind, Except.bind]
    rw [show (List.ofFn ![3, 2]).length = 2 from rfl, happ]
  · have hy := hs sem hsem
    generalize circuitOp sem out *ᵥ ground ![3, 2] = ψ at hy ⊢
    have hval : ∀ x : Reg ![3, 2], ‖starRingEnd ℂ (lostState.getD (idx ![3, 2] x) 0) * ψ x‖ ≤
        ‖lostState.getD (idx ![3, 2] x) 0‖ * (2 * del) := by
      intro x
      rw [norm_mul, RCLike.norm_conj]
      by_cases h1 : ((x 1 : Fin 2) : Nat) = 1
      · exact mul_le_mul_of_nonneg_left (hy x h1) (norm_nonneg _)
      · have h0 : ((x 1 : Fin 2) : Nat) = 0 := by have := (show Fin 2 from x 1).isLt; change ((x 1 : Fin 2) : Nat) < 2 at this; omega
        have hz : lostState.getD (idx ![3, 2] x) 0 = 0 := by
          have hx0 : ((x 0 : Fin 3) : Nat) < 3 := (show Fin 3 from x 0).isLt
          have hi : idx ![3, 2] x = ((x 0 : Fin 3) : Nat) * 2 := by
            simp [idx, index]
            exact h0
          rw [hi]
          generalize ((x 0 : Fin 3) : Nat) = k at hx0
          interval_cases k <;> simp [lostState]
        rw [hz, norm_zero, zero_mul, zero_mul]
    refine (norm_sum_le _ _).trans ((Finset.sum_le_sum fun x _ => hval x).trans ?_)
    rw [← Finset.sum_mul, sum_reg (d := ![3, 2]) fun k => ‖lostState.getD k 0‖, show (List.ofFn ![3, 2]).prod = 6 from rfl]
    simp only [Finset.sum_range_succ, Finset.sum_range_zero, lostState, List.getD_cons_zero, List.getD_cons_succ, norm_zero, n1, n2]
    linarith

/-- a hash without collisions exists, and with no rotation left out the overlap is 0 -/
example : ∃ H out, compileApprox H 0 (1 / 100) (List.ofFn ![3, 2]) lostState = .ok out ∧
    ∀ sem, GateSemantics ![3, 2] sem →
      ∑ x : Reg ![3, 2], starRingEnd ℂ (lostState.getD (idx ![3, 2] x) 0) * (circuitOp sem out *ᵥ ground ![3, 2]) x = 0 := by
  obtain ⟨H, hH⟩ := C57_hash (List.ofFn ![3, 2]) lostState (1 / 100) 2
  obtain ⟨out, h1, h2⟩ := C57_violated.2.2 H hH 0 le_rfl
  refine ⟨H, out, h1, fun sem hsem => ?_⟩
  have := h2 sem hsem
  rw [mul_zero] at this
  exact norm_le_zero_iff.1 this

end Qudits
