import Verif.Model.Variational
import Verif.Lemmas.GateArrays
import Mathlib.Analysis.InnerProductSpace.PiL2
import Mathlib.LinearAlgebra.UnitaryGroup
import Mathlib.LinearAlgebra.Matrix.Trace

namespace Qudits.Variational
open Matrix

/-- Cauchy–Schwarz with its case of equality, in coordinates -/
theorem cauchy {ι : Type} [Fintype ι] (x y : ι → ℂ) (hx : x ≠ 0) (hy : y ≠ 0) :
    ‖∑ i, star (x i) * y i‖ ≤ Real.sqrt (∑ i, ‖x i‖ ^ 2) * Real.sqrt (∑ i, ‖y i‖ ^ 2) ∧
    (‖∑ i, star (x i) * y i‖ = Real.sqrt (∑ i, ‖x i‖ ^ 2) * Real.sqrt (∑ i, ‖y i‖ ^ 2) ↔ ∃ c : ℂ, c ≠ 0 ∧ y = c • x) ∧
    0 < Real.sqrt (∑ i, ‖x i‖ ^ 2) * Real.sqrt (∑ i, ‖y i‖ ^ 2) := by
  set X : EuclideanSpace ℂ ι := WithLp.toLp 2 x with hX
  set Y : EuclideanSpace ℂ ι := WithLp.toLp 2 y with hY
  have hi : inner ℂ X Y = ∑ i, star (x i) * y i := by
    simp only [PiLp.inner_apply, hX, hY]
    refine Finset.sum_congr rfl fun i _ => ?_
    simp [mul_comm]
  have hnx : ‖X‖ = Real.sqrt (∑ i, ‖x i‖ ^ 2) := EuclideanSpace.norm_eq X
  have hny : ‖Y‖ = Real.sqrt (∑ i, ‖y i‖ ^ 2) := EuclideanSpace.norm_eq Y
  have hX0 : X ≠ 0 := fun h => hx (congrArg WithLp.ofLp h)
  have hY0 : Y ≠ 0 := fun h => hy (congrArg WithLp.ofLp h)
  rw [← hi, ← hnx, ← hny]
  refine ⟨norm_inner_le_norm X Y, ?_, mul_pos (norm_pos_iff.2 hX0) (norm_pos_iff.2 hY0)⟩
  rw [norm_inner_eq_norm_iff hX0 hY0]
  constructor
  · rintro ⟨c, hc, h⟩
    exact ⟨c, hc, by simpa using congrArg WithLp.ofLp h⟩
  · rintro ⟨c, hc, h⟩
    exact ⟨c, hc, by rw [hY, h]; rfl⟩

theorem trace_eq (a : Arr2 ℂ) (N : Nat) (hr : a.rows = N) (hc : a.cols = N) : trace a = (a.toM N).trace := by
  unfold trace Matrix.trace
  rw [hr, hc, min_self, ← Fin.sum_univ_eq_sum_range (fun i => a.at' i i)]
  rfl

end Qudits.Variational
