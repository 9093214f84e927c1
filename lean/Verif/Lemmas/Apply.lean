import Verif.Lemmas.Space
import Mathlib.Data.Matrix.Mul
import Mathlib.Data.Fintype.Pi
import Mathlib.Algebra.BigOperators.Group.Finset.Basic
namespace Qudits.Spec
open Matrix

variable {ι : Type} [Fintype ι] [DecidableEq ι] {X : ι → Type} [∀ i, Fintype (X i)] [∀ i, DecidableEq (X i)]
  {α : Type}

/-- applying an operator on one line to a vector -/
theorem embed1_mulVec [NonUnitalNonAssocSemiring α] (q : ι) (m : Matrix (X q) (X q) α) (v : Lv X → α) (x : Lv X) :
    (embed1 (X := X) q m *ᵥ v) x = ∑ k, m (x q) k * v (Function.update x q k) := by
  rw [mulVec, dotProduct]
  symm
  apply Finset.sum_of_injOn (fun k => Function.update x q k)
  · intro a _ b _ h
    have := congrFun h q
    simpa using this
  · intro k _; simp
  · intro y _ hy
    rw [embed1, if_neg, zero_mul]
    intro hall
    apply hy
    refine ⟨y q, by simp, ?_⟩
    funext i
    by_cases h : i = q
    · subst h; simp
    · dsimp only; rw [Function.update_of_ne h, hall i h]
  · intro k _
    rw [embed1, if_pos]
    · simp
    · intro i hi; rw [Function.update_of_ne hi]

end Qudits.Spec
