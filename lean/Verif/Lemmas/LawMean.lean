import Verif.Spec.LawSpec
import Verif.Lemmas.Space
import Mathlib.Algebra.Module.LinearMap.Basic
import Mathlib.Algebra.BigOperators.Module
/- Lemmas for C86: means. -/
namespace Qudits.Spec
open Matrix

section
variable {V W : Type} [AddCommMonoid V] [Module ℝ V] [AddCommMonoid W] [Module ℝ W]

theorem mean_congr : ∀ (Ps : List (List ℝ)) {f g : List Nat → V}, (∀ l, l.length = Ps.length → f l = g l) → mean Ps f = mean Ps g
  | [], f, g, h => h [] rfl
  | p :: Ps, f, g, h => by
    unfold mean
    refine Finset.sum_congr rfl fun k _ => ?_
    rw [mean_congr Ps fun l hl => h (k :: l) (by simp [hl])]

theorem mean_linear (L : V →ₗ[ℝ] W) : ∀ (Ps : List (List ℝ)) (f : List Nat → V), L (mean Ps f) = mean Ps fun l => L (f l)
  | [], f => rfl
  | p :: Ps, f => by
    unfold mean
    rw [map_sum]
    refine Finset.sum_congr rfl fun k _ => ?_
    rw [map_smul, mean_linear L Ps]

theorem mean_append : ∀ (Ps Qs : List (List ℝ)) (f : List Nat → V), mean (Ps ++ Qs) f = mean Ps fun l => mean Qs fun l' => f (l ++ l')
  | [], Qs, f => rfl
  | p :: Ps, Qs, f => by
    rw [List.cons_append]
    unfold mean
    refine Finset.sum_congr rfl fun k _ => ?_
    rw [mean_append Ps Qs]
    rfl

theorem mean_sum {ι : Type} (s : Finset ι) : ∀ (Ps : List (List ℝ)) (f : ι → List Nat → V), mean Ps (fun l => ∑ k ∈ s, f k l) = ∑ k ∈ s, mean Ps (f k)
  | [], f => rfl
  | p :: Ps, f => by
    unfold mean
    rw [Finset.sum_comm]
    refine Finset.sum_congr rfl fun k _ => ?_
    rw [mean_sum s Ps fun i l => f i (k :: l), Finset.smul_sum]

theorem mean_smul (c : ℝ) : ∀ (Ps : List (List ℝ)) (f : List Nat → V), mean Ps (fun l => c • f l) = c • mean Ps f
  | [], f => rfl
  | p :: Ps, f => by
    unfold mean
    rw [Finset.smul_sum]
    refine Finset.sum_congr rfl fun k _ => ?_
    rw [mean_smul c Ps, smul_comm]

theorem mean_swap : ∀ (Ps Qs : List (List ℝ)) (f : List Nat → List Nat → V), mean Ps (fun a => mean Qs fun b => f a b) = mean Qs fun b => mean Ps fun a => f a b
  | [], Qs, f => rfl
  | p :: Ps, Qs, f => by
    rw [mean]
    have : (fun b => mean (p :: Ps) fun a => f a b) = fun b => ∑ k ∈ Finset.range p.length, p.getD k 0 • mean Ps fun a => f (k :: a) b := rfl
    rw [this, mean_sum]
    refine Finset.sum_congr rfl fun k _ => ?_
    rw [mean_smul, mean_swap Ps Qs]

end

variable {n : Nat} {d : Fin n → Nat}

/-- conjugation, as a linear map -/
noncomputable def conjL (M : DensityOp d) : DensityOp d →ₗ[ℝ] DensityOp d where
  toFun := conjBy M
  map_add' a b := by unfold conjBy; rw [Matrix.mul_add, Matrix.add_mul]
  map_smul' c a := by unfold conjBy; rw [Matrix.mul_smul, Matrix.smul_mul]; rfl

theorem conjL_apply (M rho : DensityOp d) : conjL M rho = conjBy M rho := rfl

theorem conjBy_mul (M N rho : DensityOp d) : conjBy (M * N) rho = conjBy M (conjBy N rho) := by
  unfold conjBy
  rw [conjTranspose_mul]
  simp only [Matrix.mul_assoc]

theorem conjBy_one (rho : DensityOp d) : conjBy 1 rho = rho := by
  unfold conjBy
  simp

theorem conjBy_density (M : DensityOp d) (psi : Reg d → ℂ) : conjBy M (density d psi) = density d (M *ᵥ psi) := by
  have h : ∀ phi : Reg d → ℂ, density d phi = vecMulVec phi (star phi) := fun phi => rfl
  unfold conjBy
  rw [h, h, mul_vecMulVec, vecMulVec_mul, star_mulVec]

/-- the mean of a chain of operations -/
theorem mean_chain (Ps Qs : List (List ℝ)) (E : List Nat → DensityOp d) (R : List Nat → DensityOp d) (rho : DensityOp d) :
    mean (Ps ++ Qs) (fun l => conjBy (R (l.drop Ps.length) * E (l.take Ps.length)) rho) =
      mean Qs fun l' => conjBy (R l') (mean Ps fun l => conjBy (E l) rho) := by
  rw [mean_append]
  have h1 : ∀ l : List Nat, l.length = Ps.length → (mean Qs fun l' => conjBy (R ((l ++ l').drop Ps.length) * E ((l ++ l').take Ps.length)) rho) =
      mean Qs fun l' => conjL (R l') (conjBy (E l) rho) := by
    intro l hl
    refine mean_congr Qs fun l' _ => ?_
    rw [← hl, List.drop_left, List.take_left, conjBy_mul]
    rfl
  rw [mean_congr Ps h1, mean_swap]
  refine mean_congr Qs fun l' _ => ?_
  rw [← mean_linear]
  rfl

end Qudits.Spec
