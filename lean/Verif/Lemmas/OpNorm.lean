import Verif.Lemmas.Space
import Verif.Spec.CompilerSpec
import Mathlib.Analysis.CStarAlgebra.Matrix
import Mathlib.Analysis.CStarAlgebra.Spectrum
import Mathlib.Algebra.Order.Chebyshev
import Verif.Lemmas.QrPass
import Verif.Lemmas.EntPass
import Mathlib.LinearAlgebra.UnitaryGroup
/- The operator norm and operators on some lines of a register. -/
namespace Qudits
open Matrix Spec
open scoped Matrix.Norms.L2Operator

theorem norm_entry_le {m : Type} [Fintype m] [DecidableEq m] (A : Matrix m m ℂ) (i j : m) : ‖A i j‖ ≤ ‖A‖ := by
  rw [cstar_norm_def]
  have h := (toEuclideanCLM (n := m) (𝕜 := ℂ) A).le_opNorm (EuclideanSpace.single j 1)
  rw [EuclideanSpace.norm_single, norm_one, mul_one] at h
  refine le_trans ?_ h
  have e : A i j = (toEuclideanCLM (n := m) (𝕜 := ℂ) A (EuclideanSpace.single j 1)) i := by
    rw [ofLp_toEuclideanCLM]
    simp
  rw [e]
  exact PiLp.norm_apply_le _ i

theorem norm_hom_le {m k : Type} [Fintype m] [DecidableEq m] [Fintype k] [DecidableEq k] (f : Matrix m m ℂ → Matrix k k ℂ)
    (hadd : ∀ A B, f (A + B) = f A + f B) (hsmul : ∀ (c : ℂ) A, f (c • A) = c • f A) (hmul : ∀ A B, f (A * B) = f A * f B)
    (hstar : ∀ A, f Aᴴ = (f A)ᴴ) (A : Matrix m m ℂ) : ‖f A‖ ≤ ‖A‖ := by
  have hzero : f 0 = 0 := by simpa using hsmul 0 0
  let F : Matrix m m ℂ →⋆ₙₐ[ℂ] Matrix k k ℂ :=
    { toFun := f, map_smul' := hsmul, map_zero' := hzero, map_add' := hadd, map_mul' := hmul, map_star' := hstar }
  exact NonUnitalStarAlgHom.norm_apply_le F A

theorem norm_le_of_entries {m : Type} [Fintype m] [DecidableEq m] {e : ℝ} (he : 0 ≤ e) (A : Matrix m m ℂ) (h : ∀ i j, ‖A i j‖ ≤ e) :
    ‖A‖ ≤ Fintype.card m * e := by
  rw [cstar_norm_def]
  refine ContinuousLinearMap.opNorm_le_bound _ (by positivity) fun x => ?_
  have hx : ∀ i, ‖(toEuclideanCLM (n := m) (𝕜 := ℂ) A x) i‖ ≤ e * ∑ j, ‖x j‖ := by
    intro i
    rw [ofLp_toEuclideanCLM]
    refine (norm_sum_le _ _).trans ?_
    rw [Finset.mul_sum]
    exact Finset.sum_le_sum fun j _ => by rw [norm_mul]; exact mul_le_mul_of_nonneg_right (h i j) (norm_nonneg _)
  have hsq : (∑ j, ‖x j‖) ^ 2 ≤ Fintype.card m * ‖x‖ ^ 2 := by
    rw [EuclideanSpace.norm_sq_eq]
    exact sq_sum_le_card_mul_sum_sq
  have hS : 0 ≤ ∑ j, ‖x j‖ := Finset.sum_nonneg fun _ _ => norm_nonneg _
  refine le_of_sq_le_sq ?_ (by positivity)
  rw [EuclideanSpace.norm_sq_eq]
  calc ∑ i, ‖(toEuclideanCLM (n := m) (𝕜 := ℂ) A x) i‖ ^ 2 ≤ ∑ _i : m, (e * ∑ j, ‖x j‖) ^ 2 :=
        Finset.sum_le_sum fun i _ => pow_le_pow_left₀ (norm_nonneg _) (hx i) 2
    _ = Fintype.card m * (e ^ 2 * (∑ j, ‖x j‖) ^ 2) := by simp [mul_pow]
    _ ≤ Fintype.card m * (e ^ 2 * (Fintype.card m * ‖x‖ ^ 2)) := by gcongr
    _ = (Fintype.card m * e * ‖x‖) ^ 2 := by ring

variable {n : Nat} {d : Fin n → Nat}

theorem norm_embed_le (S : Finset (Fin n)) (A : Matrix (SubLv (LvOf d) S) (SubLv (LvOf d) S) ℂ) : ‖embed S A‖ ≤ ‖A‖ := by
  refine norm_hom_le (fun A => embed S A) ?_ ?_ (fun A B => (embed_mul S A B).symm) (fun A => (embed_conjTranspose S A).symm) A
  · intro A B; ext x y; simp only [embed, Matrix.add_apply]; split_ifs <;> simp
  · intro c A; ext x y; simp only [embed, Matrix.smul_apply]; split_ifs <;> simp

theorem norm_embed1_le (i : Fin n) (A : Matrix (Fin (d i)) (Fin (d i)) ℂ) : ‖embed1 (X := LvOf d) i A‖ ≤ ‖A‖ := by
  refine norm_hom_le (fun A => embed1 (X := LvOf d) i A) ?_ ?_ (fun A B => (embed1_mul (X := LvOf d) i A B).symm)
    (fun A => (embed1_conjTranspose (X := LvOf d) i A).symm) A
  · intro A B; ext x y; simp only [embed1, Matrix.add_apply]; split_ifs <;> simp
  · intro c A; ext x y; simp only [embed1, Matrix.smul_apply]; split_ifs <;> simp

/-! ### two lines -/

/-- the levels of two lines -/
def pairEquiv (d : Fin n → Nat) {i j : Fin n} (h : i ≠ j) : SubLv (LvOf d) {i, j} ≃ Fin (d i * d j) where
  toFun w := finProdFinEquiv (w ⟨i, by simp⟩, w ⟨j, by simp⟩)
  invFun v k :=
    if hk : k.1 = i then cast (congrArg (LvOf d) hk.symm) (finProdFinEquiv.symm v).1
    else cast (congrArg (LvOf d) (((Finset.mem_insert.1 k.2).resolve_left hk |> Finset.mem_singleton.1)).symm) (finProdFinEquiv.symm v).2
  left_inv w := by
    funext ⟨k, hk⟩
    simp only [Finset.mem_insert, Finset.mem_singleton] at hk
    rcases hk with rfl | rfl
    · simp
    · have : k ≠ i := fun e => h e.symm
      simp [this]
  right_inv v := by
    have : j ≠ i := fun e => h e.symm
    simp only [dite_true, this, dite_false, cast_eq]
    exact finProdFinEquiv.apply_symm_apply v

theorem embedPair_eq {i j : Fin n} (h : i ≠ j) (A : Matrix (Fin (d i * d j)) (Fin (d i * d j)) ℂ) :
    embedPair d i j A = embed {i, j} (A.submatrix (pairEquiv d h) (pairEquiv d h)) := by
  ext x y
  unfold embedPair embed
  simp only [Finset.mem_insert, Finset.mem_singleton, not_or, and_imp]
  rfl

theorem embedPair_mul {i j : Fin n} (h : i ≠ j) (A B : Matrix (Fin (d i * d j)) (Fin (d i * d j)) ℂ) :
    embedPair d i j A * embedPair d i j B = embedPair d i j (A * B) := by
  rw [embedPair_eq h, embedPair_eq h, embedPair_eq h, embed_mul, submatrix_mul_equiv]

theorem embedPair_one {i j : Fin n} (h : i ≠ j) : embedPair d i j 1 = 1 := by
  rw [embedPair_eq h, submatrix_one_equiv, embed_one]

theorem embedPair_conjTranspose {i j : Fin n} (A : Matrix (Fin (d i * d j)) (Fin (d i * d j)) ℂ) :
    (embedPair d i j A)ᴴ = embedPair d i j Aᴴ := by
  ext x y
  simp only [conjTranspose_apply, embedPair]
  by_cases h : ∀ k, k ≠ i → k ≠ j → x k = y k
  · rw [if_pos h, if_pos fun k h1 h2 => (h k h1 h2).symm]
  · rw [if_neg h, if_neg fun e => h fun k h1 h2 => (e k h1 h2).symm, star_zero]

theorem embedPair_unitary {i j : Fin n} (h : i ≠ j) {A : Matrix (Fin (d i * d j)) (Fin (d i * d j)) ℂ}
    (hA : A ∈ unitaryGroup (Fin (d i * d j)) ℂ) : embedPair d i j A ∈ unitaryGroup (Reg d) ℂ := by
  rw [mem_unitaryGroup_iff] at *
  rw [star_eq_conjTranspose, embedPair_conjTranspose, embedPair_mul h, ← star_eq_conjTranspose, hA, embedPair_one h]

theorem norm_embedPair_le {i j : Fin n} (h : i ≠ j) (A : Matrix (Fin (d i * d j)) (Fin (d i * d j)) ℂ) : ‖embedPair d i j A‖ ≤ ‖A‖ := by
  refine norm_hom_le (fun A => embedPair d i j A) ?_ ?_ (fun A B => (embedPair_mul h A B).symm)
    (fun A => (embedPair_conjTranspose A).symm) A
  · intro A B; ext x y; simp only [embedPair, Matrix.add_apply]; split_ifs <;> simp
  · intro c A; ext x y; simp only [embedPair, Matrix.smul_apply]; split_ifs <;> simp

theorem embedPair_sub {i j : Fin n} (A B : Matrix (Fin (d i * d j)) (Fin (d i * d j)) ℂ) :
    embedPair d i j (A - B) = embedPair d i j A - embedPair d i j B := by
  ext x y; simp only [embedPair, Matrix.sub_apply]; split_ifs <;> simp

theorem embedPair_smul {i j : Fin n} (c : ℂ) (A : Matrix (Fin (d i * d j)) (Fin (d i * d j)) ℂ) :
    embedPair d i j (c • A) = c • embedPair d i j A := by
  ext x y; simp only [embedPair, Matrix.smul_apply]; split_ifs <;> simp

theorem embed1_sub (i : Fin n) (A B : Matrix (Fin (d i)) (Fin (d i)) ℂ) :
    embed1 (X := LvOf d) i (A - B) = embed1 (X := LvOf d) i A - embed1 (X := LvOf d) i B := by
  ext x y; simp only [embed1, Matrix.sub_apply]; split_ifs <;> simp

theorem embedPair_onFirst {i j : Fin n} (h : i ≠ j) (A : Matrix (Fin (d i)) (Fin (d i)) ℂ) :
    embedPair d i j (onFirst (d j) A) = embed1 (X := LvOf d) i A := by
  ext x y
  simp only [embedPair, embed1, onFirst]
  by_cases h1 : ∀ k, k ≠ i → x k = y k
  · rw [if_pos h1, if_pos fun k hk _ => h1 k hk]
    have e : ∀ (a : Fin (d i)) (b : Fin (d j)), (finProdFinEquiv (a, b)).modNat = b ∧ (finProdFinEquiv (a, b)).divNat = a := fun a b => by
      have := finProdFinEquiv.symm_apply_apply (a, b)
      exact ⟨congrArg Prod.snd this, congrArg Prod.fst this⟩
    rw [(e _ _).1, (e _ _).1, (e _ _).2, (e _ _).2, if_pos (h1 j h.symm)]
  · rw [if_neg h1]
    split_ifs with h2 h3
    · exfalso
      refine h1 fun k hk => ?_
      by_cases hkj : k = j
      · subst hkj
        have e : ∀ (a : Fin (d i)) (b : Fin (d k)), (finProdFinEquiv (a, b)).modNat = b := fun a b =>
          congrArg Prod.snd (finProdFinEquiv.symm_apply_apply (a, b))
        rw [e, e] at h3
        exact h3
      · exact h2 k hk hkj
    · rfl
    · rfl

theorem embedPair_onSecond {i j : Fin n} (h : i ≠ j) (B : Matrix (Fin (d j)) (Fin (d j)) ℂ) :
    embedPair d i j (onSecond (d i) B) = embed1 (X := LvOf d) j B := by
  ext x y
  simp only [embedPair, embed1, onSecond]
  have e : ∀ (a : Fin (d i)) (b : Fin (d j)), (finProdFinEquiv (a, b)).modNat = b ∧ (finProdFinEquiv (a, b)).divNat = a := fun a b => by
    have := finProdFinEquiv.symm_apply_apply (a, b)
    exact ⟨congrArg Prod.snd this, congrArg Prod.fst this⟩
  simp only [(e _ _).1, (e _ _).2]
  by_cases h1 : ∀ k, k ≠ j → x k = y k
  · rw [if_pos h1, if_pos fun k _ hk => h1 k hk, if_pos (h1 i h)]
  · rw [if_neg h1]
    split_ifs with h2 h3
    · exfalso
      refine h1 fun k hk => ?_
      by_cases hki : k = i
      · rw [hki]; exact h3
      · exact h2 k hki hk
    · rfl
    · rfl

/-! ### placements -/

variable {lp : ∀ i, Equiv.Perm (Fin (d i))}

theorem placed_mul (A B : Matrix (Reg d) (Reg d) ℂ) : placed lp (A * B) = placed lp A * placed lp B :=
  (submatrix_mul_equiv A B _ (Equiv.piCongrRight fun i => (lp i).symm) _).symm

theorem placed_one : placed lp 1 = (1 : Matrix (Reg d) (Reg d) ℂ) := submatrix_one_equiv (Equiv.piCongrRight fun i => (lp i).symm)

theorem placed_conjTranspose (A : Matrix (Reg d) (Reg d) ℂ) : placed lp Aᴴ = (placed lp A)ᴴ := rfl

theorem placed_smul (c : ℂ) (A : Matrix (Reg d) (Reg d) ℂ) : placed lp (c • A) = c • placed lp A := rfl

theorem placed_unitary {A : Matrix (Reg d) (Reg d) ℂ} (h : A ∈ unitaryGroup (Reg d) ℂ) : placed lp A ∈ unitaryGroup (Reg d) ℂ := by
  rw [mem_unitaryGroup_iff, star_eq_conjTranspose] at *
  rw [← placed_conjTranspose, ← placed_mul, h, placed_one]

theorem placed_embed1 (i : Fin n) (A : Matrix (Fin (d i)) (Fin (d i)) ℂ) :
    placed lp (embed1 (X := LvOf d) i A) = embed1 (X := LvOf d) i (relabelling (lp i) * A * (relabelling (lp i))ᴴ) := by
  rw [← Qudits.conjHom_eq]
  ext x y
  simp only [placed, submatrix_apply, embed1, (lp _).symm.injective.eq_iff]
  congr 1

theorem placed_embedPair {i j : Fin n} (A B : Matrix (Fin (d i * d j)) (Fin (d i * d j)) ℂ)
    (h : B.submatrix (pairPlace (lp i) (lp j)) (pairPlace (lp i) (lp j)) = A) : placed lp (embedPair d i j A) = embedPair d i j B := by
  subst h
  ext x y
  simp only [placed, submatrix_apply, embedPair, (lp _).symm.injective.eq_iff, pairPlace, Equiv.trans_apply, Equiv.symm_apply_apply,
    Equiv.prodCongr_apply, Prod.map_apply, Equiv.apply_symm_apply]

theorem placed_embed (S : Finset (Fin n)) (h : ∀ i ∈ S, lp i = 1) (m : Matrix (SubLv (LvOf d) S) (SubLv (LvOf d) S) ℂ) :
    placed lp (embed S m) = embed S m := by
  ext x y
  simp only [placed, submatrix_apply, embed, (lp _).symm.injective.eq_iff]
  have : ∀ x : Reg d, restr S (fun i => (lp i).symm (x i)) = restr S x := by
    intro x
    funext ⟨i, hi⟩
    simp only [restr]
    rw [h i hi]; rfl
  rw [this, this]
  congr

end Qudits
