import Verif.Lemmas.LawMean
import Verif.Lemmas.Apply
import Mathlib.RingTheory.RootsOfUnity.Complex
import Mathlib.Algebra.Field.GeomSum
/- Lemmas for C86: the even mixture of the products of shifts and phases. -/
namespace Qudits.Spec
open Matrix Complex
variable {n : Nat} {d : Fin n → Nat}

theorem embed1_mul_apply (q : Fin n) (A : Matrix (Fin (d q)) (Fin (d q)) ℂ) (rho : DensityOp d) (x y : Reg d) :
    (embed1 (X := LvOf d) q A * rho) x y = ∑ j : Fin (d q), A (x q) j * rho (Function.update x q j) y := by
  have := embed1_mulVec (X := LvOf d) q A (fun z => rho z y) x
  exact this

theorem conj_embed1 (q : Fin n) (A : Matrix (Fin (d q)) (Fin (d q)) ℂ) (rho : DensityOp d) (x y : Reg d) :
    conjBy (embed1 (X := LvOf d) q A) rho x y =
      ∑ k : Fin (d q), star (A (y q) k) * ∑ j : Fin (d q), A (x q) j * rho (Function.update x q j) (Function.update y q k) := by
  unfold conjBy
  have h : embed1 (X := LvOf d) q A * rho * (embed1 (X := LvOf d) q A)ᴴ = (embed1 (X := LvOf d) q A * (embed1 (X := LvOf d) q A * rho)ᴴ)ᴴ := by
    rw [conjTranspose_mul, conjTranspose_conjTranspose]
  rw [h, conjTranspose_apply, embed1_mul_apply, star_sum]
  refine Finset.sum_congr rfl fun k _ => ?_
  rw [star_mul', conjTranspose_apply, star_star, embed1_mul_apply]

/-- an operator with one entry in every row -/
theorem conj_monomial (q : Fin n) {A : Matrix (Fin (d q)) (Fin (d q)) ℂ} {c : Fin (d q) → ℂ} {s : Fin (d q) → Fin (d q)}
    (hA : ∀ i j, A i j = if j = s i then c i else 0) (rho : DensityOp d) (x y : Reg d) : conjBy (embed1 (X := LvOf d) q A) rho x y =
      c (x q) * star (c (y q)) * rho (Function.update x q (s (x q))) (Function.update y q (s (y q))) := by
  rw [conj_embed1, Finset.sum_eq_single (s (y q)), Finset.sum_eq_single (s (x q))]
  · rw [hA, hA, if_pos rfl, if_pos rfl]
    ring
  · intro j _ hj
    rw [hA, if_neg hj, zero_mul]
  · simp
  · intro j _ hj
    rw [hA, if_neg hj, star_zero, zero_mul]
  · simp

theorem embed1_pow (q : Fin n) (A : Matrix (Fin (d q)) (Fin (d q)) ℂ) (k : Nat) : embed1 (X := LvOf d) q A ^ k = embed1 (X := LvOf d) q (A ^ k) := by
  induction k with
  | zero => rw [pow_zero, pow_zero]; exact (embed1_one (X := LvOf d) q).symm
  | succ k ih => rw [pow_succ, pow_succ, ih]; exact embed1_mul (X := LvOf d) q (A ^ k) A

/-- the level that is shifted to `i` by `a` steps -/
def back {m : Nat} (a : Nat) (i : Fin m) : Fin m := ⟨if a ≤ i then i - a else (i + m - a) % m, by
  have := i.2
  split_ifs
  · omega
  · exact Nat.mod_lt _ (by omega)⟩

def shiftM (m : Nat) : Matrix (Fin m) (Fin m) ℂ := fun i j => if (i : Nat) = (j + 1) % m then 1 else 0

noncomputable def phaseM (m : Nat) : Matrix (Fin m) (Fin m) ℂ := fun i j => if i = j then cexp (2 * Real.pi * I / m * (j : Nat)) else 0

theorem shiftM_pow (m a : Nat) : ∀ i j : Fin m, (shiftM m ^ a) i j = if (i : Nat) = (j + a) % m then 1 else 0 := by
  induction a with
  | zero =>
    intro i j
    rw [pow_zero, add_zero, Nat.mod_eq_of_lt j.2, one_apply]
    simp [Fin.ext_iff]
  | succ a ih =>
    intro i j
    have hm : 0 < m := by have := i.2; omega
    rw [pow_succ', mul_apply, Finset.sum_eq_single ⟨(j + a) % m, Nat.mod_lt _ hm⟩]
    · rw [ih]
      simp only [shiftM, Nat.mod_add_mod, add_assoc, if_true, mul_one]
    · intro k _ hk
      rw [ih, if_neg (fun h => hk (Fin.ext h)), mul_zero]
    · simp

theorem phaseM_pow (m b : Nat) : phaseM m ^ b = diagonal fun j : Fin m => (cexp (2 * Real.pi * I / m) ^ (j : Nat)) ^ b := by
  have h : phaseM m = diagonal fun j : Fin m => cexp (2 * Real.pi * I / m) ^ (j : Nat) := by
    funext i j
    unfold phaseM
    rw [diagonal_apply, ← Complex.exp_nat_mul]
    split_ifs with hij
    · rw [hij, mul_comm]
    · rfl
  rw [h, diagonal_pow]
  rfl

theorem eq_back {m a : Nat} (ha : a < m) (i j : Fin m) : (i : Nat) = (j + a) % m ↔ j = back a i := by
  have hi := i.2
  have hj := j.2
  have h1 : ((j : Nat) + a) % m = if j + a < m then (j : Nat) + a else j + a - m := by
    split_ifs with h
    · exact Nat.mod_eq_of_lt h
    · rw [Nat.mod_eq_sub_mod (by omega), Nat.mod_eq_of_lt (by omega)]
  have h2 : ¬ a ≤ i → ((i : Nat) + m - a) % m = i + m - a := fun h => Nat.mod_eq_of_lt (by omega)
  rw [h1, Fin.ext_iff]
  unfold back
  dsimp only
  split_ifs with h3 h4 h4
  · omega
  · rw [h2 h4]; omega
  · omega
  · rw [h2 h4]; omega

/-- a phase after shifts -/
theorem weyl {m a : Nat} (ha : a < m) (b : Nat) (i j : Fin m) : (phaseM m ^ b * shiftM m ^ a) i j =
    if j = back a i then (cexp (2 * Real.pi * I / m) ^ (i : Nat)) ^ b else 0 := by
  rw [phaseM_pow, diagonal_mul, shiftM_pow]
  simp only [eq_back ha, mul_ite, mul_one, mul_zero]

theorem sum_back {m : Nat} (i : Fin m) (f : Fin m → ℂ) : ∑ a ∈ Finset.range m, f (back a i) = ∑ j, f j := by
  have hm : 0 < m := by have := i.2; omega
  symm
  refine Finset.sum_bij' (fun j _ => ((i : Nat) + m - j) % m) (fun a _ => back a i) ?_ ?_ ?_ ?_ ?_
  · intro j _
    exact Finset.mem_range.2 (Nat.mod_lt _ hm)
  · simp
  · intro j _
    symm
    rw [← eq_back (Nat.mod_lt _ hm), Nat.add_mod_mod]
    have : (j : Nat) + (i + m - j) = i + m := by have := j.2; omega
    rw [this, Nat.add_mod_right, Nat.mod_eq_of_lt i.2]
  · intro a ha
    have ha := Finset.mem_range.1 ha
    have := (eq_back ha i (back a i)).2 rfl
    set j := back a i
    have hj := j.2
    have hi := i.2
    have h1 : ((j : Nat) + a) % m = if j + a < m then (j : Nat) + a else j + a - m := by
      split_ifs with h
      · exact Nat.mod_eq_of_lt h
      · rw [Nat.mod_eq_sub_mod (by omega), Nat.mod_eq_of_lt (by omega)]
    rw [h1] at this
    split_ifs at this
    · have e : (i : Nat) + m - j = a + m := by omega
      rw [e, Nat.add_mod_right, Nat.mod_eq_of_lt ha]
    · have e : (i : Nat) + m - j = a := by omega
      rw [e, Nat.mod_eq_of_lt ha]
  · intro j _
    congr 1
    rw [← eq_back (Nat.mod_lt _ hm), Nat.add_mod_mod]
    have : (j : Nat) + (i + m - j) = i + m := by have := j.2; omega
    rw [this, Nat.add_mod_right, Nat.mod_eq_of_lt i.2]

theorem sum_phase {m : Nat} (i j : Fin m) : ∑ b ∈ Finset.range m, (cexp (2 * Real.pi * I / m) ^ (i : Nat)) ^ b * star ((cexp (2 * Real.pi * I / m) ^ (j : Nat)) ^ b) =
    if i = j then (m : ℂ) else 0 := by
  have hm : m ≠ 0 := by have := i.2; omega
  have hp := Complex.isPrimitiveRoot_exp m hm
  set w := cexp (2 * Real.pi * I / m) with hw
  have hn : ‖w‖ = 1 := hp.norm'_eq_one hm
  have hw0 : w ≠ 0 := by intro h; rw [h] at hn; simp at hn
  have hs : star w = w⁻¹ := by
    apply eq_inv_of_mul_eq_one_left
    have := Complex.conj_mul' w
    rw [hn] at this
    simpa using this
  have h1 : ∀ b, (w ^ (i : Nat)) ^ b * star ((w ^ (j : Nat)) ^ b) = (w ^ (i : Nat) * (w ^ (j : Nat))⁻¹) ^ b := by
    intro b
    rw [star_pow, star_pow, hs, mul_pow, inv_pow]
  simp only [h1]
  split_ifs with hij
  · subst hij
    rw [mul_inv_cancel₀ (pow_ne_zero _ hw0)]
    simp
  · set u := w ^ (i : Nat) * (w ^ (j : Nat))⁻¹ with hu
    have hne : u ≠ 1 := by
      intro h
      rw [hu, mul_inv_eq_one₀ (pow_ne_zero _ hw0)] at h
      exact hij (Fin.ext (hp.pow_inj i.2 j.2 h))
    have hud : u ^ m = 1 := by
      have e : ∀ k : Nat, (w ^ k) ^ m = 1 := fun k => by rw [← pow_mul, mul_comm, pow_mul, hp.pow_eq_one, one_pow]
      rw [hu, mul_pow, inv_pow, e, e]
      simp
    rw [geom_sum_eq hne, hud]
    simp

/-- the products of shifts and phases, all with the same weight, leave the even mixture -/
theorem sum_weyl (q : Fin n) (rho : DensityOp d) : ∑ a ∈ Finset.range (d q), ∑ b ∈ Finset.range (d q),
    conjBy (embed1 (X := LvOf d) q (phaseM (d q) ^ b * shiftM (d q) ^ a)) rho = ((d q : ℝ) * d q) • evenMix q rho := by
  funext x y
  have hm : 0 < d q := by have := (x q).2; omega
  simp only [Matrix.sum_apply, Matrix.smul_apply]
  have h1 : ∀ a ∈ Finset.range (d q), ∑ b ∈ Finset.range (d q), conjBy (embed1 (X := LvOf d) q (phaseM (d q) ^ b * shiftM (d q) ^ a)) rho x y =
      (if x q = y q then (d q : ℂ) else 0) * rho (Function.update x q (back a (x q))) (Function.update y q (back a (y q))) := by
    intro a ha
    rw [← sum_phase, Finset.sum_mul]
    refine Finset.sum_congr rfl fun b _ => ?_
    rw [conj_monomial q (weyl (Finset.mem_range.1 ha) b)]
  rw [Finset.sum_congr rfl h1]
  unfold evenMix
  by_cases hxy : x q = y q
  · rw [if_pos hxy]
    simp only [if_pos hxy]
    rw [← Finset.mul_sum, ← hxy, sum_back (x q) fun j => rho (Function.update x q j) (Function.update y q j)]
    rw [Complex.real_smul]
    have : (d q : ℂ) ≠ 0 := by exact_mod_cast hm.ne'
    push_cast
    field_simp
  · rw [if_neg hxy]
    simp [hxy]

theorem sum_range_mul {V : Type} [AddCommMonoid V] (m k : Nat) (f : Nat → V) : ∑ j ∈ Finset.range (m * k), f j =
    ∑ a ∈ Finset.range m, ∑ b ∈ Finset.range k, f (a * k + b) := by
  induction m with
  | zero => simp
  | succ m ih => rw [Nat.succ_mul, Finset.sum_range_add, ih, Finset.sum_range_succ]

end Qudits.Spec
