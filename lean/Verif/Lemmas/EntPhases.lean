import Verif.Lemmas.EntLoop
import Mathlib.LinearAlgebra.Matrix.ToLinearEquiv
import Mathlib.LinearAlgebra.Matrix.DotProduct
/- The phases of the decomposition on two lines. -/
namespace Qudits.EntQR
open Matrix Complex Spec LocalQR QRAlg

variable {P : Pair}

/-- the matrix of the equations: level `i` gets the `i`-th phase and loses the one before -/
def inc (n : Nat) : Matrix (Fin n) (Fin (n - 1)) ℝ := fun i j => if (j : Nat) = i then 1 else if (j : Nat) + 1 = i then -1 else 0

theorem equations_go (n : Nat) : ∀ (k i : Nat) (e : Arr2 ℝ) , i + k = n → e.rows = n → e.cols = n - 1 →
    (∀ a b : Nat, e.at' a b = if a < i ∧ b < n - 1 then (if b = a then 1 else if b + 1 = a then -1 else 0) else 0) →
    ∃ e', (List.range' i k).foldlM (equationRow n) (e, (i : Int) - 1) = .ok (e', (n : Int) - 1) ∧
      ∀ (a : Fin n) (b : Fin (n - 1)), e'.at' a b = inc n a b := by
  intro k
  induction k with
  | zero =>
    intro i e hi h1 h2 h3
    refine ⟨e, ?_, ?_⟩
    · rw [show i = n by omega]; rfl
    · intro a b
      rw [h3, if_pos ⟨by have := a.isLt; omega, b.isLt⟩]
      rfl
  | succ k ih =>
    intro i e hi h1 h2 h3
    rw [List.range'_succ, List.foldlM_cons]
    obtain ⟨m1, e1, r1, c1, a1⟩ : ∃ m1, (if ((i : Int) - 1) + 1 < (n : Int) - 1 then e.set i (((i : Int) - 1) + 1).toNat 1 else pure e) = .ok m1 ∧
        m1.rows = n ∧ m1.cols = n - 1 ∧ ∀ a b : Nat, m1.at' a b = if a = i ∧ b = i ∧ i < n - 1 then 1 else e.at' a b := by
      by_cases hlt : i < n - 1
      · rw [if_pos (by omega), show (((i : Int) - 1) + 1).toNat = i by omega, set_ok _ _ _ _ (by omega) (by omega)]
        refine ⟨_, rfl, h1, h2, ?_⟩
        intro a b
        simp only [hlt, and_true]
      · rw [if_neg (by omega)]
        refine ⟨e, rfl, h1, h2, ?_⟩
        intro a b
        rw [if_neg (fun h => hlt h.2.2)]
    obtain ⟨m2, e2, r2, c2, a2⟩ : ∃ m2, (if ((i : Int) - 1) > -1 then m1.set i ((i : Int) - 1).toNat (-1) else pure m1) = .ok m2 ∧
        m2.rows = n ∧ m2.cols = n - 1 ∧ ∀ a b : Nat, m2.at' a b = if a = i ∧ b + 1 = i then -1 else m1.at' a b := by
      by_cases hlt : 0 < i
      · rw [if_pos (by omega), show ((i : Int) - 1).toNat = i - 1 by omega, set_ok _ _ _ _ (by omega) (by omega)]
        refine ⟨_, rfl, r1, c1, ?_⟩
        intro a b
        have : (b = i - 1) = (b + 1 = i) := by rw [eq_iff_iff]; omega
        simp only [this]
      · rw [if_neg (by omega)]
        refine ⟨m1, rfl, r1, c1, ?_⟩
        intro a b
        rw [if_neg (by omega)]
    have hrow : equationRow n (e, (i : Int) - 1) i = .ok (m2, (i : Int)) := by
      unfold equationRow
      simp only []
      split_ifs at e1 e2 ⊢ <;> simp only [bind, Except.bind] <;> rw [e1] <;> simp only [] <;> rw [e2] <;> rfl
    rw [hrow]
    obtain ⟨e', f1, f2⟩ := ih (i + 1) m2 (by omega) r2 c2 (by
      intro a b
      rw [a2, a1, h3]
      by_cases ha : a = i
      · subst ha
        by_cases hb : b + 1 = a
        · rw [if_pos ⟨rfl, hb⟩, if_pos ⟨by omega, by omega⟩, if_neg (by omega), if_pos hb]
        · rw [if_neg (fun h => hb h.2)]
          by_cases hb' : b = a
          · subst hb'
            by_cases hlt : b < n - 1
            · simp [hlt]
            · simp [hlt]
          · rw [if_neg (fun h => hb' h.2.1), if_neg (by omega), if_neg hb', if_neg hb, ite_self]
      · rw [if_neg (fun h => ha h.1), if_neg (fun h => ha h.1)]
        by_cases hlt : a < i ∧ b < n - 1
        · rw [if_pos hlt, if_pos (show a < i + 1 ∧ b < n - 1 from ⟨by omega, hlt.2⟩)]
        · rw [if_neg hlt, if_neg (by omega)])
    refine ⟨e', ?_, f2⟩
    rw [← f1]
    simp only [bind, Except.bind]
    congr 2
    push_cast
    ring

theorem equations_ok (n : Nat) : ∃ e, equations n = .ok e ∧ ∀ (a : Fin n) (b : Fin (n - 1)), e.at' a b = inc n a b := by
  obtain ⟨e, h1, h2⟩ := equations_go n n 0 (Arr2.zeros n (n - 1)) (by omega) rfl rfl (by intro a b; simp [Arr2.zeros])
  refine ⟨e, ?_, h2⟩
  unfold equations
  rw [List.range_eq_range']
  have h1' : (List.range' 0 n).foldlM (equationRow n) (Arr2.zeros n (n - 1), -1) = .ok (e, (n : Int) - 1) := h1
  rw [h1']
  rfl

/-- what a row of the equations says -/
theorem inc_mulVec (n : Nat) (x : Fin (n - 1) → ℝ) (i : Fin n) :
    (inc n *ᵥ x) i = (if h : (i : Nat) < n - 1 then x ⟨i, h⟩ else 0) - (if h : 0 < (i : Nat) then x ⟨i - 1, by omega⟩ else 0) := by
  have e : ∀ j : Fin (n - 1), inc n i j * x j = (if (j : Nat) = i then x j else 0) - (if (j : Nat) + 1 = i then x j else 0) := by
    intro j
    unfold inc
    by_cases h1 : (j : Nat) = i
    · rw [if_pos h1, if_pos h1, if_neg (by omega)]; ring
    · by_cases h2 : (j : Nat) + 1 = i
      · rw [if_neg h1, if_neg h1, if_pos h2, if_pos h2]; ring
      · rw [if_neg h1, if_neg h1, if_neg h2, if_neg h2]; ring
  unfold Matrix.mulVec dotProduct
  rw [Finset.sum_congr rfl fun j _ => e j, Finset.sum_sub_distrib]
  congr 1
  · by_cases h : (i : Nat) < n - 1
    · rw [dif_pos h, Finset.sum_eq_single ⟨i, h⟩]
      · simp
      · intro j _ hj; rw [if_neg (fun h => hj (Fin.ext h))]
      · intro h; exact absurd (Finset.mem_univ _) h
    · rw [dif_neg h]
      refine Finset.sum_eq_zero fun j _ => ?_
      rw [if_neg (by have := j.isLt; omega)]
  · by_cases h : 0 < (i : Nat)
    · rw [dif_pos h, Finset.sum_eq_single ⟨i - 1, by have := i.isLt; omega⟩]
      · simp; omega
      · intro j _ hj
        rw [if_neg]
        intro h'
        exact hj (Fin.ext (by simp; omega))
      · intro h; exact absurd (Finset.mem_univ _) h
    · rw [dif_neg h]
      refine Finset.sum_eq_zero fun j _ => ?_
      rw [if_neg (by omega)]

theorem inc_injective (n : Nat) (x : Fin (n - 1) → ℝ) (h : inc n *ᵥ x = 0) : x = 0 := by
  have key : ∀ k (hk : k < n - 1), x ⟨k, hk⟩ = 0 := by
    intro k
    induction k with
    | zero =>
      intro hk
      have := congrFun h ⟨0, by omega⟩
      rw [inc_mulVec, dif_pos hk, dif_neg (by simp)] at this
      simpa using this
    | succ k ih =>
      intro hk
      have := congrFun h ⟨k + 1, by omega⟩
      rw [inc_mulVec, dif_pos hk, dif_pos (by simp)] at this
      have e := ih (by omega)
      simp only [Nat.add_sub_cancel, Pi.zero_apply] at this
      rw [e, sub_zero] at this
      exact this
  funext j
  exact key j j.isLt

theorem normal_det (n : Nat) : ((inc n).transpose * inc n).det ≠ 0 := by
  intro h0
  obtain ⟨v, hv, h⟩ := Matrix.exists_mulVec_eq_zero_iff.2 h0
  apply hv
  apply inc_injective n
  have h1 : (inc n *ᵥ v) ⬝ᵥ (inc n *ᵥ v) = 0 := by
    have : v ⬝ᵥ (((inc n).transpose * inc n) *ᵥ v) = 0 := by rw [h, dotProduct_zero]
    rw [← mulVec_mulVec, dotProduct_mulVec, vecMul_transpose] at this
    exact this
  exact dotProduct_self_eq_zero.1 h1

/-- the solution of the normal equations misses every value by the same amount -/
theorem solve_ok (n : Nat) (hn : 0 < n) (e : Arr2 ℝ) (he : ∀ (a : Fin n) (b : Fin (n - 1)), e.at' a b = inc n a b) (b : Fin n → ℝ) :
    ∃ x mu, solvePhases n e b = .ok x ∧ ∀ i, (inc n *ᵥ x) i = b i - mu := by
  have hE : (fun i j => e.at' i j : Matrix (Fin n) (Fin (n - 1)) ℝ) = inc n := by
    funext i j; exact he i j
  unfold solvePhases
  simp only []
  rw [hE, if_neg (normal_det n)]
  set x := ((inc n).transpose * inc n)⁻¹ *ᵥ ((inc n).transpose *ᵥ b) with hx
  refine ⟨x, b ⟨0, hn⟩ - (inc n *ᵥ x) ⟨0, hn⟩, rfl, ?_⟩
  have hsol : (inc n).transpose *ᵥ (inc n *ᵥ x) = (inc n).transpose *ᵥ b := by
    rw [mulVec_mulVec, hx, mulVec_mulVec, Matrix.mul_nonsing_inv _ (isUnit_iff_ne_zero.2 (normal_det n)), one_mulVec]
  set r : Fin n → ℝ := b - inc n *ᵥ x with hr
  have hr0 : (inc n).transpose *ᵥ r = 0 := by rw [hr, mulVec_sub, hsol, sub_self]
  have hstep : ∀ (k : Nat) (hk : k + 1 < n), r ⟨k + 1, hk⟩ = r ⟨k, by omega⟩ := by
    intro k hk
    have := congrFun hr0 ⟨k, by omega⟩
    have e1 : ((inc n).transpose *ᵥ r) ⟨k, by omega⟩ = r ⟨k, by omega⟩ - r ⟨k + 1, hk⟩ := by
      unfold Matrix.mulVec dotProduct
      have e : ∀ j : Fin n, (inc n).transpose ⟨k, by omega⟩ j * r j =
          (if j = (⟨k, by omega⟩ : Fin n) then r j else 0) - (if j = (⟨k + 1, hk⟩ : Fin n) then r j else 0) := by
        intro j
        simp only [Matrix.transpose_apply, inc, Fin.ext_iff]
        by_cases h1 : k = (j : Nat)
        · rw [if_pos h1, if_pos h1.symm, if_neg (by omega)]; ring
        · by_cases h2 : k + 1 = (j : Nat)
          · rw [if_neg h1, if_pos h2, if_neg (fun h => h1 h.symm), if_pos h2.symm]; ring
          · rw [if_neg h1, if_neg h2, if_neg (fun h => h1 h.symm), if_neg (fun h => h2 h.symm)]; ring
      rw [Finset.sum_congr rfl fun j _ => e j, Finset.sum_sub_distrib, Finset.sum_ite_eq', Finset.sum_ite_eq']
      simp
    rw [e1] at this
    simp only [Pi.zero_apply] at this
    linarith
  have hconst : ∀ (k : Nat) (hk : k < n), r ⟨k, hk⟩ = r ⟨0, hn⟩ := by
    intro k
    induction k with
    | zero => intro _; rfl
    | succ k ih => intro hk; rw [hstep k hk, ih]
  intro i
  have h1 := hconst i i.isLt
  simp only [hr, Pi.sub_apply] at h1
  linarith

/-- levels that are left out of a correction -/
theorem inc_small (n : Nat) (z : Fin (n - 1) → ℝ) (del : ℝ) (hz : ∀ i, |2 * z i| ≤ del) (hdel : 0 ≤ del) (i : Fin n) : |(inc n *ᵥ z) i| ≤ del := by
  rw [inc_mulVec]
  have h1 : ∀ (p : Prop) [Decidable p] (f : p → Fin (n - 1)), |(if h : p then z (f h) else 0)| ≤ del / 2 := by
    intro p _ f
    split_ifs with h
    · have := hz (f h)
      rw [abs_mul, abs_two] at this
      linarith
    · rw [abs_zero]; linarith
  have a1 := h1 ((i : Nat) < n - 1) (fun h => ⟨i, h⟩)
  have a2 := h1 (0 < (i : Nat)) (fun h => ⟨i - 1, by have := i.isLt; omega⟩)
  refine le_trans (abs_sub _ _) ?_
  linarith

/-! ### the loop over the phases -/

/-- the diagonal matrix of the phases from a list of positions -/
noncomputable def zdiag (n : Nat) (y : Fin (n - 1) → ℝ) (L : List (Fin (n - 1))) : Matrix (Fin n) (Fin n) ℂ :=
  diagonal fun j => cexp (-I * (((L.map fun i => inc n j i * y i).sum : ℝ) : ℂ))

theorem zdiag_nil (n : Nat) (y : Fin (n - 1) → ℝ) : zdiag n y [] = 1 := by
  unfold zdiag
  simp

theorem zdiag_cons (n : Nat) (y : Fin (n - 1) → ℝ) (i : Fin (n - 1)) (L : List (Fin (n - 1))) :
    zdiag n y (i :: L) = zdiag n y L * diagonal fun j => cexp (-I * ((inc n j i * y i : ℝ) : ℂ)) := by
  unfold zdiag
  rw [diagonal_mul_diagonal]
  congr 1
  funext j
  rw [← Complex.exp_add]
  congr 1
  rw [List.map_cons, List.sum_cons]
  push_cast
  ring

theorem zdiag_all (n : Nat) (y : Fin (n - 1) → ℝ) :
    zdiag n y (List.finRange (n - 1)) = diagonal fun j => cexp (-I * (((inc n *ᵥ y) j : ℝ) : ℂ)) := by
  unfold zdiag Matrix.mulVec dotProduct
  simp only [Fin.sum_univ_def]

theorem zrot_unitary (phi : ℝ) : zrot phi ∈ unitaryGroup (Fin 2) ℂ := by
  rw [mem_unitaryGroup_iff, star_eq_conjTranspose]
  have : (zrot phi)ᴴ = zrot (-phi) := by
    unfold zrot
    ext i j
    fin_cases i <;> fin_cases j <;> simp [← Complex.exp_conj, neg_div, map_ofNat]
  rw [this, zrot_add, add_neg_cancel, zrot_zero]

/-- one rotation about the polar axis is one column of the equations -/
theorem zrot_diag (n : Nat) (i : Fin (n - 1)) (x : ℝ) :
    twoLevel (⟨i, by have := i.isLt; omega⟩ : Fin n) ⟨i + 1, by have := i.isLt; omega⟩ (zrot (x * 2)) =
      diagonal fun j => cexp (-I * ((inc n j i * x : ℝ) : ℂ)) := by
  ext r s
  have hx : x * 2 / 2 = x := by ring
  simp only [twoLevel, zrot, diagonal_apply, inc, Fin.ext_iff, hx, Matrix.of_apply, Matrix.cons_val', Matrix.cons_val_zero,
    Matrix.cons_val_one, Matrix.cons_val_fin_one]
  by_cases h1 : (r : Nat) = i
  · by_cases h2 : (s : Nat) = i
    · rw [if_pos h1, if_pos h2, if_pos (by omega), if_pos h1.symm]
      congr 1; push_cast; ring
    · rw [if_pos h1, if_neg h2, if_neg (show ¬ (r : Nat) = s by omega)]
      split_ifs <;> rfl
  · by_cases h1' : (r : Nat) = i + 1
    · rw [if_neg h1, if_pos h1']
      by_cases h2 : (s : Nat) = i
      · rw [if_pos h2, if_neg (by omega)]
      · rw [if_neg h2]
        by_cases h3 : (s : Nat) = i + 1
        · rw [if_pos h3, if_pos (by omega), if_neg (by omega), if_pos h1'.symm]
          congr 1; push_cast; ring
        · rw [if_neg h3, if_neg (by omega)]
    · rw [if_neg h1, if_neg h1', if_neg (show ¬ (i : Nat) = r by omega), if_neg (show ¬ (i : Nat) + 1 = r by omega)]
      by_cases h3 : (r : Nat) = s
      · rw [if_pos h3, if_pos h3]; simp
      · rw [if_neg h3, if_neg h3]

variable {U T : Matrix (Fin (P.c * P.t)) (Fin (P.c * P.t)) ℂ} {n : Nat} {st : EState}

theorem phaseStep_ok (ho : Ordered P) (del : ℝ) (phases y : Fin (P.c * P.t - 1) → ℝ) (hy : ∀ i, y i = if |phases i * 2| > del then phases i else 0)
    (h : Reached P U n T st) (i : Fin (P.c * P.t - 1)) :
    ∃ st', phaseStep P del phases st i = .ok st' ∧
      Reached P U (n + 3) ((diagonal fun j => cexp (-I * ((inc (P.c * P.t) j i * y i : ℝ) : ℂ))) * T) st' := by
  have ht := ho.t
  unfold phaseStep
  by_cases hbig : |phases i * 2| > del
  · rw [if_pos hbig]
    rw [hy, if_pos hbig, ← zrot_diag]
    set a : Fin (P.c * P.t) := ⟨i, by have := i.isLt; omega⟩ with hadef
    set r : Fin (P.c * P.t) := ⟨i + 1, by have := i.isLt; omega⟩ with hrdef
    have har : a ≠ r := by rw [Ne, Fin.ext_iff]; simp [hadef, hrdef]
    have hu : twoLevel a r (zrot (phases i * 2)) ∈ unitaryGroup (Fin (P.c * P.t)) ℂ := twoLevel_unitary _ har (zrot_unitary _)
    rcases neighbours ho.t a r rfl with ⟨hm, x, y, y', hy, ea, er⟩ | ⟨hm, x, x', l0, m, hx, hl0, hmm, ea, er⟩
    · rw [if_neg (fun hh => hm hh.2)]
      obtain ⟨l, e, b⟩ := zFromCrot_ok ho.lines.ne ho.c x y y' hy (phases i * 2)
      rw [← ea, ← er] at b
      rw [← ea] at e
      have e : zFromCrot P (i : Nat) (phases i * 2) = .ok l := e
      rw [e]
      simp only [bind, Except.bind]
      obtain ⟨v, f1, f2⟩ := h.block ho (cr := 3) (ps := 0) (k := 3) b hu (by omega)
      rw [f1]
      exact ⟨_, rfl, f2⟩
    · have ha0 : (i : Nat) ≠ 0 := by
        intro h0
        have : (r : Nat) = 1 := by simp [hrdef, h0]
        rw [this, Nat.mod_eq_of_lt (by omega)] at hm
        omega
      rw [if_pos ⟨ha0, hm⟩]
      obtain ⟨l, e, b⟩ := zPswap_ok ho.lines.ne ho.t x x' hx l0 m hl0 hmm (phases i * 2)
      rw [← ea, ← er] at b
      rw [← ea] at e
      have e : zPswap P (i : Nat) (phases i * 2) = .ok l := e
      rw [e]
      simp only [bind, Except.bind]
      obtain ⟨v, f1, f2⟩ := h.block ho (cr := 0) (ps := 12) (k := 3) b hu (by omega)
      rw [f1]
      exact ⟨_, rfl, f2⟩
  · rw [if_neg hbig, hy, if_neg hbig]
    refine ⟨st, rfl, ?_⟩
    have : (diagonal fun j => cexp (-I * ((inc (P.c * P.t) j i * 0 : ℝ) : ℂ))) = (1 : Matrix (Fin (P.c * P.t)) (Fin (P.c * P.t)) ℂ) := by
      simp
    rw [this, one_mul]
    exact h.more (by omega)

theorem phases_ok (ho : Ordered P) (del : ℝ) (phases y : Fin (P.c * P.t - 1) → ℝ) (hy : ∀ i, y i = if |phases i * 2| > del then phases i else 0) :
    ∀ (L : List (Fin (P.c * P.t - 1))) (n : Nat) (T : Matrix (Fin (P.c * P.t)) (Fin (P.c * P.t)) ℂ) (st : EState), Reached P U n T st →
    ∃ st', L.foldlM (phaseStep P del phases) st = .ok st' ∧ Reached P U (n + 3 * L.length) (zdiag (P.c * P.t) y L * T) st' := by
  intro L
  induction L with
  | nil => intro n T st h; exact ⟨st, rfl, by rw [zdiag_nil, one_mul]; exact h⟩
  | cons i L ih =>
    intro n T st h
    obtain ⟨st1, e1, e2⟩ := phaseStep_ok ho del phases y hy h i
    obtain ⟨st2, f1, f2⟩ := ih _ _ st1 e2
    refine ⟨st2, ?_, ?_⟩
    · rw [List.foldlM_cons, e1]; exact f1
    · rw [zdiag_cons, mul_assoc, List.length_cons, show n + 3 * (L.length + 1) = n + 3 + 3 * L.length by ring]
      exact f2

/-! ### the whole decomposition -/

/-- a unitary matrix that is clear below the diagonal is, after the phases, close to a multiple of the identity -/
theorem near_after {d : Nat} {del rho : ℝ} (W : Matrix (Fin d) (Fin d) ℂ) (hW : W ∈ unitaryGroup (Fin d) ℂ) (B : ℝ)
    (hB : ∑ c, ∑ r ∈ below c, ‖W r c‖ ^ 2 ≤ B) (f : Fin d → ℝ) (mu : ℝ) (hf : ∀ i, |f i - (arg (W i i) - mu)| ≤ del + rho) :
    NearOne (Real.sqrt B + 2 * B + (del + rho)) (cexp (-I * mu) • ((diagonal fun j => cexp (-I * (f j : ℂ))) * W)) := by
  obtain ⟨h1, h2⟩ := near_diagonal W hW B hB
  have hB0 : 0 ≤ B := le_trans (Finset.sum_nonneg fun c _ => Finset.sum_nonneg fun r _ => sq_nonneg _) hB
  have hs := Real.sqrt_nonneg B
  have hnorm : ∀ x : ℝ, ‖cexp (-I * (x : ℂ))‖ = 1 := by
    intro x
    rw [show -I * (x : ℂ) = ((-x : ℝ) : ℂ) * I by push_cast; ring, Complex.norm_exp_ofReal_mul_I]
  intro i j
  have hpos : 0 ≤ del + rho := le_trans (abs_nonneg _) (hf i)
  rw [Matrix.smul_apply, diagonal_mul, smul_eq_mul]
  by_cases hij : i = j
  · subst hij
    rw [Matrix.one_apply_eq]
    obtain ⟨k1, k2⟩ := h2 i
    have hpolar : W i i = ‖W i i‖ * cexp (arg (W i i) * I) := (Complex.norm_mul_exp_arg_mul_I (W i i)).symm
    set a := arg (W i i) with ha
    set w := ‖W i i‖ with hw
    set z : ℝ := a - mu - f i with hz
    have e1 : cexp (-I * mu) * (cexp (-I * (f i : ℂ)) * W i i) = w * cexp (I * z) := by
      rw [hpolar]
      rw [show cexp (-I * mu) * (cexp (-I * (f i : ℂ)) * ((w : ℂ) * cexp (a * I))) =
        w * (cexp (-I * mu) * cexp (-I * (f i : ℂ)) * cexp (a * I)) by ring, ← Complex.exp_add, ← Complex.exp_add]
      congr 2
      rw [hz]; push_cast; ring
    have e2 : ‖cexp (I * z) - 1‖ ≤ del + rho := by
      refine le_trans Real.norm_exp_I_mul_ofReal_sub_one_le ?_
      rw [Real.norm_eq_abs, hz, abs_sub_comm]
      exact hf i
    have e3 : (w : ℂ) * cexp (I * z) - 1 = ((w : ℂ) - 1) * cexp (I * z) + (cexp (I * z) - 1) := by ring
    rw [e1, e3]
    refine le_trans (norm_add_le _ _) ?_
    rw [norm_mul, show I * (z : ℂ) = z * I by ring, Complex.norm_exp_ofReal_mul_I, mul_one, show (z : ℂ) * I = I * z by ring,
      ← Complex.ofReal_one, ← Complex.ofReal_sub, Complex.norm_real, Real.norm_eq_abs]
    have : |w - 1| ≤ 2 * B := by rw [abs_le]; constructor <;> linarith
    rw [Complex.ofReal_one]
    linarith
  · rw [Matrix.one_apply_ne hij, sub_zero, norm_mul, norm_mul, hnorm, hnorm, one_mul, one_mul]
    have hb : ‖W i j‖ ≤ Real.sqrt B := Real.le_sqrt_of_sq_le (h1 i j hij)
    linarith

theorem execute_ok (ho : Ordered P) {eps del rho : ℝ} (heps : 0 ≤ eps) (hdel : 0 ≤ del) (rnd : ℝ → ℝ) (hrnd : ∀ x, |rnd x - x| ≤ rho)
    (u : Arr2 ℂ) (hr : u.rows = P.c * P.t) (hc : u.cols = P.c * P.t) (hu : u.toM (P.c * P.t) ∈ unitaryGroup (Fin (P.c * P.t)) ℂ) :
    ∃ st T mu, execute P eps del rnd u = .ok st ∧ Block P st.decomp T (2 * st.crots + 4 * st.pswaps) ∧
      T ∈ unitaryGroup (Fin (P.c * P.t)) ℂ ∧ st.u.toM (P.c * P.t) = T * u.toM (P.c * P.t) ∧
      NearOne (qrError (P.c * P.t) eps del + rho) (cexp (-I * (mu : ℝ)) • (T * u.toM (P.c * P.t))) ∧
      4 * st.crots + st.pswaps ≤ 4 * (P.c * P.t * (P.c * P.t - 1) / 2 + 3 * (P.c * P.t - 1)) := by
  set n := P.c * P.t with hn
  have hn0 : 0 < n := by have := Nat.mul_le_mul ho.c ho.t; omega
  obtain ⟨T1, st1, e1, e2, e3⟩ := cols_ok (U := u.toM n) ho heps n 0 0 1 ⟨u, [], 0, 0⟩ (by omega)
    ⟨hr, hc, one_mem _, by rw [one_mul], Block.nil, by simp⟩ (fun c' hc' => absurd hc' (by omega))
  set W := T1 * u.toM n with hW
  have hWu : W ∈ unitaryGroup (Fin n) ℂ := mul_mem e2.unitary hu
  have hmass := mass_below W e3
  obtain ⟨eq, q1, q2⟩ := equations_ok n
  obtain ⟨x, mu, s1, s2⟩ := solve_ok n hn0 eq q2 fun i => rnd (Complex.arg (st1.u.at' i i))
  set y : Fin (n - 1) → ℝ := fun i => if |x i * 2| > del then x i else 0 with hy
  obtain ⟨st2, p1, p2⟩ := phases_ok ho del x y (fun i => rfl) (List.finRange (n - 1)) _ _ _ e2
  rw [zdiag_all] at p2
  refine ⟨st2, _, mu, ?_, p2.gates, p2.unitary, p2.mat, ?_, ?_⟩
  · unfold execute
    simp only []
    rw [← hn]
    rw [List.range_eq_range', e1]
    simp only [bind, Except.bind]
    have hd : diagArgs rnd n st1.u = .ok fun i => rnd (Complex.arg (st1.u.at' i i)) := by
      unfold diagArgs
      rw [if_pos ⟨e2.rows.ge, e2.cols.ge⟩]
    rw [hd]
    simp only []
    rw [q1]
    simp only []
    rw [s1]
    exact p1
  · rw [mul_assoc]
    have := near_after (del := del) (rho := rho) W hWu _ hmass (fun j => (inc n *ᵥ y) j) mu (by
      intro i
      have h1 : (inc n *ᵥ y) i = (inc n *ᵥ x) i - (inc n *ᵥ (x - y)) i := by
        rw [mulVec_sub]; simp
      have h2 : |(inc n *ᵥ (x - y)) i| ≤ del := by
        refine inc_small n (x - y) del ?_ hdel i
        intro k
        simp only [Pi.sub_apply, hy]
        split_ifs with h
        · simp [hdel]
        · rw [sub_zero, mul_comm]; exact not_lt.1 h
      have h3 : st1.u.at' i i = W i i := congrFun (congrFun e2.mat i) i
      have h4 := s2 i
      rw [h3] at h4
      have h5 := hrnd (Complex.arg (W i i))
      rw [h1, h4]
      rw [show rnd (Complex.arg (W i i)) - mu - (inc n *ᵥ (x - y)) i - (Complex.arg (W i i) - mu) =
        (rnd (Complex.arg (W i i)) - Complex.arg (W i i)) - (inc n *ᵥ (x - y)) i by ring]
      refine le_trans (abs_sub _ _) ?_
      linarith)
    unfold qrError
    rw [add_assoc (_ + _)]
    exact this
  · have := p2.bound
    rw [List.length_finRange, zero_add, Finset.sum_range_id] at this
    exact this

end Qudits.EntQR
