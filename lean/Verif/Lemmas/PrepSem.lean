import Verif.Lemmas.PrepMain
import Verif.Lemmas.Apply
import Verif.Lemmas.Gate
import Mathlib.Data.List.Nodup
import Verif.Spec.PhaseSpec
import Mathlib.Analysis.InnerProductSpace.PiL2
import Mathlib.Analysis.SpecialFunctions.Trigonometric.Bounds
namespace Qudits
open Spec MicroDD StatePrep LocalQR Matrix
open PhasePass (GateSemantics Matches arrayOf)

variable {n : Nat} {d : Fin n → Nat}

/-- a basis state as a function on all line numbers -/
def ext (x : Reg d) : Nat → Nat := fun i => if h : i < n then ((x ⟨i, h⟩ : Fin (d ⟨i, h⟩)) : Nat) else 0

theorem ext_apply (x : Reg d) (i : Fin n) : ext x i = ((x i : Fin (d i)) : Nat) := by
  unfold ext; rw [dif_pos i.2]

theorem getD_dims (i : Fin n) (b : Nat) : (List.ofFn d).getD i b = d i := by
  rw [List.getD_eq_getElem?_getD, List.getElem?_ofFn]; simp

theorem ext_valid (x : Reg d) : ValidLv (List.ofFn d) (ext x) := by
  intro i
  by_cases hi : i < n
  · rw [show i = ((⟨i, hi⟩ : Fin n) : Nat) from rfl, getD_dims, ext_apply]; exact (x ⟨i, hi⟩).2
  · rw [List.getD_eq_getElem?_getD, List.getElem?_eq_none (by simp; omega)]
    unfold ext; rw [dif_neg hi]; simp

theorem ext_update (x : Reg d) (i : Fin n) (l : Fin (d i)) : ext (Function.update x i l) = Function.update (ext x) i l := by
  funext j
  by_cases hj : j < n
  · obtain ⟨j, rfl⟩ : ∃ j' : Fin n, j = j' := ⟨⟨j, hj⟩, rfl⟩
    rw [ext_apply]
    by_cases hji : j = i
    · subst hji; rw [Function.update_self, Function.update_self]
    · rw [Function.update_of_ne hji, Function.update_of_ne (fun h => hji (Fin.ext h)), ext_apply]
  · rw [Function.update_of_ne (by omega)]
    unfold ext; rw [dif_neg hj, dif_neg hj]

theorem lvl_ext (x : Reg d) : lvl (ext x) 0 (List.ofFn d) = List.ofFn fun i => ((x i : Fin (d i)) : Nat) := by
  have key : ∀ (L : List Nat) (k : Nat) (f : Nat → Nat), lvl f k L = (List.range L.length).map fun i => f (k + i) := by
    intro L
    induction L with
    | nil => intro k f; rfl
    | cons a L ih =>
      intro k f
      rw [lvl, ih, List.length_cons, List.range_succ_eq_map, List.map_cons, List.map_map]
      simp only [Nat.add_zero, List.cons.injEq, true_and, Function.comp_def, Nat.succ_eq_add_one]
      refine List.map_congr_left fun i _ => ?_
      congr 1; omega
  rw [key]
  apply List.ext_getElem (by simp)
  intro i h1 h2
  simp at h1
  simp only [List.getElem_map, List.getElem_range, List.getElem_ofFn, Nat.zero_add]
  exact ext_apply x ⟨i, h1⟩

/-! ### controls -/

theorem sat_iff {k : Nat} {ctl : List (Int × Int)} (hk : k ≤ n) (h : CtlOK (List.ofFn d) k ctl) {lev : Reg d}
    (hm : Matches ⟨ctl.map Prod.fst, ctl.map Prod.snd⟩ lev) (y : Reg d) :
    (∀ j ∈ lineSet n (ctl.map Prod.fst), y j = lev j) ↔ Sat ctl (ext y) := by
  have hm' : ∀ p ∈ ctl, ∀ j : Fin n, p.1 = (j : Nat) → (((lev j : Fin (d j)) : Nat) : Int) = p.2 := by
    intro p hp
    refine hm p ?_
    simp only [List.zip_map', List.mem_map]
    exact ⟨p, hp, rfl⟩
  constructor
  · intro hall p hp
    obtain ⟨line, l, e, h1, h2⟩ := h.2 p hp
    have hj := hall ⟨line, by omega⟩ (by
      simp only [lineSet, Finset.mem_filter, Finset.mem_univ, true_and]
      exact List.mem_map.2 ⟨p, hp, by rw [e]⟩)
    have := hm' p hp ⟨line, by omega⟩ (by rw [e])
    rw [← hj] at this
    rw [← this, e]
    simp only [Int.toNat_natCast]
    have := ext_apply y ⟨line, by omega⟩
    simp only at this
    rw [this]
  · intro hs j hj
    simp only [lineSet, Finset.mem_filter, Finset.mem_univ, true_and] at hj
    obtain ⟨p, hp, e⟩ := List.mem_map.1 hj
    have h1 := hm' p hp j e
    have h2 := hs p hp
    rw [e, Int.toNat_natCast, ext_apply] at h2
    apply Fin.ext
    have : (((y j : Fin (d j)) : Nat) : Int) = ((lev j : Fin (d j)) : Nat) := by rw [h2, h1]
    exact_mod_cast this

theorem exists_lev {k : Nat} {ctl : List (Int × Int)} (h : CtlOK (List.ofFn d) k ctl) (hpos : ∀ i, 0 < d i) :
    ∃ lev : Reg d, Matches ⟨ctl.map Prod.fst, ctl.map Prod.snd⟩ lev := by
  have : ∀ j : Fin n, ∃ l : Fin (d j), ∀ p ∈ ctl, p.1 = (j : Nat) → ((l : Nat) : Int) = p.2 := by
    intro j
    by_cases hj : ∃ p ∈ ctl, p.1 = (j : Nat)
    · obtain ⟨p, hp, e⟩ := hj
      obtain ⟨line, l, e', h1, h2⟩ := h.2 p hp
      have hlj : line = j := by rw [e'] at e; simpa using e
      subst hlj
      rw [getD_dims] at h2
      refine ⟨⟨l, h2⟩, ?_⟩
      intro q hq eq
      have : q = p := by
        have hnd : (ctl.map Prod.fst).Nodup := List.pairwise_map.2 (h.1.imp fun hlt => ne_of_lt hlt)
        exact List.inj_on_of_nodup_map hnd hq hp (eq.trans e.symm)
      rw [this, e']
    · exact ⟨⟨0, hpos j⟩, fun p hp e => absurd ⟨p, hp, e⟩ hj⟩
  choose lev hlev using this
  refine ⟨lev, ?_⟩
  intro p hp j e
  simp only [List.zip_map', List.mem_map] at hp
  obtain ⟨q, hq, rfl⟩ := hp
  exact hlev j q hq e

/-! ### the operator of an operation -/

theorem rot_add_conj (t f : ℝ) : rot t f + (rot t f)ᴴ = ((2 * Real.cos (t / 2) : ℝ) : ℂ) • (1 : Matrix (Fin 2) (Fin 2) ℂ) := by
  rw [rot_conjTranspose]
  ext i j
  fin_cases i <;> fin_cases j <;> simp [rot, neg_div, Real.cos_neg, Real.sin_neg] <;> ring

theorem phase_add_conj (t : ℝ) :
    (!![Complex.exp (-(Complex.I * ((t / 2 : ℝ) : ℂ))), 0; 0, Complex.exp (Complex.I * ((t / 2 : ℝ) : ℂ))] : Matrix (Fin 2) (Fin 2) ℂ) +
      (!![Complex.exp (-(Complex.I * ((t / 2 : ℝ) : ℂ))), 0; 0, Complex.exp (Complex.I * ((t / 2 : ℝ) : ℂ))])ᴴ =
    ((2 * Real.cos (t / 2) : ℝ) : ℂ) • (1 : Matrix (Fin 2) (Fin 2) ℂ) := by
  generalize t / 2 = s
  have h : Complex.exp (-(Complex.I * (s : ℂ))) + Complex.exp (Complex.I * (s : ℂ)) = ((2 * Real.cos s : ℝ) : ℂ) := by
    push_cast
    rw [Complex.cos, mul_comm Complex.I, neg_mul]; ring
  have c1 : (starRingEnd ℂ) (Complex.exp (-(Complex.I * (s : ℂ)))) = Complex.exp (Complex.I * (s : ℂ)) := by
    rw [← Complex.exp_conj, map_neg, map_mul, Complex.conj_I, Complex.conj_ofReal, neg_mul, neg_neg]
  have c2 : (starRingEnd ℂ) (Complex.exp (Complex.I * (s : ℂ))) = Complex.exp (-(Complex.I * (s : ℂ))) := by
    rw [← Complex.exp_conj, map_mul, Complex.conj_I, Complex.conj_ofReal, neg_mul]
  ext i j
  fin_cases i <;> fin_cases j
  · simpa [c1] using h
  · simp
  · simp
  · simpa [c2, add_comm] using h

/-- the block of an operation -/
theorem entry_block {c : Nat} (hc : 2 ≤ c) (lv : Int × Int) (t f : ℝ) (h : lv = (-1, 0) ∨ ∃ i : Nat, i + 1 < c ∧ lv = ((i : Int), (i : Int) + 1)) :
    ∃ (a b : Fin c) (R : Matrix (Fin 2) (Fin 2) ℂ), a ≠ b ∧ R ∈ unitaryGroup (Fin 2) ℂ ∧ R + Rᴴ = ((2 * Real.cos (t / 2) : ℝ) : ℂ) • (1 : Matrix (Fin 2) (Fin 2) ℂ) ∧
      entryOp c (lv, (t, f)) = twoLevel a b R := by
  rcases h with rfl | ⟨i, hi, rfl⟩
  · refine ⟨⟨0, by omega⟩, ⟨1, by omega⟩, _, by simp, ?_, phase_add_conj t, ?_⟩
    · rw [← rz_two]
      exact mul_mem (mul_mem (rot_unitary _ _) (rot_unitary _ _)) (rot_unitary _ _)
    · simp only [entryOp, if_true]
      rw [dif_pos ⟨by omega, by omega⟩]
  · refine ⟨⟨i, by omega⟩, ⟨i + 1, hi⟩, rot t f, by simp, rot_unitary _ _, rot_add_conj t f, ?_⟩
    have := entryOp_rot (d := c) i (i + 1) t f (by omega) hi
    push_cast at this
    exact this

theorem twoLevel_add_conj {c : Nat} {a b : Fin c} (hab : a ≠ b) {R : Matrix (Fin 2) (Fin 2) ℂ} {w : ℝ}
    (h : R + Rᴴ = (w : ℂ) • (1 : Matrix (Fin 2) (Fin 2) ℂ)) :
    twoLevel a b R + (twoLevel a b R)ᴴ = Matrix.diagonal fun i => (((if i = a ∨ i = b then w else 2) : ℝ) : ℂ) := by
  rw [twoLevel_conjTranspose _ hab]
  have h00 := congrFun (congrFun h 0) 0
  have h01 := congrFun (congrFun h 0) 1
  have h10 := congrFun (congrFun h 1) 0
  have h11 := congrFun (congrFun h 1) 1
  simp only [Matrix.add_apply, Matrix.smul_apply, Matrix.one_apply_eq, smul_eq_mul, mul_one,
    Matrix.one_apply_ne (show (0 : Fin 2) ≠ 1 by decide), Matrix.one_apply_ne (show (1 : Fin 2) ≠ 0 by decide), mul_zero, Matrix.conjTranspose_apply, RCLike.star_def] at h00 h01 h10 h11
  ext i j
  rw [Matrix.add_apply, Matrix.diagonal_apply]
  by_cases hia : i = a
  · subst hia
    by_cases hja : j = i
    · subst hja; simp [twoLevel, h00]
    · by_cases hjb : j = b
      · subst hjb; simp [twoLevel, hab, hab.symm, h01]
      · simp [twoLevel, hja, hjb, Ne.symm hja]
  · by_cases hib : i = b
    · subst hib
      by_cases hja : j = a
      · subst hja; simp [twoLevel, hia, h10]
      · by_cases hjb : j = i
        · subst hjb; simp [twoLevel, hia, h11]
        · simp [twoLevel, hia, hja, hjb, Ne.symm hjb]
    · by_cases hij : i = j
      · subst hij; simp [twoLevel, hia, hib]; norm_num
      · simp [twoLevel, hia, hib, hij]

/-- the 2-norm of a state -/
noncomputable def nrm {ι : Type} [Fintype ι] (φ : ι → ℂ) : ℝ := ‖WithLp.toLp 2 φ‖

theorem nrm_sq {ι : Type} [Fintype ι] (φ : ι → ℂ) : nrm φ ^ 2 = ∑ x, ‖φ x‖ ^ 2 := by
  unfold nrm; rw [EuclideanSpace.norm_sq_eq]

theorem nrm_nonneg {ι : Type} [Fintype ι] (φ : ι → ℂ) : 0 ≤ nrm φ := norm_nonneg _

theorem nrm_add {ι : Type} [Fintype ι] (φ χ : ι → ℂ) : nrm (φ + χ) ≤ nrm φ + nrm χ := by
  unfold nrm; rw [WithLp.toLp_add]; exact norm_add_le _ _

theorem nrm_sq_dot {ι : Type} [Fintype ι] (φ : ι → ℂ) : ((nrm φ ^ 2 : ℝ) : ℂ) = star φ ⬝ᵥ φ := by
  rw [nrm_sq, dotProduct]
  push_cast
  refine Finset.sum_congr rfl fun i _ => ?_
  rw [Pi.star_apply, RCLike.star_def, Complex.conj_mul']

theorem nrm_unitary {ι : Type} [Fintype ι] [DecidableEq ι] {M : Matrix ι ι ℂ} (hM : M ∈ unitaryGroup ι ℂ) (φ : ι → ℂ) :
    nrm (M *ᵥ φ) = nrm φ := by
  have h : star (M *ᵥ φ) ⬝ᵥ (M *ᵥ φ) = star φ ⬝ᵥ φ := by
    rw [star_mulVec, dotProduct_mulVec, vecMul_vecMul, ← star_eq_conjTranspose, (mem_unitaryGroup_iff').1 hM, vecMul_one]
  rw [← nrm_sq_dot, ← nrm_sq_dot] at h
  have h : nrm (M *ᵥ φ) ^ 2 = nrm φ ^ 2 := by exact_mod_cast h
  exact (pow_left_inj₀ (nrm_nonneg _) (nrm_nonneg _) two_ne_zero).1 h

/-- A unitary whose Hermitian part is diagonal with entries close to one is close to the identity. -/
theorem nrm_near_one {ι : Type} [Fintype ι] [DecidableEq ι] {M : Matrix ι ι ℂ} (hM : M ∈ unitaryGroup ι ℂ) {g : ι → ℝ}
    (hg : M + Mᴴ = Matrix.diagonal fun i => ((g i : ℝ) : ℂ)) {t : ℝ} (ht : 0 ≤ t) (hb : ∀ i, 2 - g i ≤ t ^ 2) (φ : ι → ℂ) :
    nrm (M *ᵥ φ - φ) ≤ t * nrm φ := by
  have h : star (M *ᵥ φ - φ) ⬝ᵥ (M *ᵥ φ - φ) = ((∑ i, (2 - g i) * ‖φ i‖ ^ 2 : ℝ) : ℂ) := by
    have e1 : star (M *ᵥ φ) ⬝ᵥ (M *ᵥ φ) = star φ ⬝ᵥ φ := by
      rw [star_mulVec, dotProduct_mulVec, vecMul_vecMul, ← star_eq_conjTranspose, (mem_unitaryGroup_iff').1 hM, vecMul_one]
    have e2 : star (M *ᵥ φ) ⬝ᵥ φ + star φ ⬝ᵥ (M *ᵥ φ) = star φ ⬝ᵥ ((M + Mᴴ) *ᵥ φ) := by
      rw [star_mulVec, ← dotProduct_mulVec, ← dotProduct_add, ← add_mulVec, add_comm]
    rw [star_sub, sub_dotProduct, dotProduct_sub, dotProduct_sub, e1]
    have e3 : star φ ⬝ᵥ φ - star (M *ᵥ φ) ⬝ᵥ φ - (star φ ⬝ᵥ (M *ᵥ φ) - star φ ⬝ᵥ φ) =
        2 * (star φ ⬝ᵥ φ) - star φ ⬝ᵥ ((M + Mᴴ) *ᵥ φ) := by rw [← e2]; ring
    rw [e3, hg]
    simp only [dotProduct, Matrix.mulVec_diagonal, Finset.mul_sum]
    rw [← Finset.sum_sub_distrib]
    push_cast
    refine Finset.sum_congr rfl fun i _ => ?_
    have := Complex.conj_mul' (φ i)
    rw [Pi.star_apply, RCLike.star_def]
    linear_combination ((2 : ℂ) - (g i : ℂ)) * this
  rw [← nrm_sq_dot] at h
  have h : nrm (M *ᵥ φ - φ) ^ 2 = ∑ i, (2 - g i) * ‖φ i‖ ^ 2 := by exact_mod_cast h
  have h2 : nrm (M *ᵥ φ - φ) ^ 2 ≤ (t * nrm φ) ^ 2 := by
    rw [h, mul_pow, nrm_sq, Finset.mul_sum]
    exact Finset.sum_le_sum fun i _ => mul_le_mul_of_nonneg_right (hb i) (by positivity)
  exact (abs_le_of_sq_le_sq' h2 (mul_nonneg ht (nrm_nonneg _))).2

/-- the rotation gate built for an operation -/
theorem instrOf_kind {c : Nat} (hc : 2 ≤ c) (o : PrepOp) (h : o.levels = (-1, 0) ∨ ∃ i : Nat, i + 1 < c ∧ o.levels = ((i : Int), (i : Int) + 1)) :
    ∃ kind, prepKind c o = .ok kind ∧
      ∀ t ctl, ∃ A, arrayOf ⟨kind, t, c, ctl, false⟩ = some (.ok A) ∧ A.toM c = entryOp c (o.levels, (o.theta, o.phi)) := by
  rcases h with h | ⟨i, hi, h⟩
  · have hz : o.isZ = true := by unfold PrepOp.isZ; rw [h]; rfl
    have hr : rzInit c (.list [.int 0, .int 1, .flt o.theta]) = .ok ⟨0, 1, 0, regulateTheta o.theta⟩ := by
      have h2 : (1 : Int) < c := by omega
      simp [rzInit, needInt, needFlt, checkLevels, levelsSetter, h2, show 0 < c by omega, bind, Except.bind, pure, Except.pure]
    refine ⟨.rz ⟨0, 1, 0, regulateTheta o.theta⟩, ?_, ?_⟩
    · rw [prepKind, if_pos hz, hr]; rfl
    · intro t ctl
      have hg : GoodLevels c ⟨0, 1, 0, regulateTheta o.theta⟩ ⟨0, by omega⟩ ⟨1, by omega⟩ := ⟨rfl, rfl, by simp [Fin.lt_def]⟩
      obtain ⟨A, hA, _, _, h3⟩ := rzArray_ok hg
      refine ⟨A, by simp [arrayOf, hA], ?_⟩
      rw [h3, rot_regulate, rz_two, h]
      simp only [entryOp, if_true]
      rw [dif_pos ⟨by omega, by omega⟩]
  · have hz : ¬ o.isZ = true := by
      unfold PrepOp.isZ; rw [h]; simp
    have hr := rInit_explicit (d := c) (i : Int) ((i : Int) + 1) o.theta o.phi (by omega)
    rw [levelsSetter_sorted (by omega)] at hr
    refine ⟨.r ⟨i, (i : Int) + 1, regulateTheta o.theta, o.phi⟩, ?_, ?_⟩
    · rw [prepKind, if_neg hz, h, hr]; rfl
    · intro t ctl
      have hg : GoodLevels c ⟨i, (i : Int) + 1, regulateTheta o.theta, o.phi⟩ ⟨i, by omega⟩ ⟨i + 1, hi⟩ :=
        ⟨rfl, by simp, by simp [Fin.lt_def]⟩
      obtain ⟨A, hA, _, _, h3⟩ := rArray_ok hg
      refine ⟨A, by simp [arrayOf, hA], ?_⟩
      rw [h3, rot_regulate, h]
      have := entryOp_rot (d := c) i (i + 1) o.theta o.phi (by omega) hi
      push_cast at this
      exact this.symm

theorem mulVec_controlled (C : Finset (Fin n)) (lev : Reg d) (k : Fin n) (hk : k ∉ C) (E : Matrix (Fin (d k)) (Fin (d k)) ℂ)
    (φ : Reg d → ℂ) (x : Reg d) :
    (controlled C lev (embed1 (X := LvOf d) k E) *ᵥ φ) x =
      if ∀ j ∈ C, x j = lev j then ∑ l, E (x k) l * φ (Function.update x k l) else φ x := by
  by_cases h : ∀ j ∈ C, x j = lev j
  · rw [if_pos h]
    refine Eq.trans ?_ (embed1_mulVec (X := LvOf d) k E φ x)
    rw [Matrix.mulVec, Matrix.mulVec, dotProduct, dotProduct]
    refine Finset.sum_congr rfl fun y _ => ?_
    congr 1
    unfold controlled
    by_cases hy : ∀ j ∈ C, y j = lev j
    · rw [if_pos hy]
    · rw [if_neg hy]
      have hxy : x ≠ y := fun e => hy (e ▸ h)
      rw [if_neg hxy]
      unfold embed1
      rw [if_neg]
      intro hall
      refine hy fun j hj => ?_
      rw [← hall j (fun e => hk (e ▸ hj))]; exact h j hj
  · rw [if_neg h, Matrix.mulVec, dotProduct, Finset.sum_eq_single x]
    · unfold controlled; rw [if_neg h, if_pos rfl, one_mul]
    · intro y _ hyx
      unfold controlled
      by_cases hy : ∀ j ∈ C, y j = lev j
      · rw [if_pos hy]
        unfold embed1
        rw [if_neg, zero_mul]
        intro hall
        refine h fun j hj => ?_
        rw [hall j (fun e => hk (e ▸ hj))]; exact hy j hj
      · rw [if_neg hy, if_neg (Ne.symm hyx), zero_mul]
    · intro h; exact absurd (Finset.mem_univ _) h

/-- the operator of an operation, and how the emitted gates relate to it -/
theorem op_matrix (hd : ∀ i, 2 ≤ d i) {o : PrepOp} (ho : OpOK (List.ofFn d) o) :
    ∃ M ∈ unitaryGroup (Reg d) ℂ,
      (∀ ψ (φ : Reg d → ℂ), (∀ x, φ x = ψ (ext x)) → ∀ x, (M *ᵥ φ) x = act (List.ofFn d) o ψ (ext x)) ∧
      (∀ φ, nrm (M *ᵥ φ - φ) ≤ |o.theta| / 2 * nrm φ) ∧
      ∀ sem, GateSemantics d sem → ∀ del gs, instrOf (List.ofFn d) del o = .ok gs →
        (|o.theta| > del → circuitOp sem gs = M) ∧ (¬ |o.theta| > del → gs = []) := by
  obtain ⟨kn, hq, hkn, hlv, hctl⟩ := ho
  rw [List.length_ofFn] at hkn
  obtain ⟨k, rfl⟩ : ∃ k : Fin n, kn = k := ⟨⟨kn, hkn⟩, rfl⟩
  rw [getD_dims] at hlv
  obtain ⟨lev, hlev⟩ := exists_lev hctl (fun i => lt_of_lt_of_le (by norm_num) (hd i))
  set C := lineSet n (o.controls.map Prod.fst) with hC
  have hkC : k ∉ C := by
    intro h
    rw [hC, lineSet, Finset.mem_filter] at h
    obtain ⟨p, hp, e⟩ := List.mem_map.1 h.2
    obtain ⟨a, b, e', h1, _⟩ := hctl.2 p hp
    rw [e'] at e
    simp only at e
    omega
  obtain ⟨a, b, R, hab, hR, hRR, hE⟩ := entry_block (hd k) o.levels o.theta o.phi hlv
  set E := entryOp (d k) (o.levels, (o.theta, o.phi)) with hEdef
  have hsat := sat_iff (d := d) (le_of_lt k.2) hctl hlev
  have hEu : E ∈ unitaryGroup (Fin (d k)) ℂ := by rw [hE]; exact twoLevel_unitary _ hab hR
  have hMu := controlled_mem_unitary (X := LvOf d) C lev k hkC E hEu
  refine ⟨controlled C lev (embed1 (X := LvOf d) k E), hMu, ?_, ?_, ?_⟩
  · intro ψ φ hφ x
    rw [mulVec_controlled C lev k hkC E φ x]
    unfold act
    have hqn : o.qudit.toNat = k := by rw [hq]; simp
    have hval : ext x k < (List.ofFn d).getD k 1 := ext_valid x k
    by_cases h : ∀ j ∈ C, x j = lev j
    · rw [if_pos h]
      rw [dif_pos ⟨(hsat x).1 h, by rw [hqn]; exact hval⟩]
      have hdk : (List.ofFn d).getD k 1 = d k := getD_dims k 1
      have key : ∀ (q : Nat) (hq : q = k) (m : Nat) (hm : m = d k) (hv : ext x q < m),
          ∑ l : Fin (d k), E (x k) l * φ (Function.update x k l) =
          ∑ l : Fin m, entryOp m (o.levels, (o.theta, o.phi)) ⟨ext x q, hv⟩ l * ψ (Function.update (ext x) q l) := by
        intro q hq m hm hv
        subst hm
        subst hq
        refine Finset.sum_congr rfl fun l _ => ?_
        rw [hφ, ext_update]
        congr 2
        exact Fin.ext (ext_apply x k).symm
      exact key _ hqn _ (by rw [hqn]; exact hdk) _
    · rw [if_neg h, dif_neg (fun hh => h ((hsat x).2 hh.1))]
      exact hφ x
  · intro φ
    have hg : controlled C lev (embed1 (X := LvOf d) k E) + (controlled C lev (embed1 (X := LvOf d) k E))ᴴ =
        Matrix.diagonal fun x : Reg d => (((if (∀ j ∈ C, x j = lev j) ∧ (x k = a ∨ x k = b) then 2 * Real.cos (o.theta / 2) else 2) : ℝ) : ℂ) := by
      rw [controlled_conjTranspose _ _ _ (keeps_embed1 (X := LvOf d) C k hkC E), embed1_conjTranspose]
      ext x y
      rw [Matrix.add_apply, Matrix.diagonal_apply]
      unfold controlled
      by_cases hy : ∀ j ∈ C, y j = lev j
      · rw [if_pos hy, if_pos hy]
        unfold embed1
        by_cases hall : ∀ i, i ≠ k → x i = y i
        · rw [if_pos hall, if_pos hall, ← Matrix.add_apply, hE, twoLevel_add_conj hab hRR, Matrix.diagonal_apply]
          by_cases hxk : x k = y k
          · have hxy : x = y := by
              funext i
              by_cases hi : i = k
              · subst hi; exact hxk
              · exact hall i hi
            subst hxy
            rw [if_pos rfl, if_pos rfl]
            by_cases hx : x k = a ∨ x k = b
            · rw [if_pos hx, if_pos ⟨hy, hx⟩]
            · rw [if_neg hx, if_neg (fun hh => hx hh.2)]
          · rw [if_neg hxk, if_neg (fun e => hxk (by rw [e]))]
        · rw [if_neg hall, if_neg hall, if_neg (fun e => hall (fun i _ => by rw [e]))]; simp
      · rw [if_neg hy, if_neg hy]
        by_cases hxy : x = y
        · subst hxy
          rw [if_pos rfl, if_pos rfl, if_neg (fun hh => hy hh.1)]; push_cast; norm_num
        · rw [if_neg hxy, if_neg hxy]; simp
    refine nrm_near_one hMu hg (by positivity) ?_ φ
    intro x
    split
    · have := Real.one_sub_sq_div_two_le_cos (x := o.theta / 2)
      rw [div_pow, sq_abs]
      nlinarith
    · have := sq_nonneg (|o.theta| / 2); linarith
  · intro sem hsem del gs hgs
    unfold instrOf at hgs
    by_cases hdel : |o.theta| > del
    · refine ⟨fun _ => ?_, fun h => absurd hdel h⟩
      rw [if_pos hdel] at hgs
      have hqn : o.qudit.toNat = k := by rw [hq]; simp
      have hdim : (List.ofFn d)[(k : Nat)]? = some (d k) := by rw [List.getElem?_ofFn]; simp
      obtain ⟨kind, hk1, hk2⟩ := instrOf_kind (hd k) o hlv
      rw [hqn, hdim] at hgs
      simp only [bind, Except.bind, pure, Except.pure, hk1] at hgs
      cases hctrl : Gate.control ⟨List.ofFn d, "R", .single, .one o.qudit, none, false, false⟩ (o.controls.map Prod.fst) (o.controls.map Prod.snd) with
      | error e => rw [hctrl] at hgs; cases hgs
      | ok g =>
        rw [hctrl] at hgs
        simp only [Except.ok.injEq] at hgs
        subst hgs
        rw [circuitOp_cons, circuitOp_nil, one_mul]
        obtain ⟨M, hM1, hM2, hM3⟩ := hsem.1 ⟨kind, .one o.qudit, d k, g.controls, false⟩ k (by rw [hq])
        obtain ⟨A, hA1, hA2⟩ := hk2 (.one o.qudit) g.controls
        have hME : M = E := by rw [hM1 A hA1]; simp [hA2, hEdef]
        by_cases hempty : o.controls = []
        · rw [hempty] at hctrl
          have : g.controls = none := by
            simp [Gate.control] at hctrl
            rw [← hctrl]
          rw [hM2 this, hME]
          have hC0 : C = ∅ := by rw [hC, hempty]; simp [lineSet]
          rw [hC0]
          ext x y
          simp [controlled]
        · have hne : o.controls.map Prod.fst ≠ [] := by simpa using hempty
          have hne' : o.controls.map Prod.snd ≠ [] := by simpa using hempty
          have hgc : g.controls = some ⟨o.controls.map Prod.fst, o.controls.map Prod.snd⟩ := by
            rw [((control_ok_iff _ _ _ _ hne hne').1 hctrl).2]; rfl
          obtain ⟨lev2, h1, h2⟩ := hM3 _ hgc
          rw [h2, hME]
          have hl2 := h1 lev hlev
          have hsat2 := sat_iff (d := d) (le_of_lt k.2) hctl hl2
          ext x y
          unfold controlled
          by_cases hy : ∀ j ∈ C, y j = lev j
          · rw [if_pos hy, if_pos ((hsat2 y).2 ((hsat y).1 hy))]
          · rw [if_neg hy, if_neg (fun hh => hy ((hsat y).2 ((hsat2 y).1 hh)))]
    · refine ⟨fun h => absurd h hdel, fun _ => ?_⟩
      rw [if_neg hdel] at hgs
      injection hgs with hgs
      exact hgs.symm

end Qudits
