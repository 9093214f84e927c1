import Verif.Model.StatePrep
import Verif.Spec.PrepSpec
import Verif.Lemmas.QRAlg
import Verif.Lemmas.TwoLevelGates
import Verif.Lemmas.Trace
import Verif.Lemmas.MicroDD
import Mathlib.Data.Matrix.Mul
namespace Qudits
open Spec MicroDD StatePrep LocalQR Matrix

/-- a list as a vector -/
def vec (d : Nat) (l : List ℂ) : Fin d → ℂ := fun i => l.getD i 0

theorem matVec_ok (A : Arr2 ℂ) (d : Nat) (hr : A.rows = d) (hc : A.cols = d) (v : List ℂ) (hv : v.length = d) :
    ∃ u, matVec A v = .ok u ∧ u.length = d ∧ vec d u = A.toM d *ᵥ vec d v := by
  unfold matVec
  rw [if_pos (by rw [hc, hv]), hr, hc]
  refine ⟨_, rfl, by simp, ?_⟩
  funext i
  simp only [vec, List.getD_eq_getElem?_getD, List.getElem?_map, List.getElem?_range i.2, Option.map_some, Option.getD_some,
    Matrix.mulVec, dotProduct, Arr2.toM, Finset.sum_range]

theorem mulVec_fst {d : Nat} {a b : Fin d} (M : Matrix (Fin 2) (Fin 2) ℂ) (hab : a ≠ b) (v : Fin d → ℂ) :
    (twoLevel a b M *ᵥ v) a = M 0 0 * v a + M 0 1 * v b := by
  have := twoLevel_mul_fst M hab (fun i (_ : Fin d) => v i) a
  exact this

theorem mulVec_snd {d : Nat} {a b : Fin d} (M : Matrix (Fin 2) (Fin 2) ℂ) (hab : a ≠ b) (v : Fin d → ℂ) :
    (twoLevel a b M *ᵥ v) b = M 1 0 * v a + M 1 1 * v b :=
  twoLevel_mul_snd M hab (fun i (_ : Fin d) => v i) a

theorem mulVec_other {d : Nat} {a b : Fin d} (M : Matrix (Fin 2) (Fin 2) ℂ) (v : Fin d → ℂ) (r : Fin d) (ha : r ≠ a) (hb : r ≠ b) :
    (twoLevel a b M *ᵥ v) r = v r :=
  twoLevel_mul_other M (fun i (_ : Fin d) => v i) r a ha hb

theorem norm_mulVec {d : Nat} (M : Matrix (Fin d) (Fin d) ℂ) (hM : M ∈ unitaryGroup (Fin d) ℂ) (v : Fin d → ℂ) :
    ∑ i, ‖(M *ᵥ v) i‖ ^ 2 = ∑ i, ‖v i‖ ^ 2 := by
  have hn : ∀ w : Fin d → ℂ, ((∑ i, ‖w i‖ ^ 2 : ℝ) : ℂ) = star w ⬝ᵥ w := by
    intro w
    rw [dotProduct]
    push_cast
    refine Finset.sum_congr rfl fun i _ => ?_
    rw [Pi.star_apply, RCLike.star_def, Complex.conj_mul']
  have : star (M *ᵥ v) ⬝ᵥ (M *ᵥ v) = star v ⬝ᵥ v := by
    rw [star_mulVec, dotProduct_mulVec, vecMul_vecMul, ← star_eq_conjTranspose, (mem_unitaryGroup_iff').1 hM, vecMul_one]
  have h2 := (hn (M *ᵥ v)).trans (this.trans (hn v).symm)
  exact_mod_cast h2

theorem entryOp_rot {d : Nat} (a b : Nat) (t f : ℝ) (ha : a < d) (hb : b < d) :
    entryOp d (((a : Int), (b : Int)), (t, f)) = twoLevel ⟨a, ha⟩ ⟨b, hb⟩ (rot t f) := by
  have h1 : (((a : Int), (b : Int)) : Int × Int) ≠ (-1, 0) := by
    intro h; simp only [Prod.mk.injEq] at h; omega
  simp only [entryOp, h1, if_false, Int.toNat_natCast]
  rw [dif_pos ⟨ha, hb⟩]

theorem seqLoop_ok {d : Nat} : ∀ (m : Nat) (coef : List ℂ) (acc : List ((Int × Int) × ℝ × ℝ)), m < d → coef.length = d →
    (∀ i, m < i → coef.getD i 0 = 0) →
    ∃ coef' new, seqLoop d m coef acc = .ok (coef', new ++ acc) ∧ coef'.length = d ∧ (∀ i, 0 < i → coef'.getD i 0 = 0) ∧
      ∑ i, ‖vec d coef' i‖ ^ 2 = ∑ i, ‖vec d coef i‖ ^ 2 ∧
      circuitOp (entryOp d) new *ᵥ vec d coef' = vec d coef ∧
      (∀ e ∈ new, ∃ i : Nat, i + 1 < d ∧ e.1 = ((i : Int), (i : Int) + 1)) ∧ new.length = m
  | 0, coef, acc, _, hl, hz => ⟨coef, [], rfl, hl, hz, rfl, by rw [circuitOp_nil, one_mulVec], by simp, rfl⟩
  | i + 1, coef, acc, hm, hl, hz => by
    unfold seqLoop
    set a := (getAngles (coef.getD (i + 1) 0) (coef.getD i 0)).1 with ha
    set p := (getAngles (coef.getD (i + 1) 0) (coef.getD i 0)).2 with hp
    have hlv : levelsSetter (i : Int) ((i : Int) + 1) = ((i : Int), (i : Int) + 1) := levelsSetter_sorted (by omega)
    have hr := rInit_explicit (d := d) (i : Int) ((i : Int) + 1) a p (by omega)
    rw [hlv] at hr
    rw [show getAngles (coef.getD (i + 1) 0) (coef.getD i 0) = (a, p) from rfl]
    simp only [bind, Except.bind, hr]
    let A : Fin d := ⟨i, by omega⟩
    let B : Fin d := ⟨i + 1, hm⟩
    have hAB : A ≠ B := by intro h; exact absurd (congrArg Fin.val h) (by simp [A, B])
    have hg : GoodLevels d ⟨(i : Int), (i : Int) + 1, regulateTheta a, p⟩ A B :=
      ⟨rfl, by simp [B], by simp [A, B, Fin.lt_def]⟩
    obtain ⟨G, hG, r1, r2, r3⟩ := rArray_ok hg
    simp only [hG]
    rw [rot_regulate] at r3
    obtain ⟨c1, hc1, l1, v1⟩ := matVec_ok G d r1 r2 coef hl
    rw [r3] at v1
    simp only [hc1]
    have hcl : rot a p 1 0 * coef.getD i 0 + rot a p 1 1 * coef.getD (i + 1) 0 = 0 := by
      by_cases hx : coef.getD (i + 1) 0 = 0
      · have : a = 0 := by
          rw [ha, getAngles, hx]
          simp only [arctan2, norm_zero]
          rw [show (⟨‖coef.getD i 0‖, 0⟩ : ℂ) = ((‖coef.getD i 0‖ : ℝ) : ℂ) from rfl, Complex.arg_ofReal_of_nonneg (norm_nonneg _)]
          simp
        rw [hx, this, rot_zero]; simp
      · exact QRAlg.clears _ _ hx a p rfl rfl
    have hU : twoLevel A B (rot a p) ∈ unitaryGroup (Fin d) ℂ := twoLevel_unitary _ hAB (rot_unitary a p)
    obtain ⟨c', new, e1, e2, e3, e4, e5, e6, e7⟩ := seqLoop_ok i c1 ((((i : Int), (i : Int) + 1), (-a, p)) :: acc) (by omega) l1 (by
      intro j hj
      by_cases hjd : j < d
      · have hv := congrFun v1 ⟨j, hjd⟩
        change c1.getD j 0 = _ at hv
        rw [hv]
        by_cases hj1 : j = i + 1
        · subst hj1
          rw [show (⟨i + 1, hjd⟩ : Fin d) = B from rfl, mulVec_snd _ hAB]
          exact hcl
        · rw [mulVec_other]
          · exact hz j (by omega)
          · intro h; have := congrArg Fin.val h; simp [A] at this; omega
          · intro h; have := congrArg Fin.val h; simp [B] at this; omega
      · rw [List.getD_eq_getElem?_getD, List.getElem?_eq_none (by omega)]; rfl)
    refine ⟨c', new ++ [(((i : Int), (i : Int) + 1), (-a, p))], ?_, e2, e3, ?_, ?_, ?_, by simp [e7]⟩
    · rw [e1]; simp
    · rw [e4, v1]; exact norm_mulVec _ hU _
    · rw [circuitOp_append, ← mulVec_mulVec, e5, v1, circuitOp_cons, circuitOp_nil, one_mul]
      have he := entryOp_rot (d := d) i (i + 1) (-a) p (by omega) hm
      push_cast at he
      rw [he, mulVec_mulVec]
      have : twoLevel A B (rot (-a) p) = (twoLevel A B (rot a p))ᴴ := by
        rw [twoLevel_conjTranspose _ hAB, rot_conjTranspose]
      rw [show twoLevel (⟨i, by omega⟩ : Fin d) ⟨i + 1, hm⟩ (rot (-a) p) = twoLevel A B (rot (-a) p) from rfl, this, ← star_eq_conjTranspose,
        (mem_unitaryGroup_iff').1 hU, one_mulVec]
    · intro e he
      rcases List.mem_append.1 he with h | h
      · exact e6 e h
      · rw [List.mem_singleton.1 h]; exact ⟨i, hm, rfl⟩

theorem findComplex_pos {r : ℝ} (hr : 0 < r) (c : ℂ) : Complex.arg (findComplex r c) = Complex.arg c := by
  have : findComplex r c = ((1 / r ^ 2 : ℝ) : ℂ) * c := by
    apply Complex.ext
    · rw [Complex.re_ofReal_mul]; simp only [findComplex, Complex.ofReal_re, Complex.ofReal_im]; field_simp; ring
    · rw [Complex.im_ofReal_mul]; simp only [findComplex, Complex.ofReal_re, Complex.ofReal_im]; field_simp; ring
  rw [this, Complex.arg_real_mul _ (by positivity)]

/-- the local sequence takes the first basis vector to the weights -/
theorem localSequence_ok {d : Nat} (hd : 2 ≤ d) (ws : List ℂ) (hl : ws.length = d) (hn : (ws.map fun x => ‖x‖ ^ 2).sum = 1)
    {r : ℝ} (hr : 0 < r) :
    ∃ seq, localSequence d r ws = .ok seq ∧ circuitOp (entryOp d) seq *ᵥ first d = vec d ws ∧
      (∀ e ∈ seq, e.1 = (-1, 0) ∨ ∃ i : Nat, i + 1 < d ∧ e.1 = ((i : Int), (i : Int) + 1)) ∧ seq.length = d := by
  unfold localSequence
  rw [if_neg (by omega)]
  obtain ⟨c, new, e1, e2, e3, e4, e5, e6, e7⟩ := seqLoop_ok (d := d) (ws.length - 1) ws [] (by omega) hl (by
    intro i hi
    rw [List.getD_eq_getElem?_getD, List.getElem?_eq_none (by omega)]; rfl)
  simp only [bind, Except.bind, e1, pure, Except.pure]
  refine ⟨_, rfl, ?_, ?_, by simp [e7]; omega⟩
  · rw [List.append_nil, circuitOp_cons, ← mulVec_mulVec, ← e5]
    congr 1
    have hsum : ∑ i, ‖vec d ws i‖ ^ 2 = 1 := by
      rw [← hn, ← hl]
      rw [← Fin.sum_ofFn]
      congr 1
      apply List.ext_getElem (by simp)
      intro i h1 h2
      simp at h1
      simp [vec, h1]
    rw [hsum] at e4
    have h0 : ‖c.getD 0 0‖ = 1 := by
      rw [Finset.sum_eq_single (⟨0, by omega⟩ : Fin d)] at e4
      · change ‖c.getD 0 0‖ ^ 2 = 1 at e4
        have := norm_nonneg (c.getD 0 0)
        nlinarith
      · intro b _ hb
        rw [vec, e3 b (by rcases Nat.eq_zero_or_pos b.1 with h | h; exact absurd (Fin.ext h) hb; exact h)]
        simp
      · intro h; exact absurd (Finset.mem_univ _) h
    rw [findComplex_pos hr]
    have hE : entryOp d ((-1, 0), (-Complex.arg (c.getD 0 0) * 2, 0)) = twoLevel (⟨0, by omega⟩ : Fin d) ⟨1, by omega⟩
        !![Complex.exp (-(Complex.I * ((-Complex.arg (c.getD 0 0) * 2 / 2 : ℝ) : ℂ))), 0; 0,
          Complex.exp (Complex.I * ((-Complex.arg (c.getD 0 0) * 2 / 2 : ℝ) : ℂ))] := by
      simp only [entryOp, if_true]
      rw [dif_pos ⟨by omega, by omega⟩]
    rw [hE]
    have hd0 : 0 < d := by omega
    have hd1 : 1 < d := by omega
    have h01 : (⟨0, by omega⟩ : Fin d) ≠ ⟨1, by omega⟩ := by simp
    funext i
    by_cases hi : (i : Nat) = 0
    · obtain rfl : i = ⟨0, hd0⟩ := Fin.ext hi
      rw [mulVec_fst _ h01]
      simp [first, vec]
      have := Complex.norm_mul_exp_arg_mul_I (c.getD 0 0)
      rw [h0] at this
      simp only [Complex.ofReal_one, one_mul, List.getD_eq_getElem?_getD] at this
      rw [mul_comm Complex.I]
      refine Eq.trans (congrArg Complex.exp ?_) this
      ring
    · rw [vec, e3 i (by omega)]
      by_cases hi1 : (i : Nat) = 1
      · obtain rfl : i = ⟨1, hd1⟩ := Fin.ext hi1
        rw [mulVec_snd _ h01]
        simp [first]
      · rw [mulVec_other]
        · simp [first, hi]
        · intro h; exact hi (congrArg Fin.val h)
        · intro h; exact hi1 (congrArg Fin.val h)
  · intro e he
    rcases List.mem_cons.1 he with h | h
    · rw [h]; exact Or.inl rfl
    · rw [List.append_nil] at h
      exact Or.inr (e6 e h)

end Qudits
