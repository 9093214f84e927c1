import Verif.Spec.EntSpec
import Verif.Lemmas.TwoLevelGates
import Verif.Lemmas.TwoLine
import Mathlib.Logic.Equiv.Fin.Basic
import Mathlib.Tactic.Ring
import Mathlib.Tactic.LinearCombination
/- Operators on a pair of lines, as matrices over the joint levels. -/
namespace Qudits.EntQR
open Matrix Complex Spec

variable {c t : Nat}

/-- joint level -/
def jn (k : Fin c) (l : Fin t) : Fin (c * t) := finProdFinEquiv (k, l)

theorem jn_val (k : Fin c) (l : Fin t) : ((jn k l : Fin (c * t)) : Nat) = k * t + l := by
  simp [jn, finProdFinEquiv, mul_comm, add_comm]

theorem jn_div (k : Fin c) (l : Fin t) : (jn k l).divNat = k :=
  congrArg Prod.fst (finProdFinEquiv.symm_apply_apply (k, l))

theorem jn_mod (k : Fin c) (l : Fin t) : (jn k l).modNat = l :=
  congrArg Prod.snd (finProdFinEquiv.symm_apply_apply (k, l))

theorem jn_inj {k k' : Fin c} {l l' : Fin t} : jn k l = jn k' l' ↔ k = k' ∧ l = l' := by
  constructor
  · intro h
    exact ⟨by rw [← jn_div k l, h, jn_div], by rw [← jn_mod k l, h, jn_mod]⟩
  · rintro ⟨rfl, rfl⟩; rfl

theorem jn_surj (x : Fin (c * t)) : ∃ k l, x = jn k l := ⟨x.divNat, x.modNat, (finProdFinEquiv.apply_symm_apply x).symm⟩

theorem onFirst_jn (A : Matrix (Fin c) (Fin c) ℂ) (k k' : Fin c) (l l' : Fin t) :
    onFirst t A (jn k l) (jn k' l') = if l = l' then A k k' else 0 := by
  simp only [onFirst, jn_div, jn_mod]

/-- an operator on the second line for every level of the first -/
def ctlAll (f : Fin c → Matrix (Fin t) (Fin t) ℂ) : Matrix (Fin (c * t)) (Fin (c * t)) ℂ := fun x y =>
  if x.divNat = y.divNat then f x.divNat x.modNat y.modNat else 0

theorem ctlAll_jn (f : Fin c → Matrix (Fin t) (Fin t) ℂ) (k k' : Fin c) (l l' : Fin t) :
    ctlAll f (jn k l) (jn k' l') = if k = k' then f k l l' else 0 := by
  simp only [ctlAll, jn_div, jn_mod]

theorem onSecond_eq (B : Matrix (Fin t) (Fin t) ℂ) : onSecond c B = ctlAll fun _ => B := rfl

theorem ifFirst_eq (k : Int) (B : Matrix (Fin t) (Fin t) ℂ) : ifFirst c k B = ctlAll fun i => if ((i : Nat) : Int) = k then B else 1 := rfl

theorem pair_ext {M N : Matrix (Fin (c * t)) (Fin (c * t)) ℂ} (h : ∀ k l k' l', M (jn k l) (jn k' l') = N (jn k l) (jn k' l')) : M = N := by
  ext x y
  obtain ⟨k, l, rfl⟩ := jn_surj x
  obtain ⟨k', l', rfl⟩ := jn_surj y
  exact h k l k' l'

theorem sum_jn (f : Fin (c * t) → ℂ) : ∑ x, f x = ∑ k, ∑ l, f (jn k l) := by
  rw [← finProdFinEquiv.sum_comp, Fintype.sum_prod_type]
  rfl

theorem ctlAll_mul (f g : Fin c → Matrix (Fin t) (Fin t) ℂ) : ctlAll f * ctlAll g = ctlAll fun k => f k * g k := by
  refine pair_ext fun k l k' l' => ?_
  rw [Matrix.mul_apply, sum_jn, ctlAll_jn, Finset.sum_eq_single k]
  · by_cases hk : k = k'
    · subst hk
      simp only [ctlAll_jn, if_true, Matrix.mul_apply]
    · simp only [ctlAll_jn, if_neg hk, mul_zero, Finset.sum_const_zero]
  · intro m _ hm
    simp only [ctlAll_jn, if_neg (Ne.symm hm), zero_mul, Finset.sum_const_zero]
  · intro h; exact absurd (Finset.mem_univ _) h

theorem ctlAll_one : ctlAll (fun _ => 1 : Fin c → Matrix (Fin t) (Fin t) ℂ) = 1 := by
  refine pair_ext fun k l k' l' => ?_
  rw [ctlAll_jn, Matrix.one_apply, Matrix.one_apply]
  by_cases hk : k = k' <;> by_cases hl : l = l' <;> simp [jn_inj, hk, hl]

theorem ctlAll_conjTranspose (f : Fin c → Matrix (Fin t) (Fin t) ℂ) : (ctlAll f)ᴴ = ctlAll fun k => (f k)ᴴ := by
  refine pair_ext fun k l k' l' => ?_
  rw [conjTranspose_apply, ctlAll_jn, ctlAll_jn]
  by_cases hk : k = k'
  · subst hk; simp
  · rw [if_neg hk, if_neg (Ne.symm hk), star_zero]

theorem onFirst_mul (A B : Matrix (Fin c) (Fin c) ℂ) : onFirst t A * onFirst t B = onFirst t (A * B) := by
  refine pair_ext fun k l k' l' => ?_
  rw [Matrix.mul_apply, sum_jn, onFirst_jn]
  simp only [onFirst_jn]
  by_cases hl : l = l'
  · subst hl
    rw [if_pos rfl, Matrix.mul_apply]
    refine Finset.sum_congr rfl fun m _ => ?_
    rw [Finset.sum_eq_single l]
    · rw [if_pos rfl]; simp
    · intro x _ hx; rw [if_neg (Ne.symm hx), zero_mul]
    · intro h; exact absurd (Finset.mem_univ _) h
  · rw [if_neg hl]
    refine Finset.sum_eq_zero fun m _ => Finset.sum_eq_zero fun x _ => ?_
    by_cases hx : l = x
    · subst hx; rw [if_neg hl, mul_zero]
    · rw [if_neg hx, zero_mul]

theorem onFirst_one : onFirst t (1 : Matrix (Fin c) (Fin c) ℂ) = 1 := by
  refine pair_ext fun k l k' l' => ?_
  rw [onFirst_jn, Matrix.one_apply, Matrix.one_apply]
  by_cases hk : k = k' <;> by_cases hl : l = l' <;> simp [jn_inj, hk, hl]

theorem onFirst_conjTranspose (A : Matrix (Fin c) (Fin c) ℂ) : (onFirst t A)ᴴ = onFirst t Aᴴ := by
  refine pair_ext fun k l k' l' => ?_
  rw [conjTranspose_apply, onFirst_jn, onFirst_jn]
  by_cases hl : l = l'
  · subst hl; simp
  · rw [if_neg hl, if_neg (Ne.symm hl), star_zero]

theorem onFirst_unitary (A : Matrix (Fin c) (Fin c) ℂ) (h : A ∈ unitaryGroup (Fin c) ℂ) :
    onFirst t A ∈ unitaryGroup (Fin (c * t)) ℂ := by
  rw [mem_unitaryGroup_iff] at h ⊢
  rw [star_eq_conjTranspose] at h ⊢
  rw [onFirst_conjTranspose, onFirst_mul, h, onFirst_one]

theorem ctlAll_unitary (f : Fin c → Matrix (Fin t) (Fin t) ℂ) (h : ∀ k, f k ∈ unitaryGroup (Fin t) ℂ) :
    ctlAll f ∈ unitaryGroup (Fin (c * t)) ℂ := by
  rw [mem_unitaryGroup_iff, star_eq_conjTranspose, ctlAll_conjTranspose, ctlAll_mul, ← ctlAll_one]
  congr 1
  funext k
  have := (mem_unitaryGroup_iff).1 (h k)
  rwa [star_eq_conjTranspose] at this

/-! ### action on basis vectors -/

/-- basis vector -/
def ev {n : Nat} (x : Fin n) : Fin n → ℂ := Pi.single x 1

theorem mulVec_ev {n : Nat} (M : Matrix (Fin n) (Fin n) ℂ) (x y : Fin n) : (M *ᵥ ev x) y = M y x := by
  unfold ev
  rw [Matrix.mulVec_single_one]
  rfl

theorem ev_apply {n : Nat} (x y : Fin n) : ev x y = if y = x then 1 else 0 := by
  unfold ev
  rw [Pi.single_apply]

theorem ext_ev {n : Nat} {M N : Matrix (Fin n) (Fin n) ℂ} (h : ∀ x, M *ᵥ ev x = N *ᵥ ev x) : M = N := by
  ext i j
  rw [← mulVec_ev M, h, mulVec_ev]

theorem vec_ext {v w : Fin (c * t) → ℂ} (h : ∀ k l, v (jn k l) = w (jn k l)) : v = w := by
  funext x
  obtain ⟨k, l, rfl⟩ := jn_surj x
  exact h k l

section two
variable {n : Nat} {a b : Fin n} (M : Matrix (Fin 2) (Fin 2) ℂ)

theorem twoLevel_fst (hab : a ≠ b) : twoLevel a b M *ᵥ ev a = M 0 0 • ev a + M 1 0 • ev b := by
  funext y
  rw [mulVec_ev]
  simp only [Pi.add_apply, Pi.smul_apply, ev_apply, smul_eq_mul, twoLevel]
  by_cases ha : y = a
  · subst ha; simp [hab]
  · by_cases hb : y = b
    · subst hb; simp [ha]
    · simp [ha, hb]

theorem twoLevel_snd (hab : a ≠ b) : twoLevel a b M *ᵥ ev b = M 0 1 • ev a + M 1 1 • ev b := by
  funext y
  rw [mulVec_ev]
  simp only [Pi.add_apply, Pi.smul_apply, ev_apply, smul_eq_mul, twoLevel]
  by_cases ha : y = a
  · subst ha; simp [hab, hab.symm]
  · by_cases hb : y = b
    · subst hb; simp [ha]
    · simp [ha, hb]

theorem twoLevel_oth {x : Fin n} (ha : x ≠ a) (hb : x ≠ b) : twoLevel a b M *ᵥ ev x = ev x := by
  funext y
  rw [mulVec_ev]
  simp only [ev_apply, twoLevel]
  by_cases h1 : y = a
  · subst h1; simp [ha, hb, Ne.symm ha]
  · by_cases h2 : y = b
    · subst h2; simp [ha, hb, Ne.symm hb, h1]
    · simp [h1, h2]

/-- two-level operators on levels that a unitary matrix exchanges -/
theorem twoLevel_conj {a' b' : Fin n} (hab : a ≠ b) (hab' : a' ≠ b') (Q : Matrix (Fin n) (Fin n) ℂ) (hQ : Q ∈ unitaryGroup (Fin n) ℂ) (s : ℂ)
    (ha : Q *ᵥ ev a = s • ev a') (hb : Q *ᵥ ev b = s • ev b') :
    Qᴴ * twoLevel a' b' M * Q = twoLevel a b M := by
  have hU : Qᴴ * Q = 1 := by rw [← star_eq_conjTranspose]; exact (mem_unitaryGroup_iff').1 hQ
  have hU' : Q * Qᴴ = 1 := by rw [← star_eq_conjTranspose]; exact (mem_unitaryGroup_iff).1 hQ
  suffices h : twoLevel a' b' M * Q = Q * twoLevel a b M by
    rw [mul_assoc, h, ← mul_assoc, hU, one_mul]
  -- entries of the columns
  have ca : ∀ y, Q y a = s * (if y = a' then 1 else 0) := fun y => by rw [← mulVec_ev Q, ha]; simp [ev_apply]
  have cb : ∀ y, Q y b = s * (if y = b' then 1 else 0) := fun y => by rw [← mulVec_ev Q, hb]; simp [ev_apply]
  have ss : star s * s = 1 := by
    have := congrFun (congrFun hU a) a
    rw [Matrix.mul_apply, Finset.sum_eq_single a'] at this
    · rw [conjTranspose_apply, ca, if_pos rfl, mul_one, Matrix.one_apply_eq] at this
      exact this
    · intro y _ hy
      rw [ca, if_neg hy, mul_zero, mul_zero]
    · intro h; exact absurd (Finset.mem_univ _) h
  have hs : s ≠ 0 := by rintro rfl; simp at ss
  -- entries of the rows
  have ra : ∀ x, x ≠ a → Q a' x = 0 := by
    intro x hx
    have := congrFun (congrFun hU a) x
    rw [Matrix.mul_apply, Finset.sum_eq_single a'] at this
    · rw [conjTranspose_apply, ca, if_pos rfl, mul_one, Matrix.one_apply_ne (Ne.symm hx)] at this
      exact (mul_eq_zero.1 this).resolve_left (by simpa using hs)
    · intro y _ hy
      rw [conjTranspose_apply, ca, if_neg hy, mul_zero, star_zero, zero_mul]
    · intro h; exact absurd (Finset.mem_univ _) h
  have rb : ∀ x, x ≠ b → Q b' x = 0 := by
    intro x hx
    have := congrFun (congrFun hU b) x
    rw [Matrix.mul_apply, Finset.sum_eq_single b'] at this
    · rw [conjTranspose_apply, cb, if_pos rfl, mul_one, Matrix.one_apply_ne (Ne.symm hx)] at this
      exact (mul_eq_zero.1 this).resolve_left (by simpa using hs)
    · intro y _ hy
      rw [conjTranspose_apply, cb, if_neg hy, mul_zero, star_zero, zero_mul]
    · intro h; exact absurd (Finset.mem_univ _) h
  apply ext_ev
  intro x
  rw [← mulVec_mulVec, ← mulVec_mulVec]
  by_cases hxa : x = a
  · subst hxa
    rw [ha, mulVec_smul, twoLevel_fst M hab', twoLevel_fst M hab, mulVec_add, mulVec_smul, mulVec_smul, ha, hb]
    simp only [smul_add, smul_smul, mul_comm]
  · by_cases hxb : x = b
    · subst hxb
      rw [hb, mulVec_smul, twoLevel_snd M hab', twoLevel_snd M hab, mulVec_add, mulVec_smul, mulVec_smul, ha, hb]
      simp only [smul_add, smul_smul, mul_comm]
    · rw [twoLevel_oth M hxa hxb]
      funext y
      rw [mulVec_mulVec, mulVec_ev, mulVec_ev]
      by_cases h1 : y = a'
      · subst h1
        rw [twoLevel_mul_fst M hab', ra x hxa, rb x hxb]; simp
      · by_cases h2 : y = b'
        · subst h2
          rw [twoLevel_mul_snd M hab', ra x hxa, rb x hxb]; simp
        · rw [twoLevel_mul_other M _ _ _ h1 h2]

end two

section act
variable {a b : Fin c} {a' b' : Fin t} (M : Matrix (Fin 2) (Fin 2) ℂ)

theorem onFirst_ev (A : Matrix (Fin c) (Fin c) ℂ) (k : Fin c) (l : Fin t) (f : Fin c → ℂ) (h : A *ᵥ ev k = f) :
    onFirst t A *ᵥ ev (jn k l) = fun x => if x.modNat = l then f x.divNat else 0 := by
  refine vec_ext fun k' l' => ?_
  rw [mulVec_ev, onFirst_jn, jn_div, jn_mod, ← h, mulVec_ev]

theorem onSecond_ev (A : Matrix (Fin t) (Fin t) ℂ) (k : Fin c) (l : Fin t) (f : Fin t → ℂ) (h : A *ᵥ ev l = f) :
    onSecond c A *ᵥ ev (jn k l) = fun x => if x.divNat = k then f x.modNat else 0 := by
  refine vec_ext fun k' l' => ?_
  rw [mulVec_ev, onSecond_eq, ctlAll_jn, jn_div, jn_mod, ← h, mulVec_ev]

theorem ev_jn (k k' : Fin c) (l l' : Fin t) : ev (jn k l) (jn k' l') = if k' = k ∧ l' = l then 1 else 0 := by
  rw [ev_apply]; simp only [jn_inj]

theorem first_fst (hab : a ≠ b) (l : Fin t) : onFirst t (twoLevel a b M) *ᵥ ev (jn a l) = M 0 0 • ev (jn a l) + M 1 0 • ev (jn b l) := by
  rw [onFirst_ev _ _ _ _ (twoLevel_fst M hab)]
  refine vec_ext fun k' l' => ?_
  simp only [jn_div, jn_mod, Pi.add_apply, Pi.smul_apply, ev_jn, ev_apply]
  by_cases h : l' = l <;> simp [h, jn_inj]

theorem first_snd (hab : a ≠ b) (l : Fin t) : onFirst t (twoLevel a b M) *ᵥ ev (jn b l) = M 0 1 • ev (jn a l) + M 1 1 • ev (jn b l) := by
  rw [onFirst_ev _ _ _ _ (twoLevel_snd M hab)]
  refine vec_ext fun k' l' => ?_
  simp only [jn_div, jn_mod, Pi.add_apply, Pi.smul_apply, ev_jn, ev_apply]
  by_cases h : l' = l <;> simp [h, jn_inj]

theorem first_oth {k : Fin c} (ha : k ≠ a) (hb : k ≠ b) (l : Fin t) : onFirst t (twoLevel a b M) *ᵥ ev (jn k l) = ev (jn k l) := by
  rw [onFirst_ev _ _ _ _ (twoLevel_oth M ha hb)]
  refine vec_ext fun k' l' => ?_
  simp only [jn_div, jn_mod, ev_jn, ev_apply]
  by_cases h : l' = l <;> simp [h, jn_inj]

theorem second_fst (hab : a' ≠ b') (k : Fin c) :
    onSecond c (twoLevel a' b' M) *ᵥ ev (jn k a') = M 0 0 • ev (jn k a') + M 1 0 • ev (jn k b') := by
  rw [onSecond_ev _ _ _ _ (twoLevel_fst M hab)]
  refine vec_ext fun k' l' => ?_
  simp only [jn_div, jn_mod, Pi.add_apply, Pi.smul_apply, ev_jn, ev_apply]
  by_cases h : k' = k <;> simp [h, jn_inj]

theorem second_snd (hab : a' ≠ b') (k : Fin c) :
    onSecond c (twoLevel a' b' M) *ᵥ ev (jn k b') = M 0 1 • ev (jn k a') + M 1 1 • ev (jn k b') := by
  rw [onSecond_ev _ _ _ _ (twoLevel_snd M hab)]
  refine vec_ext fun k' l' => ?_
  simp only [jn_div, jn_mod, Pi.add_apply, Pi.smul_apply, ev_jn, ev_apply]
  by_cases h : k' = k <;> simp [h, jn_inj]

theorem second_oth {l : Fin t} (ha : l ≠ a') (hb : l ≠ b') (k : Fin c) :
    onSecond c (twoLevel a' b' M) *ᵥ ev (jn k l) = ev (jn k l) := by
  rw [onSecond_ev _ _ _ _ (twoLevel_oth M ha hb)]
  refine vec_ext fun k' l' => ?_
  simp only [jn_div, jn_mod, ev_jn, ev_apply]
  by_cases h : k' = k <;> simp [h, jn_inj]

/-- a two-level operator on the second line at one level of the first is a two-level operator on the pair -/
theorem ctl_twoLevel (k : Fin c) (hab : a' ≠ b') :
    ctlAll (fun i => if i = k then twoLevel a' b' M else 1) = twoLevel (jn k a') (jn k b') M := by
  refine pair_ext fun i l i' l' => ?_
  rw [ctlAll_jn]
  by_cases hi : i = i'
  · subst hi
    rw [if_pos rfl]
    by_cases hk : i = k
    · subst hk
      rw [if_pos rfl]
      simp only [twoLevel, jn_inj, true_and]
    · rw [if_neg hk, Matrix.one_apply]
      simp only [twoLevel, jn_inj, hk, false_and, if_false, true_and]
  · rw [if_neg hi]
    simp only [twoLevel, jn_inj]
    split_ifs <;> simp_all

end act

end Qudits.EntQR
