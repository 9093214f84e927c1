import Verif.Spec.Space
import Mathlib.Logic.Equiv.Fintype
import Mathlib.Algebra.BigOperators.Ring.Finset
import Mathlib.LinearAlgebra.UnitaryGroup

set_option linter.unusedSectionVars false

namespace Qudits.Spec
open Matrix

variable {ι : Type} [Fintype ι] [DecidableEq ι] {X : ι → Type}
  [∀ i, Fintype (X i)] [∀ i, DecidableEq (X i)] {α : Type}

/-- glue levels on `S` (from `w`) with levels elsewhere (from `x`) -/
def glue (S : Finset ι) (w : SubLv X S) (x : Lv X) : Lv X :=
  fun i => if h : i ∈ S then w ⟨i, h⟩ else x i

theorem restr_glue (S : Finset ι) (w : SubLv X S) (x : Lv X) : restr S (glue S w x) = w := by
  funext i; simp [restr, glue]

theorem glue_restr_of_agree (S : Finset ι) (x z : Lv X) (h : ∀ i, i ∉ S → x i = z i) :
    glue S (restr S z) x = z := by
  funext i
  by_cases hi : i ∈ S
  · simp [glue, hi, restr]
  · simp [glue, hi, h i hi]

theorem glue_off (S : Finset ι) (w : SubLv X S) (x : Lv X) (i : ι) (h : i ∉ S) :
    glue S w x i = x i := by simp [glue, h]

theorem glue_injective (S : Finset ι) (x : Lv X) : Function.Injective fun w => glue S w x := by
  intro a b h
  have := congrArg (restr S) h
  simpa [restr_glue] using this

/-- a sum over all states agreeing with `x` off `S` is a sum over levels on `S` -/
theorem sum_agree [AddCommMonoid α] (S : Finset ι) (x : Lv X) (f : Lv X → α) :
    ∑ z, (if ∀ i, i ∉ S → x i = z i then f z else 0) = ∑ w : SubLv X S, f (glue S w x) := by
  rw [← Finset.sum_filter]
  symm
  refine Finset.sum_bij (fun w _ => glue S w x) ?_ ?_ ?_ ?_
  · intro w _
    simp only [Finset.mem_filter, Finset.mem_univ, true_and]
    intro i hi; exact (glue_off S w x i hi).symm
  · intro a _ b _ h; exact glue_injective S x h
  · intro z hz
    simp only [Finset.mem_filter, Finset.mem_univ, true_and] at hz
    exact ⟨restr S z, Finset.mem_univ _, glue_restr_of_agree S x z hz⟩
  · intro w _; rfl

theorem embed_one [Zero α] [One α] (S : Finset ι) :
    embed S (1 : Matrix (SubLv X S) (SubLv X S) α) = 1 := by
  ext x y
  simp only [embed, Matrix.one_apply]
  by_cases hxy : x = y
  · subst hxy; simp
  · rw [if_neg hxy]
    split
    · rename_i h
      rw [if_neg]
      intro e
      apply hxy
      funext i
      by_cases hi : i ∈ S
      · exact congrFun e ⟨i, hi⟩
      · exact h i hi
    · rfl

theorem embed_mul [NonUnitalNonAssocSemiring α] (S : Finset ι) (a b : Matrix (SubLv X S) (SubLv X S) α) :
    embed S a * embed S b = embed S (a * b) := by
  ext x y
  simp only [Matrix.mul_apply, embed]
  have e : ∀ z, (if ∀ i, i ∉ S → x i = z i then a (restr S x) (restr S z) else 0) *
      (if ∀ i, i ∉ S → z i = y i then b (restr S z) (restr S y) else 0) =
      (if ∀ i, i ∉ S → x i = z i then (a (restr S x) (restr S z) *
      (if ∀ i, i ∉ S → z i = y i then b (restr S z) (restr S y) else 0)) else 0) := by
    intro z; split <;> simp
  rw [Finset.sum_congr rfl fun z _ => e z, sum_agree S x]
  by_cases hxy : ∀ i, i ∉ S → x i = y i
  · rw [if_pos hxy]
    refine Finset.sum_congr rfl fun w _ => ?_
    rw [restr_glue, if_pos]
    intro i hi; rw [glue_off S w x i hi, hxy i hi]
  · rw [if_neg hxy]
    refine Finset.sum_eq_zero fun w _ => ?_
    rw [if_neg, mul_zero]
    intro h; apply hxy
    intro i hi; rw [← h i hi, glue_off S w x i hi]

theorem embed_conjTranspose [AddMonoid α] [StarAddMonoid α] (S : Finset ι)
    (a : Matrix (SubLv X S) (SubLv X S) α) : (embed S a)ᴴ = embed S aᴴ := by
  ext x y
  simp only [Matrix.conjTranspose_apply, embed]
  by_cases h : ∀ i, i ∉ S → x i = y i
  · rw [if_pos h, if_pos (fun i hi => (h i hi).symm)]
  · rw [if_neg h, if_neg (fun g => h fun i hi => (g i hi).symm), star_zero]

theorem embed_mul_disjoint [NonUnitalNonAssocSemiring α] (S T : Finset ι) (hST : Disjoint S T)
    (a : Matrix (SubLv X S) (SubLv X S) α) (b : Matrix (SubLv X T) (SubLv X T) α) (x y : Lv X) :
    (embed S a * embed T b) x y =
      if ∀ i, i ∉ S → i ∉ T → x i = y i then
        a (restr S x) (restr S y) * b (restr T x) (restr T y) else 0 := by
  simp only [Matrix.mul_apply, embed]
  have hT : ∀ i, i ∈ T → i ∉ S := fun i hi h => Finset.disjoint_left.1 hST h hi
  rw [Finset.sum_eq_single (glue S (restr S y) x)]
  · have e1 : restr T (glue S (restr S y) x) = restr T x := by
      funext i; exact glue_off S _ x i (hT i i.2)
    rw [restr_glue, e1, if_pos (fun i hi => (glue_off S _ x i hi).symm)]
    by_cases h : ∀ i, i ∉ S → i ∉ T → x i = y i
    · rw [if_pos h, if_pos]
      intro i hi
      by_cases hs : i ∈ S
      · simp [glue, hs, restr]
      · rw [glue_off S _ x i hs]; exact h i hs hi
    · rw [if_neg h, if_neg, mul_zero]
      intro g; apply h
      intro i hs ht
      rw [← g i ht, glue_off S _ x i hs]
  · intro z _ hz
    by_cases h1 : ∀ i, i ∉ S → x i = z i
    · rw [if_pos h1]
      rw [if_neg, mul_zero]
      intro h2
      apply hz
      funext i
      by_cases hs : i ∈ S
      · have : i ∉ T := Finset.disjoint_left.1 hST hs
        rw [h2 i this]; simp [glue, hs, restr]
      · rw [glue_off S _ x i hs, h1 i hs]
    · rw [if_neg h1, zero_mul]
  · intro h; exact absurd (Finset.mem_univ _) h

/-- Operators on disjoint sets of lines commute. -/
theorem embed_commute [NonUnitalNonAssocCommSemiring α] (S T : Finset ι) (hST : Disjoint S T)
    (a : Matrix (SubLv X S) (SubLv X S) α) (b : Matrix (SubLv X T) (SubLv X T) α) :
    embed S a * embed T b = embed T b * embed S a := by
  ext x y
  rw [embed_mul_disjoint S T hST, embed_mul_disjoint T S hST.symm]
  by_cases h : ∀ i, i ∉ S → i ∉ T → x i = y i
  · rw [if_pos h, if_pos (fun i hi hj => h i hj hi), mul_comm]
  · rw [if_neg h, if_neg (fun g => h fun i hi hj => g i hj hi)]

theorem embed_mem_unitary [CommRing α] [StarRing α] (S : Finset ι)
    (a : Matrix (SubLv X S) (SubLv X S) α) (h : a ∈ unitaryGroup (SubLv X S) α) :
    embed S a ∈ unitaryGroup (Lv X) α := by
  rw [mem_unitaryGroup_iff] at h ⊢
  rw [star_eq_conjTranspose, embed_conjTranspose, embed_mul, ← star_eq_conjTranspose, h, embed_one]

/-- `embed1` is `embed` on a singleton. -/
theorem embed1_eq_embed [Zero α] (q : ι) (m : Matrix (X q) (X q) α) :
    embed1 (X := X) q m =
      embed {q} (m.submatrix (fun x => x ⟨q, Finset.mem_singleton_self q⟩)
        (fun y => y ⟨q, Finset.mem_singleton_self q⟩)) := by
  ext x y
  simp only [embed1, embed, Finset.mem_singleton, restr, ne_eq, Matrix.submatrix_apply]

theorem embed1_one [Zero α] [One α] (q : ι) : embed1 (X := X) q (1 : Matrix (X q) (X q) α) = 1 := by
  ext x y
  simp only [embed1, Matrix.one_apply]
  by_cases hxy : x = y
  · subst hxy; simp
  · rw [if_neg hxy]
    split
    · rename_i h
      rw [if_neg]
      intro e
      apply hxy
      funext i
      by_cases hi : i = q
      · subst hi; exact e
      · exact h i hi
    · rfl

theorem embed1_mul [NonUnitalNonAssocSemiring α] (q : ι) (a b : Matrix (X q) (X q) α) :
    embed1 (X := X) q a * embed1 q b = embed1 q (a * b) := by
  rw [embed1_eq_embed, embed1_eq_embed, embed1_eq_embed, embed_mul]
  congr 1
  ext x y
  simp only [Matrix.mul_apply, Matrix.submatrix_apply]
  let e : SubLv X {q} ≃ X q :=
    { toFun := fun w => w ⟨q, Finset.mem_singleton_self q⟩
      invFun := fun v i => cast (congrArg X (Finset.mem_singleton.1 i.2).symm) v
      left_inv := by
        intro w; funext ⟨i, hi⟩
        have := Finset.mem_singleton.1 hi
        subst this; rfl
      right_inv := by intro v; rfl }
  exact Fintype.sum_equiv e _ _ (fun w => rfl)

theorem embed1_conjTranspose [AddMonoid α] [StarAddMonoid α] (q : ι) (a : Matrix (X q) (X q) α) :
    (embed1 (X := X) q a)ᴴ = embed1 q aᴴ := by
  rw [embed1_eq_embed, embed1_eq_embed, embed_conjTranspose]; rfl

theorem embed1_commute_embed [NonUnitalNonAssocCommSemiring α] (q : ι) (T : Finset ι) (h : q ∉ T)
    (a : Matrix (X q) (X q) α) (b : Matrix (SubLv X T) (SubLv X T) α) :
    embed1 q a * embed T b = embed T b * embed1 q a := by
  rw [embed1_eq_embed]
  exact embed_commute _ _ (Finset.disjoint_singleton_left.2 h) _ _

theorem embed1_commute [NonUnitalNonAssocCommSemiring α] (p q : ι) (h : p ≠ q)
    (a : Matrix (X p) (X p) α) (b : Matrix (X q) (X q) α) :
    embed1 (X := X) p a * embed1 q b = embed1 q b * embed1 p a := by
  rw [embed1_eq_embed q]
  exact embed1_commute_embed p {q} (by simpa using h) a _

theorem embed1_mem_unitary [CommRing α] [StarRing α] (q : ι) (a : Matrix (X q) (X q) α)
    (h : a ∈ unitaryGroup (X q) α) : embed1 (X := X) q a ∈ unitaryGroup (Lv X) α := by
  rw [mem_unitaryGroup_iff] at h ⊢
  rw [star_eq_conjTranspose, embed1_conjTranspose, embed1_mul, ← star_eq_conjTranspose, h, embed1_one]

/-! ### controlled operators -/

/-- The operator never changes the levels of the lines in `C`. -/
def Keeps [Zero α] (C : Finset ι) (A : Matrix (Lv X) (Lv X) α) : Prop :=
  ∀ x y, A x y ≠ 0 → ∀ i ∈ C, x i = y i

theorem keeps_embed1 [Zero α] (C : Finset ι) (t : ι) (h : t ∉ C) (m : Matrix (X t) (X t) α) :
    Keeps C (embed1 (X := X) t m) := by
  intro x y hne i hi
  by_contra hc
  apply hne
  simp only [embed1]
  rw [if_neg]
  intro hall
  exact hc (hall i (fun e => h (e ▸ hi)))

theorem controlled_mul [Semiring α] (C : Finset ι) (lev : Lv X) (A B : Matrix (Lv X) (Lv X) α)
    (hB : Keeps C B) : controlled C lev A * controlled C lev B = controlled C lev (A * B) := by
  ext x y
  simp only [Matrix.mul_apply, controlled]
  by_cases hy : ∀ i ∈ C, y i = lev i
  · simp only [if_pos hy]
    refine Finset.sum_congr rfl fun z _ => ?_
    by_cases hz : B z y = 0
    · rw [hz, mul_zero, mul_zero]
    · have : ∀ i ∈ C, z i = lev i := fun i hi => by rw [hB z y hz i hi, hy i hi]
      rw [if_pos this]
  · simp only [if_neg hy]
    rw [Finset.sum_eq_single y]
    · rw [if_neg hy]; simp
    · intro z _ hz; rw [if_neg (c := z = y) hz, mul_zero]
    · intro h; exact absurd (Finset.mem_univ _) h

theorem controlled_one [Semiring α] (C : Finset ι) (lev : Lv X) :
    controlled C lev (1 : Matrix (Lv X) (Lv X) α) = 1 := by
  ext x y
  simp only [controlled, Matrix.one_apply, ite_self]

theorem controlled_conjTranspose [Semiring α] [StarRing α] (C : Finset ι) (lev : Lv X)
    (A : Matrix (Lv X) (Lv X) α) (hA : Keeps C A) :
    (controlled C lev A)ᴴ = controlled C lev Aᴴ := by
  ext x y
  simp only [Matrix.conjTranspose_apply, controlled]
  by_cases hxy : x = y
  · subst hxy
    by_cases h : ∀ i ∈ C, x i = lev i
    · rw [if_pos h, if_pos h]
    · rw [if_neg h, if_neg h]; simp
  · rw [if_neg (Ne.symm hxy), if_neg hxy]
    by_cases h0 : A y x = 0
    · simp [h0]
    · have h := hA y x h0
      by_cases hx : ∀ i ∈ C, x i = lev i
      · rw [if_pos hx, if_pos (fun i hi => by rw [h i hi, hx i hi])]
      · rw [if_neg hx, if_neg (fun hy => hx fun i hi => by rw [← h i hi, hy i hi])]; simp

theorem controlled_mem_unitary [CommRing α] [StarRing α] (C : Finset ι) (lev : Lv X) (t : ι) (ht : t ∉ C)
    (m : Matrix (X t) (X t) α) (h : m ∈ unitaryGroup (X t) α) :
    controlled C lev (embed1 t m) ∈ unitaryGroup (Lv X) α := by
  rw [mem_unitaryGroup_iff] at h ⊢
  rw [star_eq_conjTranspose, controlled_conjTranspose _ _ _ (keeps_embed1 C t ht m), embed1_conjTranspose,
    controlled_mul _ _ _ _ (keeps_embed1 C t ht _), embed1_mul, ← star_eq_conjTranspose, h, embed1_one,
    controlled_one]

end Qudits.Spec
