import Verif.Spec.ComplexNumSpec
import Verif.Props.ComplexTableProps
import Mathlib.Tactic.LinearCombination
/-
C77: complex numbers of the decision-diagram package.
-/
namespace Qudits.DD

section

variable {α : Type} [Field α] [LinearOrder α] [IsStrictOrderedRing α]
variable {P : CParams α} {n : CNums α}

theorem set_written {r : Nat × Nat} (hr : r.1 ≠ r.2) (x y : α) : Written n ((n.set r.1 x).set r.2 y) r x y := by
  constructor
  · unfold CNums.set
    simp [hr]
  · unfold CNums.set
    simp
  · rfl
  · intro a h1 h2
    unfold CNums.set
    simp [h1, h2]
  · intro a
    unfold CNums.set
    by_cases h1 : a = r.2
    · subst h1; simp [hr.symm]
    · by_cases h2 : a = r.1
      · subst h2; simp [hr]
      · simp [h1, h2]
  · exact ⟨rfl, rfl, rfl⟩

theorem val_set {r1 : Nat} {x : α} {p : SPtr} (h : p.ptr ≠ .cache r1) : (n.set r1 x).val P p = n.val P p := by
  obtain ⟨s, q⟩ := p
  cases q with
  | table q => rfl
  | cache a =>
    have : a ≠ r1 := by rintro rfl; exact h rfl
    unfold CNums.val CNums.set
    simp [this]

theorem setVal_written {r : Nat × Nat} (hr : r.1 ≠ r.2) {a : Num} (ha : a.ReadableFor r) :
    Written n (n.setVal P r a) r (n.val P a.real) (n.val P a.img) := by
  unfold CNums.setVal
  simp only
  rw [val_set ha]
  exact set_written hr _ _

/-- Addition and subtraction. The target may be one of the operands. -/
theorem C77_add {r : Nat × Nat} (hr : r.1 ≠ r.2) {a b : Num} (ha : a.ReadableFor r) (hb : b.ReadableFor r) :
    Written n (n.add P r a b) r (n.val P a.real + n.val P b.real) (n.val P a.img + n.val P b.img) ∧
    Written n (n.sub P r a b) r (n.val P a.real - n.val P b.real) (n.val P a.img - n.val P b.img) := by
  constructor
  · unfold CNums.add
    simp only
    rw [val_set ha, val_set hb]
    exact set_written hr _ _
  · unfold CNums.sub
    simp only
    rw [val_set ha, val_set hb]
    exact set_written hr _ _

theorem oneish_iff (hP : P.Fits) (a : Num) :
    n.oneish P a = true ↔ |n.val P a.real - 1| ≤ P.tol ∧ |n.val P a.img| ≤ P.tol := by
  unfold CNums.oneish CNums.nearOne CNums.nearZero
  simp only [Bool.and_eq_true, decide_eq_true_eq]
  constructor
  · rintro ⟨h1 | h1 | h1, h2 | h2⟩
    all_goals constructor
    all_goals first
      | assumption
      | (rw [h1]; simp [CNums.val, CTable.val, hP.tol_pos.le]; done)
      | (rw [h2]; simp [CNums.val, CTable.val, hP.tol_pos.le]; done)
  · rintro ⟨h1, h2⟩
    exact ⟨Or.inr (Or.inr h1), Or.inr h2⟩

theorem zeroish_iff (hP : P.Fits) (a : Num) :
    n.zeroish P a = true ↔ |n.val P a.real| ≤ P.tol ∧ |n.val P a.img| ≤ P.tol := by
  unfold CNums.zeroish CNums.nearZero
  simp only [Bool.and_eq_true, decide_eq_true_eq]
  constructor
  · rintro ⟨h1 | h1, h2 | h2⟩
    all_goals constructor
    all_goals first
      | assumption
      | (rw [h1]; simp [CNums.val, CTable.val, hP.tol_pos.le]; done)
      | (rw [h2]; simp [CNums.val, CTable.val, hP.tol_pos.le]; done)
  · rintro ⟨h1, h2⟩
    exact ⟨Or.inr h1, Or.inr h2⟩

theorem equalish_iff (hP : P.Fits) (a b : Num) :
    n.equalish P a b = true ↔ |n.val P a.real - n.val P b.real| ≤ P.tol ∧ |n.val P a.img - n.val P b.img| ≤ P.tol := by
  unfold CNums.equalish CNums.nearEq
  simp only [Bool.and_eq_true, decide_eq_true_eq]
  constructor
  · rintro ⟨h1 | h1 | h1, h2 | h2 | h2⟩
    all_goals constructor
    all_goals first
      | assumption
      | (rw [h1]; simp [hP.tol_pos.le]; done)
      | (rw [h2]; simp [hP.tol_pos.le]; done)
  · rintro ⟨h1, h2⟩
    exact ⟨Or.inr (Or.inr h1), Or.inr (Or.inr h2)⟩

theorem two_products {t x y u v : α} (hu : |u| ≤ t) (hv : |v| ≤ t) : |u * x - v * y| ≤ t * (|x| + |y|) := by
  calc |u * x - v * y| ≤ |u * x| + |v * y| := abs_sub _ _
    _ = |u| * |x| + |v| * |y| := by rw [abs_mul, abs_mul]
    _ ≤ t * |x| + t * |y| := add_le_add (mul_le_mul_of_nonneg_right hu (abs_nonneg _)) (mul_le_mul_of_nonneg_right hv (abs_nonneg _))
    _ = t * (|x| + |y|) := by ring

theorem two_products' {t x y u v : α} (hu : |u| ≤ t) (hv : |v| ≤ t) : |u * x + v * y| ≤ t * (|x| + |y|) := by
  have := two_products (x := x) (y := -y) hu hv
  rw [abs_neg] at this
  have e : u * x - v * -y = u * x + v * y := by ring
  rwa [e] at this

/-- Multiplication: the product up to the tolerance times the size of the factors, also when the target is one of them. -/
theorem C77_mul (hP : P.Fits) {r : Nat × Nat} (hr : r.1 ≠ r.2) {a b : Num} (ha : a.ReadableFor r) (hb : b.ReadableFor r) :
    ∃ x y, Written n (n.mul P r a b) r x y ∧
      |x - (n.val P a.real * n.val P b.real - n.val P a.img * n.val P b.img)| ≤
        P.tol * (|n.val P a.real| + |n.val P a.img| + |n.val P b.real| + |n.val P b.img|) ∧
      |y - (n.val P a.real * n.val P b.img + n.val P a.img * n.val P b.real)| ≤
        P.tol * (|n.val P a.real| + |n.val P a.img| + |n.val P b.real| + |n.val P b.img|) := by
  have ht := hP.tol_pos.le
  generalize har : n.val P a.real = ar
  generalize hai : n.val P a.img = ai
  generalize hbr : n.val P b.real = br
  generalize hbi : n.val P b.img = bi
  have pa : 0 ≤ P.tol * (|ar| + |ai|) := mul_nonneg ht (add_nonneg (abs_nonneg _) (abs_nonneg _))
  have pb : 0 ≤ P.tol * (|br| + |bi|) := mul_nonneg ht (add_nonneg (abs_nonneg _) (abs_nonneg _))
  have e : P.tol * (|ar| + |ai| + |br| + |bi|) = P.tol * (|ar| + |ai|) + P.tol * (|br| + |bi|) := by ring
  rw [e]
  unfold CNums.mul
  by_cases h1 : n.oneish P a = true
  · rw [if_pos h1]
    obtain ⟨o1, o2⟩ := (oneish_iff hP a).1 h1
    rw [har] at o1
    rw [hai] at o2
    refine ⟨br, bi, ?_, ?_, ?_⟩
    · have := setVal_written (P := P) (n := n) hr hb
      rwa [hbr, hbi] at this
    · have := two_products (x := br) (y := bi) o1 o2
      rw [abs_sub_comm]
      have e2 : ar * br - ai * bi - br = (ar - 1) * br - ai * bi := by ring
      rw [e2]
      linarith
    · have := two_products' (x := bi) (y := br) o1 o2
      rw [abs_sub_comm]
      have e2 : ar * bi + ai * br - bi = (ar - 1) * bi + ai * br := by ring
      rw [e2]
      linarith
  rw [if_neg h1]
  by_cases h2 : n.oneish P b = true
  · rw [if_pos h2]
    obtain ⟨o1, o2⟩ := (oneish_iff hP b).1 h2
    rw [hbr] at o1
    rw [hbi] at o2
    refine ⟨ar, ai, ?_, ?_, ?_⟩
    · have := setVal_written (P := P) (n := n) hr ha
      rwa [har, hai] at this
    · have := two_products (x := ar) (y := ai) o1 o2
      rw [abs_sub_comm]
      have e2 : ar * br - ai * bi - ar = (br - 1) * ar - bi * ai := by ring
      rw [e2]
      linarith
    · have := two_products' (x := ai) (y := ar) o1 o2
      rw [abs_sub_comm]
      have e2 : ar * bi + ai * br - ai = (br - 1) * ai + bi * ar := by ring
      rw [e2]
      linarith
  rw [if_neg h2]
  by_cases h3 : (n.zeroish P a || n.zeroish P b) = true
  · rw [if_pos h3]
    refine ⟨0, 0, set_written hr 0 0, ?_, ?_⟩
    all_goals
      rw [zero_sub, abs_neg]
      rcases Bool.or_eq_true_iff.1 h3 with h3 | h3
    · obtain ⟨o1, o2⟩ := (zeroish_iff hP a).1 h3
      rw [har] at o1
      rw [hai] at o2
      linarith [two_products (x := br) (y := bi) o1 o2]
    · obtain ⟨o1, o2⟩ := (zeroish_iff hP b).1 h3
      rw [hbr] at o1
      rw [hbi] at o2
      have := two_products (x := ar) (y := ai) o1 o2
      rw [mul_comm ar, mul_comm ai]
      linarith
    · obtain ⟨o1, o2⟩ := (zeroish_iff hP a).1 h3
      rw [har] at o1
      rw [hai] at o2
      linarith [two_products' (x := bi) (y := br) o1 o2]
    · obtain ⟨o1, o2⟩ := (zeroish_iff hP b).1 h3
      rw [hbr] at o1
      rw [hbi] at o2
      have := two_products' (x := ai) (y := ar) o1 o2
      have e2 : ar * bi + ai * br = br * ai + bi * ar := by ring
      rw [e2]
      linarith
  · rw [if_neg h3]
    refine ⟨_, _, set_written hr _ _, ?_, ?_⟩
    · rw [har, hai, hbr, hbi, sub_self, abs_zero]; linarith
    · rw [har, hai, hbr, hbi, sub_self, abs_zero]; linarith

/-- Division: what comes out, times the divisor, is the dividend up to the tolerance. The result is not a number exactly when the
divisor is 0 and the dividend is not within the tolerance of it. -/
theorem C77_div (hP : P.Fits) {r : Nat × Nat} (hr : r.1 ≠ r.2) {a b : Num} (ha : a.ReadableFor r) :
    (n.div P r a b = none ↔ (n.val P b.real = 0 ∧ n.val P b.img = 0) ∧ ¬ (|n.val P a.real| ≤ P.tol ∧ |n.val P a.img| ≤ P.tol)) ∧
    ∀ n', n.div P r a b = some n' → ∃ x y, Written n n' r x y ∧
      |x * n.val P b.real - y * n.val P b.img - n.val P a.real| ≤ P.tol * (1 + |n.val P a.real| + |n.val P a.img|) ∧
      |x * n.val P b.img + y * n.val P b.real - n.val P a.img| ≤ P.tol * (1 + |n.val P a.real| + |n.val P a.img|) := by
  have ht := hP.tol_pos.le
  have htpos := hP.tol_pos
  have htone : P.tol < 1 := by linarith [hP.sqrt_pos, hP.sqrt_lt]
  generalize har : n.val P a.real = ar
  generalize hai : n.val P a.img = ai
  generalize hbr : n.val P b.real = br
  generalize hbi : n.val P b.img = bi
  have pa : 0 ≤ P.tol * (|ar| + |ai|) := mul_nonneg ht (add_nonneg (abs_nonneg _) (abs_nonneg _))
  have e : P.tol * (1 + |ar| + |ai|) = P.tol + P.tol * (|ar| + |ai|) := by ring
  rw [e]
  unfold CNums.div
  by_cases h1 : n.equalish P a b = true
  · rw [if_pos h1]
    obtain ⟨o1, o2⟩ := (equalish_iff hP a b).1 h1
    rw [har, hbr] at o1
    rw [hai, hbi] at o2
    constructor
    · constructor
      · intro h; cases h
      · rintro ⟨⟨rfl, rfl⟩, hn⟩
        rw [sub_zero] at o1 o2
        exact absurd ⟨o1, o2⟩ hn
    · intro n' hn
      cases hn
      refine ⟨1, 0, set_written hr _ _, ?_, ?_⟩
      · rw [one_mul, zero_mul, sub_zero, abs_sub_comm]; linarith
      · rw [one_mul, zero_mul, add_zero, abs_sub_comm]; linarith
  rw [if_neg h1]
  by_cases h2 : n.oneish P b = true
  · rw [if_pos h2]
    obtain ⟨o1, o2⟩ := (oneish_iff hP b).1 h2
    rw [hbr] at o1
    rw [hbi] at o2
    constructor
    · constructor
      · intro h; cases h
      · rintro ⟨⟨rfl, rfl⟩, hn⟩
        rw [zero_sub, abs_neg, abs_one] at o1
        linarith
    · intro n' hn
      cases hn
      refine ⟨ar, ai, ?_, ?_, ?_⟩
      · have := setVal_written (P := P) (n := n) hr ha
        rwa [har, hai] at this
      · have := two_products (x := ar) (y := ai) o1 o2
        have e2 : ar * br - ai * bi - ar = (br - 1) * ar - bi * ai := by ring
        rw [e2]
        linarith
      · have := two_products' (x := ai) (y := ar) o1 o2
        have e2 : ar * bi + ai * br - ai = (br - 1) * ai + bi * ar := by ring
        rw [e2]
        linarith
  rw [if_neg h2]
  simp only [har, hai, hbr, hbi]
  by_cases h3 : br * br + bi * bi = 0
  · rw [if_pos h3]
    obtain ⟨rfl, rfl⟩ : br = 0 ∧ bi = 0 := by
      constructor <;> nlinarith [mul_self_nonneg br, mul_self_nonneg bi, mul_self_eq_zero.1 (le_antisymm (by nlinarith [mul_self_nonneg br, mul_self_nonneg bi]) (mul_self_nonneg br) : br * br = 0)]
    refine ⟨⟨fun _ => ⟨⟨rfl, rfl⟩, ?_⟩, fun _ => rfl⟩, fun n' hn => by cases hn⟩
    intro ho
    apply h1
    rw [equalish_iff hP, har, hai, hbr, hbi, sub_zero, sub_zero]
    exact ho
  · rw [if_neg h3]
    constructor
    · constructor
      · intro h; cases h
      · rintro ⟨⟨rfl, rfl⟩, -⟩
        simp at h3
    · intro n' hn
      cases hn
      refine ⟨_, _, set_written hr _ _, ?_, ?_⟩
      · have e2 : (ar * br + ai * bi) / (br * br + bi * bi) * br - (ai * br - ar * bi) / (br * br + bi * bi) * bi - ar = 0 := by
          rw [div_mul_eq_mul_div, div_mul_eq_mul_div, ← sub_div, sub_eq_zero, div_eq_iff h3]
          ring
        rw [e2, abs_zero]
        linarith
      · have e2 : (ar * br + ai * bi) / (br * br + bi * bi) * bi + (ai * br - ar * bi) / (br * br + bi * bi) * br - ai = 0 := by
          rw [div_mul_eq_mul_div, div_mul_eq_mul_div, ← add_div, sub_eq_zero, div_eq_iff h3]
          ring
        rw [e2, abs_zero]
        linarith

theorem val_flip (p : SPtr) : n.val P p.flip = -n.val P p := by
  unfold CNums.val SPtr.flip
  cases p.neg <;> simp

theorem val_zero : n.val P ⟨false, .table .zero⟩ = 0 := rfl

/-- Conjugation and negation, which change the signs of pointers only. -/
theorem C77_conj_neg (a : Num) :
    n.val P a.conj.real = n.val P a.real ∧ n.val P a.conj.img = -n.val P a.img ∧
    n.val P a.neg.real = -n.val P a.real ∧ n.val P a.neg.img = -n.val P a.img := by
  obtain ⟨p, q⟩ := a
  unfold Num.conj Num.neg Num.zero
  simp only
  by_cases h1 : q = ⟨false, .table .zero⟩ <;> by_cases h2 : p = ⟨false, .table .zero⟩
  · subst h1 h2; simp [val_zero]
  · subst h1; simp [h2, val_zero, val_flip]
  · subst h2; simp [h1, val_zero, val_flip]
  · simp [h1, h2, val_flip]

theorem flip_proper {p : SPtr} (hp : n.Proper P p) (h : p ≠ ⟨false, .table .zero⟩) : n.Proper P p.flip := by
  obtain ⟨q, hq, hv, hn⟩ := hp
  refine ⟨q, hq, hv, ?_⟩
  rintro hf rfl
  obtain ⟨s, r⟩ := p
  cases s with
  | true => exact hn rfl rfl
  | false =>
    simp only at hq
    exact h (by rw [hq])

/-- Conjugation and negation make no negative zeros. -/
theorem C77_conj_neg_proper {a : Num} (h1 : n.Proper P a.real) (h2 : n.Proper P a.img) :
    n.Proper P a.conj.real ∧ n.Proper P a.conj.img ∧ n.Proper P a.neg.real ∧ n.Proper P a.neg.img := by
  obtain ⟨p, q⟩ := a
  unfold Num.conj Num.neg Num.zero
  simp only at h1 h2 ⊢
  by_cases c1 : q = ⟨false, .table .zero⟩ <;> by_cases c2 : p = ⟨false, .table .zero⟩
  · subst c1 c2; simp [h1, h2]
  · subst c1; simp [h1, h2, c2, flip_proper h1 c2]
  · subst c2; simp [h1, h2, c1, flip_proper h2 c1]
  · simp [h1, c1, c2, flip_proper h1 c2, flip_proper h2 c1]

theorem lookupPart_ok (hP : P.Fits) (hs : Run P n.table) (x : α) :
    ∃ p n', n.lookupPart P x = some (p, n') ∧ |n'.val P p - x| ≤ P.tol ∧ n'.cache = n.cache ∧ Run P n'.table ∧
      (x ≠ -P.tol → n'.Proper P p) ∧
      (∀ q, n.table.Valid P q → n'.table.Valid P q ∧ n'.table.val P q = n.table.val P q) := by
  have ht := hP.tol_pos
  unfold CNums.lookupPart
  by_cases hx : x < 0
  · rw [if_pos hx]
    by_cases h1 : |x| < P.tol
    · rw [if_pos h1]
      refine ⟨_, n, rfl, ?_, rfl, hs, fun _ => ⟨.zero, rfl, trivial, by simp⟩, fun q hq => ⟨hq, rfl⟩⟩
      rw [val_zero, zero_sub, abs_neg]
      exact h1.le
    · rw [if_neg h1]
      obtain ⟨p, t, e, hp, hv, hk⟩ := C76_lookup hP hs (abs_nonneg x)
      rw [e]
      refine ⟨_, _, rfl, ?_, rfl, .lookup hs (abs_nonneg x) e, ?_, fun q hq => ⟨(hk q hq).1, (hk q hq).2.1⟩⟩
      · unfold CNums.val SPtr.negative
        simp only [if_true]
        rw [abs_of_neg hx] at hv
        have : -t.val P p - x = -(t.val P p - -x) := by ring
        rw [this, abs_neg]
        exact hv
      · intro hne
        refine ⟨p, rfl, hp, ?_⟩
        rintro - rfl
        have h2 : P.tol < |x| := by
          rcases lt_or_eq_of_le (not_lt.1 h1) with h | h
          · exact h
          · rw [abs_of_neg hx] at h
            exact absurd (by linarith) hne
        unfold CTable.val at hv
        rw [zero_sub, abs_neg, abs_abs] at hv
        exact absurd hv (not_le.2 h2)
  · rw [if_neg hx]
    obtain ⟨p, t, e, hp, hv, hk⟩ := C76_lookup hP hs (not_lt.1 hx)
    rw [e]
    exact ⟨_, _, rfl, hv, rfl, .lookup hs (not_lt.1 hx) e, fun _ => ⟨p, rfl, hp, by simp⟩,
      fun q hq => ⟨(hk q hq).1, (hk q hq).2.1⟩⟩

theorem CNums.Proper.keep {n' : CNums α} {p : SPtr} (hp : n.Proper P p)
    (h : ∀ q, n.table.Valid P q → n'.table.Valid P q ∧ n'.table.val P q = n.table.val P q) :
    n'.Proper P p ∧ n'.val P p = n.val P p := by
  obtain ⟨q, hq, hv, hn⟩ := hp
  refine ⟨⟨q, hq, (h q hv).1, hn⟩, ?_⟩
  unfold CNums.val
  simp only [hq, (h q hv).2]

/-- Looking up a complex number gives pointers to parts that are at most the tolerance away. No number of the table or of the cache
changes. -/
theorem C77_lookup (hP : P.Fits) (hs : Run P n.table) (x y : α) :
    ∃ c n', n.lookup P x y = some (c, n') ∧ |n'.val P c.real - x| ≤ P.tol ∧ |n'.val P c.img - y| ≤ P.tol ∧
      n'.cache = n.cache ∧ Run P n'.table ∧ (x ≠ -P.tol → n'.Proper P c.real) ∧ (y ≠ -P.tol → n'.Proper P c.img) ∧
      ∀ p, n.Proper P p → n'.Proper P p ∧ n'.val P p = n.val P p := by
  obtain ⟨p, n1, e1, v1, c1, r1, q1, k1⟩ := lookupPart_ok (n := n) hP hs x
  obtain ⟨q, n2, e2, v2, c2, r2, q2, k2⟩ := lookupPart_ok (n := n1) hP r1 y
  have hreal : n2.val P p = n1.val P p ∧ (n1.Proper P p → n2.Proper P p) := by
    refine ⟨?_, fun h => (h.keep k2).1⟩
    -- the pointer is one of the table in any case
    unfold CNums.lookupPart at e1
    split_ifs at e1
    · cases e1; rfl
    · cases h : n.table.lookup P |x| with
      | none => rw [h] at e1; cases e1
      | some z =>
        obtain ⟨p', t⟩ := z
        obtain ⟨_, _, e, hp, -, -⟩ := C76_lookup hP hs (abs_nonneg x)
        rw [h] at e
        cases e
        rw [h] at e1
        simp only [Option.some.injEq, Prod.mk.injEq] at e1
        obtain ⟨rfl, rfl⟩ := e1
        unfold CNums.val SPtr.negative
        simp only [(k2 p' hp).2]
    · rename_i hx
      cases h : n.table.lookup P x with
      | none => rw [h] at e1; cases e1
      | some z =>
        obtain ⟨p', t⟩ := z
        obtain ⟨_, _, e, hp, -, -⟩ := C76_lookup hP hs (not_lt.1 hx)
        rw [h] at e
        cases e
        rw [h] at e1
        simp only [Option.some.injEq, Prod.mk.injEq] at e1
        obtain ⟨rfl, rfl⟩ := e1
        unfold CNums.val
        simp only [(k2 p' hp).2]
  unfold CNums.lookup
  rw [e1]
  simp only
  rw [e2]
  refine ⟨_, _, rfl, ?_, v2, c2.trans c1, r2, fun h => hreal.2 (q1 h), q2, ?_⟩
  · simp only; rw [hreal.1]; exact v1
  · intro p' hp'
    obtain ⟨h1, h2⟩ := hp'.keep k1
    obtain ⟨h3, h4⟩ := h1.keep k2
    exact ⟨h3, h4.trans h2⟩

theorem proper_apart (hP : P.Fits) (hs : Run P n.table) {p q : SPtr} (hp : n.Proper P p) (hq : n.Proper P q) (h : p ≠ q) :
    P.tol < |n.val P p - n.val P q| := by
  obtain ⟨s, z⟩ := p
  obtain ⟨s', z'⟩ := q
  obtain ⟨x, rfl, hx, hxn⟩ := hp
  obtain ⟨y, rfl, hy, hyn⟩ := hq
  have h0 : ∀ w, n.table.Valid P w → w ≠ .zero → P.tol < n.table.val P w := by
    intro w hw hz
    have := C76_apart (P := P) hP hs hw (q := .zero) trivial hz
    have h2 := val_nonneg hP hs hw
    rw [show n.table.val P .zero = 0 from rfl, sub_zero, abs_of_nonneg h2] at this
    exact this
  have hxx := val_nonneg hP hs hx
  have hyy := val_nonneg hP hs hy
  have same : x ≠ y → P.tol < |n.table.val P x - n.table.val P y| := fun hne => C76_apart hP hs hx hy hne
  cases s <;> cases s'
  · have : x ≠ y := by rintro rfl; exact h rfl
    simpa [CNums.val] using same this
  · have := h0 y hy (hyn rfl)
    simp only [CNums.val, Bool.false_eq_true, if_false, if_true]
    rw [lt_abs]
    left
    linarith
  · have := h0 x hx (hxn rfl)
    simp only [CNums.val, Bool.false_eq_true, if_false, if_true]
    rw [lt_abs]
    right
    linarith
  · have : x ≠ y := by rintro rfl; exact h rfl
    have h5 := same this
    simp only [CNums.val, if_true]
    rw [← abs_neg]
    have e : -(-n.table.val P x - -n.table.val P y) = n.table.val P x - n.table.val P y := by ring
    rw [e]
    exact h5

/-- Different complex numbers differ by more than the tolerance in one of their parts. -/
theorem C77_apart (hP : P.Fits) (hs : Run P n.table) {a b : Num} (ha : n.Proper P a.real ∧ n.Proper P a.img)
    (hb : n.Proper P b.real ∧ n.Proper P b.img) (h : a ≠ b) :
    P.tol < |n.val P a.real - n.val P b.real| ∨ P.tol < |n.val P a.img - n.val P b.img| := by
  by_cases h1 : a.real = b.real
  · right
    refine proper_apart hP hs ha.2 hb.2 ?_
    intro h2
    apply h
    cases a; cases b
    simp_all
  · left
    exact proper_apart hP hs ha.1 hb.1 h1

theorem lookupPart_again (hP : P.Fits) (hs : Run P n.table) {p : SPtr} (hp : n.Proper P p) :
    n.lookupPart P (n.val P p) = some (p, n) := by
  obtain ⟨s, z⟩ := p
  obtain ⟨x, rfl, hx, hxn⟩ := hp
  have hxx := val_nonneg hP hs hx
  have hag := C76_again hP hs hx
  unfold CNums.lookupPart
  cases s with
  | false =>
    have e : n.val P ⟨false, .table x⟩ = n.table.val P x := rfl
    rw [e, if_neg (not_lt.2 hxx), hag]
  | true =>
    have h0 : P.tol < n.table.val P x := by
      have := C76_apart (P := P) hP hs hx (q := .zero) trivial (hxn rfl)
      rw [show n.table.val P .zero = 0 from rfl, sub_zero, abs_of_nonneg hxx] at this
      exact this
    have e : n.val P ⟨true, .table x⟩ = -n.table.val P x := rfl
    have hpos := hP.tol_pos
    rw [e, if_pos (by linarith), abs_neg, abs_of_nonneg hxx, if_neg (by linarith), hag]
    rfl

/-- A complex number of the table is found where it is. -/
theorem C77_again (hP : P.Fits) (hs : Run P n.table) {c : Num} (hc : n.Proper P c.real ∧ n.Proper P c.img) :
    n.lookupNum P c = some (c, n) := by
  unfold CNums.lookupNum
  split_ifs with h1 h2
  · rw [h1]
  · rw [h2]
  · unfold CNums.lookup
    rw [lookupPart_again hP hs hc.1]
    simp only
    rw [lookupPart_again hP hs hc.2]

/-- A part that is exactly minus the tolerance is given a pointer to a negative zero, which is a zero that is not the zero of the
package and which is found elsewhere when it is looked up again. -/
theorem C77_negative_zero_violated (hP : P.Fits) :
    ∃ c, n.lookup P (-P.tol) 0 = some (c, n) ∧ n.val P c.real = 0 ∧ n.val P c.img = 0 ∧ c ≠ Num.zero ∧
      n.lookupNum P c = some (Num.zero, n) := by
  have ht := hP.tol_pos
  have hz : ∀ v : α, |v| ≤ P.tol → n.table.lookup P v = some (.zero, n.table) := by
    intro v hv
    unfold CTable.lookup
    rw [if_pos hv]
  have h1 : n.lookupPart P (-P.tol) = some (.negative .zero, n) := by
    unfold CNums.lookupPart
    rw [if_pos (by linarith), abs_neg, abs_of_pos ht, if_neg (lt_irrefl _), hz _ (by rw [abs_of_pos ht])]
  have h2 : n.lookupPart P 0 = some (⟨false, .table .zero⟩, n) := by
    unfold CNums.lookupPart
    rw [if_neg (lt_irrefl _), hz _ (by rw [abs_zero]; exact ht.le)]
  refine ⟨⟨.negative .zero, ⟨false, .table .zero⟩⟩, ?_, ?_, rfl, ?_, ?_⟩
  · unfold CNums.lookup
    rw [h1]
    simp only
    rw [h2]
  · unfold CNums.val SPtr.negative
    simp [CTable.val]
  · simp [Num.zero, SPtr.negative]
  · unfold CNums.lookupNum
    rw [if_neg (by simp [Num.zero, SPtr.negative]), if_neg (by simp [Num.one, SPtr.negative])]
    have e : n.val P (SPtr.negative .zero) = 0 := by
      unfold CNums.val SPtr.negative
      simp [CTable.val]
    unfold CNums.lookup
    simp only [e, val_zero]
    rw [h2]
    simp only
    rw [h2]
    rfl

/-- The quotient itself can be wrong by 1: 0 divided by a number within the tolerance is 1. -/
theorem C77_div_violated (hP : P.Fits) {r z : Nat × Nat} (hr : r.1 ≠ r.2) (hz : (n.cache.mem z.1).value = P.tol)
    (hz2 : (n.cache.mem z.2).value = 0) :
    ∃ n', n.div P r Num.zero (.cached z) = some n' ∧ Written n n' r 1 0 := by
  have ht := hP.tol_pos
  refine ⟨_, ?_, set_written hr 1 0⟩
  unfold CNums.div
  rw [if_pos]
  rw [equalish_iff hP]
  unfold Num.zero Num.cached
  simp only [val_zero]
  unfold CNums.val
  simp [hz, hz2, abs_of_pos ht, ht.le]

/-- The numbers of the cache that are free: they hang on `available`, two entries each. -/
theorem cacheRun_free {c : CCache α} {u : List (Nat × Nat)} (h : CacheRun c u) :
    ∃ f, Linked (fun a => (c.mem a).next) c.available (entries f) ∧ (entries (u ++ f)).Nodup ∧
      (∀ a ∈ entries (u ++ f), a < c.fresh) ∧ c.count = 2 * u.length := by
  induction h with
  | new => exact ⟨[], rfl, by simp [entries], by simp [entries], rfl⟩
  | @get c c' u z h e ih =>
    obtain ⟨f, hl, hn, hlt, hc⟩ := ih
    unfold CCache.get at e
    cases f with
    | nil =>
      have ha : c.available = none := hl
      rw [ha] at e
      simp only [Option.some.injEq, Prod.mk.injEq] at e
      obtain ⟨rfl, rfl⟩ := e
      refine ⟨[], rfl, ?_, ?_, ?_⟩
      · simp only [entries, List.append_nil, List.flatMap_cons] at hn hlt ⊢
        rw [List.nodup_append]
        refine ⟨by simp, hn, ?_⟩
        intro a ha b hb
        have := hlt b hb
        simp at ha
        rcases ha with rfl | rfl <;> omega
      · simp only [entries, List.append_nil, List.flatMap_cons] at hlt ⊢
        intro a ha
        rcases List.mem_append.1 ha with ha | ha
        · simp at ha
          rcases ha with rfl | rfl <;> simp
        · have := hlt a ha
          omega
      · simp only [hc, List.length_cons]; omega
    | cons w f =>
      obtain ⟨h1, h2, h3⟩ : c.available = some w.1 ∧ (c.mem w.1).next = some w.2 ∧
          Linked (fun a => (c.mem a).next) (c.mem w.2).next (entries f) := hl
      rw [h1] at e
      simp only at e
      rw [h2] at e
      simp only [Option.some.injEq, Prod.mk.injEq] at e
      obtain ⟨rfl, rfl⟩ := e
      have hp : (entries (u ++ w :: f)).Perm (entries ((w.1, w.2) :: u ++ f)) :=
        List.Perm.flatMap_right _ (List.perm_middle)
      refine ⟨f, h3, hp.nodup_iff.1 hn, fun a ha => hlt a (hp.mem_iff.2 ha), ?_⟩
      simp only [hc, List.length_cons]; omega
  | @write c u h a x ih =>
    obtain ⟨f, hl, hn, hlt, hc⟩ := ih
    refine ⟨f, hl.congr ?_, hn, hlt, hc⟩
    intro b _
    by_cases hb : b = a
    · subst hb; simp
    · simp [hb]
  | @giveBack c u z h hz ih =>
    obtain ⟨f, hl, hn, hlt, hc⟩ := ih
    have hp : (entries (u ++ f)).Perm (entries (u.erase z ++ z :: f)) := by
      refine List.Perm.flatMap_right _ ?_
      refine ((List.perm_cons_erase hz).append_right f).trans ?_
      exact List.perm_middle.symm
    have hn' := hp.nodup_iff.1 hn
    have hz2 : (entries (z :: f)).Nodup := by
      unfold entries at hn' ⊢
      rw [List.flatMap_append] at hn'
      exact (List.nodup_append.1 hn').2.1
    have hz3 : z.1 ≠ z.2 ∧ z.1 ∉ entries f ∧ z.2 ∉ entries f := by
      simp only [entries, List.flatMap_cons, List.cons_append, List.nil_append, List.nodup_cons, List.mem_cons, not_or] at hz2
      exact ⟨hz2.1.1, hz2.1.2, hz2.2.1⟩
    refine ⟨z :: f, ?_, hn', fun a ha => hlt a (hp.mem_iff.2 ha), ?_⟩
    · refine ⟨rfl, ?_, ?_⟩
      · unfold CCache.giveBack; simp
      · have e : (((c.giveBack z).mem z.2).next) = c.available := by
          unfold CCache.giveBack; simp [hz3.1.symm]
        simp only [e]
        refine hl.congr ?_
        intro b hb
        have h1 : b ≠ z.1 := by rintro rfl; exact hz3.2.1 hb
        have h2 : b ≠ z.2 := by rintro rfl; exact hz3.2.2 hb
        unfold CCache.giveBack
        simp [h1, h2]
    · unfold CCache.giveBack
      simp only [hc, List.length_erase_of_mem hz]
      have := List.length_pos_of_mem hz
      omega
  | clear h ih => exact ⟨[], rfl, by simp [entries], by simp [entries], rfl⟩

/-- The numbers of the cache that are in use share no entries, and `count` is the number of their entries. -/
theorem C77_cache {c : CCache α} {u : List (Nat × Nat)} (h : CacheRun c u) : (entries u).Nodup ∧ c.count = (entries u).length := by
  obtain ⟨f, hl, hn, hlt, hc⟩ := cacheRun_free h
  refine ⟨?_, ?_⟩
  · unfold entries at hn ⊢
    rw [List.flatMap_append] at hn
    exact (List.nodup_append.1 hn).1
  · rw [hc]
    unfold entries
    rw [List.length_flatMap]
    simp [mul_comm]

/-- A number can always be taken from the cache. It shares no entry with the ones in use, taking it changes no values, and it is the
one that `getTemporaryComplex` names. -/
theorem C77_get {c : CCache α} {u : List (Nat × Nat)} (h : CacheRun c u) :
    ∃ z c', c.get = some (z, c') ∧ c.temporary = some z ∧ z.1 ≠ z.2 ∧ z.1 ∉ entries u ∧ z.2 ∉ entries u ∧ c'.mem = c.mem := by
  obtain ⟨f, hl, hn, hlt, hc⟩ := cacheRun_free h
  have hall : ∃ z c', c.get = some (z, c') ∧ c.temporary = some z ∧ c'.mem = c.mem := by
    unfold CCache.get CCache.temporary
    cases f with
    | nil =>
      have ha : c.available = none := hl
      rw [ha]
      exact ⟨_, _, rfl, rfl, rfl⟩
    | cons w f =>
      obtain ⟨h1, h2, h3⟩ : c.available = some w.1 ∧ (c.mem w.1).next = some w.2 ∧
          Linked (fun a => (c.mem a).next) (c.mem w.2).next (entries f) := hl
      rw [h1]
      simp only
      rw [h2]
      exact ⟨_, _, rfl, rfl, rfl⟩
  obtain ⟨z, c', e1, e2, e3⟩ := hall
  refine ⟨z, c', e1, e2, ?_⟩
  have := (C77_cache (CacheRun.get h e1)).1
  simp only [entries, List.flatMap_cons, List.cons_append, List.nil_append, List.nodup_cons, List.mem_cons, not_or] at this
  exact ⟨this.1.1, this.1.2, this.2.1, e3⟩

/-- Giving a number back changes no values. -/
theorem C77_giveBack (c : CCache α) (z : Nat × Nat) (a : Nat) : ((c.giveBack z).mem a).value = (c.mem a).value := by
  unfold CCache.giveBack
  by_cases h1 : a = z.1 <;> by_cases h2 : a = z.2
  · subst h1; simp [← h2]
  · subst h1; simp [h2]
  · subst h2; simp [h1]
  · simp [h1, h2]

theorem val_mem {c : CCache α} {a : SPtr} (h : c.mem = n.cache.mem) : (⟨n.table, c⟩ : CNums α).val P a = n.val P a := by
  unfold CNums.val
  rw [h]

theorem written_get {c : CCache α} {n' : CNums α} {r : Nat × Nat} {x y : α} (h : Written ⟨n.table, c⟩ n' r x y)
    (hm : c.mem = n.cache.mem) :
    (n'.val P (Num.cached r).real = x ∧ n'.val P (Num.cached r).img = y) ∧
    ∀ p : SPtr, (∀ a, p.ptr = .cache a → a ≠ r.1 ∧ a ≠ r.2) → n'.val P p = n.val P p := by
  refine ⟨⟨?_, ?_⟩, ?_⟩
  · unfold CNums.val Num.cached; simp [h.real]
  · unfold CNums.val Num.cached; simp [h.img]
  · intro p hp
    obtain ⟨s, q⟩ := p
    unfold CNums.val
    cases q with
    | table q => simp [h.table]
    | cache a =>
      have := h.others a (hp a rfl).1 (hp a rfl).2
      simp only [this, hm]

/-- The parts of a number are of the table or of numbers of the cache that are in use. -/
def Num.Of (a : Num) (u : List (Nat × Nat)) : Prop :=
  (∀ x, a.real.ptr = .cache x → x ∈ entries u) ∧ (∀ x, a.img.ptr = .cache x → x ∈ entries u)

/-- `addCached` and `mulCached` always succeed and put the result in a number that was not in use; every number in use keeps its
value. -/
theorem C77_cached (hP : P.Fits) {u : List (Nat × Nat)} (h : CacheRun n.cache u) {a b : Num} (ha : a.Of u) (hb : b.Of u) :
    (∃ z n', n.addCached P a b = some (.cached z, n') ∧ z.1 ∉ entries u ∧ z.2 ∉ entries u ∧
      n'.val P (Num.cached z).real = n.val P a.real + n.val P b.real ∧
      n'.val P (Num.cached z).img = n.val P a.img + n.val P b.img ∧
      ∀ d : Num, d.Of u → n'.val P d.real = n.val P d.real ∧ n'.val P d.img = n.val P d.img) ∧
    (∃ z n', n.mulCached P a b = some (.cached z, n') ∧ z.1 ∉ entries u ∧ z.2 ∉ entries u ∧
      |n'.val P (Num.cached z).real - (n.val P a.real * n.val P b.real - n.val P a.img * n.val P b.img)| ≤
        P.tol * (|n.val P a.real| + |n.val P a.img| + |n.val P b.real| + |n.val P b.img|) ∧
      |n'.val P (Num.cached z).img - (n.val P a.real * n.val P b.img + n.val P a.img * n.val P b.real)| ≤
        P.tol * (|n.val P a.real| + |n.val P a.img| + |n.val P b.real| + |n.val P b.img|) ∧
      ∀ d : Num, d.Of u → n'.val P d.real = n.val P d.real ∧ n'.val P d.img = n.val P d.img) := by
  obtain ⟨z, c, e, -, hz, hz1, hz2, hm⟩ := C77_get h
  have rd : ∀ d : Num, d.Of u → d.ReadableFor z := fun d hd he => hz1 (hd.2 _ he)
  have fr : ∀ d : Num, d.Of u → (∀ x, d.real.ptr = .cache x → x ≠ z.1 ∧ x ≠ z.2) ∧ (∀ x, d.img.ptr = .cache x → x ≠ z.1 ∧ x ≠ z.2) := by
    intro d hd
    constructor
    · intro x hx
      have := hd.1 x hx
      exact ⟨by rintro rfl; exact hz1 this, by rintro rfl; exact hz2 this⟩
    · intro x hx
      have := hd.2 x hx
      exact ⟨by rintro rfl; exact hz1 this, by rintro rfl; exact hz2 this⟩
  constructor
  · have hw := (C77_add (P := P) (n := ⟨n.table, c⟩) hz (rd a ha) (rd b hb)).1
    obtain ⟨⟨h1, h2⟩, h3⟩ := written_get (P := P) hw hm
    simp only [val_mem hm] at h1 h2
    refine ⟨z, _, ?_, hz1, hz2, h1, h2, fun d hd => ⟨h3 _ (fr d hd).1, h3 _ (fr d hd).2⟩⟩
    unfold CNums.addCached
    rw [e]
  · obtain ⟨x, y, hw, hx, hy⟩ := C77_mul (n := ⟨n.table, c⟩) hP hz (rd a ha) (rd b hb)
    obtain ⟨⟨h1, h2⟩, h3⟩ := written_get (P := P) hw hm
    simp only [val_mem hm] at hx hy
    refine ⟨z, _, ?_, hz1, hz2, ?_, ?_, fun d hd => ⟨h3 _ (fr d hd).1, h3 _ (fr d hd).2⟩⟩
    · unfold CNums.mulCached
      rw [e]
    · rw [h1]; exact hx
    · rw [h2]; exact hy

end

/-! Cases. -/

/-- Two numbers are taken, the first is given back and taken again. -/
example : ∃ c : CCache ℚ, CacheRun c [(0, 1), (2, 3)] ∧ c.count = 4 :=
  ⟨_, .get (.giveBack (.get (.get .new rfl) rfl) (z := (0, 1)) (by decide)) rfl, rfl⟩

/-- A state with the numbers 3 + 2i and 1/2 - i in the cache. -/
def twoCached : Option (CNums ℚ) :=
  (CTable.new shippedParams).map fun t =>
    ((((⟨t, ⟨fun _ => ⟨0, none, 0⟩, none, 4, 4⟩⟩ : CNums ℚ).set 0 3).set 1 2).set 2 (1/2)).set 3 (-1)

/-- (3 + 2i)(1/2 - i) written over the first factor. -/
example : (twoCached.map fun n =>
    let n' := n.mul shippedParams (0, 1) (.cached (0, 1)) (.cached (2, 3))
    ((n'.cache.mem 0).value, (n'.cache.mem 1).value)) = some (7/2, -2) := by
  decide +kernel

example : (Num.cached (0, 1)).ReadableFor (0, 1) ∧ (Num.cached (2, 3)).ReadableFor (0, 1) := by
  unfold Num.ReadableFor Num.cached
  decide

/-- Negative numbers are the positive ones of the table with a sign. -/
example : (twoCached.bind fun n => n.lookup shippedParams (-1) (1/3)).map (fun x => (x.1.real, (x.2.val shippedParams x.1.img))) =
    some (⟨true, .table .one⟩, 1/3) := by
  decide +kernel

end Qudits.DD
