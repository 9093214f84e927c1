import Verif.Lemmas.Angles
import Mathlib.Tactic.Linarith
import Mathlib.Tactic.NormNum

/-!
# C103: the price of a rotation

`theta_cost` and `phi_cost` (local_compilation_minitools.py:46-54) price a rotation for
the adaptive search; `regulate_theta` (36-43) picks the angle which is written into the
gate and hence priced.  All definitions are those of `Model/Angles.lean`.

The prices are stated without the remainder of the code: the price of an angle of `x`
half turns is four times `|x|` plus the distance of `|x|` to the nearest multiple of one
half.
-/

open Real

namespace Qudits

namespace RotCost

/-- `|(x + 1/4) mod 1/2 - 1/4|` is a distance to the multiples of one half -/
theorem saw_attained (x : ℝ) : ∃ k : ℤ, |pyMod (x + 0.25) 0.5 - 0.25| = |x - k / 2| := by
  obtain ⟨k, hk⟩ := pyMod_eq (x + 0.25) 0.5
  refine ⟨k, ?_⟩
  rw [hk]
  congr 1
  ring

theorem saw_le (x : ℝ) (k : ℤ) : |pyMod (x + 0.25) 0.5 - 0.25| ≤ |x - k / 2| := by
  have h0 := pyMod_nonneg (x + 0.25) (b := 0.5) (by norm_num)
  have h1 := pyMod_lt (x + 0.25) (b := 0.5) (by norm_num)
  obtain ⟨j, hj⟩ := pyMod_eq (x + 0.25) 0.5
  rw [hj] at h0 h1 ⊢
  rcases lt_trichotomy j k with h | h | h
  · have : (j : ℝ) + 1 ≤ k := by exact_mod_cast h
    rw [abs_le]
    have := neg_abs_le (x - k / 2)
    constructor <;> linarith
  · subst h
    refine le_of_eq ?_
    congr 1
    ring
  · have : (k : ℝ) + 1 ≤ j := by exact_mod_cast h
    rw [abs_le]
    have := le_abs_self (x - k / 2)
    constructor <;> linarith

theorem saw_lipschitz (x y : ℝ) : |pyMod (x + 0.25) 0.5 - 0.25| ≤ |pyMod (y + 0.25) 0.5 - 0.25| + |x - y| := by
  obtain ⟨k, hk⟩ := saw_attained y
  rw [hk]
  refine le_trans (saw_le x k) ?_
  have := abs_add_le (y - k / 2) (x - y)
  have h : y - k / 2 + (x - y) = x - k / 2 := by ring
  rwa [h] at this

theorem pyMod_small {a b : ℝ} (h0 : 0 ≤ a) (h1 : a < b) : pyMod a b = a := by
  have hb : 0 < b := lt_of_le_of_lt h0 h1
  have : ⌊a / b⌋ = 0 := by
    rw [Int.floor_eq_zero_iff]
    exact ⟨div_nonneg h0 hb.le, (div_lt_one hb).2 h1⟩
  simp [pyMod, this]

theorem pyMod_add_int (a : ℝ) {b : ℝ} (hb : 0 < b) (k : ℤ) : pyMod (a + k * b) b = pyMod a b := by
  have : (a + k * b) / b = a / b + k := by field_simp
  simp only [pyMod, this, Int.floor_add_intCast]
  push_cast
  ring

end RotCost

open RotCost

/-- **C103** (the price).  The price of an angle is `1e-4` times the sum of four times the
number of half turns and the distance of that number to the nearest multiple of one half. -/
theorem C103_price (θ : ℝ) :
    (∀ k : ℤ, thetaCost θ ≤ (4 * (|θ| / π) + |(|θ| / π) - k / 2|) * 1e-4) ∧
    ∃ k : ℤ, thetaCost θ = (4 * (|θ| / π) + |(|θ| / π) - k / 2|) * 1e-4 := by
  have hp : |θ / π| = |θ| / π := by rw [abs_div, abs_of_pos pi_pos]
  unfold thetaCost
  rw [hp]
  constructor
  · intro k
    have := saw_le (|θ| / π) k
    nlinarith
  · obtain ⟨k, hk⟩ := saw_attained (|θ| / π)
    exact ⟨k, by rw [hk]⟩

/-- **C103** (longer is dearer).  The price of a rotation about an axis of the plane, and
that of a phase, depends on the size of the angle only and grows strictly with it. -/
theorem C103_longer (a b : ℝ) :
    (|a| < |b| ↔ thetaCost a < thetaCost b) ∧ (|a| < |b| ↔ phiCost a < phiCost b) ∧
    (|a| = |b| → thetaCost a = thetaCost b ∧ phiCost a = phiCost b) := by
  have hp := pi_pos
  have ha : |a / π| = |a| / π := by rw [abs_div, abs_of_pos pi_pos]
  have hb : |b / π| = |b| / π := by rw [abs_div, abs_of_pos pi_pos]
  have key : ∀ x y : ℝ, x < y → 4 * x + |pyMod (x + 0.25) 0.5 - 0.25| < 4 * y + |pyMod (y + 0.25) 0.5 - 0.25| := by
    intro x y h
    have := saw_lipschitz x y
    rw [abs_of_neg (by linarith : x - y < 0)] at this
    linarith
  have hd : ∀ x y : ℝ, x / π < y / π ↔ x < y := fun x y => div_lt_div_iff_of_pos_right hp
  refine ⟨⟨fun h => ?_, fun h => ?_⟩, ⟨fun h => ?_, fun h => ?_⟩, fun h => ?_⟩
  · unfold thetaCost
    rw [ha, hb]
    have := key _ _ ((hd _ _).2 h)
    linarith
  · unfold thetaCost at h
    rw [ha, hb] at h
    by_contra hn
    rcases lt_or_eq_of_le (not_lt.1 hn) with h1 | h1
    · have := key _ _ ((hd _ _).2 h1)
      linarith
    · rw [h1] at h
      exact lt_irrefl _ h
  · unfold phiCost
    rw [ha, hb]
    have := (hd _ _).2 h
    linarith
  · unfold phiCost at h
    rw [ha, hb] at h
    exact (hd _ _).1 (by linarith)
  · unfold thetaCost phiCost
    rw [ha, hb, h]
    exact ⟨rfl, rfl⟩

/-- **C103** (nothing is free).  Only the angle zero has price zero, and no price is
negative. -/
theorem C103_free (θ : ℝ) : 0 ≤ thetaCost θ ∧ (thetaCost θ = 0 ↔ θ = 0) ∧
    0 ≤ phiCost θ ∧ (phiCost θ = 0 ↔ θ = 0) := by
  have hz : thetaCost 0 = 0 := by
    unfold thetaCost
    rw [zero_div, abs_zero, pyMod_small (by norm_num) (by norm_num)]
    norm_num
  have hz' : phiCost 0 = 0 := by simp [phiCost]
  have pos : θ ≠ 0 → 0 < thetaCost θ ∧ 0 < phiCost θ := by
    intro h
    have h1 : |(0 : ℝ)| < |θ| := by rw [abs_zero]; exact abs_pos.2 h
    exact ⟨hz ▸ (C103_longer 0 θ).1.1 h1, hz' ▸ (C103_longer 0 θ).2.1.1 h1⟩
  by_cases h : θ = 0
  · subst h
    simp [hz, hz']
  · obtain ⟨p, q⟩ := pos h
    exact ⟨p.le, ⟨fun e => absurd e p.ne', fun e => absurd e h⟩, q.le, ⟨fun e => absurd e q.ne', fun e => absurd e h⟩⟩

/-- **C103** (regulating once is enough).  The angle stored in a gate is not changed when a
gate is built from it again. -/
theorem C103_once (θ : ℝ) : regulateTheta (regulateTheta θ) = regulateTheta θ := by
  have hp := pi_pos
  have h0 := pyMod_nonneg |θ / π| (b := 4) (by norm_num)
  have h1 := pyMod_lt |θ / π| (b := 4) (by norm_num)
  obtain ⟨m, hm⟩ : ∃ m, m = pyMod |θ / π| 4 := ⟨_, rfl⟩
  rw [← hm] at h0 h1
  -- the three kinds of result
  have keep : ∀ t : ℝ, 0.2 ≤ |t| → |t| < 4 → regulateTheta (t * π) = t * π := by
    intro t ht ht'
    have e : t * π / π = t := by field_simp
    simp only [regulateTheta, e]
    rw [pyMod_small (abs_nonneg t) ht']
    by_cases hn : t < 0
    · have hn' : t * π < 0 := mul_neg_of_neg_of_pos hn hp
      rw [if_pos hn', abs_of_neg hn]
      have : ¬ |(-t) * -1| < 0.2 := by
        rw [show (-t) * -1 = t by ring]; exact not_lt.2 ht
      rw [if_neg this]; ring
    · have hn' : ¬ t * π < 0 := not_lt.2 (mul_nonneg (not_lt.1 hn) hp.le)
      rw [if_neg hn', abs_of_nonneg (not_lt.1 hn)]
      have : ¬ |t| < 0.2 := not_lt.2 ht
      rw [if_neg this]
  have wrap : ∀ t : ℝ, 0 ≤ t → t < 0.2 → regulateTheta ((t + 4) * π) = (t + 4) * π := by
    intro t ht ht'
    have e : (t + 4) * π / π = t + 4 := by field_simp
    simp only [regulateTheta, e]
    have hn' : ¬ (t + 4) * π < 0 := not_lt.2 (mul_nonneg (by linarith) hp.le)
    have e2 : pyMod |t + 4| 4 = t := by
      rw [abs_of_nonneg (by linarith : 0 ≤ t + 4)]
      have := pyMod_add_int t (b := 4) (by norm_num) 1
      rw [Int.cast_one, one_mul] at this
      rw [this, pyMod_small ht (by linarith)]
    rw [if_neg hn', e2, abs_of_nonneg ht, if_pos ht']
  have hr : regulateTheta θ = (if |if θ < 0 then m * -1 else m| < 0.2 then (if θ < 0 then m * -1 else m) + 4
      else (if θ < 0 then m * -1 else m)) * π := by
    simp only [regulateTheta, hm]
  rw [hr]
  have ham : |m| = m := abs_of_nonneg h0
  have han : |m * -1| = m := by rw [abs_mul, ham]; norm_num
  by_cases hneg : θ < 0
  · simp only [if_pos hneg]
    by_cases hs : m < 0.2
    · rw [if_pos (by rw [han]; exact hs)]
      by_cases hz : m = 0
      · rw [hz]
        exact wrap (0 * -1) (by norm_num) (by norm_num)
      · have hm0 : 0 < m := lt_of_le_of_ne h0 (Ne.symm hz)
        refine keep _ ?_ ?_ <;> rw [abs_of_nonneg (by linarith)] <;> linarith
    · rw [if_neg (by rw [han]; exact hs)]
      exact keep _ (by rw [han]; exact not_lt.1 hs) (by rw [han]; exact h1)
  · simp only [if_neg hneg]
    by_cases hs : m < 0.2
    · rw [if_pos (by rw [ham]; exact hs)]
      exact wrap m h0 hs
    · rw [if_neg (by rw [ham]; exact hs)]
      exact keep _ (by rw [ham]; exact not_lt.1 hs) (by rw [ham]; exact h1)

/-- **C103** (the same rotation, the same price).  Full statement: two angles which differ
by whole periods of `4π` give the same gate, hence the same price.  Proved for angles of the
same sign; `C103_same_violated` shows that angles of different signs can be told apart. -/
theorem C103_same_partial (a b : ℝ) (k : ℤ) (hab : a = b + k * (4 * π)) (hs : 0 ≤ a ∧ 0 ≤ b ∨ a < 0 ∧ b < 0) :
    regulateTheta a = regulateTheta b ∧ thetaCost (regulateTheta a) = thetaCost (regulateTheta b) := by
  have hp := pi_pos
  suffices h : regulateTheta a = regulateTheta b by exact ⟨h, by rw [h]⟩
  have e : a / π = b / π + k * 4 := by rw [hab]; field_simp
  rcases hs with ⟨ha, hb⟩ | ⟨ha, hb⟩
  · have e1 : pyMod |a / π| 4 = pyMod |b / π| 4 := by
      rw [abs_of_nonneg (div_nonneg ha hp.le), abs_of_nonneg (div_nonneg hb hp.le), e]
      exact pyMod_add_int _ (by norm_num) k
    simp only [regulateTheta, e1, if_neg (not_lt.2 ha), if_neg (not_lt.2 hb)]
  · have e1 : pyMod |a / π| 4 = pyMod |b / π| 4 := by
      rw [abs_of_neg (div_neg_of_neg_of_pos ha hp), abs_of_neg (div_neg_of_neg_of_pos hb hp), e]
      have := pyMod_add_int (-(b / π)) (b := 4) (by norm_num) (-k)
      rw [← this]
      congr 1
      push_cast
      ring
    simp only [regulateTheta, e1, if_pos ha, if_pos hb]

/-- the angles of `C103_same_partial`: `π` and `9π` -/
example : regulateTheta (9 * π) = regulateTheta π :=
  (C103_same_partial (9 * π) π 2 (by push_cast; ring) (Or.inl ⟨by positivity, by positivity⟩)).1

/-- **C103** (violated).  The angles `-3π` and `π` are a period apart, and so give the same
rotation; the gate built from the first is stored as `-3π` and priced three times as much. -/
theorem C103_same_violated :
    (-3 * π = π + (-1 : ℤ) * (4 * π)) ∧ regulateTheta (-3 * π) ≠ regulateTheta π ∧
    thetaCost (regulateTheta (-3 * π)) = 3 * thetaCost (regulateTheta π) := by
  have hp := pi_pos
  have ep : regulateTheta π = π := by
    have e : π / π = 1 := div_self hp.ne'
    simp only [regulateTheta, e, abs_one]
    rw [pyMod_small (by norm_num) (by norm_num), if_neg (not_lt.2 hp.le), abs_one, if_neg (by norm_num)]
    ring
  have en : regulateTheta (-3 * π) = -3 * π := by
    have e : -3 * π / π = -3 := by field_simp
    have h3 : |(-3 : ℝ)| = 3 := by norm_num
    simp only [regulateTheta, e, h3]
    rw [pyMod_small (by norm_num) (by norm_num), if_pos (by linarith : -3 * π < 0)]
    rw [if_neg (by norm_num : ¬ |(3 : ℝ) * -1| < 0.2)]
    ring
  have c1 : thetaCost π = 4e-4 := by
    have e : π / π = 1 := div_self hp.ne'
    have := pyMod_add_int 0.25 (b := 0.5) (by norm_num) 2
    rw [pyMod_small (a := 0.25) (by norm_num) (by norm_num)] at this
    simp only [thetaCost, e, abs_one]
    rw [show (1 : ℝ) + 0.25 = 0.25 + ((2 : ℤ) : ℝ) * 0.5 by norm_num, this]
    norm_num
  have c3 : thetaCost (-3 * π) = 12e-4 := by
    have e : -3 * π / π = -3 := by field_simp
    have h3 : |(-3 : ℝ)| = 3 := by norm_num
    have := pyMod_add_int 0.25 (b := 0.5) (by norm_num) 6
    rw [pyMod_small (a := 0.25) (by norm_num) (by norm_num)] at this
    simp only [thetaCost, e, h3]
    rw [show (3 : ℝ) + 0.25 = 0.25 + ((6 : ℤ) : ℝ) * 0.5 by norm_num, this]
    norm_num
  refine ⟨by push_cast; ring, ?_, ?_⟩
  · rw [ep, en]
    intro h
    linarith
  · rw [ep, en, c1, c3]
    norm_num

/-- **C103** (violated).  Regulating is not bound to make a rotation cheaper: every angle
below a fifth of a half turn, zero included, is lengthened by a whole period, and priced
accordingly. -/
theorem C103_cheaper_violated (θ : ℝ) (h0 : 0 ≤ θ) (h1 : θ < 0.2 * π) :
    regulateTheta θ = θ + 4 * π ∧ thetaCost θ < thetaCost (regulateTheta θ) := by
  have hp := pi_pos
  have hd : 0 ≤ θ / π := div_nonneg h0 hp.le
  have hd1 : θ / π < 0.2 := (div_lt_iff₀ hp).2 h1
  have e : regulateTheta θ = θ + 4 * π := by
    simp only [regulateTheta, abs_of_nonneg hd]
    rw [pyMod_small hd (by linarith), if_neg (not_lt.2 h0), abs_of_nonneg hd, if_pos hd1]
    field_simp
  refine ⟨e, ?_⟩
  rw [e]
  refine (C103_longer _ _).1.1 ?_
  rw [abs_of_nonneg h0, abs_of_nonneg (by linarith)]
  linarith

/-- the zero rotation is stored as a rotation by `4π` -/
example : regulateTheta 0 = 0 + 4 * π := (C103_cheaper_violated 0 le_rfl (by positivity)).1

end Qudits
