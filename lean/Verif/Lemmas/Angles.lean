import Verif.Model.Angles
import Mathlib.Analysis.SpecialFunctions.Complex.Log

namespace Qudits
open Real

theorem pyMod_eq (a b : ℝ) : ∃ k : ℤ, pyMod a b = a - b * k := ⟨_, rfl⟩

theorem pyMod_nonneg (a : ℝ) {b : ℝ} (hb : 0 < b) : 0 ≤ pyMod a b := by
  unfold pyMod
  have := Int.floor_le (a / b)
  rw [le_div_iff₀ hb] at this
  linarith

theorem pyMod_lt (a : ℝ) {b : ℝ} (hb : 0 < b) : pyMod a b < b := by
  unfold pyMod
  have := Int.lt_floor_add_one (a / b)
  rw [div_lt_iff₀ hb] at this
  linarith

theorem newMod_period (a b : ℝ) : ∃ k : ℤ, newMod a b = a + k * b := by
  obtain ⟨k, hk⟩ := pyMod_eq a b
  unfold newMod
  dsimp only
  split_ifs
  · exact ⟨-k, by rw [hk]; push_cast; ring⟩
  · exact ⟨-k - 1, by rw [hk]; push_cast; ring⟩
  · exact ⟨-k, by rw [hk]; push_cast; ring⟩

theorem newMod_abs (a : ℝ) {b : ℝ} (hb : 0 < b) : |newMod a b| < b ∧ (0 ≤ a → 0 ≤ newMod a b) ∧
    (a < 0 → newMod a b ≤ 0) := by
  have h0 := pyMod_nonneg a hb
  have h1 := pyMod_lt a hb
  unfold newMod
  dsimp only
  split_ifs with h2 h3
  · rw [h2]; simp [hb]
  · have : 0 < pyMod a b := lt_of_le_of_ne h0 (Ne.symm h2)
    refine ⟨?_, fun h => absurd h3 (not_lt.2 h), fun _ => by linarith⟩
    rw [abs_lt]; constructor <;> linarith
  · refine ⟨by rw [abs_of_nonneg h0]; exact h1, fun _ => h0, fun h => absurd h h3⟩

theorem piMod_period (a : ℝ) : ∃ k : ℤ, piMod a = a + k * (2 * π) := by
  obtain ⟨k, hk⟩ := newMod_period a (2 * π)
  unfold piMod
  dsimp only
  split_ifs
  · exact ⟨k - 1, by rw [hk]; push_cast; ring⟩
  · exact ⟨k + 1, by rw [hk]; push_cast; ring⟩
  · exact ⟨k, hk⟩

theorem piMod_range (a : ℝ) : -π ≤ piMod a ∧ piMod a ≤ π := by
  have hp := Real.pi_pos
  obtain ⟨h1, _, _⟩ := newMod_abs a (b := 2 * π) (by linarith)
  rw [abs_lt] at h1
  unfold piMod
  dsimp only
  split_ifs with h2 h3
  · constructor <;> linarith [h2.2]
  · have : |newMod a| = -newMod a := abs_of_neg h3.1
    have h4 := h3.2
    rw [this] at h4
    constructor <;> linarith [h3.1]
  · rw [not_and_or, not_lt, not_lt] at h2 h3
    constructor
    · rcases h3 with h | h
      · linarith
      · exact (abs_le.1 h).1
    · rcases h2 with h | h <;> linarith

theorem regulate_period (a : ℝ) : ∃ k : ℤ, regulateTheta a = a + k * (4 * π) := by
  have hp := Real.pi_ne_zero
  have key : ∃ k : ℤ, (if a < 0 then pyMod |a / π| 4 * -1 else pyMod |a / π| 4) = a / π + k * 4 := by
    obtain ⟨k, hk⟩ := pyMod_eq |a / π| 4
    split_ifs with h
    · refine ⟨k, ?_⟩
      rw [hk, abs_of_neg (div_neg_of_neg_of_pos h Real.pi_pos)]; ring
    · refine ⟨-k, ?_⟩
      rw [hk, abs_of_nonneg (div_nonneg (not_lt.1 h) Real.pi_pos.le)]; push_cast; ring
  obtain ⟨k, hk⟩ := key
  unfold regulateTheta
  dsimp only
  rw [hk]
  split_ifs
  · exact ⟨k + 1, by push_cast; field_simp; ring⟩
  · exact ⟨k, by field_simp⟩

/-- magnitude after normalisation: never below 0.2 pi -/
theorem regulate_min (a : ℝ) : 0.2 * π ≤ |regulateTheta a| ∧ |regulateTheta a| < 4.2 * π := by
  have hp := Real.pi_pos
  unfold regulateTheta
  dsimp only
  have h0 := pyMod_nonneg |a / π| (b := 4) (by norm_num)
  have h1 := pyMod_lt |a / π| (b := 4) (by norm_num)
  set t := (if a < 0 then pyMod |a / π| 4 * -1 else pyMod |a / π| 4) with ht
  have hab : |t| < 4 := by
    rw [ht]; split_ifs
    · rw [mul_neg_one, abs_neg, abs_of_nonneg h0]; exact h1
    · rw [abs_of_nonneg h0]; exact h1
  rw [abs_mul, abs_of_pos hp]
  split_ifs with h
  · rw [abs_lt] at h
    have : |t + 4| = t + 4 := abs_of_nonneg (by linarith [h.1])
    rw [this]
    constructor
    · exact mul_le_mul_of_nonneg_right (by linarith [h.1]) hp.le
    · exact mul_lt_mul_of_pos_right (by linarith [h.2]) hp
  · constructor
    · exact mul_le_mul_of_nonneg_right (not_lt.1 h) hp.le
    · exact mul_lt_mul_of_pos_right (by linarith) hp

theorem cos_half_regulate (a : ℝ) : cos (regulateTheta a / 2) = cos (a / 2) := by
  obtain ⟨k, hk⟩ := regulate_period a
  rw [hk, show (a + k * (4 * π)) / 2 = a / 2 + k * (2 * π) by ring, cos_add_int_mul_two_pi]

theorem sin_half_regulate (a : ℝ) : sin (regulateTheta a / 2) = sin (a / 2) := by
  obtain ⟨k, hk⟩ := regulate_period a
  rw [hk, show (a + k * (4 * π)) / 2 = a / 2 + k * (2 * π) by ring, sin_add_int_mul_two_pi]

theorem cexp_regulate (a : ℝ) : Complex.exp (-Complex.I * (regulateTheta a : ℝ)) =
    Complex.exp (-Complex.I * (a : ℝ)) := by
  obtain ⟨k, hk⟩ := regulate_period a
  rw [hk, Complex.exp_eq_exp_iff_exists_int]
  exact ⟨-(2 * k), by push_cast; ring⟩

theorem cexp_half_regulate (a : ℝ) : Complex.exp (Complex.I * ((regulateTheta a / 2 : ℝ) : ℂ)) =
    Complex.exp (Complex.I * ((a / 2 : ℝ) : ℂ)) := by
  obtain ⟨k, hk⟩ := regulate_period a
  rw [hk, Complex.exp_eq_exp_iff_exists_int]
  exact ⟨k, by push_cast; ring⟩

end Qudits
