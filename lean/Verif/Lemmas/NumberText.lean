import Verif.Model.NumberText
import Mathlib.Tactic.Linarith
import Mathlib.Tactic.FieldSimp
import Mathlib.Tactic.Ring
import Mathlib.Tactic.Positivity
import Mathlib.Tactic.Push
import Mathlib.Data.Nat.Prime.Basic
/- The search for a fraction between two bounds. -/
namespace Qudits.DD
open Classical

/-- what holds at the start of every round -/
structure Between (x : ℝ) (maxDen : Nat) (tol : ℝ) (lo up : Nat × Nat) : Prop where
  det : up.1 * lo.2 = lo.1 * up.2 + 1
  pos : 1 ≤ lo.2
  low : lo = (0, 1) ∨ (lo.1 : ℝ) < (x - tol) * lo.2
  upp : (x + tol) * up.2 < up.1
  top : up.2 = 0 → lo.2 = 1
  den : lo.2 ≤ maxDen ∨ (1 ≤ up.2 ∧ up.2 ≤ maxDen)

theorem Between.start (x : ℝ) (maxDen : Nat) (tol : ℝ) (h : 1 ≤ maxDen) : Between x maxDen tol (0, 1) (1, 0) :=
  ⟨rfl, le_refl _, .inl rfl, by simp, fun _ => rfl, .inl h⟩

theorem Between.left {x : ℝ} {maxDen : Nat} {tol : ℝ} {lo up : Nat × Nat} (h : Between x maxDen tol lo up) (h1 : lo.2 ≤ maxDen) (h2 : up.2 ≤ maxDen)
    (hm : ¬|x - ((lo.1 + up.1 : Nat) : ℝ) / ((lo.2 + up.2 : Nat) : ℝ)| ≤ tol) (hx : x > ((lo.1 + up.1 : Nat) : ℝ) / ((lo.2 + up.2 : Nat) : ℝ)) :
    Between x maxDen tol (lo.1 + up.1, lo.2 + up.2) up := by
  obtain ⟨a, b⟩ := lo
  obtain ⟨c, e⟩ := up
  have hb : (0 : ℝ) < ((b + e : Nat) : ℝ) := by have := h.pos; dsimp only at this; exact_mod_cast (by omega : 0 < b + e)
  have hdet := h.det
  refine ⟨?_, ?_, .inr ?_, h.upp, ?_, ?_⟩
  · dsimp only at hdet ⊢
    linarith [Nat.mul_add c b e, Nat.add_mul a c e]
  · have := h.pos; dsimp only at this ⊢; omega
  · dsimp only at hm hx ⊢
    rw [abs_of_pos (sub_pos.2 hx), not_le] at hm
    have : ((a + c : Nat) : ℝ) / ((b + e : Nat) : ℝ) < x - tol := by linarith
    exact (div_lt_iff₀ hb).1 this
  · intro h0; have := h.top h0; dsimp only at this h0 ⊢; omega
  · dsimp only at h1 h2 ⊢
    omega

theorem Between.right {x : ℝ} {maxDen : Nat} {tol : ℝ} {lo up : Nat × Nat} (h : Between x maxDen tol lo up) (h1 : lo.2 ≤ maxDen)
    (hm : ¬|x - ((lo.1 + up.1 : Nat) : ℝ) / ((lo.2 + up.2 : Nat) : ℝ)| ≤ tol) (hx : ¬x > ((lo.1 + up.1 : Nat) : ℝ) / ((lo.2 + up.2 : Nat) : ℝ)) :
    Between x maxDen tol lo (lo.1 + up.1, lo.2 + up.2) := by
  obtain ⟨a, b⟩ := lo
  obtain ⟨c, e⟩ := up
  have hb : (0 : ℝ) < ((b + e : Nat) : ℝ) := by have := h.pos; dsimp only at this; exact_mod_cast (by omega : 0 < b + e)
  have hdet := h.det
  refine ⟨?_, h.pos, h.low, ?_, ?_, .inl h1⟩
  · dsimp only at hdet ⊢
    linarith [Nat.mul_add a b e, Nat.add_mul a c b]
  · dsimp only at hm hx ⊢
    rw [abs_of_nonpos (by linarith), not_le] at hm
    have : x + tol < ((a + c : Nat) : ℝ) / ((b + e : Nat) : ℝ) := by linarith
    exact (lt_div_iff₀ hb).1 this
  · intro h0; have := h.pos; dsimp only at this h0 ⊢; omega

/-- fractions close to the number have larger denominators than the bounds together -/
theorem Between.inside {x : ℝ} {maxDen : Nat} {tol : ℝ} {lo up : Nat × Nat} (h : Between x maxDen tol lo up) {p q : Nat} (hp : 1 ≤ p) (hq : 1 ≤ q)
    (hpq : |x - (p : ℝ) / q| ≤ tol) : lo.2 + up.2 ≤ q ∧ lo.1 + up.1 ≤ p := by
  obtain ⟨a, b⟩ := lo
  obtain ⟨c, e⟩ := up
  have hq' : (0 : ℝ) < q := by exact_mod_cast hq
  rw [abs_le] at hpq
  have hpu : (p : ℝ) ≤ (x + tol) * q := by
    have : (p : ℝ) / q ≤ x + tol := by linarith [hpq.1]
    exact (div_le_iff₀ hq').1 this
  have hpl : (x - tol) * q ≤ p := by
    have : x - tol ≤ (p : ℝ) / q := by linarith [hpq.2]
    exact (le_div_iff₀ hq').1 this
  have hdet : c * b = a * e + 1 := h.det
  have hb : 1 ≤ b := h.pos
  have h1 : q * a < p * b := by
    rcases h.low with h0 | h0
    · obtain ⟨rfl, rfl⟩ := Prod.mk.inj h0
      omega
    · dsimp only at h0
      have hb' : (0 : ℝ) < b := by exact_mod_cast hb
      have : (q : ℝ) * a < p * b := by nlinarith
      exact_mod_cast this
  have h2 : p * e < c * q := by
    have h0 := h.upp
    dsimp only at h0
    have he : (0 : ℝ) ≤ e := Nat.cast_nonneg e
    have : (p : ℝ) * e < c * q := by nlinarith
    exact_mod_cast this
  have hdz : (c : Int) * b = a * e + 1 := by exact_mod_cast hdet
  have h1z : (1 : Int) ≤ p * b - q * a := by have : (q : Int) * a < p * b := by exact_mod_cast h1
                                             omega
  have h2z : (1 : Int) ≤ c * q - p * e := by have : (p : Int) * e < c * q := by exact_mod_cast h2
                                             omega
  have hqe : (q : Int) = b * (c * q - p * e) + e * (p * b - q * a) := by linear_combination (-(q : Int)) * hdz
  have hpe : (p : Int) = a * (c * q - p * e) + c * (p * b - q * a) := by linear_combination (-(p : Int)) * hdz
  constructor
  · dsimp only
    have : ((b + e : Nat) : Int) ≤ q := by
      push_cast
      nlinarith [Int.natCast_nonneg b, Int.natCast_nonneg e]
    exact_mod_cast this
  · dsimp only
    have : ((a + c : Nat) : Int) ≤ p := by
      push_cast
      nlinarith [Int.natCast_nonneg a, Int.natCast_nonneg c]
    exact_mod_cast this

theorem coprime_of_det {a b c e : Nat} (h : c * b = a * e + 1) : Nat.Coprime a b ∧ Nat.Coprime c e ∧ Nat.Coprime (a + c) (b + e) := by
  have key : ∀ {u v s t : Nat}, s * v = u * t + 1 → Nat.Coprime u v := by
    intro u v s t h
    have hd := Nat.dvd_sub (Dvd.dvd.mul_left (Nat.gcd_dvd_right u v) s) (Dvd.dvd.mul_right (Nat.gcd_dvd_left u v) t)
    rw [h, Nat.add_sub_cancel_left] at hd
    exact Nat.dvd_one.1 hd
  refine ⟨key h, ?_, ?_⟩
  · exact (key (u := e) (v := c) (s := b) (t := a) (by rw [Nat.mul_comm b c, h, Nat.mul_comm])).symm
  · refine key (s := c) (t := e) ?_
    rw [Nat.mul_add, Nat.add_mul, h]
    omega

/-- what a search is good for -/
def GoodFraction (x : ℝ) (maxDen : Nat) (tol : ℝ) (r : Nat × Nat) : Prop :=
  Nat.Coprime r.1 r.2 ∧ 1 ≤ r.2 ∧ r.2 ≤ maxDen ∧
    ∀ p q : Nat, 1 ≤ p → 1 ≤ q → q ≤ maxDen → |x - (p : ℝ) / q| ≤ tol → |x - (r.1 : ℝ) / r.2| ≤ tol ∧ r.2 ≤ q ∧ r.1 ≤ p

theorem search_good {x : ℝ} (hx : 0 ≤ x) {maxDen : Nat} {tol : ℝ} : ∀ (k : Nat) (lo up : Nat × Nat), Between x maxDen tol lo up →
    (maxDen + 1 - lo.2) + (maxDen + 1 - up.2) + (if up.2 = 0 then ⌊x⌋₊ + 1 - lo.1 else 0) < k →
    ∃ r, searchFraction x maxDen tol k lo up = some r ∧ GoodFraction x maxDen tol r
  | 0, _, _, _, hk => by omega
  | k + 1, lo, up, h, hk => by
    obtain ⟨hc1, hc2, hc3⟩ := coprime_of_det h.det
    unfold searchFraction
    by_cases hl : lo.2 ≤ maxDen ∧ up.2 ≤ maxDen
    · rw [if_pos hl]
      dsimp only
      by_cases hm : |x - ((lo.1 + up.1 : Nat) : ℝ) / ((lo.2 + up.2 : Nat) : ℝ)| ≤ tol
      · rw [if_pos hm]
        by_cases hd : lo.2 + up.2 ≤ maxDen
        · rw [if_pos hd]
          refine ⟨_, rfl, hc3, ?_, hd, fun p q hp hq hqm hpq => ?_⟩
          · have := h.pos; dsimp only; omega
          · exact ⟨hm, h.inside hp hq hpq⟩
        · rw [if_neg hd]
          have hno : ∀ p q : Nat, 1 ≤ p → 1 ≤ q → q ≤ maxDen → |x - (p : ℝ) / q| ≤ tol → False := by
            intro p q hp hq hqm hpq
            have := (h.inside hp hq hpq).1
            omega
          have hp := h.pos
          split
          · exact ⟨_, rfl, hc2, by omega, hl.2, fun p q hp hq hqm hpq => (hno p q hp hq hqm hpq).elim⟩
          · exact ⟨_, rfl, hc1, hp, hl.1, fun p q hp hq hqm hpq => (hno p q hp hq hqm hpq).elim⟩
      · rw [if_neg hm]
        have hp := h.pos
        by_cases hxm : x > ((lo.1 + up.1 : Nat) : ℝ) / ((lo.2 + up.2 : Nat) : ℝ)
        · rw [if_pos hxm]
          refine search_good hx k _ _ (h.left hl.1 hl.2 hm hxm) ?_
          dsimp only
          by_cases h0 : up.2 = 0
          · rw [if_pos h0] at hk ⊢
            have h1 := h.top h0
            have hu : up.1 = 1 := by
              have := h.det
              rw [h0, h1] at this
              omega
            rw [h0, h1, hu] at hxm
            have : lo.1 + 1 ≤ ⌊x⌋₊ := Nat.le_floor (by simpa using le_of_lt hxm)
            omega
          · rw [if_neg h0] at hk ⊢
            omega
        · rw [if_neg hxm]
          refine search_good hx k _ _ (h.right hl.1 hm hxm) ?_
          dsimp only
          rw [if_neg (by omega)]
          split at hk <;> omega
    · rw [if_neg hl]
      have hno : ∀ p q : Nat, 1 ≤ p → 1 ≤ q → q ≤ maxDen → |x - (p : ℝ) / q| ≤ tol → False := by
        intro p q hp hq hqm hpq
        have := (h.inside hp hq hpq).1
        omega
      have hd := h.den
      have hp := h.pos
      by_cases hlo : lo.2 > maxDen
      · rw [if_pos hlo]
        exact ⟨_, rfl, hc2, by omega, by omega, fun p q hp hq hqm hpq => (hno p q hp hq hqm hpq).elim⟩
      · rw [if_neg hlo]
        exact ⟨_, rfl, hc1, hp, by omega, fun p q hp hq hqm hpq => (hno p q hp hq hqm hpq).elim⟩

theorem lowestFraction_good {x : ℝ} (hx : 0 ≤ x) {maxDen : Nat} (hmax : 1 ≤ maxDen) (tol : ℝ) {rounds : Nat} (hr : ⌊x⌋₊ + 2 * maxDen + 3 ≤ rounds) :
    ∃ r, lowestFraction rounds x maxDen tol = some r ∧ GoodFraction x maxDen tol r := by
  refine search_good hx rounds _ _ (.start x maxDen tol hmax) ?_
  simp
  omega

theorem lowestFraction_small {x : ℝ} (hx : 0 ≤ x) {maxDen : Nat} (hmax : 1 ≤ maxDen) {tol : ℝ} (htol : 0 ≤ tol) (hs : (x + tol) * (maxDen + 1) < 1)
    {rounds : Nat} (hr : maxDen + 3 ≤ rounds) : lowestFraction rounds x maxDen tol = some (0, 1) := by
  have : ∀ (k e : Nat), e ≤ maxDen + 1 → maxDen + 2 - e < k → searchFraction x maxDen tol k (0, 1) (1, e) = some (0, 1) := by
    intro k
    induction k with
    | zero => intro e _ h; omega
    | succ k ih =>
      intro e he hk
      unfold searchFraction
      dsimp only
      by_cases hl : 1 ≤ maxDen ∧ e ≤ maxDen
      · rw [if_pos hl]
        have hpos : (0 : ℝ) < ((1 + e : Nat) : ℝ) := by positivity
        have hle : ((1 + e : Nat) : ℝ) ≤ maxDen + 1 := by
          have : 1 + e ≤ maxDen + 1 := by omega
          exact_mod_cast this
        have hgt : x + tol < ((0 + 1 : Nat) : ℝ) / ((1 + e : Nat) : ℝ) := by
          rw [lt_div_iff₀ hpos]
          have : (x + tol) * ((1 + e : Nat) : ℝ) ≤ (x + tol) * (maxDen + 1) := mul_le_mul_of_nonneg_left hle (by linarith)
          push_cast at this ⊢
          linarith
        rw [if_neg (by rw [abs_of_neg (by linarith)]; linarith), if_neg (by linarith)]
        have := ih (1 + e) (by omega) (by omega)
        simpa using this
      · rw [if_neg hl, if_neg (by omega)]
  exact this rounds 0 (by omega) (by omega)

end Qudits.DD
