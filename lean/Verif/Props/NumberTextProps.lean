import Verif.Lemmas.NumberText
import Verif.Spec.NumberTextSpec
import Mathlib.Analysis.Real.Pi.Bounds
import Mathlib.Tactic.IntervalCases
/-
Property C81: complex numbers as text.
-/
namespace Qudits
open Spec DD
open Classical

/-- C81: the search for a fraction always ends, after at most ⌊x⌋ + 2 · maxDenominator + 3 rounds. What it returns is in lowest terms with an allowed
denominator. If any positive fraction with an allowed denominator is as close to `x` as the tolerance asks for, then the one returned is, and it is
the simplest one: no other has a smaller numerator or a smaller denominator. -/
theorem C81_fraction (x : ℝ) (hx : 0 ≤ x) (maxDen : Nat) (hmax : 1 ≤ maxDen) (tol : ℝ) (rounds : Nat) (hr : ⌊x⌋₊ + 2 * maxDen + 3 ≤ rounds) :
    ∃ a b : Nat, lowestFraction rounds x maxDen tol = some (a, b) ∧ Nat.Coprime a b ∧ 1 ≤ b ∧ b ≤ maxDen ∧
      ∀ p q : Nat, 1 ≤ p → 1 ≤ q → q ≤ maxDen → |x - (p : ℝ) / q| ≤ tol → |x - (a : ℝ) / b| ≤ tol ∧ b ≤ q ∧ a ≤ p := by
  obtain ⟨r, h1, h2, h3, h4, h5⟩ := lowestFraction_good hx hmax tol hr
  exact ⟨r.1, r.2, h1, h2, h3, h4, h5⟩

/-- C81: a fraction is found exactly if the tolerance is too small for another one. -/
theorem C81_exact (a b maxDen : Nat) (ha : 1 ≤ a) (hb : 1 ≤ b) (hbm : b ≤ maxDen) (hab : Nat.Coprime a b) (tol : ℝ) (htol : 0 ≤ tol)
    (hsmall : tol * (maxDen : ℝ) ^ 2 < 1) (rounds : Nat) (hr : ⌊(a : ℝ) / b⌋₊ + 2 * maxDen + 3 ≤ rounds) :
    lowestFraction rounds ((a : ℝ) / b) maxDen tol = some (a, b) := by
  obtain ⟨p, q, h1, h2, h3, h4, h5⟩ := C81_fraction ((a : ℝ) / b) (by positivity) maxDen (by omega) tol rounds hr
  obtain ⟨h6, -, -⟩ := h5 a b ha hb hbm (by simpa using htol)
  rw [h1]
  have hb' : (0 : ℝ) < b := by exact_mod_cast hb
  have hq' : (0 : ℝ) < q := by exact_mod_cast h3
  have hcross : a * q = p * b := by
    by_contra hne
    have hz : (1 : ℝ) ≤ |(a : ℝ) * q - p * b| := by
      have : (1 : Int) ≤ |(a : Int) * q - p * b| := Int.one_le_abs (by
        intro h0
        apply hne
        have : (a : Int) * q = p * b := by linarith
        exact_mod_cast this)
      exact_mod_cast this
    have heq : (a : ℝ) / b - p / q = ((a : ℝ) * q - p * b) / (b * q) := by field_simp
    rw [heq, abs_div, abs_of_pos (mul_pos hb' hq'), div_le_iff₀ (mul_pos hb' hq')] at h6
    have hbq : (b : ℝ) * q ≤ maxDen ^ 2 := by
      have h1 : (b : ℝ) ≤ maxDen := by exact_mod_cast hbm
      have h2 : (q : ℝ) ≤ maxDen := by exact_mod_cast h4
      nlinarith
    nlinarith
  have hd1 : b ∣ q := by
    have : b ∣ a * q := by rw [hcross]; exact Nat.dvd_mul_left b p
    exact (Nat.Coprime.symm hab).dvd_of_dvd_mul_left this
  have hd2 : q ∣ b := by
    have : q ∣ p * b := by rw [← hcross]; exact Nat.dvd_mul_left q a
    exact (Nat.Coprime.symm h2).dvd_of_dvd_mul_left this
  have hbq : b = q := Nat.dvd_antisymm hd1 hd2
  subst hbq
  have : a = p := Nat.eq_of_mul_eq_mul_right (by omega) hcross
  rw [this]

theorem enough_ok (x : ℝ) : ⌊x⌋₊ + 2 * 1024 + 3 ≤ enough x := by
  unfold enough
  omega

theorem fractionText_magnitude (imaginary : Bool) (f : Nat × Nat) :
    Magnitude imaginary (fractionText (if imaginary then "i" else "1") (if imaginary then "i" else "") f) ((f.1 : ℝ) / f.2) := by
  have hone : Numerator imaginary (if imaginary then "i" else "1") 1 := by
    cases imaginary
    · exact .one rfl
    · exact .i rfl
  have hu : (if imaginary then "i" else "") = unitText imaginary := rfl
  unfold fractionText
  rw [hu]
  split
  next h => rw [h.1, h.2]; simpa using Magnitude.numerator hone
  next =>
    split
    next h => rw [h]; simpa using Magnitude.numerator (Numerator.whole f.1)
    next =>
      split
      next h => rw [h]; simpa using Magnitude.over hone f.2
      next => exact Magnitude.over (Numerator.whole f.1) f.2

theorem rootText_magnitude (imaginary : Bool) (f : Nat × Nat) :
    Magnitude imaginary (rootText (if imaginary then "i" else "1") (if imaginary then "i" else "") f) ((f.1 : ℝ) / (f.2 * Real.sqrt 2)) := by
  have hone : Numerator imaginary (if imaginary then "i" else "1") 1 := by
    cases imaginary
    · exact .one rfl
    · exact .i rfl
  have hu : (if imaginary then "i" else "") = unitText imaginary := rfl
  unfold rootText
  rw [hu]
  split
  next h => rw [h.1, h.2]; simpa using Magnitude.overRoot hone
  next =>
    split
    next h => rw [h]; simpa using Magnitude.overRoot (Numerator.whole f.1)
    next =>
      split
      next h => rw [h]; simpa using Magnitude.overBoth hone f.2
      next => exact Magnitude.overBoth (Numerator.whole f.1) f.2

theorem piText_magnitude (imaginary : Bool) (f : Nat × Nat) :
    Magnitude imaginary (piText (if imaginary then "i" else "") f) ((f.1 : ℝ) * Real.pi / f.2) := by
  have hu : (if imaginary then "i" else "") = unitText imaginary := rfl
  unfold piText
  rw [hu]
  split
  next h => rw [h.1, h.2]; simpa using Magnitude.numerator Numerator.pi
  next =>
    split
    next h => rw [h]; simpa using Magnitude.numerator (Numerator.pis f.1)
    next =>
      split
      next h => rw [h]; simpa using Magnitude.over Numerator.pi f.2
      next => exact Magnitude.over (Numerator.pis f.1) f.2

theorem signed_term (dec : ℝ → String) (imaginary : Bool) (num : ℝ) {t : String} {v e : ℝ} (h : Magnitude imaginary t v) (he : |(|num|) - v| ≤ e) :
    ∃ w, TermText dec imaginary ((if num < 0 then "-" else if imaginary then "+" else "") ++ t) w ∧ |num - w| ≤ e := by
  by_cases hn : num < 0
  · rw [if_pos hn]
    refine ⟨-v, .minus h, ?_⟩
    rw [abs_of_neg hn] at he
    rw [← abs_neg]
    rwa [show -(num - -v) = -num - v by ring]
  · rw [if_neg hn]
    rw [abs_of_nonneg (not_lt.1 hn)] at he
    cases imaginary
    · exact ⟨v, by simpa using TermText.none h, he⟩
    · exact ⟨v, by simpa using TermText.plus h, he⟩

/-- C81: one part of a number is always printed, as a text for a number that differs from it by at most π times the tolerance. -/
theorem C81_term (dec : ℝ → String) (tol num : ℝ) (htol : 0 ≤ tol) (imaginary : Bool) :
    ∃ text v, printFormatted dec tol num imaginary = some text ∧ TermText dec imaginary text v ∧ |num - v| ≤ Real.pi * tol := by
  have hpi : tol ≤ Real.pi * tol := by nlinarith [Real.pi_gt_three]
  have hu : (if imaginary then "i" else "") = unitText imaginary := rfl
  unfold printFormatted
  dsimp only
  by_cases h0 : |num| ≤ tol
  · rw [if_pos h0]
    have hz : Magnitude imaginary ("0" ++ unitText imaginary) 0 := by
      have := Magnitude.numerator (Numerator.whole (imaginary := imaginary) 0)
      rwa [show toString 0 = "0" from by decide, Nat.cast_zero] at this
    by_cases hn : num < 0
    · rw [if_pos hn]
      refine ⟨_, -0, rfl, ?_, ?_⟩
      · rw [hu, String.append_assoc]
        exact .minus hz
      · simpa using le_trans h0 hpi
    · rw [if_neg hn]
      refine ⟨_, 0, rfl, ?_, ?_⟩
      · rw [hu, String.append_assoc]
        exact .plus hz
      · simpa using le_trans h0 hpi
  rw [if_neg h0]
  obtain ⟨f1, hf1, _⟩ := lowestFraction_good (abs_nonneg num) (by norm_num : 1 ≤ 1024) tol (enough_ok |num|)
  have hs0 : (0 : ℝ) ≤ |num| / (Real.sqrt 2 / 2) := by positivity
  obtain ⟨f2, hf2, _⟩ := lowestFraction_good hs0 (by norm_num : 1 ≤ 1024) tol (enough_ok _)
  have hp0 : (0 : ℝ) ≤ |num| / Real.pi := by positivity
  obtain ⟨f3, hf3, _⟩ := lowestFraction_good hp0 (by norm_num : 1 ≤ 1024) tol (enough_ok _)
  simp only [hf1, hf2, hf3, Option.bind_eq_bind, Option.bind_some]
  split
  next h =>
    obtain ⟨w, hw, hwe⟩ := signed_term dec imaginary num (fractionText_magnitude imaginary f1) (h.trans hpi)
    exact ⟨_, w, rfl, hw, hwe⟩
  next =>
    split
    next h =>
      have h2 : (0 : ℝ) < Real.sqrt 2 := by positivity
      have hsq : Real.sqrt 2 * Real.sqrt 2 = 2 := Real.mul_self_sqrt (by norm_num)
      have he : |(|num|) - (f2.1 : ℝ) / (f2.2 * Real.sqrt 2)| ≤ Real.pi * tol := by
        have heq : |num| - (f2.1 : ℝ) / (f2.2 * Real.sqrt 2) = (|num| / (Real.sqrt 2 / 2) - (f2.1 : ℝ) / f2.2) / Real.sqrt 2 := by
          rw [sub_div, div_div, div_div, div_mul_eq_mul_div, hsq, div_self (by norm_num : (2 : ℝ) ≠ 0), div_one]
        rw [heq, abs_div, abs_of_pos h2, div_le_iff₀ h2]
        have h1 : 1 ≤ Real.sqrt 2 := by
          rw [show (1 : ℝ) = Real.sqrt 1 by simp]
          exact Real.sqrt_le_sqrt (by norm_num)
        calc |(|num|) / (Real.sqrt 2 / 2) - (f2.1 : ℝ) / f2.2| ≤ tol := h
          _ ≤ Real.pi * tol := hpi
          _ ≤ Real.pi * tol * Real.sqrt 2 := le_mul_of_one_le_right (by positivity) h1
      obtain ⟨w, hw, hwe⟩ := signed_term dec imaginary num (rootText_magnitude imaginary f2) he
      exact ⟨_, w, rfl, hw, hwe⟩
    next =>
      split
      next h =>
        have he : |(|num|) - (f3.1 : ℝ) * Real.pi / f3.2| ≤ Real.pi * tol := by
          have heq : |num| - (f3.1 : ℝ) * Real.pi / f3.2 = Real.pi * (|num| / Real.pi - (f3.1 : ℝ) / f3.2) := by
            rw [mul_sub, mul_div_cancel₀ _ Real.pi_ne_zero]
            ring
          rw [heq, abs_mul, abs_of_pos Real.pi_pos]
          exact mul_le_mul_of_nonneg_left h Real.pi_pos.le
        obtain ⟨w, hw, hwe⟩ := signed_term dec imaginary num (piText_magnitude imaginary f3) he
        exact ⟨_, w, rfl, hw, hwe⟩
      next =>
        have hz : |num - num| ≤ Real.pi * tol := by rw [sub_self, abs_zero]; positivity
        cases imaginary
        · refine ⟨_, num, rfl, ?_, hz⟩
          have := TermText.decimal (dec := dec) (imaginary := false) num
          simpa [unitText] using this
        · by_cases hn : num < 0
          · refine ⟨_, num, rfl, ?_, hz⟩
            have := TermText.decimal (dec := dec) (imaginary := true) num
            rw [if_pos hn]
            simpa [unitText] using this
          · refine ⟨_, num, rfl, ?_, hz⟩
            have := TermText.decimalPlus (dec := dec) (imaginary := true) num
            rw [if_neg hn]
            exact this

/-- C81: a positive fraction in lowest terms is printed as this fraction. -/
theorem C81_fraction_shown (dec : ℝ → String) (tol : ℝ) (htol : 0 ≤ tol) (hsmall : tol * 1024 ^ 2 < 1) (a b : Nat) (ha : 2 ≤ a) (hb : 2 ≤ b)
    (hbm : b ≤ 1024) (hab : Nat.Coprime a b) :
    printFormatted dec tol ((a : ℝ) / b) false = some (toString a ++ "/" ++ toString b) ∧
    printFormatted dec tol ((a : ℝ) / b) true = some ("+" ++ (toString a ++ "i" ++ "/" ++ toString b)) ∧
    printFormatted dec tol (-((a : ℝ) / b)) false = some ("-" ++ (toString a ++ "/" ++ toString b)) := by
  have hpos : (0 : ℝ) < (a : ℝ) / b := by
    have h1 : (0 : ℝ) < a := by exact_mod_cast (by omega : 0 < a)
    have h2 : (0 : ℝ) < b := by exact_mod_cast (by omega : 0 < b)
    positivity
  have hbig : ¬(a : ℝ) / b ≤ tol := by
    rw [not_le]
    have h2 : (0 : ℝ) < b := by exact_mod_cast (by omega : 0 < b)
    rw [lt_div_iff₀ h2]
    have h3 : (b : ℝ) ≤ 1024 := by exact_mod_cast hbm
    have h4 : (2 : ℝ) ≤ a := by exact_mod_cast ha
    nlinarith
  have hf := C81_exact a b 1024 (by omega) (by omega) hbm hab tol htol (by exact_mod_cast hsmall) (enough ((a : ℝ) / b)) (enough_ok _)
  have hz : |(a : ℝ) / b - (a : ℝ) / b| ≤ tol := by simpa using htol
  have hft : ∀ one unit, fractionText one unit (a, b) = toString a ++ unit ++ "/" ++ toString b := by
    intro one unit
    unfold fractionText
    dsimp only
    rw [if_neg (by omega), if_neg (by omega), if_neg (by omega)]
  refine ⟨?_, ?_, ?_⟩
  · unfold printFormatted
    dsimp only
    rw [abs_of_pos hpos, if_neg hbig, if_neg (not_lt.2 hpos.le), hf]
    simp only [Option.bind_eq_bind, Option.bind_some]
    rw [if_pos hz, hft]
    simp
  · unfold printFormatted
    dsimp only
    rw [abs_of_pos hpos, if_neg hbig, if_neg (not_lt.2 hpos.le), hf]
    simp only [Option.bind_eq_bind, Option.bind_some]
    rw [if_pos hz, hft]
    simp
  · unfold printFormatted
    dsimp only
    rw [abs_neg, abs_of_pos hpos, if_neg hbig, if_pos (by linarith), hf]
    simp only [Option.bind_eq_bind, Option.bind_some]
    rw [if_pos hz, hft]
    simp

/-- C81, partial: every number with an imaginary part that is not between once and twice the tolerance is printed, and the text is one of a number that
differs in the real part by at most π and in the imaginary part by at most π + 1 times the tolerance. What is missing are the numbers of
`C81_tiny_violated`. -/
theorem C81_number_partial (dec : ℝ → String) (tol real imag : ℝ) (htol : 0 ≤ tol) (formatted : Bool) (h : |imag| ≤ tol ∨ 2 * tol < |imag|) :
    ∃ text v w, numberText dec tol real imag formatted = some text ∧ Spec.NumberText dec text v w ∧ |real - v| ≤ Real.pi * tol ∧
      |imag - w| ≤ (Real.pi + 1) * tol := by
  have hpi : tol ≤ Real.pi * tol := by nlinarith [Real.pi_gt_three]
  have hpi1 : Real.pi * tol ≤ (Real.pi + 1) * tol := by linarith
  have hpp : 0 ≤ Real.pi * tol := by positivity
  have hreal : ∃ s, realText dec tol real formatted = some s ∧
      (|real| > tol → ∃ v, TermText dec false s v ∧ |real - v| ≤ Real.pi * tol) ∧ (¬|real| > tol → s = "") := by
    unfold realText
    by_cases hr : |real| > tol
    · rw [if_pos hr]
      cases formatted
      · refine ⟨dec real, rfl, fun _ => ⟨real, ?_, by simpa using hpp⟩, fun h => absurd hr h⟩
        simpa [unitText] using TermText.decimal (dec := dec) (imaginary := false) real
      · obtain ⟨t, v, h1, h2, h3⟩ := C81_term dec tol real htol false
        exact ⟨t, h1, fun _ => ⟨v, h2, h3⟩, fun h => absurd hr h⟩
    · rw [if_neg hr]
      exact ⟨"", rfl, fun h => absurd h hr, fun _ => rfl⟩
  obtain ⟨s, hs, hsr, hsn⟩ := hreal
  unfold numberText
  rw [hs, Option.bind_some]
  unfold imagText
  by_cases h0 : |real| ≤ tol ∧ |imag| ≤ tol
  · rw [if_pos h0]
    exact ⟨_, 0, 0, rfl, .zero, by simpa using h0.1.trans hpi, by simpa using h0.2.trans (hpi.trans hpi1)⟩
  rw [if_neg h0]
  by_cases hi : |imag| > tol
  · rw [if_pos hi]
    have hi2 : 2 * tol < |imag| := by
      rcases h with h | h
      · exact absurd hi (not_lt.2 h)
      · exact h
    cases formatted
    · rw [if_neg (by simp)]
      by_cases hr : |real| ≤ tol
      · rw [if_pos hr, hsn (not_lt.2 hr)]
        refine ⟨_, 0, imag, rfl, ?_, by simpa using hr.trans hpi, by simpa using hpp.trans hpi1⟩
        have := TermText.decimal (dec := dec) (imaginary := true) imag
        exact .imag (by simpa [unitText] using this)
      · rw [if_neg hr]
        obtain ⟨v, hv, hve⟩ := hsr (not_le.1 hr)
        refine ⟨_, v, imag, rfl, ?_, hve, by simpa using hpp.trans hpi1⟩
        by_cases hp : imag > 0
        · have := TermText.decimalPlus (dec := dec) (imaginary := true) imag
          rw [if_pos hp]
          have := NumberText.both hv this
          simpa [unitText, String.append_assoc] using this
        · have := TermText.decimal (dec := dec) (imaginary := true) imag
          rw [if_neg hp]
          have := NumberText.both hv this
          simpa [unitText, String.append_assoc] using this
    · rw [if_pos rfl]
      by_cases hd : |real - imag| ≤ tol
      · rw [if_pos hd]
        have hr : |real| > tol := by
          have := abs_sub_abs_le_abs_sub imag real
          rw [abs_sub_comm] at this
          linarith
        obtain ⟨v, hv, hve⟩ := hsr hr
        refine ⟨_, v, v, rfl, .diagonal hv, hve, ?_⟩
        calc |imag - v| = |(real - v) - (real - imag)| := by ring_nf
          _ ≤ |real - v| + |real - imag| := abs_sub _ _
          _ ≤ (Real.pi + 1) * tol := by linarith
      · rw [if_neg hd]
        by_cases hd' : |real + imag| ≤ tol
        · rw [if_pos hd']
          have hr : |real| > tol := by
            have := abs_sub_abs_le_abs_sub imag (-real)
            rw [abs_neg, sub_neg_eq_add, add_comm] at this
            linarith
          obtain ⟨v, hv, hve⟩ := hsr hr
          refine ⟨_, v, -v, rfl, .antidiagonal hv, hve, ?_⟩
          calc |imag - -v| = |(real + imag) - (real - v)| := by ring_nf
            _ ≤ |real + imag| + |real - v| := abs_sub _ _
            _ ≤ (Real.pi + 1) * tol := by linarith
        · rw [if_neg hd']
          obtain ⟨t, w, h1, h2, h3⟩ := C81_term dec tol imag htol true
          rw [h1, Option.map_some]
          by_cases hr : |real| > tol
          · obtain ⟨v, hv, hve⟩ := hsr hr
            exact ⟨_, v, w, rfl, .both hv h2, hve, h3.trans hpi1⟩
          · rw [hsn hr]
            exact ⟨_, 0, w, rfl, by simpa using NumberText.imag h2, by simpa using (not_lt.1 hr).trans hpi, h3.trans hpi1⟩
  · rw [if_neg hi]
    have hr : |real| > tol := by
      by_contra hc
      exact h0 ⟨not_lt.1 hc, not_lt.1 hi⟩
    obtain ⟨v, hv, hve⟩ := hsr hr
    exact ⟨_, v, 0, rfl, .real hv, hve, by simpa using (not_lt.1 hi).trans (hpi.trans hpi1)⟩

/-- C81 is violated for numbers of about the tolerance: a number with real part 0.75 tol and imaginary part 1.5 tol is printed as 1 + i. -/
theorem C81_tiny_violated (dec : ℝ → String) (tol : ℝ) (htol : 0 < tol) :
    numberText dec tol (3 / 4 * tol) (3 / 2 * tol) true = some "(1+i)" := by
  have h1 : |3 / 4 * tol| = 3 / 4 * tol := abs_of_pos (by positivity)
  have h2 : |3 / 2 * tol| = 3 / 2 * tol := abs_of_pos (by positivity)
  have h3 : |3 / 4 * tol - 3 / 2 * tol| = 3 / 4 * tol := by
    rw [show 3 / 4 * tol - 3 / 2 * tol = -(3 / 4 * tol) by ring, abs_neg, h1]
  unfold numberText realText imagText
  rw [h1, h2, h3, if_neg (by rintro ⟨_, h⟩; linarith), if_neg (by simp; linarith), Option.bind_some,
    if_pos (by linarith), if_pos rfl, if_pos (by linarith)]
  decide

/-- C81 is violated for numbers of about the tolerance: twice the tolerance, which is not taken for zero, is printed as 0π. -/
theorem C81_zero_pi_violated (dec : ℝ → String) (tol : ℝ) (htol : 0 < tol) (hsmall : tol * 8192 < 1) :
    printFormatted dec tol (2 * tol) false = some "0π" := by
  have h2 : |2 * tol| = 2 * tol := abs_of_pos (by positivity)
  have hs2 : (0 : ℝ) < Real.sqrt 2 := by positivity
  have hs2' : Real.sqrt 2 ≤ 2 := by
    rw [show (2 : ℝ) = Real.sqrt 4 by rw [show (4 : ℝ) = 2 ^ 2 by norm_num]; exact (Real.sqrt_sq (by norm_num)).symm]
    exact Real.sqrt_le_sqrt (by
      rw [show Real.sqrt 4 = 2 by rw [show (4 : ℝ) = 2 ^ 2 by norm_num]; exact Real.sqrt_sq (by norm_num)]
      norm_num)
  have hsq : Real.sqrt 2 * Real.sqrt 2 = 2 := Real.mul_self_sqrt (by norm_num)
  have hroot : 2 * tol / (Real.sqrt 2 / 2) = 2 * tol * Real.sqrt 2 := by
    rw [div_eq_iff (by positivity)]
    linear_combination (-tol) * hsq
  have h1s : 1 ≤ Real.sqrt 2 := by
    rw [show (1 : ℝ) = Real.sqrt 1 by simp]
    exact Real.sqrt_le_sqrt (by norm_num)
  have hf1 := lowestFraction_small (x := 2 * tol) (by positivity) (by norm_num : 1 ≤ 1024) htol.le (by push_cast; linarith)
    (rounds := enough (2 * tol)) (by unfold enough; omega)
  have hf2 := lowestFraction_small (x := 2 * tol * Real.sqrt 2) (by positivity) (by norm_num : 1 ≤ 1024) htol.le (by push_cast; nlinarith)
    (rounds := enough (2 * tol * Real.sqrt 2)) (by unfold enough; omega)
  have hpile : 2 * tol / Real.pi ≤ tol := by
    rw [div_le_iff₀ Real.pi_pos]
    nlinarith [Real.pi_gt_three]
  have hf3 := lowestFraction_small (x := 2 * tol / Real.pi) (by positivity) (by norm_num : 1 ≤ 1024) htol.le (by push_cast; linarith)
    (rounds := enough (2 * tol / Real.pi)) (by unfold enough; omega)
  unfold printFormatted
  dsimp only
  rw [h2, hroot, if_neg (by linarith)]
  simp only [hf1, hf2, hf3, Option.bind_eq_bind, Option.bind_some, Nat.cast_zero, zero_div, sub_zero]
  rw [if_neg (by rw [h2]; linarith), if_neg (by rw [abs_of_pos (by positivity)]; nlinarith),
    if_pos (by rw [abs_of_nonneg (by positivity)]; exact hpile), if_neg (by linarith)]
  rfl

/-- 3/8 is found and printed. -/
example (dec : ℝ → String) : printFormatted dec (1 / 10 ^ 13) (3 / 8) false = some "3/8" := by
  have := (C81_fraction_shown dec (1 / 10 ^ 13) (by positivity) (by norm_num) 3 8 (by norm_num) (by norm_num) (by norm_num) (by decide)).1
  have h : ((3 : Nat) : ℝ) / ((8 : Nat) : ℝ) = 3 / 8 := by norm_num
  rw [h] at this
  rw [this]
  decide

/-- A number with equal parts: its text denotes a number close to it. -/
example (dec : ℝ → String) : ∃ text v w, numberText dec (1 / 10 ^ 13) (3 / 8) (3 / 8) true = some text ∧ Spec.NumberText dec text v w ∧
    |3 / 8 - v| ≤ Real.pi * (1 / 10 ^ 13) ∧ |3 / 8 - w| ≤ (Real.pi + 1) * (1 / 10 ^ 13) :=
  C81_number_partial dec (1 / 10 ^ 13) (3 / 8) (3 / 8) (by positivity) true (.inr (by rw [abs_of_pos (by norm_num)]; norm_num))

/-- The simplest fraction within 1/100 of π is 22/7. -/
example : lowestFraction 100 Real.pi 40 (1 / 100) = some (22, 7) := by
  have hlo := Real.pi_gt_d4
  have hup := Real.pi_lt_d4
  obtain ⟨a, b, h, hc, hb, hb', hs⟩ := C81_fraction Real.pi Real.pi_pos.le 40 (by norm_num) (1 / 100) 100 (by
    have : ⌊Real.pi⌋₊ ≤ 10 := by
      rw [← Nat.lt_succ_iff, Nat.floor_lt Real.pi_pos.le]
      push_cast
      linarith
    omega)
  obtain ⟨h1, h2, h3⟩ := hs 22 7 (by norm_num) (by norm_num) (by norm_num) (by
    rw [abs_le]
    push_cast
    constructor <;> linarith)
  have hbr : (0 : ℝ) < b := by exact_mod_cast hb
  obtain ⟨h4, h5⟩ := abs_le.1 h1
  have h6 : (a : ℝ) / b ≤ 31516 / 10000 := by linarith
  have h7 : (31315 : ℝ) / 10000 ≤ (a : ℝ) / b := by linarith
  rw [div_le_iff₀ hbr] at h6
  rw [le_div_iff₀ hbr] at h7
  have h8 : 10000 * a ≤ 31516 * b := by
    have : (10000 : ℝ) * a ≤ 31516 * b := by linarith
    exact_mod_cast this
  have h9 : 31315 * b ≤ 10000 * a := by
    have : (31315 : ℝ) * b ≤ 10000 * a := by linarith
    exact_mod_cast this
  have hb7 : b = 7 := by interval_cases b <;> omega
  have ha22 : a = 22 := by rw [hb7] at h8 h9; omega
  rw [h, hb7, ha22]

end Qudits
