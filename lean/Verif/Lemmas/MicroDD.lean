import Verif.Spec.PrepSpec
import Verif.Lemmas.Radix
import Verif.Lemmas.Embed
import Mathlib.Algebra.BigOperators.Group.List.Lemmas
import Mathlib.Algebra.Order.BigOperators.Group.List
import Mathlib.Tactic.FieldSimp
import Mathlib.Tactic.Positivity
import Mathlib.Tactic.LinearCombination
namespace Qudits
open Spec MicroDD

theorem sum_slices (f : ℂ → ℝ) (data : List ℂ) (s : Nat) : ∀ c,
    ((List.range c).map fun i => ((slice data i s).map f).sum).sum = ((data.take (c * s)).map f).sum
  | 0 => by simp
  | c + 1 => by
    rw [List.range_succ, List.map_append, List.sum_append, sum_slices f data s c, Nat.succ_mul, List.take_add, List.map_append,
      List.sum_append]
    simp [slice]

theorem slice_length (data : List ℂ) (c s i : Nat) (h : data.length = c * s) (hi : i < c) : (slice data i s).length = s := by
  have : (i + 1) * s ≤ c * s := Nat.mul_le_mul_right _ hi
  rw [Nat.succ_mul] at this
  simp only [slice, List.length_take, List.length_drop]
  omega

theorem slice_getD (data : List ℂ) (s i j : Nat) (hj : j < s) : (slice data i s).getD j 0 = data.getD (i * s + j) 0 := by
  simp only [slice, List.getD_eq_getElem?_getD, List.getElem?_take, if_pos hj, List.getElem?_drop]

theorem norm_of_normalize (out : List ℂ) :
    Real.sqrt ((out.map fun x => x.re ^ 2 + x.im ^ 2).sum) = vecNorm out := by
  unfold vecNorm
  congr 2
  refine List.map_congr_left fun x _ => ?_
  rw [← Complex.normSq_eq_norm_sq, Complex.normSq_apply]; ring

theorem sum_sq_nonneg (l : List ℂ) : 0 ≤ (l.map fun x => ‖x‖ ^ 2).sum :=
  List.sum_nonneg (by intro x hx; obtain ⟨a, _, rfl⟩ := List.mem_map.1 hx; positivity)

theorem vecNorm_sq (l : List ℂ) : vecNorm l ^ 2 = (l.map fun x => ‖x‖ ^ 2).sum := Real.sq_sqrt (sum_sq_nonneg l)

theorem vecNorm_nonneg (l : List ℂ) : 0 ≤ vecNorm l := Real.sqrt_nonneg _

theorem vecNorm_eq_zero {l : List ℂ} (h : vecNorm l = 0) : ∀ x ∈ l, x = 0 := by
  have h2 : (l.map fun x => ‖x‖ ^ 2).sum = 0 := by rw [← vecNorm_sq, h]; simp
  intro x hx
  have h3 : ‖x‖ ^ 2 ≤ (l.map fun x => ‖x‖ ^ 2).sum := List.single_le_sum (by
    intro y hy; obtain ⟨a, _, rfl⟩ := List.mem_map.1 hy; positivity) _ (List.mem_map.2 ⟨x, hx, rfl⟩)
  have h4 : ‖x‖ ^ 2 = 0 := le_antisymm (h2 ▸ h3) (by positivity)
  simpa using h4

theorem normalize_eq (w : ℂ) (out : List ℂ) :
    MicroDD.normalize w out = if vecNorm out = 0 then (0, out) else (w * vecNorm out, out.map fun x => x / vecNorm out) := by
  unfold MicroDD.normalize
  simp only [norm_of_normalize]

theorem weight_setWeight (t : MicroDD) (w : ℂ) : (t.setWeight w).weight = w := rfl

theorem ampRel_setWeight (t : MicroDD) (w : ℂ) (p : List Nat) : ampRel (t.setWeight w) p = ampRel t p := by
  cases p <;> rfl

theorem Spec.Normal.setPos {dims : List Nat} {t : MicroDD} (h : Normal dims t) {r : ℝ} (hr : 0 < r) :
    Normal dims (t.setWeight (t.weight / r)) := by
  cases dims with
  | nil => exact h
  | cons c cs =>
    rcases h with ⟨h1, h2⟩ | ⟨h1, ⟨s, hs, h2⟩, h3⟩
    · exact Or.inl ⟨h1, by rw [weight_setWeight, h2, zero_div]⟩
    · exact Or.inr ⟨h1, ⟨s / r, div_pos hs hr, by rw [weight_setWeight, h2]; push_cast; rfl⟩, h3⟩

/-- what `build_decision_tree` returns -/
theorem build_spec : ∀ (dims : List Nat) (data : List ℂ), (∀ d ∈ dims, 0 < d) → data.length = dims.prod →
    ∃ t, build dims data = .ok t ∧ Normal dims t ∧ ‖t.weight‖ ^ 2 = (data.map fun x => ‖x‖ ^ 2).sum ∧
      ∀ path, Levels dims path → amp t path = data.getD (index dims path) 0
  | [], data, _, hl => by
    match data, hl with
    | [x], _ =>
      refine ⟨_, rfl, rfl, by simp [weight, info], ?_⟩
      intro path hp
      cases hp
      simp [amp, ampRel, weight, info, index]
  | c :: cs, data, hpos, hl => by
    have hc : 0 < c := hpos c (by simp)
    rw [List.prod_cons] at hl
    have hs : data.length / c = cs.prod := by rw [hl, Nat.mul_div_cancel_left _ hc]
    have ih : ∀ i, ∃ t, i < c → build cs (slice data i cs.prod) = .ok t ∧ Normal cs t ∧
        ‖t.weight‖ ^ 2 = ((slice data i cs.prod).map fun x => ‖x‖ ^ 2).sum ∧
        ∀ path, Levels cs path → amp t path = (slice data i cs.prod).getD (index cs path) 0 := by
      intro i
      by_cases hi : i < c
      · obtain ⟨t, ht⟩ := build_spec cs (slice data i cs.prod) (fun d hd => hpos d (by simp [hd]))
          (slice_length data c _ i hl hi)
        exact ⟨t, fun _ => ht⟩
      · exact ⟨zeroNode, fun h => absurd h hi⟩
    choose f hf using ih
    have hmap : (List.range c).mapM (fun i => build cs (slice data i (data.length / c))) = .ok ((List.range c).map f) := by
      refine mapM_ok _ f _ ?_
      intro i hi
      rw [hs]; exact (hf i (List.mem_range.1 hi)).1
    have hsum : (((List.range c).map f).map fun t => ‖t.weight‖ ^ 2).sum = (data.map fun x => ‖x‖ ^ 2).sum := by
      rw [List.map_map]
      have : (List.range c).map ((fun t => ‖t.weight‖ ^ 2) ∘ f) =
          (List.range c).map fun i => ((slice data i cs.prod).map fun x => ‖x‖ ^ 2).sum :=
        List.map_congr_left fun i hi => (hf i (List.mem_range.1 hi)).2.2.1
      rw [this, sum_slices, ← hl, List.take_length]
    set ws := ((List.range c).map f).map weight with hws
    have hnorm : vecNorm ws ^ 2 = (data.map fun x => ‖x‖ ^ 2).sum := by
      rw [vecNorm_sq, hws, List.map_map]; exact hsum
    unfold build
    rw [if_neg (by omega)]
    simp only [bind, Except.bind, hmap, ← hws, normalize_eq]
    by_cases h0 : vecNorm ws = 0
    · simp only [h0, if_true, pure, Except.pure]
      refine ⟨_, rfl, Or.inl ⟨rfl, rfl⟩, ?_, ?_⟩
      · rw [← hnorm, h0]; simp [weight, info]
      · intro path hp
        cases hp with
        | @cons l _ ls _ hl' hls =>
        rw [index, ← slice_getD data _ l _ (index_lt hls), ← (hf l hl').2.2.2 ls hls]
        have : (f l).weight = 0 := vecNorm_eq_zero h0 _ (by
          rw [hws]; exact List.mem_map_of_mem (List.mem_map_of_mem (List.mem_range.2 hl')))
        have e : amp (f l) ls = 0 := by unfold amp; rw [this, zero_mul]
        rw [e]
        simp [amp, weight, info]
    · have hr : 0 < vecNorm ws := lt_of_le_of_ne (vecNorm_nonneg _) (Ne.symm h0)
      have hne : (1 : ℂ) * (vecNorm ws : ℂ) ≠ 0 := by rw [one_mul]; exact_mod_cast h0
      simp only [h0, if_false, hne, pure, Except.pure]
      have hz : List.zipWith setWeight ((List.range c).map f) (ws.map fun x => x / (vecNorm ws : ℂ)) =
          (List.range c).map fun i => (f i).setWeight ((f i).weight / vecNorm ws) := by
        rw [hws, List.map_map, List.map_map, List.zipWith_map, List.zipWith_self]
        rfl
      rw [hz]
      refine ⟨_, rfl, Or.inr ⟨rfl, ⟨vecNorm ws, hr, by simp [weight, info]⟩, by simp [children], ?_, ?_⟩, ?_, ?_⟩
      · simp only [children, List.map_map, Function.comp_def, weight_setWeight, Complex.norm_div, div_pow]
        have : (fun i => ‖(f i).weight‖ ^ 2 / ‖(vecNorm ws : ℂ)‖ ^ 2) =
            fun i => ‖(f i).weight‖ ^ 2 * (‖(vecNorm ws : ℂ)‖ ^ 2)⁻¹ := by funext i; rw [div_eq_mul_inv]
        rw [this, List.sum_map_mul_right]
        rw [List.map_map] at hsum
        rw [show ((List.range c).map fun i => ‖(f i).weight‖ ^ 2).sum = vecNorm ws ^ 2 from by rw [hnorm, ← hsum]; rfl]
        rw [Complex.norm_real, Real.norm_eq_abs, sq_abs]
        exact mul_inv_cancel₀ (by positivity)
      · intro u hu
        simp only [children] at hu
        obtain ⟨i, hi, rfl⟩ := List.mem_map.1 hu
        exact (hf i (List.mem_range.1 hi)).2.1.setPos hr
      · rw [← hnorm]; simp [weight, info]
      · intro path hp
        cases hp with
        | @cons l _ ls _ hl' hls =>
        rw [index, ← slice_getD data _ l _ (index_lt hls), ← (hf l hl').2.2.2 ls hls]
        have hne' : (vecNorm ws : ℂ) ≠ 0 := by exact_mod_cast h0
        simp only [amp, ampRel, weight, info, children, List.getElem?_map, List.getElem?_range hl', Option.map_some,
          Bool.false_eq_true, if_false, one_mul]
        rw [ampRel_setWeight]
        simp only [setWeight, info]
        rw [← mul_assoc, mul_div_cancel₀ _ hne']

end Qudits
