import Verif.Spec.PreparedSpec
import Verif.Lemmas.SharedNodes
/-! # What is prepared for states in which sharing is not harmless -/
namespace Qudits
open Spec MicroDD StatePrep LocalQR Matrix

theorem made_setWeight (H : List (Int × ℂ) → Int) (dims : List Nat) (t : MicroDD) (w : ℂ) (p : List Nat) :
    made H dims (t.setWeight w) p = made H dims t p := by
  match dims, p with
  | [], _ => rfl
  | _ :: _, [] => rfl
  | _ :: _, _ :: _ => rfl

theorem hashed_setWeight {H : List (Int × ℂ) → Int} {t : MicroDD} (w : ℂ) {x : List (Int × ℂ)} (h : Hashed H t x) : Hashed H (t.setWeight w) x := by
  cases h with
  | leaf ht => exact .leaf (t := t.setWeight w) ht
  | inner ht => exact .inner (t := t.setWeight w) ht
  | deeper ht hc hx => exact .deeper (t := t.setWeight w) ht hc hx

theorem prepared_zero : ∀ (dims : List Nat) (data : List ℂ), (∀ x ∈ data, x = 0) → ∀ p, prepared dims data p = 0
  | [], data, h, p => by
    rw [prepared]
    cases data with
    | nil => rfl
    | cons a l => exact h a (by simp)
  | _ :: _, _, _, [] => rfl
  | c :: cs, data, h, l :: p => by
    have hs : ∀ i, ∀ x ∈ slice data i cs.prod, x = 0 := fun i x hx => h x (List.mem_of_mem_drop (List.mem_of_mem_take hx))
    rw [prepared, if_neg, prepared_zero cs _ (hs l)]
    rintro ⟨_, ⟨⟨i, _, _, _, _, ⟨x, hx, hx0⟩, _⟩, _⟩, _⟩
    exact hx0 (hs i x hx)

open Classical in
/-- the sub-state prepared below the root of the tree of a vector -/
theorem made_state {H : List (Int × ℂ) → Int} : ∀ (dims : List Nat) (data : List ℂ) (t : MicroDD), (∀ d ∈ dims, 2 ≤ d) → data.length = dims.prod →
    build dims data = .ok t → NoCollision H t → ∀ p, Levels dims p → t.weight * made H dims t p = prepared dims data p
  | [], data, t, _, hl, h, _, p, _ => by
    obtain ⟨x, rfl⟩ : ∃ x, data = [x] := List.length_eq_one_iff.1 (by simpa using hl)
    have h : Except.ok (node { weight := x, terminal := true } [if x = 0 then zeroNode else oneNode]) = Except.ok t := h
    injection h with h
    rw [← h, made, mul_one]
    rfl
  | c :: cs, data, t, hd, hl, h, hH, _, hp => by
    have hpos : ∀ d ∈ c :: cs, 0 < d := fun d hd' => by have := hd d hd'; omega
    have hcs2 : ∀ d ∈ cs, 2 ≤ d := fun d hd' => hd d (by simp [hd'])
    have hl' := hl
    rw [List.prod_cons] at hl'
    have hc := hpos c (by simp)
    have hpos' : ∀ d ∈ cs, 0 < d := fun d hd' => hpos d (by simp [hd'])
    obtain ⟨t0, hb0, hNt, hwt0, hamp0⟩ := build_spec (c :: cs) data hpos hl
    rw [h] at hb0
    injection hb0 with hb0
    subst hb0
    cases hp with
    | @cons l _ p _ hlc hp =>
    by_cases hz : t.weight = 0
    · rw [hz, zero_mul, prepared_zero]
      intro x hx
      by_contra hx0
      exact (weight_ne_zero_iff hwt0).2 ⟨x, hx, hx0⟩ hz
    have ht : t.info.terminal = false := hNt.live_weight hz
    have hchN : ∀ u ∈ t.children, Normal cs u := by
      rcases hNt with ⟨_, h⟩ | ⟨_, _, _, _, h⟩
      · exact absurd h hz
      · exact h
    have : ∀ i, ∃ u, i < c → build cs (slice data i cs.prod) = .ok u ∧ Normal cs u ∧ ‖u.weight‖ ^ 2 = ((slice data i cs.prod).map fun x => ‖x‖ ^ 2).sum ∧
        ∀ path, Levels cs path → amp u path = (slice data i cs.prod).getD (index cs path) 0 := by
      intro i
      by_cases hi : i < c
      · obtain ⟨u, hu⟩ := build_spec cs (slice data i cs.prod) hpos' (slice_length data c _ i hl' hi)
        exact ⟨u, fun _ => hu⟩
      · exact ⟨zeroNode, fun h => absurd h hi⟩
    choose f hf using this
    have hb := h
    rw [build_cons hc hl' f fun i hi => (hf i hi).1] at h
    injection h with h
    by_cases hN : vecNorm (((List.range c).map f).map weight) = 0
    · rw [if_pos hN] at h
      rw [← h] at hz
      exact absurd rfl hz
    rw [if_neg hN] at h
    have hN' : ((vecNorm (((List.range c).map f).map weight) : ℝ) : ℂ) ≠ 0 := by exact_mod_cast hN
    generalize hNdef : ((vecNorm (((List.range c).map f).map weight) : ℝ) : ℂ) = N at *
    have hw : t.weight = N := by rw [← h]; rfl
    have hch : t.children = (List.range c).map fun i => (f i).setWeight ((f i).weight / N) := by rw [← h]; rfl
    have hget : ∀ i, i < c → t.children[i]? = some ((f i).setWeight ((f i).weight / N)) := by
      intro i hi
      rw [hch, List.getElem?_map, List.getElem?_range hi]; rfl
    have hwt : ∀ i, i < c → (((f i).setWeight ((f i).weight / N)).weight ≠ 0 ↔ ∃ x ∈ slice data i cs.prod, x ≠ 0) := by
      intro i hi
      rw [weight_setWeight, ← weight_ne_zero_iff (hf i hi).2.2.1, div_ne_zero_iff]
      exact ⟨fun h => h.1, fun h => ⟨h, hN'⟩⟩
    have hmis : (cs ≠ [] ∧ SameHash H t ∧ (∀ a : MicroDD, t.children[0]? = some a → a.weight = 0)) ↔
        (cs ≠ [] ∧ Factors c cs.prod data ∧ (∀ x ∈ slice data 0 cs.prod, x = 0)) := by
      refine and_congr_right fun hcs => and_congr ⟨?_, ?_⟩ ⟨?_, ?_⟩
      · rintro ⟨⟨i, j, a, b, hij, ha, hb', ha0, hb0⟩, hall⟩
        have hi : i < c := by
          have := (List.getElem?_eq_some_iff.1 ha).1
          rw [hch] at this; simpa using this
        have hj : j < c := by
          have := (List.getElem?_eq_some_iff.1 hb').1
          rw [hch] at this; simpa using this
        rw [hget i hi] at ha
        rw [hget j hj] at hb'
        injection ha with ha
        injection hb' with hb'
        subst ha; subst hb'
        refine ⟨⟨i, j, hi, hj, hij, (hwt i hi).1 ha0, (hwt j hj).1 hb0⟩, ?_⟩
        intro i j hi hj hi0 hj0
        have mi := List.mem_of_getElem? (hget i hi)
        have mj := List.mem_of_getElem? (hget j hj)
        have hh := hall _ _ mi mj ((hwt i hi).2 hi0) ((hwt j hj).2 hj0)
        have hinj := (hash_inj hH cs _ _ hcs2 (hchN _ mi) (hchN _ mj) (fun x hx => .deeper ht mi hx) (fun x hx => .deeper ht mj hx) hh).2
        exact parts_proportional hl' hi hj (hf i hi).2.1 (hf j hj).2.1 hcs ((weight_ne_zero_iff (hf i hi).2.2.1).2 hi0)
          ((weight_ne_zero_iff (hf j hj).2.2.1).2 hj0) (hf i hi).2.2.2 (hf j hj).2.2.2 (fun p hp => by
            have := hinj p hp.length
            rwa [ampRel_setWeight, ampRel_setWeight] at this)
      · intro hF
        match cs, hcs with
        | c' :: cs', _ => exact factors_sameHash hpos hl hb ht hF
      · intro h0 x hx
        by_contra hx0
        exact (hwt 0 hc).2 ⟨x, hx, hx0⟩ (h0 _ (hget 0 hc))
      · intro h0 a ha
        rw [hget 0 hc] at ha
        injection ha with ha
        subst ha
        by_contra ha0
        obtain ⟨x, hx, hx0⟩ := (hwt 0 hc).1 ha0
        exact hx0 (h0 x hx)
    rw [made, prepared]
    simp only [ht, Bool.false_eq_true, if_false, hget l hlc]
    rw [weight_setWeight, hw, made_setWeight, ← mul_assoc, mul_div_cancel₀ _ hN']
    by_cases hm : cs ≠ [] ∧ Factors c cs.prod data ∧ (∀ x ∈ slice data 0 cs.prod, x = 0)
    · rw [if_pos (hmis.2 hm), if_pos hm]
      have hwl : (f l).weight = (vecNorm (slice data l cs.prod) : ℂ) := by
        have h2 := (hf l hlc).2.2.1
        have hnn : ∃ r : ℝ, 0 ≤ r ∧ (f l).weight = r := by
          match cs, hm.1, (hf l hlc).2.1 with
          | c' :: cs', _, hNf =>
            rcases hNf with ⟨_, h⟩ | ⟨_, ⟨r, hr, h⟩, _⟩
            · exact ⟨0, le_rfl, by rw [h]; simp⟩
            · exact ⟨r, hr.le, h⟩
        obtain ⟨r, hr, e⟩ := hnn
        rw [e, Complex.norm_real, Real.norm_eq_abs, sq_abs, ← vecNorm_sq] at h2
        rw [e, (pow_left_inj₀ hr (vecNorm_nonneg _) two_ne_zero).1 h2]
      rw [hwl]
      split <;> simp
    · rw [if_neg (fun h => hm (hmis.1 h)), if_neg hm]
      refine made_state cs _ (f l) hcs2 (slice_length data c _ l hl' hlc) (hf l hlc).1 ?_ p hp
      intro x y hx hy
      exact hH x y (.deeper ht (List.mem_of_getElem? (hget l hlc)) (hashed_setWeight _ hx))
        (.deeper ht (List.mem_of_getElem? (hget l hlc)) (hashed_setWeight _ hy))

end Qudits
