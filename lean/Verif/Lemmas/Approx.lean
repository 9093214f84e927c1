import Verif.Model.Approx
import Verif.Spec.ApproxSpec
import Verif.Lemmas.MicroDD
import Verif.Lemmas.PrepFinal
import Verif.Lemmas.RetrieveState
/-! # Contributions of the nodes of a decision tree -/
namespace Qudits
open Spec MicroDD RetrieveState

theorem prob_nonneg (v : List ℂ) : 0 ≤ prob v := sum_sq_nonneg v

theorem prob_eq_zero {v : List ℂ} (h : prob v = 0) : ∀ x ∈ v, x = 0 :=
  vecNorm_eq_zero (by unfold vecNorm; unfold prob at h; rw [h, Real.sqrt_zero])

theorem prob_slices {data : List ℂ} {c s : Nat} (h : data.length = c * s) :
    prob data = ((List.range c).map fun i => prob (slice data i s)).sum := by
  have := sum_slices (fun x => ‖x‖ ^ 2) data s c
  rw [← h, List.take_length] at this
  exact this.symm

theorem prob_slice_le {data : List ℂ} {c s i : Nat} (h : data.length = c * s) (hi : i < c) : prob (slice data i s) ≤ prob data := by
  rw [prob_slices h]
  refine List.single_le_sum ?_ _ (List.mem_map.2 ⟨i, List.mem_range.2 hi, rfl⟩)
  intro x hx
  obtain ⟨j, _, rfl⟩ := List.mem_map.1 hx
  exact prob_nonneg _

theorem getD_eq_zero_of_prob {data : List ℂ} (h : prob data = 0) (i : Nat) : data.getD i 0 = 0 := by
  rw [List.getD_eq_getElem?_getD]
  cases e : data[i]? with
  | none => rfl
  | some x => exact prob_eq_zero h x (List.mem_of_getElem? e)

theorem prob_zero_of_getD {data : List ℂ} (h : ∀ i, i < data.length → data.getD i 0 = 0) : prob data = 0 := by
  unfold prob
  rw [list_sum_range]
  exact Finset.sum_eq_zero fun i hi => by rw [h i (Finset.mem_range.1 hi)]; simp

/-- the amplitudes of a child -/
theorem child_amp {c : Nat} {cs : List Nat} {t u : MicroDD} {data : List ℂ} {w : ℂ} (ht : t.info.terminal = false) {i : Nat} (hi : i < c)
    (hu : t.children[i]? = some u) (h : ∀ p, Levels (c :: cs) p → w * amp t p = data.getD (index (c :: cs) p) 0) :
    ∀ p, Levels cs p → w * t.weight * amp u p = (slice data i cs.prod).getD (index cs p) 0 := by
  intro p hp
  rw [slice_getD _ _ _ _ (index_lt hp)]
  have := h (i :: p) (.cons hi hp)
  rw [index] at this
  rw [← this]
  unfold amp
  rw [ampRel, if_neg (by simp [ht]), hu]
  ring

theorem normal_prob : ∀ (dims : List Nat) (t : MicroDD) (data : List ℂ) (w : ℂ), Normal dims t → data.length = dims.prod →
    (∀ p, Levels dims p → w * amp t p = data.getD (index dims p) 0) → prob data = ‖w‖ ^ 2 * ‖t.weight‖ ^ 2
  | [], t, data, w, hN, hl, h => by
    match data, hl with
    | [x], _ =>
      have := h [] .nil
      unfold amp at this
      rw [ampRel, if_pos (show t.info.terminal = true from hN)] at this
      simp only [index, List.getD_cons_zero, mul_one] at this
      simp [prob, ← this, mul_pow]
  | c :: cs, t, data, w, hN, hl, h => by
    rcases hN with ⟨ht, hw⟩ | ⟨ht, _, hlen, hsum, hch⟩
    · rw [hw, norm_zero, zero_pow two_ne_zero, mul_zero]
      refine prob_zero_of_getD fun i hi => ?_
      rw [hl] at hi
      obtain ⟨p, hp, rfl⟩ := index_surj hi
      rw [← h p hp]; unfold amp; rw [hw]; ring
    · rw [List.prod_cons] at hl
      rw [prob_slices hl]
      have : ∀ i ∈ List.range c, prob (slice data i cs.prod) = ‖w * t.weight‖ ^ 2 * (t.children.map fun u => ‖u.weight‖ ^ 2).getD i 0 := by
        intro i hi
        rw [List.mem_range] at hi
        have hi' : i < t.children.length := by omega
        have e : t.children[i]? = some t.children[i] := List.getElem?_eq_getElem hi'
        rw [normal_prob cs t.children[i] (slice data i cs.prod) (w * t.weight) (hch _ (List.getElem_mem hi')) (slice_length _ c _ _ hl hi)
          (child_amp ht hi e h)]
        simp [List.getD_eq_getElem?_getD, e]
      rw [List.map_congr_left this, List.sum_map_mul_left]
      have e2 : (List.range c).map (fun i => (t.children.map fun u => ‖u.weight‖ ^ 2).getD i 0) = t.children.map fun u => ‖u.weight‖ ^ 2 := by
        apply List.ext_getElem (by simp [hlen])
        intro k h1 h2
        simp at h2
        simp [List.getD_eq_getElem?_getD, h2]
      rw [e2, hsum, norm_mul, mul_one]; ring

theorem branch_append : ∀ (dims : List Nat) (data : List ℂ) (q : List Nat) (i c : Nat) (cs : List Nat), dims.drop q.length = c :: cs →
    branch dims data (q ++ [i]) = slice (branch dims data q) i cs.prod
  | dims, data, [], i, c, cs, h => by
    rw [List.length_nil, List.drop_zero] at h
    subst h; rw [List.nil_append, branch, branch, branch]; rfl
  | [], data, j :: q, i, c, cs, h => by simp at h
  | d :: ds, data, j :: q, i, c, cs, h => by
    rw [List.cons_append, branch, branch]
    exact branch_append ds _ q i c cs (by simpa using h)

theorem branch_length {dims : List Nat} {data : List ℂ} {q : List Nat} (h : Levels (dims.take q.length) q) (hl : data.length = dims.prod) :
    (branch dims data q).length = (dims.drop q.length).prod := by
  induction q generalizing dims data with
  | nil => simpa [branch] using hl
  | cons i q ih =>
    cases dims with
    | nil => cases h
    | cons d ds =>
      rw [List.length_cons, List.take_succ_cons] at h
      cases h with
      | cons hi h =>
        rw [branch, List.length_cons, List.drop_succ_cons]
        exact ih h (slice_length data d ds.prod i (by rw [hl, List.prod_cons]) hi)

theorem branch_prob_le {dims : List Nat} {data : List ℂ} {q : List Nat} {i : Nat} (h : Levels (dims.take (q.length + 1)) (q ++ [i]))
    (hl : data.length = dims.prod) (hq : Levels (dims.take q.length) q) : prob (branch dims data (q ++ [i])) ≤ prob (branch dims data q) := by
  have hlen := h.length_eq
  rw [List.length_append, List.length_singleton, List.length_take] at hlen
  obtain ⟨c, cs, hd⟩ : ∃ c cs, dims.drop q.length = c :: cs := by
    cases e : dims.drop q.length with
    | nil => rw [List.drop_eq_nil_iff] at e; omega
    | cons c cs => exact ⟨c, cs, rfl⟩
  rw [branch_append dims data q i c cs hd]
  have hi : i < c := by
    have e2 : dims.take (q.length + 1) = dims.take q.length ++ [c] := by
      rw [List.take_add_one, List.getElem?_eq_some_iff.2 ⟨by omega, ?_⟩]
      · rfl
      · have := congrArg List.head? hd
        rw [List.head?_drop] at this
        exact (List.getElem?_eq_some_iff.1 this).2
    rw [e2] at h
    have := (List.forall₂_iff_get.1 h).2 q.length (by simp) (by simp; omega)
    simpa [List.getElem_append, show min q.length dims.length = q.length by omega] using this
  refine prob_slice_le ?_ hi
  rw [branch_length hq hl, hd, List.prod_cons]

/-- what is known of an entry of a level -/
def Ent (dims : List Nat) (data : List ℂ) (e : List Nat × MicroDD × ℝ) : Prop :=
  ∃ w : ℂ, Levels (dims.take e.1.length) e.1 ∧ e.1.length ≤ dims.length ∧ Normal (dims.drop e.1.length) e.2.1 ∧
    (∀ p, Levels (dims.drop e.1.length) p → w * amp e.2.1 p = (branch dims data e.1).getD (index (dims.drop e.1.length) p) 0) ∧
    e.2.2 = prob (branch dims data e.1)

theorem levels_snoc {dims q : List Nat} {i c : Nat} {cs : List Nat} (hd : dims.drop q.length = c :: cs) :
    Levels (dims.take (q.length + 1)) (q ++ [i]) ↔ Levels (dims.take q.length) q ∧ i < c := by
  induction q generalizing dims with
  | nil =>
    rw [List.length_nil, List.drop_zero] at hd
    subst hd
    simp [Levels]
  | cons j q ih =>
    cases dims with
    | nil => simp at hd
    | cons d ds =>
      have := ih (dims := ds) (by simpa using hd)
      simp only [List.length_cons, List.take_succ_cons, List.cons_append]
      unfold Levels at this ⊢
      rw [List.forall₂_cons, List.forall₂_cons, this]
      tauto

theorem nextLevel_mem {lv : List (List Nat × MicroDD × ℝ)} {e : List Nat × MicroDD × ℝ} :
    e ∈ nextLevel lv ↔ ∃ f ∈ lv, f.2.1.info.terminal = false ∧ ∃ i u, f.2.1.children[i]? = some u ∧ u.weight ≠ 0 ∧
      e = (f.1 ++ [i], u, f.2.2 * ‖u.weight‖ ^ 2) := by
  unfold nextLevel
  rw [List.mem_flatMap]
  constructor
  · rintro ⟨f, hf, h⟩
    cases ht : f.2.1.info.terminal with
    | true => rw [if_pos ht] at h; cases h
    | false =>
      rw [if_neg (by simp [ht]), List.mem_flatMap] at h
      obtain ⟨i, _, h⟩ := h
      cases hc : f.2.1.children[i]? with
      | none => rw [hc] at h; cases h
      | some u =>
        rw [hc] at h
        by_cases hu : u.weight = 0
        · simp [hu] at h
        · simp only [hu, ne_eq, not_false_eq_true, if_true, List.mem_singleton] at h
          exact ⟨f, hf, ht, i, u, hc, hu, h⟩
  · rintro ⟨f, hf, ht, i, u, hc, hu, rfl⟩
    refine ⟨f, hf, ?_⟩
    rw [if_neg (by simp [ht]), List.mem_flatMap]
    refine ⟨i, List.mem_range.2 (List.getElem?_eq_some_iff.1 hc).1, ?_⟩
    rw [hc]
    simp [hu]

theorem ent_step {dims : List Nat} {data : List ℂ} (hl : data.length = dims.prod) {lv : List (List Nat × MicroDD × ℝ)} {k : Nat}
    (hk : k < dims.length) (hlen : ∀ e ∈ lv, e.1.length = k) (hE : ∀ e ∈ lv, Ent dims data e)
    (hC : ∀ q, Levels (dims.take k) q → q.length = k → prob (branch dims data q) ≠ 0 → ∃ u pr, (q, u, pr) ∈ lv)
    (hnd : (lv.map Prod.fst).Nodup) :
    (∀ e ∈ nextLevel lv, e.1.length = k + 1) ∧ (∀ e ∈ nextLevel lv, Ent dims data e) ∧
    ((∀ e ∈ lv, e.2.2 ≠ 0) → ∀ e ∈ nextLevel lv, e.2.2 ≠ 0) ∧
    (∀ q, Levels (dims.take (k + 1)) q → q.length = k + 1 → prob (branch dims data q) ≠ 0 → ∃ u pr, (q, u, pr) ∈ nextLevel lv) ∧
    ((nextLevel lv).map Prod.fst).Nodup := by
  obtain ⟨c, cs, hd⟩ : ∃ c cs, dims.drop k = c :: cs := by
    cases e : dims.drop k with
    | nil => rw [List.drop_eq_nil_iff] at e; omega
    | cons c cs => exact ⟨c, cs, rfl⟩
  have hd' : dims.drop (k + 1) = cs := by rw [← List.tail_drop, hd]; rfl
  have key : ∀ f ∈ lv, f.2.1.info.terminal = false → ∀ i u, f.2.1.children[i]? = some u →
      i < c ∧ Levels (dims.take (k + 1)) (f.1 ++ [i]) ∧ Normal cs u ∧ (∃ w : ℂ, ∀ p, Levels cs p → w * amp u p =
        (branch dims data (f.1 ++ [i])).getD (index cs p) 0) ∧ prob (branch dims data (f.1 ++ [i])) = f.2.2 * ‖u.weight‖ ^ 2 := by
    intro f hf ht i u hu
    obtain ⟨w, h1, h2, h3, h4, h5⟩ := hE f hf
    have hfl := hlen f hf
    rw [hfl] at h1 h2 h3 h4
    rw [hd] at h3 h4
    rcases h3 with ⟨h, _⟩ | ⟨_, hw, hcl, hsum, hch⟩
    · rw [ht] at h; cases h
    have hi : i < c := by rw [← hcl]; exact (List.getElem?_eq_some_iff.1 hu).1
    have hb : branch dims data (f.1 ++ [i]) = slice (branch dims data f.1) i cs.prod := branch_append dims data f.1 i c cs (by rw [hfl, hd])
    have hbl : (branch dims data f.1).length = c * cs.prod := by
      rw [branch_length (by rw [hfl]; exact h1) hl, hfl, hd, List.prod_cons]
    have hu' : Normal cs u := hch u (List.mem_of_getElem? hu)
    have ha := child_amp ht hi hu h4
    refine ⟨hi, ?_, hu', ⟨w * f.2.1.weight, by rw [hb]; exact ha⟩, ?_⟩
    · have := (levels_snoc (dims := dims) (q := f.1) (i := i) (by rw [hfl]; exact hd)).2 ⟨by rw [hfl]; exact h1, hi⟩
      rwa [hfl] at this
    · rw [hb, normal_prob cs u _ _ hu' (slice_length _ c _ _ hbl hi) ha, h5,
        normal_prob (c :: cs) f.2.1 _ w (Or.inr ⟨ht, hw, hcl, hsum, hch⟩) (by rw [hbl, List.prod_cons]) h4, norm_mul]
      ring
  refine ⟨?_, ?_, ?_, ?_, ?_⟩
  · intro e he
    obtain ⟨f, hf, _, i, u, _, _, rfl⟩ := nextLevel_mem.1 he
    simp [hlen f hf]
  · intro e he
    obtain ⟨f, hf, ht, i, u, hu, _, rfl⟩ := nextLevel_mem.1 he
    obtain ⟨hi, hL, hN, ⟨w, ha⟩, hp⟩ := key f hf ht i u hu
    have hfl := hlen f hf
    refine ⟨w, ?_, ?_, ?_, ?_, hp.symm⟩
    · simpa [hfl] using hL
    · simp [hfl]; omega
    · simpa [hfl, hd'] using hN
    · simpa [hfl, hd'] using ha
  · intro h0 e he
    obtain ⟨f, hf, ht, i, u, hu, hu0, rfl⟩ := nextLevel_mem.1 he
    exact mul_ne_zero (h0 f hf) (pow_ne_zero _ (norm_ne_zero_iff.2 hu0))
  · intro q hq hql h0
    obtain ⟨q, i, rfl⟩ : ∃ q' i, q = q' ++ [i] := by
      rcases List.eq_nil_or_concat q with h | ⟨q', i, h⟩
      · subst h; simp at hql
      · exact ⟨q', i, by rw [h, List.concat_eq_append]⟩
    have hql' : q.length = k := by simpa using hql
    have hL := (levels_snoc (dims := dims) (q := q) (i := i) (by rw [hql']; exact hd)).1 (by rw [hql']; exact hq)
    rw [hql'] at hL
    have hpq : prob (branch dims data q) ≠ 0 := by
      intro h
      have := branch_prob_le (dims := dims) (data := data) (q := q) (i := i) (by rw [hql']; exact hq) hl (by rw [hql']; exact hL.1)
      rw [h] at this
      exact h0 (le_antisymm this (prob_nonneg _))
    obtain ⟨u, pr, hm⟩ := hC q hL.1 hql' hpq
    have ht : u.info.terminal = false := by
      obtain ⟨w, h1, h2, h3, h4, h5⟩ := hE _ hm
      simp only [hql', hd] at h3 h4
      rcases h3 with ⟨_, h⟩ | ⟨h, _⟩
      · exfalso
        apply hpq
        refine prob_zero_of_getD fun j hj => ?_
        rw [branch_length (by rw [hql']; exact hL.1) hl, hql', hd] at hj
        obtain ⟨p, hp, rfl⟩ := index_surj hj
        rw [← h4 p hp]; unfold amp; rw [h]; ring
      · exact h
    obtain ⟨w, _, _, h3, _, _⟩ := hE _ hm
    simp only [hql', hd] at h3
    rcases h3 with ⟨h, _⟩ | ⟨_, _, hcl, _⟩
    · rw [ht] at h; cases h
    have hi : i < u.children.length := by rw [hcl]; exact hL.2
    have hu := List.getElem?_eq_getElem hi
    obtain ⟨_, _, _, _, hp⟩ := key _ hm ht i _ hu
    refine ⟨_, _, nextLevel_mem.2 ⟨_, hm, ht, i, _, hu, ?_, rfl⟩⟩
    intro hw
    rw [hw, norm_zero] at hp
    exact h0 (by rw [hp]; ring)
  · unfold nextLevel
    rw [List.map_flatMap, List.nodup_flatMap]
    constructor
    · intro f _
      split
      · simp
      · rw [List.map_flatMap, List.nodup_flatMap]
        constructor
        · intro i _
          split
          · simp
          · split <;> simp
        · refine List.Pairwise.imp ?_ List.nodup_range
          intro i j hij x hx hy
          apply hij
          simp only at hx hy
          cases hi : f.2.1.children[i]? with
          | none => rw [hi] at hx; cases hx
          | some a =>
          cases hj : f.2.1.children[j]? with
          | none => rw [hj] at hy; cases hy
          | some b =>
          rw [hi] at hx; rw [hj] at hy
          by_cases ha : a.weight = 0
          · simp [ha] at hx
          by_cases hb : b.weight = 0
          · simp [hb] at hy
          simp [ha] at hx
          simp [hb] at hy
          rw [hx] at hy
          simpa using hy
    · have := List.pairwise_map.1 hnd
      refine List.Pairwise.imp ?_ this
      intro f g hfg x hx hy
      obtain ⟨e1, he1, rfl⟩ := List.mem_map.1 hx
      obtain ⟨e2, he2, he⟩ := List.mem_map.1 hy
      have m1 : e1 ∈ nextLevel [f] := by unfold nextLevel; simpa using he1
      have m2 : e2 ∈ nextLevel [g] := by unfold nextLevel; simpa using he2
      obtain ⟨f', hf', _, i, u, _, _, rfl⟩ := nextLevel_mem.1 m1
      obtain ⟨g', hg', _, j, v, _, _, rfl⟩ := nextLevel_mem.1 m2
      rw [List.mem_singleton] at hf' hg'
      subst hf'; subst hg'
      have he' : g'.1 ++ [j] = f'.1 ++ [i] := he
      exact hfg (List.append_inj_left' he' rfl).symm

end Qudits
