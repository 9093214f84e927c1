import Verif.Model.LocalApprox
import Verif.Lemmas.ApproxTree
namespace Qudits
open Spec MicroDD StatePrep RetrieveState

/-- the weights that `dd_approximation` sets to 0, without the normalisation -/
noncomputable def prune (tol : ℝ) : Nat → MicroDD → MicroDD
  | 0, t => t
  | k + 1, node i cs => if i.terminal then node i cs else node i (cs.map fun c => prune tol k (cutSmall tol c))

theorem ddApprox_eq (tol : ℝ) : ∀ (k : Nat) (t : MicroDD), ddApprox tol k t = normalizeAll k (prune tol k t)
  | 0, t => rfl
  | k + 1, node i cs => by
    rw [ddApprox, prune]
    by_cases h : i.terminal = true
    · rw [if_pos h, if_pos h, normalizeAll, if_pos h]
    · rw [if_neg h, if_neg h, normalizeAll, if_neg h, List.map_map]
      have : (cs.map fun c => ddApprox tol k (cutSmall tol c)) = cs.map (normalizeAll k ∘ fun c => prune tol k (cutSmall tol c)) :=
        List.map_congr_left fun c _ => ddApprox_eq tol k _
      rw [this]

theorem cutSmall_terminal (tol : ℝ) (c : MicroDD) : (cutSmall tol c).info.terminal = c.info.terminal := by
  unfold cutSmall; split <;> rfl

theorem prune_weight (tol : ℝ) : ∀ (k : Nat) (t : MicroDD), (prune tol k t).weight = t.weight
  | 0, _ => rfl
  | k + 1, node i cs => by
    rw [prune]; split <;> rfl

theorem raw_cutSmall {dims : List Nat} {t : MicroDD} (tol : ℝ) (h : Raw dims t) : Raw dims (cutSmall tol t) := by
  unfold cutSmall
  split
  · exact raw_zeroAt [] h
  · exact h

theorem raw_prune (tol : ℝ) : ∀ (dims : List Nat) (t : MicroDD), Raw dims t → Raw dims (prune tol dims.length t)
  | [], _, h => h
  | c :: cs, node inf us, h => by
    rcases h with ⟨h1, h2, h3⟩ | ⟨h1, h2, h3, h4, h5⟩
    · rw [List.length_cons, prune, if_pos (show inf.terminal = true from h1)]
      exact Or.inl ⟨h1, h2, h3⟩
    · have h1' : inf.terminal = false := h1
      rw [List.length_cons, prune, if_neg (by rw [h1']; decide)]
      refine Or.inr ⟨h1, h2, h3, ?_, ?_⟩
      · rw [children_node, List.length_map]; exact h4
      · intro u hu
        rw [children_node, List.mem_map] at hu
        obtain ⟨v, hv, rfl⟩ := hu
        exact raw_prune tol cs _ (raw_cutSmall tol (h5 v hv))

/-- some part on the way to the path has less than the given share of the part above it -/
def Dropped (tol : ℝ) (dims : List Nat) (data : List ℂ) (path : List Nat) : Prop :=
  ∃ q i, q ++ [i] <+: path ∧ prob (branch dims data (q ++ [i])) < tol * prob (branch dims data q)

theorem dropped_nil {tol : ℝ} {dims : List Nat} {data : List ℂ} : ¬ Dropped tol dims data [] := by
  rintro ⟨q, i, h, _⟩
  have := h.length_le
  simp at this

theorem dropped_cons {tol : ℝ} {c : Nat} {cs : List Nat} {data : List ℂ} {i : Nat} {p : List Nat} :
    Dropped tol (c :: cs) data (i :: p) ↔
      prob (slice data i cs.prod) < tol * prob data ∨ Dropped tol cs (slice data i cs.prod) p := by
  constructor
  · rintro ⟨q, j, h1, h2⟩
    cases q with
    | nil =>
      rw [List.nil_append, List.cons_prefix_cons] at h1
      left
      rw [h1.1] at h2
      simpa [branch, slice] using h2
    | cons a q =>
      rw [List.cons_append, List.cons_prefix_cons] at h1
      rw [h1.1] at h2
      exact Or.inr ⟨q, j, h1.2, h2⟩
  · rintro (h | ⟨q, j, h1, h2⟩)
    · exact ⟨[], i, by simp, by simpa [branch, slice] using h⟩
    · exact ⟨i :: q, j, by rw [List.cons_append, List.cons_prefix_cons]; exact ⟨rfl, h1⟩, h2⟩

open Classical in
theorem prune_amp (tol : ℝ) : ∀ (dims : List Nat) (data : List ℂ) (t : MicroDD) (w : ℂ), data.length = dims.prod → Normal dims t →
    (∀ p, Levels dims p → w * amp t p = data.getD (index dims p) 0) → ∀ p, Levels dims p →
    w * amp (prune tol dims.length t) p = if Dropped tol dims data p then 0 else data.getD (index dims p) 0
  | [], data, t, w, _, _, h, p, hp => by
    cases hp
    rw [if_neg dropped_nil]
    exact h [] .nil
  | c :: cs, data, t, w, hl, hN, h, p, hp => by
    have hpr := normal_prob _ t data w hN hl h
    cases hp with
    | @cons l _ ls _ hlt hls =>
    by_cases h0 : prob data = 0
    · -- an impossible part
      have hz : (‖w‖ * ‖t.weight‖) ^ 2 = 0 := by rw [mul_pow, ← hpr, h0]
      have hz := pow_eq_zero_iff two_ne_zero |>.1 hz
      rw [← norm_mul, norm_eq_zero] at hz
      have : w * amp (prune tol (c :: cs).length t) (l :: ls) = 0 := by
        unfold amp; rw [prune_weight, ← mul_assoc, hz, zero_mul]
      rw [this, getD_eq_zero_of_prob h0]; simp
    rcases hN with ⟨_, h2⟩ | ⟨h1, h2, h3, h4, h5⟩
    · rw [h2] at hpr; simp at hpr; exact absurd hpr h0
    have hpos : 0 < ‖w‖ ^ 2 * ‖t.weight‖ ^ 2 := by
      rw [← hpr]; exact lt_of_le_of_ne (prob_nonneg _) (Ne.symm h0)
    have hi : l < t.children.length := by rw [h3]; exact hlt
    have hu : t.children[l]? = some t.children[l] := List.getElem?_eq_getElem hi
    set u := t.children[l] with hudef
    rw [List.prod_cons] at hl
    have hsl := slice_length data c cs.prod l hl hlt
    have hNu := h5 u (List.getElem_mem hi)
    have hau := child_amp h1 hlt hu h
    have hpu := normal_prob cs u _ _ hNu hsl hau
    have hleft : w * amp (prune tol (c :: cs).length t) (l :: ls) = w * t.weight * amp (prune tol cs.length (cutSmall tol u)) ls := by
      cases t with
      | node inf us =>
      have h1' : inf.terminal = false := h1
      have hu' : us[l]? = some u := hu
      unfold amp
      rw [prune_weight, List.length_cons, prune, if_neg (by rw [h1']; decide), ampRel, if_neg (by rw [info_node, h1']; decide),
        children_node, List.getElem?_map, hu']
      simp only [Option.map_some]
      ring
    have hidx : data.getD (index (c :: cs) (l :: ls)) 0 = (slice data l cs.prod).getD (index cs ls) 0 := by
      rw [slice_getD _ _ _ _ (index_lt hls), index]
    have hcond : prob (slice data l cs.prod) < tol * prob data ↔ ‖u.weight‖ ^ 2 < tol := by
      rw [hpu, hpr, norm_mul, mul_pow, mul_comm tol, mul_lt_mul_iff_right₀ hpos]
    rw [hleft, hidx]
    by_cases hcut : ‖u.weight‖ ^ 2 < tol
    · rw [if_pos (dropped_cons.2 (Or.inl (hcond.2 hcut)))]
      unfold amp
      have : (cutSmall tol u).weight = 0 := by
        unfold cutSmall
        by_cases hz : ‖u.weight‖ ^ 2 = 0
        · rw [if_neg (by rintro ⟨_, h⟩; exact h hz)]
          exact norm_eq_zero.1 (pow_eq_zero_iff two_ne_zero |>.1 hz)
        · rw [if_pos ⟨hcut, hz⟩]; rfl
      rw [prune_weight, this]; ring
    · have : cutSmall tol u = u := by unfold cutSmall; rw [if_neg fun h => hcut h.1]
      rw [this, prune_amp tol cs _ u _ hsl hNu hau ls hls]
      refine if_congr ?_ rfl rfl
      rw [dropped_cons]
      constructor
      · exact Or.inr
      · rintro (h | h)
        · exact absurd (hcond.1 h) hcut
        · exact h

open Classical in
/-- the amplitudes that are kept -/
noncomputable def keptBy (tol : ℝ) (dims : List Nat) (data : List ℂ) : List ℂ :=
  (allCombinations dims).map fun p => if Dropped tol dims data p then 0 else data.getD (index dims p) 0

theorem keptBy_length (tol : ℝ) (dims : List Nat) (data : List ℂ) : (keptBy tol dims data).length = dims.prod := by
  unfold keptBy; rw [List.length_map, allCombinations_length]

open Classical in
theorem keptBy_getD (tol : ℝ) {dims : List Nat} (data : List ℂ) {p : List Nat} (hp : Levels dims p) :
    (keptBy tol dims data).getD (index dims p) 0 = if Dropped tol dims data p then 0 else data.getD (index dims p) 0 := by
  unfold keptBy
  rw [List.getD_eq_getElem?_getD, List.getElem?_map, allCombinations_get hp]
  rfl

theorem prob_ext {v w : List ℂ} (hl : v.length = w.length) (h : ∀ i, i < v.length → v.getD i 0 = w.getD i 0) : prob v = prob w := by
  congr 1
  refine List.ext_getElem hl fun i h1 h2 => ?_
  have := h i h1
  rwa [List.getD_eq_getElem?_getD, List.getD_eq_getElem?_getD, List.getElem?_eq_getElem h1, List.getElem?_eq_getElem h2] at this

open Classical in
/-- what is lost is at most the tolerance times the sum of the dimensions -/
theorem keptBy_prob {tol : ℝ} (ht : 0 ≤ tol) : ∀ (dims : List Nat) (data : List ℂ), data.length = dims.prod →
    prob data - tol * dims.sum * prob data ≤ prob (keptBy tol dims data)
  | [], data, hl => by
    have : prob (keptBy tol [] data) = prob data := by
      refine prob_ext (by rw [keptBy_length, hl]) fun i hi => ?_
      rw [keptBy_length, List.prod_nil] at hi
      have e : i = index [] [] := by simp only [index]; omega
      rw [e, keptBy_getD tol data .nil, if_neg dropped_nil]
    rw [this]; simp
  | c :: cs, data, hl => by
    have hl' := hl
    rw [List.prod_cons] at hl'
    have hk : (keptBy tol (c :: cs) data).length = c * cs.prod := by rw [keptBy_length, List.prod_cons]
    rw [prob_slices hk]
    have hS : 0 ≤ (cs.sum : ℝ) := Nat.cast_nonneg _
    have key : ∀ i ∈ List.range c, prob (slice data i cs.prod) - (tol * prob data + tol * cs.sum * prob (slice data i cs.prod)) ≤
        prob (slice (keptBy tol (c :: cs) data) i cs.prod) := by
      intro i hi
      have hi := List.mem_range.1 hi
      have hsl := slice_length data c cs.prod i hl' hi
      have n0 : 0 ≤ tol * cs.sum * prob (slice data i cs.prod) := mul_nonneg (mul_nonneg ht hS) (prob_nonneg _)
      have n1 : 0 ≤ tol * prob data := mul_nonneg ht (prob_nonneg _)
      by_cases hd : prob (slice data i cs.prod) < tol * prob data
      · have := prob_nonneg (slice (keptBy tol (c :: cs) data) i cs.prod)
        linarith
      · have : prob (slice (keptBy tol (c :: cs) data) i cs.prod) = prob (keptBy tol cs (slice data i cs.prod)) := by
          refine prob_ext (by rw [slice_length _ c _ _ hk hi, keptBy_length]) fun j hj => ?_
          rw [slice_length _ c _ _ hk hi] at hj
          obtain ⟨p, hp, rfl⟩ := index_surj hj
          rw [slice_getD _ _ _ _ hj, keptBy_getD tol _ hp, slice_getD _ _ _ _ hj]
          have e : i * cs.prod + index cs p = index (c :: cs) (i :: p) := by rw [index]
          rw [e, keptBy_getD tol data (.cons hi hp)]
          refine if_congr ?_ rfl rfl
          rw [dropped_cons]
          exact ⟨fun h => h.resolve_left hd, Or.inr⟩
        rw [this]
        have := keptBy_prob ht cs _ hsl
        linarith
    have hsum := List.sum_le_sum key
    have e : ((List.range c).map fun i => prob (slice data i cs.prod) - (tol * prob data + tol * cs.sum * prob (slice data i cs.prod))).sum =
        prob data - tol * ((c :: cs).sum : ℝ) * prob data := by
      have e1 : ((List.range c).map fun i => prob (slice data i cs.prod) - (tol * prob data + tol * cs.sum * prob (slice data i cs.prod))) =
          (List.range c).map fun i => (1 - tol * cs.sum) * prob (slice data i cs.prod) + -(tol * prob data) :=
        List.map_congr_left fun i _ => by ring
      rw [e1, List.sum_map_add, List.sum_map_mul_left, ← prob_slices hl']
      simp only [List.map_const', List.length_range, List.sum_replicate, nsmul_eq_mul, List.sum_cons, Nat.cast_add]
      ring
    push_cast at e hsum ⊢
    rw [e] at hsum
    exact hsum

/-! ### counting -/

theorem buildCount_eq : ∀ (dims : List Nat) (n : Nat),
    buildCount dims n + 1 = n + ((List.range (dims.length + 1)).map fun k => (dims.take k).prod).sum
  | [], n => by simp [buildCount]
  | c :: cs, n => by
    have hcs := buildCount_eq cs
    set S := ((List.range (cs.length + 1)).map fun k => (cs.take k).prod).sum with hS
    have hS1 : 1 ≤ S := by rw [hS, List.range_succ_eq_map]; simp
    have hf : ∀ (l : List Nat) (m : Nat), l.foldl (fun m _ => buildCount cs (m + 1)) m = m + l.length * S := by
      intro l
      induction l with
      | nil => simp
      | cons a l ih =>
        intro m
        rw [List.foldl_cons, ih, List.length_cons]
        have := hcs (m + 1)
        rw [show buildCount cs (m + 1) = m + S by omega]
        ring
    rw [buildCount, hf, List.length_range, List.length_cons, List.range_succ_eq_map, List.map_cons, List.sum_cons, List.map_map]
    have : ((List.range (cs.length + 1)).map ((fun k => ((c :: cs).take k).prod) ∘ Nat.succ)).sum = c * S := by
      rw [hS, ← List.sum_map_mul_left]
      congr 1
    rw [this]
    simp
    omega

theorem one_le_nodes (dims : List Nat) : 1 ≤ ((List.range (dims.length + 1)).map fun k => (dims.take k).prod).sum := by
  rw [List.range_succ_eq_map]; simp

theorem nodes_cons (c : Nat) (cs : List Nat) : ((List.range ((c :: cs).length + 1)).map fun k => ((c :: cs).take k).prod).sum =
    1 + c * ((List.range (cs.length + 1)).map fun k => (cs.take k).prod).sum := by
  rw [List.length_cons, List.range_succ_eq_map, List.map_cons, List.sum_cons, List.map_map, ← List.sum_map_mul_left]
  congr 1

theorem foldlM_count {visit : Nat → Nat → Except PyErr Nat} {S B : Nat} : ∀ (l : List Nat),
    (∀ j ∈ l, ∃ m, B ≤ m ∧ m ≤ S ∧ ∀ n, visit n j = .ok (n + m)) → ∃ m, l.length * B ≤ m ∧ m ≤ l.length * S ∧ ∀ n, l.foldlM visit n = .ok (n + m)
  | [], _ => ⟨0, by simp, by simp, fun n => rfl⟩
  | a :: l, h => by
    obtain ⟨m1, p1, p2, p3⟩ := h a (by simp)
    obtain ⟨m2, q0, q1, q2⟩ := foldlM_count l fun j hj => h j (by simp [hj])
    refine ⟨m1 + m2, by rw [List.length_cons, Nat.succ_mul]; omega, by rw [List.length_cons, Nat.succ_mul]; omega, fun n => ?_⟩
    · rw [List.foldlM_cons, p3]
      simp only [bind, Except.bind]
      rw [q2, Nat.add_assoc]

open Classical in
/-- counting after the reduction -/
theorem count_main (H : List (Int × ℂ) → Int) : ∀ (dims : List Nat) (t : MicroDD), (∀ d ∈ dims, 0 < d) → Normal dims t → Shape dims t →
    ∃ t' m, aggregate dims.length (hashing H t) = .ok t' ∧ (1 ≤ m ∧ ((∀ p, Levels dims p → ampRel t p ≠ 0) → dims.length + 1 ≤ m)) ∧
      m ≤ ((List.range (dims.length + 1)).map fun k => (dims.take k).prod).sum ∧ ∀ n, countAfter dims t' n = .ok (n + m)
  | [], t, _, hn, _ => by
    refine ⟨hashing H t, 1, by rw [List.length_nil, aggregate], ⟨le_rfl, fun _ => le_rfl⟩, by simp, fun n => ?_⟩
    rw [countAfter, if_pos (by rw [hashing_terminal]; exact hn)]
  | c :: cs, t, hpos, hn, hsh => by
    have h1S := one_le_nodes (c :: cs)
    cases ht : t.info.terminal with
    | true =>
      have hagg : ∃ t', aggregate (cs.length + 1) (hashing H t) = .ok t' := by
        cases t with
        | node I ch =>
          have ht : I.terminal = true := ht
          rw [hashing, if_pos ht, aggregate]
          obtain ⟨cs', e1, _⟩ := aggregates_ok cs.length (ch.map fun c => c.info.hash) ch 0 (fun c hc =>
            aggregate_childless _ c (hsh.1 ht c hc).1 (hsh.1 ht c hc).2)
          simp only [bind, Except.bind, e1, pure, Except.pure]
          rw [if_pos ht]
          exact ⟨_, rfl⟩
      obtain ⟨t', hagg⟩ := hagg
      refine ⟨t', 1, hagg, ⟨le_rfl, fun h => ?_⟩, h1S, fun n => ?_⟩
      · obtain ⟨p, hp, _⟩ := index_surj (dims := c :: cs) (k := 0) (List.prod_pos fun d hd => hpos d hd)
        refine absurd ?_ (h p hp)
        cases hp with
        | cons _ _ => rw [ampRel, if_pos ht]
      have htt : t'.info.terminal = true := by rw [(aggregate_info hagg).2, hashing_terminal]; exact ht
      cases t' with
      | node I ch =>
      rw [countAfter]
      simp only []
      rw [if_pos (show I.terminal = true from htt)]
    | false =>
      rcases hn with ⟨h, _⟩ | ⟨_, ⟨r, hr, hw⟩, hlen, hsum, hch⟩
      · rw [ht] at h; cases h
      obtain ⟨hidx, hshc⟩ := hsh.2 ht
      have hposc : ∀ d ∈ cs, 0 < d := fun d hd => hpos d (by simp [hd])
      have hc0 : 0 < c := hpos c (by simp)
      have ih : ∀ u ∈ t.children, _ := fun u hu => count_main H cs u hposc (hch u hu) (hshc u hu)
      have hne : ∃ (i : Nat) (c : MicroDD), t.children[i]? = some c ∧ c.weight ≠ 0 := by
        by_contra hcon
        push Not at hcon
        have : (t.children.map fun u => ‖u.weight‖ ^ 2) = t.children.map fun _ => (0 : ℝ) := by
          refine List.map_congr_left fun u hu => ?_
          obtain ⟨i, hi⟩ := List.mem_iff_getElem?.1 hu
          rw [hcon i u hi]; simp
        rw [this] at hsum
        simp at hsum
      have hchild := hashing_children H ht
      obtain ⟨cs', red, eagg, ewt, efirst, ered⟩ := aggregate_live (k := cs.length) (t := hashing H t) (by rw [hashing_terminal]; exact ht)
        (by rw [hashing_index]; exact hidx) (by
          intro c hc
          rw [hchild] at hc
          obtain ⟨u, hu, rfl⟩ := List.mem_map.1 hc
          obtain ⟨u', m, h1, _⟩ := ih u hu
          exact ⟨u', h1⟩) (by
          obtain ⟨i, c, h1, h2⟩ := hne
          exact ⟨i, hashing H c, by rw [hchild, List.getElem?_map, h1]; rfl, by rw [hashing_weight]; exact h2⟩)
      rw [hchild] at eagg efirst
      set hs := (t.children.map (hashing H)).map fun c => c.info.hash with hhs
      have hhl : hs.length = c := by rw [hhs, List.length_map, List.length_map, hlen]
      set S := ((List.range (cs.length + 1)).map fun k => (cs.take k).prod).sum with hS
      -- every visit succeeds
      have hvisit : ∀ j, j < c → ∃ u', cs'[firstWith hs j]? = some u' ∧ ∃ m, (1 ≤ m ∧ ((∀ p, Levels (c :: cs) p → ampRel t p ≠ 0) → cs.length + 1 ≤ m)) ∧ m ≤ S ∧
          ∀ n, countAfter cs u' n = .ok (n + m) := by
        intro j hj
        have hj' : j < hs.length := by rw [hhl]; exact hj
        have hf := firstWith_le (hs := hs) (i := j) hj'
        have hfl : firstWith hs j < c := by omega
        have hft : firstWith hs j < t.children.length := by rw [hlen]; exact hfl
        have hget : (t.children.map (hashing H))[firstWith hs j]? = some (hashing H t.children[firstWith hs j]) := by
          rw [List.getElem?_map, List.getElem?_eq_getElem hft]; rfl
        obtain ⟨u', h1, h2⟩ := efirst _ _ hget hf.2.2
        obtain ⟨u'', m, g1, g2, g3, g4⟩ := ih _ (List.getElem_mem hft)
        rw [g1] at h2
        injection h2 with h2
        subst h2
        refine ⟨u'', h1, m, ⟨g2.1, fun h => g2.2 fun p hp => ?_⟩, g3, g4⟩
        have := h (firstWith hs j :: p) (.cons hfl hp)
        rw [ampRel, if_neg (by rw [ht]; decide), List.getElem?_eq_getElem hft] at this
        exact right_ne_zero_of_mul this
      have hix : ∀ j, j < c → ((List.range (t.children.map (hashing H)).length).map (firstWith hs))[j]? = some (firstWith hs j) := by
        intro j hj
        rw [List.getElem?_map, List.length_map, hlen, List.getElem?_range hj]; rfl
      have hterm : (hashing H t).info.terminal = false := by rw [hashing_terminal]; exact ht
      by_cases hred : red = true
      · obtain ⟨u', h1, m, g2, g3, g4⟩ := hvisit 0 hc0
        refine ⟨_, 1 + m, eagg, ⟨by omega, fun h => by have := g2.2 h; rw [List.length_cons]; omega⟩, ?_, fun n => ?_⟩
        · rw [nodes_cons, ← hS]; nlinarith
        · rw [countAfter]
          simp only [hterm, hred, hix 0 hc0, h1, if_true, Bool.false_eq_true, if_false]
          rw [g4]; congr 1; omega
      · have hred : red = false := by simpa using hred
        obtain ⟨m, q0, q1, q2⟩ := foldlM_count (S := S) (B := if ∀ p, Levels (c :: cs) p → ampRel t p ≠ 0 then cs.length + 1 else 1) (visit := fun m j =>
            match ((List.range (t.children.map (hashing H)).length).map (firstWith hs))[j]? with
            | none => .error .indexError
            | some l => match cs'[l]? with
              | none => .error .indexError
              | some u => countAfter cs u m) (List.range c) (by
          intro j hj
          have hj := List.mem_range.1 hj
          obtain ⟨u', h1, m, g2, g3, g4⟩ := hvisit j hj
          exact ⟨m, by split; exacts [g2.2 ‹_›, g2.1], g3, fun n => by simp only [hix j hj, h1]; exact g4 n⟩)
        rw [List.length_range] at q0
        refine ⟨_, 1 + m, eagg, ⟨by omega, fun h => ?_⟩, ?_, fun n => ?_⟩
        · rw [if_pos h] at q0
          rw [List.length_cons]
          nlinarith
        · rw [nodes_cons, ← hS]
          rw [List.length_range] at q1
          omega
        · rw [countAfter]
          simp only [hterm, hred, Bool.false_eq_true, if_false, Option.some.injEq]
          refine (q2 (n + 1)).trans ?_
          congr 1; omega

/-! ### a state in which all amplitudes are equal -/

/-- at every node all children are the same -/
def Uni : List Nat → MicroDD → Prop
  | [], t => t.info.terminal = true
  | c :: cs, t => t.info.terminal = false ∧ t.info.index = [] ∧ ∃ u : MicroDD, t.children = List.replicate c u ∧ u.weight ≠ 0 ∧ Uni cs u

theorem uni_setWeight : ∀ {dims : List Nat} {t : MicroDD} (w : ℂ), Uni dims t → Uni dims (t.setWeight w)
  | [], _, _, h => h
  | _ :: _, _, _, h => h

theorem firstWith_replicate {c j : Nat} (h : Int) (hj : j < c) : firstWith (List.replicate c h) j = 0 := by
  unfold firstWith
  have : (List.replicate c h).getD j 0 = h := by
    rw [List.getD_eq_getElem?_getD, List.getElem?_replicate, if_pos hj]; rfl
  rw [this]
  obtain ⟨m, rfl⟩ : ∃ m, c = m + 1 := ⟨c - 1, by omega⟩
  rw [List.replicate_succ, List.idxOf_cons_self]

theorem count_uni (H : List (Int × ℂ) → Int) : ∀ (dims : List Nat) (t : MicroDD), (∀ d ∈ dims, 0 < d) → Uni dims t →
    ∃ t', aggregate dims.length (hashing H t) = .ok t' ∧ ∀ n, countAfter dims t' n = .ok (n + (dims.length + 1))
  | [], t, _, h => by
    refine ⟨hashing H t, by rw [List.length_nil, aggregate], fun n => ?_⟩
    rw [countAfter, if_pos (by rw [hashing_terminal]; exact h)]; rfl
  | c :: cs, t, hpos, ⟨ht, hidx, u, hch, hw, hu⟩ => by
    have hc0 : 0 < c := hpos c (by simp)
    obtain ⟨u', hu1, hu2⟩ := count_uni H cs u (fun d hd => hpos d (by simp [hd])) hu
    have hchild : (hashing H t).children = List.replicate c (hashing H u) := by
      rw [hashing_children H ht, hch, List.map_replicate]
    have hget : ∀ i a, (hashing H t).children[i]? = some a → i < c ∧ a = hashing H u := by
      intro i a h
      rw [hchild, List.getElem?_replicate] at h
      split at h
      · exact ⟨‹_›, by injection h with h; exact h.symm⟩
      · cases h
    obtain ⟨cs', red, eagg, ewt, efirst, ered⟩ := aggregate_live (k := cs.length) (t := hashing H t) (by rw [hashing_terminal]; exact ht)
      (by rw [hashing_index]; exact hidx) (by
        intro a ha
        obtain ⟨i, hi⟩ := List.mem_iff_getElem?.1 ha
        exact ⟨u', by rw [(hget i a hi).2]; exact hu1⟩) ⟨0, hashing H u, by rw [hchild, List.getElem?_replicate, if_pos hc0],
          by rw [hashing_weight]; exact hw⟩
    have hhs : ((hashing H t).children.map fun c => c.info.hash) = List.replicate c (hashing H u).info.hash := by
      rw [hchild, List.map_replicate]
    rw [hhs] at eagg efirst ered
    have hlen : (hashing H t).children.length = c := by rw [hchild, List.length_replicate]
    rw [hlen] at eagg
    obtain ⟨v, hv1, hv2⟩ := efirst 0 (hashing H u) (by rw [hchild, List.getElem?_replicate, if_pos hc0]) (firstWith_replicate _ hc0)
    rw [hu1] at hv2
    injection hv2 with hv2
    subst hv2
    have hix : ((List.range c).map (firstWith (List.replicate c (hashing H u).info.hash)))[0]? = some 0 := by
      rw [List.getElem?_map, List.getElem?_range hc0]
      simp only [Option.map_some, firstWith_replicate _ hc0]
    have hterm : (hashing H t).info.terminal = false := by rw [hashing_terminal]; exact ht
    refine ⟨_, eagg, fun n => ?_⟩
    by_cases hred : red = true
    · rw [countAfter]
      simp only [hterm, hred, hix, hv1, if_true, Bool.false_eq_true, if_false]
      rw [hu2, List.length_cons]; congr 1; omega
    · have hc1 : c = 1 := by
        by_contra hc1
        refine hred (ered.2 ⟨⟨0, 1, hashing H u, hashing H u, by decide, ?_, ?_, ?_, ?_⟩, ?_⟩)
        · rw [hchild, List.getElem?_replicate, if_pos hc0]
        · rw [hchild, List.getElem?_replicate, if_pos (by omega)]
        · rw [hashing_weight]; exact hw
        · rw [hashing_weight]; exact hw
        · intro i j a b ha hb _ _
          rw [firstWith_replicate _ (hget i a ha).1, firstWith_replicate _ (hget j b hb).1]
      have hred : red = false := by simpa using hred
      subst hc1
      rw [countAfter]
      simp only [hterm, hred, Bool.false_eq_true, if_false, Option.some.injEq]
      rw [show List.range 1 = [0] from rfl, List.foldlM_cons]
      simp only [List.foldlM_nil]
      rw [show List.range 1 = [0] from rfl] at hix
      simp only [hix, hv1]
      rw [hu2, List.length_cons]
      simp only [bind, Except.bind, pure, Except.pure]
      congr 1; omega

theorem slice_replicate (c s i : Nat) (x : ℂ) (hi : i < c) : slice (List.replicate (c * s) x) i s = List.replicate s x := by
  unfold slice
  rw [List.drop_replicate, List.take_replicate]
  congr 1
  have : (i + 1) * s ≤ c * s := Nat.mul_le_mul_right _ hi
  rw [Nat.succ_mul] at this
  omega

theorem build_uni (x : ℂ) (hx : x ≠ 0) : ∀ (dims : List Nat), (∀ d ∈ dims, 0 < d) →
    ∃ t, build dims (List.replicate dims.prod x) = .ok t ∧ Uni dims t ∧ t.weight ≠ 0
  | [], _ => ⟨_, rfl, rfl, hx⟩
  | c :: cs, hpos => by
    have hc0 : 0 < c := hpos c (by simp)
    obtain ⟨u, h1, h2, h3⟩ := build_uni x hx cs fun d hd => hpos d (by simp [hd])
    have hdiv : (List.replicate (c :: cs).prod x).length / c = cs.prod := by
      rw [List.length_replicate, List.prod_cons, Nat.mul_div_cancel_left _ hc0]
    have hm : ((List.range c).mapM fun i => build cs (slice (List.replicate (c :: cs).prod x) i cs.prod)) = .ok (List.replicate c u) := by
      have : ∀ l : List Nat, (∀ i ∈ l, i < c) → (l.mapM fun i => build cs (slice (List.replicate (c :: cs).prod x) i cs.prod)) =
          .ok (List.replicate l.length u) := by
        intro l
        induction l with
        | nil => intro _; rfl
        | cons a l ih =>
          intro hl
          rw [List.mapM_cons, List.prod_cons, slice_replicate _ _ _ _ (hl a (by simp)), h1]
          rw [List.prod_cons] at ih
          simp only [bind, Except.bind]
          rw [ih fun i hi => hl i (by simp [hi])]
          rfl
      have := this (List.range c) fun i hi => List.mem_range.1 hi
      rwa [List.length_range] at this
    have hN : vecNorm (List.replicate c u.weight) ≠ 0 := by
      intro h
      exact h3 (vecNorm_eq_zero h _ (List.mem_replicate.2 ⟨by omega, rfl⟩))
    have hnorm : MicroDD.normalize 1 ((List.replicate c u).map weight) = ((1 : ℂ) * (vecNorm (List.replicate c u.weight) : ℝ),
        List.replicate c (u.weight / (vecNorm (List.replicate c u.weight) : ℝ))) := by
      unfold MicroDD.normalize
      rw [List.map_replicate, norm_of_normalize]
      simp only [if_neg hN, List.map_replicate]
    have hw : (1 : ℂ) * (vecNorm (List.replicate c u.weight) : ℝ) ≠ 0 := by
      rw [one_mul]; exact_mod_cast hN
    refine ⟨node { weight := (1 : ℂ) * (vecNorm (List.replicate c u.weight) : ℝ) } ((List.replicate c u).zipWith setWeight
        (List.replicate c (u.weight / (vecNorm (List.replicate c u.weight) : ℝ)))), ?_, ?_, hw⟩
    · rw [build, if_neg (by omega)]
      simp only [hdiv]
      rw [hm]
      simp only [bind, Except.bind]
      rw [hnorm]
      simp only [if_neg hw]
      rfl
    · refine ⟨rfl, rfl, u.setWeight (u.weight / (vecNorm (List.replicate c u.weight) : ℝ)), ?_, ?_, uni_setWeight _ h2⟩
      · rw [children_node, List.zipWith_replicate, Nat.min_self]
      · rw [weight_setWeight]
        exact div_ne_zero h3 (by exact_mod_cast hN)

end Qudits
