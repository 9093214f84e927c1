import Verif.Lemmas.ApproxCut
/-! # The tree after cutting and normalising -/
namespace Qudits
open Spec MicroDD RetrieveState

theorem amp_zeroAt : ∀ (q : List Nat) (t : MicroDD) (p : List Nat), amp (zeroAt q t) p = if q <+: p then 0 else amp t p
  | [], t, p => by
    rw [if_pos List.nil_prefix, zeroAt]; unfold amp; rw [weight_setWeight, zero_mul]
  | i :: q, node inf cs, [] => by
    rw [if_neg (by simp)]; rfl
  | i :: q, node inf cs, l :: p => by
    rw [zeroAt]
    unfold amp
    rw [ampRel, ampRel, info_node, info_node, children_node, children_node, List.getElem?_modify]
    have hw : (node inf (cs.modify i (zeroAt q))).weight = (node inf cs).weight := rfl
    rw [hw]
    cases inf.terminal with
    | true => simp
    | false =>
      simp only [Bool.false_eq_true, if_false]
      by_cases hil : i = l
      · subst hil
        cases cs[i]? with
        | none => simp
        | some c =>
          have ih := amp_zeroAt q c p
          unfold amp at ih
          simp only [if_true, List.cons_prefix_cons, true_and]
          change (node inf cs).weight * ((zeroAt q c).weight * ampRel (zeroAt q c) p) = _
          rw [ih]
          split
          · rw [mul_zero]
          · rfl
      · have : ¬ (i :: q) <+: (l :: p) := by rw [List.cons_prefix_cons]; tauto
        rw [if_neg this]
        cases cs[l]? <;> simp [hil]

theorem amp_cuts (cuts : List (List Nat)) (t : MicroDD) (p : List Nat) :
    amp (cuts.foldr zeroAt t) p = if ∃ q ∈ cuts, q <+: p then 0 else amp t p := by
  induction cuts with
  | nil => simp
  | cons q cuts ih =>
    rw [List.foldr_cons, amp_zeroAt, ih]
    by_cases h : q <+: p
    · rw [if_pos h, if_pos ⟨q, by simp, h⟩]
    · rw [if_neg h]
      congr 1
      simp [h]

/-! ### the probability that is cut -/

theorem data_eq (dims : List Nat) (data : List ℂ) (hl : data.length = dims.prod) :
    data = (allCombinations dims).map fun p => data.getD (index dims p) 0 := by
  apply List.ext_getElem?
  intro k
  rw [List.getElem?_map]
  by_cases hk : k < dims.prod
  · obtain ⟨p, hp, rfl⟩ := index_surj hk
    rw [allCombinations_get hp, Option.map_some, List.getD_eq_getElem?_getD, List.getElem?_eq_getElem (by omega), Option.getD_some]
  · rw [List.getElem?_eq_none (by omega), List.getElem?_eq_none (by rw [allCombinations_length]; omega)]
    rfl

theorem sum_flatMap' {α β : Type} (l : List α) (f : α → List β) (g : β → ℝ) :
    ((l.flatMap f).map g).sum = (l.map fun a => ((f a).map g).sum).sum := by
  induction l with
  | nil => rfl
  | cons a l ih => simp [List.flatMap_cons, ih]

theorem prob_branch : ∀ (q dims : List Nat) (data : List ℂ), data.length = dims.prod → Levels (dims.take q.length) q →
    prob (branch dims data q) = ((allCombinations dims).map fun p => if q <+: p then ‖data.getD (index dims p) 0‖ ^ 2 else 0).sum
  | [], dims, data, hl, _ => by
    rw [branch]
    unfold prob
    conv_lhs => rw [data_eq dims data hl]
    rw [List.map_map]
    refine congrArg List.sum (List.map_congr_left fun p _ => ?_)
    rw [if_pos List.nil_prefix]; rfl
  | i :: q, [], data, hl, h => by cases h
  | i :: q, c :: cs, data, hl, h => by
    rw [List.length_cons, List.take_succ_cons] at h
    cases h with
    | cons hi h =>
    rw [List.prod_cons] at hl
    have hsl := slice_length data c cs.prod i hl hi
    rw [branch]
    change prob (branch cs (slice data i cs.prod) q) = _
    rw [prob_branch q cs _ hsl h, allCombinations, sum_flatMap']
    have : ∀ j ∈ List.range c, ((((allCombinations cs).map fun p => j :: p).map fun p =>
        if (i :: q) <+: p then ‖data.getD (index (c :: cs) p) 0‖ ^ 2 else 0).sum) =
        if j = i then ((allCombinations cs).map fun p => if q <+: p then ‖(slice data i cs.prod).getD (index cs p) 0‖ ^ 2 else 0).sum else 0 := by
      intro j hj
      rw [List.map_map]
      by_cases hji : j = i
      · subst hji
        rw [if_pos rfl]
        congr 1
        refine List.map_congr_left fun p hp => ?_
        rw [Function.comp_apply, slice_getD _ _ _ _ (index_lt (mem_allCombinations hp)), index]
        simp only [List.cons_prefix_cons, true_and]
      · rw [if_neg hji]
        refine List.sum_eq_zero ?_
        intro x hx
        obtain ⟨p, _, rfl⟩ := List.mem_map.1 hx
        rw [Function.comp_apply, if_neg]
        rw [List.cons_prefix_cons]
        exact fun h => hji h.1.symm
    rw [List.map_congr_left this]
    clear this
    generalize ((allCombinations cs).map fun p => if q <+: p then ‖(slice data i cs.prod).getD (index cs p) 0‖ ^ 2 else 0).sum = S
    have : ∀ c, i < c → ((List.range c).map fun j => if j = i then S else 0).sum = S := by
      intro c hc
      rw [List.sum_map_ite_eq, List.count_eq_one_of_mem List.nodup_range (List.mem_range.2 hc), one_smul]
      simp
    rw [this c hi]

theorem sum_map_le {α : Type} (l : List α) {f g : α → ℝ} (h : ∀ a ∈ l, f a ≤ g a) : (l.map f).sum ≤ (l.map g).sum :=
  List.sum_le_sum h

theorem sum_swap {α β : Type} (l : List α) (m : List β) (f : α → β → ℝ) :
    (l.map fun a => (m.map fun b => f a b).sum).sum = (m.map fun b => (l.map fun a => f a b).sum).sum := by
  induction l with
  | nil => simp
  | cons a l ih => simp only [List.map_cons, List.sum_cons, ih, List.sum_map_add]

/-- the vector without the parts that are cut -/
noncomputable def truncated (dims : List Nat) (data : List ℂ) (cuts : List (List Nat)) : List ℂ :=
  (allCombinations dims).map fun p => if ∃ q ∈ cuts, q <+: p then 0 else data.getD (index dims p) 0

theorem truncated_length (dims : List Nat) (data : List ℂ) (cuts : List (List Nat)) : (truncated dims data cuts).length = dims.prod := by
  unfold truncated; rw [List.length_map, allCombinations_length]

theorem truncated_getD {dims : List Nat} (data : List ℂ) (cuts : List (List Nat)) {p : List Nat} (hp : Levels dims p) :
    (truncated dims data cuts).getD (index dims p) 0 = if ∃ q ∈ cuts, q <+: p then 0 else data.getD (index dims p) 0 := by
  unfold truncated
  rw [List.getD_eq_getElem?_getD, List.getElem?_map, allCombinations_get hp]
  rfl

theorem truncated_prob {dims : List Nat} {data : List ℂ} (hl : data.length = dims.prod) {cuts : List (List Nat)}
    (hc : ∀ q ∈ cuts, Levels (dims.take q.length) q) :
    prob data - (cuts.map fun q => prob (branch dims data q)).sum ≤ prob (truncated dims data cuts) := by
  have e1 : prob data = ((allCombinations dims).map fun p => ‖data.getD (index dims p) 0‖ ^ 2).sum := by
    unfold prob
    conv_lhs => rw [data_eq dims data hl]
    rw [List.map_map]; rfl
  have e2 : prob (truncated dims data cuts) = ((allCombinations dims).map fun p =>
      if ∃ q ∈ cuts, q <+: p then 0 else ‖data.getD (index dims p) 0‖ ^ 2).sum := by
    unfold prob truncated
    rw [List.map_map]
    congr 1
    refine List.map_congr_left fun p _ => ?_
    rw [Function.comp_apply]
    split <;> simp
  have e3 : (cuts.map fun q => prob (branch dims data q)).sum = ((allCombinations dims).map fun p =>
      (cuts.map fun q => if q <+: p then ‖data.getD (index dims p) 0‖ ^ 2 else 0).sum).sum := by
    rw [sum_swap]
    congr 1
    exact List.map_congr_left fun q hq => prob_branch q dims data hl (hc q hq)
  rw [e1, e2, e3, sub_le_iff_le_add, ← List.sum_map_add]
  refine sum_map_le _ fun p _ => ?_
  have hnn : ∀ x ∈ cuts.map fun q => if q <+: p then ‖data.getD (index dims p) 0‖ ^ 2 else 0, 0 ≤ x := by
    intro x hx
    obtain ⟨q, _, rfl⟩ := List.mem_map.1 hx
    split
    · positivity
    · exact le_rfl
  by_cases h : ∃ q ∈ cuts, q <+: p
  · rw [if_pos h, zero_add]
    obtain ⟨q, hq, hqp⟩ := h
    refine le_trans ?_ (List.single_le_sum hnn _ (List.mem_map.2 ⟨q, hq, rfl⟩))
    rw [if_pos hqp]
  · rw [if_neg h]
    have := List.sum_nonneg hnn
    linarith

/-! ### the tree -/

/-- no children of its own -/
def Bare (u : MicroDD) : Prop := u.info.terminal = true ∧ u.children = []

theorem bare_zeroAt : ∀ (q : List Nat) {u : MicroDD}, Bare u → Bare (zeroAt q u)
  | [], node _ _, h => h
  | i :: q, node inf cs, h => ⟨h.1, by rw [zeroAt, children_node, show cs = [] from h.2, List.modify_nil]⟩

/-- a tree whose weights need not be normalised -/
def Raw : List Nat → MicroDD → Prop
  | [], t => t.info.terminal = true
  | c :: cs, t => (t.info.terminal = true ∧ t.weight = 0 ∧ ∀ u ∈ t.children, Bare u) ∨
      (t.info.terminal = false ∧ (∃ r : ℝ, 0 ≤ r ∧ t.weight = r) ∧ t.info.index = [] ∧ t.children.length = c ∧ ∀ u ∈ t.children, Raw cs u)

theorem raw_of_normal : ∀ {dims : List Nat} {t : MicroDD}, Normal dims t → Shape dims t → Raw dims t
  | [], _, h, _ => h
  | c :: cs, t, h, hS => by
    rcases h with ⟨h1, h2⟩ | ⟨h1, ⟨r, hr, h2⟩, h3, _, h5⟩
    · exact Or.inl ⟨h1, h2, hS.1 h1⟩
    · obtain ⟨s1, s2⟩ := hS.2 h1
      exact Or.inr ⟨h1, ⟨r, hr.le, h2⟩, s1, h3, fun u hu => raw_of_normal (h5 u hu) (s2 u hu)⟩

theorem mem_modify {us : List MicroDD} {i : Nat} {f : MicroDD → MicroDD} {u : MicroDD} (h : u ∈ us.modify i f) : ∃ v ∈ us, u = f v ∨ u = v := by
  obtain ⟨k, hk⟩ := List.mem_iff_getElem?.1 h
  rw [List.getElem?_modify, Option.map_eq_map, Option.map_eq_some_iff] at hk
  obtain ⟨v, hv, rfl⟩ := hk
  refine ⟨v, List.mem_of_getElem? hv, ?_⟩
  by_cases e : i = k
  · left; rw [if_pos e]
  · right; rw [if_neg e]

theorem raw_zeroAt : ∀ {dims : List Nat} {t : MicroDD} (q : List Nat), Raw dims t → Raw dims (zeroAt q t)
  | [], node inf cs, [], h => h
  | [], node inf cs, i :: q, h => h
  | c :: cs, node inf us, [], h => by
    rcases h with ⟨h1, _, h3⟩ | ⟨h1, _, h3⟩
    · exact Or.inl ⟨h1, rfl, h3⟩
    · exact Or.inr ⟨h1, ⟨0, le_rfl, by rw [zeroAt, weight_setWeight]; simp⟩, h3⟩
  | c :: cs, node inf us, i :: q, h => by
    rcases h with ⟨h1, h2, h3⟩ | ⟨h1, h2, h3, h4, h5⟩
    · refine Or.inl ⟨h1, h2, ?_⟩
      intro u hu
      rw [zeroAt, children_node] at hu
      obtain ⟨v, hv, rfl | rfl⟩ := mem_modify hu
      · exact bare_zeroAt q (h3 v hv)
      · exact h3 _ hv
    · refine Or.inr ⟨h1, h2, h3, ?_, ?_⟩
      · rw [zeroAt, children_node, List.length_modify]; exact h4
      · intro u hu
        rw [zeroAt, children_node] at hu
        obtain ⟨v, hv, rfl | rfl⟩ := mem_modify hu
        · exact raw_zeroAt q (h5 v hv)
        · exact h5 _ hv

theorem raw_cuts {dims : List Nat} {t : MicroDD} (cuts : List (List Nat)) (h : Raw dims t) : Raw dims (cuts.foldr zeroAt t) := by
  induction cuts with
  | nil => exact h
  | cons q cuts ih => exact raw_zeroAt q ih

theorem zipWith_weights (l : List MicroDD) (N : ℂ) :
    l.zipWith setWeight ((l.map weight).map fun x => x / N) = l.map fun u => u.setWeight (u.weight / N) := by
  induction l with
  | nil => rfl
  | cons a l ih => simp only [List.map_cons, List.zipWith_cons_cons, ih]

theorem normalizeAll_spec : ∀ (dims : List Nat) (t : MicroDD), (∀ d ∈ dims, 2 ≤ d) → Raw dims t →
    Normal dims (normalizeAll dims.length t) ∧ Shape dims (normalizeAll dims.length t) ∧
    ∀ p, Levels dims p → amp (normalizeAll dims.length t) p = amp t p
  | [], t, _, h => ⟨h, trivial, fun _ _ => rfl⟩
  | c :: cs, node inf us, hd, h => by
    have hd' : ∀ d ∈ cs, 2 ≤ d := fun d h => hd d (by simp [h])
    rcases h with ⟨h1, h2, h3⟩ | ⟨h1, ⟨r, hr, h2⟩, h3, h4, h5⟩
    · have h1' : inf.terminal = true := h1
      rw [List.length_cons, normalizeAll, if_pos h1']
      exact ⟨Or.inl ⟨h1, h2⟩, ⟨fun _ => h3, fun h => by rw [h1] at h; cases h⟩, fun _ _ => rfl⟩
    · have h1' : inf.terminal = false := h1
      have h2' : inf.weight = r := h2
      have h3' : inf.index = [] := h3
      have h4' : us.length = c := h4
      have h5' : ∀ u ∈ us, Raw cs u := h5
      have ih : ∀ u ∈ us, _ := fun u hu => normalizeAll_spec cs u hd' (h5' u hu)
      rw [List.length_cons, normalizeAll, if_neg (by simp [h1'])]
      simp only [normalize_eq]
      set N := vecNorm ((us.map (normalizeAll cs.length)).map weight) with hNdef
      have dead : ∀ w : ℂ, w = 0 → (r = 0 ∨ N = 0) →
          Normal (c :: cs) (node { inf with weight := w, terminal := true } [zeroNode]) ∧
          Shape (c :: cs) (node { inf with weight := w, terminal := true } [zeroNode]) ∧
          ∀ p, Levels (c :: cs) p → amp (node { inf with weight := w, terminal := true } [zeroNode]) p = amp (node inf us) p := by
        intro w hw h0
        refine ⟨Or.inl ⟨rfl, hw⟩, ⟨?_, fun h => by cases h⟩, ?_⟩
        · intro _ u hu
          rw [children_node, List.mem_singleton] at hu
          subst hu
          exact ⟨rfl, rfl⟩
        · intro p hp
          cases hp with
          | @cons l _ p _ hl hp =>
          unfold amp
          rw [show (node { inf with weight := w, terminal := true } [zeroNode]).weight = 0 from hw, zero_mul, ampRel, if_neg (by rw [h1]; simp)]
          rw [show (node inf us).weight = r from h2]
          rw [children_node, List.getElem?_eq_getElem (by omega)]
          rcases h0 with h0 | h0
          · simp [h0]
          · have hm : us[l]'(by omega) ∈ us := List.getElem_mem _
            have e := (ih _ hm).2.2 p hp
            have z : (normalizeAll cs.length (us[l]'(by omega))).weight = 0 :=
              vecNorm_eq_zero h0 _ (List.mem_map.2 ⟨_, List.mem_map.2 ⟨_, hm, rfl⟩, rfl⟩)
            unfold amp at e
            rw [z, zero_mul] at e
            simp only
            rw [← e, mul_zero]
      by_cases hN0 : N = 0
      · rw [if_pos hN0]
        simp only [if_true]
        exact dead 0 rfl (Or.inr hN0)
      · rw [if_neg hN0]
        have hN0' : (N : ℂ) ≠ 0 := by exact_mod_cast hN0
        have hNpos : 0 < N := lt_of_le_of_ne (vecNorm_nonneg _) (Ne.symm hN0)
        simp only
        by_cases hr0 : r = 0
        · rw [if_pos (by rw [h2', hr0]; simp)]
          exact dead _ (by rw [h2', hr0]; simp) (Or.inl hr0)
        · have hrpos : 0 < r := lt_of_le_of_ne hr (Ne.symm hr0)
          rw [if_neg (by rw [h2']; exact mul_ne_zero (by exact_mod_cast hr0) hN0'),
            if_pos (by rw [List.length_map, h4']; have := hd c (by simp); omega), zipWith_weights, List.map_map]
          refine ⟨Or.inr ⟨h1, ⟨r * N, by positivity, ?_⟩, ?_, ?_, ?_⟩, ⟨?_, fun _ => ⟨h3, ?_⟩⟩, ?_⟩
          · change inf.weight * (N : ℂ) = _; rw [h2']; push_cast; rfl
          · rw [children_node, List.length_map, h4']
          · rw [children_node, List.map_map]
            have e : (us.map ((fun u => ‖u.weight‖ ^ 2) ∘ ((fun u : MicroDD => u.setWeight (u.weight / (N : ℂ))) ∘ normalizeAll cs.length))).sum =
                (us.map fun u => ‖(normalizeAll cs.length u).weight‖ ^ 2).sum * (1 / N ^ 2) := by
              rw [← List.sum_map_mul_right]
              refine congrArg List.sum (List.map_congr_left fun u _ => ?_)
              simp only [Function.comp_apply, weight_setWeight, norm_div, Complex.norm_real, Real.norm_eq_abs, div_pow, sq_abs]
              ring
            rw [e]
            have e2 : (us.map fun u => ‖(normalizeAll cs.length u).weight‖ ^ 2).sum = N ^ 2 := by
              rw [hNdef, vecNorm_sq, List.map_map, List.map_map]; rfl
            rw [e2]
            field_simp
          · intro u hu
            obtain ⟨v, hv, rfl⟩ := List.mem_map.1 hu
            exact (ih v hv).1.setPos hNpos
          · intro h; rw [info_node] at h; rw [h1'] at h; cases h
          · intro u hu
            obtain ⟨v, hv, rfl⟩ := List.mem_map.1 hu
            exact (shape_setWeight _ _ _).2 (ih v hv).2.1
          · intro p hp
            cases hp with
            | @cons l _ p _ hl hp =>
            unfold amp
            rw [ampRel, ampRel, info_node, info_node, if_neg (by simp [h1']), if_neg (by simp [h1']), children_node, children_node,
              List.getElem?_map, List.getElem?_eq_getElem (by omega : l < us.length)]
            have e := (ih _ (List.getElem_mem (by omega : l < us.length))).2.2 p hp
            unfold amp at e
            change inf.weight * (N : ℂ) * (((normalizeAll cs.length us[l]).setWeight ((normalizeAll cs.length us[l]).weight / (N : ℂ))).weight *
              ampRel ((normalizeAll cs.length us[l]).setWeight ((normalizeAll cs.length us[l]).weight / (N : ℂ))) p) =
              inf.weight * (us[l].weight * ampRel us[l] p)
            rw [ampRel_setWeight, weight_setWeight, ← e]
            field_simp

/-! ### sharing -/

theorem normal_exists : ∀ (dims : List Nat) (t : MicroDD), Normal dims t → (dims = [] ∨ t.weight ≠ 0) → ∃ p, Levels dims p ∧ ampRel t p ≠ 0
  | [], t, h, _ => ⟨[], .nil, by rw [ampRel, if_pos (show t.info.terminal = true from h)]; exact one_ne_zero⟩
  | c :: cs, t, h, h0 => by
    rcases h with ⟨_, h⟩ | ⟨h1, _, h3, h4, h5⟩
    · exact absurd h (h0.resolve_left (by simp))
    · have : ∃ u ∈ t.children, u.weight ≠ 0 := by
        by_contra hc
        push Not at hc
        have : (t.children.map fun u => ‖u.weight‖ ^ 2).sum = 0 := by
          refine List.sum_eq_zero ?_
          intro x hx
          obtain ⟨u, hu, rfl⟩ := List.mem_map.1 hx
          rw [hc u hu]; simp
        rw [this] at h4
        exact zero_ne_one h4
      obtain ⟨u, hu, hw⟩ := this
      obtain ⟨i, hi⟩ := List.mem_iff_getElem?.1 hu
      obtain ⟨p, hp, hp0⟩ := normal_exists cs u (h5 u hu) (Or.inr hw)
      refine ⟨i :: p, .cons (by rw [← h3]; exact (List.getElem?_eq_some_iff.1 hi).1) hp, ?_⟩
      rw [ampRel, if_neg (by simp [h1]), hi]
      exact mul_ne_zero hw hp0

/-- The condition on the state implies the one on any normalised tree for it. -/
theorem sharable_of_amp : ∀ (dims : List Nat) (data : List ℂ) (t : MicroDD) (w : ℂ), (∀ d ∈ dims, 0 < d) → data.length = dims.prod → Normal dims t →
    (∃ r : ℝ, 0 < r ∧ w = r) → (∀ p, Levels dims p → w * amp t p = data.getD (index dims p) 0) → SharableState dims data → SharableTree dims t
  | [], _, _, _, _, _, _, _, _, _ => trivial
  | [_], _, _, _, _, _, _, _, _, _ => trivial
  | c :: c' :: cs, data, t, w, hpos, hl, hN, ⟨r, hr, hw⟩, ha, hS => by
    intro ht
    rcases hN with ⟨h, _⟩ | ⟨_, ⟨s, hs, htw⟩, hcl, hsum, hch⟩
    · rw [ht] at h; cases h
    rw [List.prod_cons] at hl
    have hrs : (0 : ℝ) < r * s := mul_pos hr hs
    have hwt : w * t.weight = ((r * s : ℝ) : ℂ) := by rw [hw, htw]; push_cast; rfl
    have hrs' : ((r * s : ℝ) : ℂ) ≠ 0 := by exact_mod_cast hrs.ne'
    have hsub : ∀ i u, t.children[i]? = some u → i < c ∧ Normal (c' :: cs) u ∧ ∀ p, Levels (c' :: cs) p →
        ((r * s : ℝ) : ℂ) * amp u p = (slice data i (c' :: cs).prod).getD (index (c' :: cs) p) 0 := by
      intro i u hu
      have hi : i < c := by rw [← hcl]; exact (List.getElem?_eq_some_iff.1 hu).1
      refine ⟨hi, hch u (List.mem_of_getElem? hu), ?_⟩
      have := child_amp ht hi hu ha
      rw [hwt] at this
      exact this
    have hlive : ∀ i u, t.children[i]? = some u → (u.weight ≠ 0 ↔ ∃ x ∈ slice data i (c' :: cs).prod, x ≠ 0) := by
      intro i u hu
      obtain ⟨hi, hNu, hau⟩ := hsub i u hu
      have hsl := slice_length data c _ i hl hi
      have hp := normal_prob _ u _ _ hNu hsl hau
      constructor
      · intro h
        by_contra hc
        push Not at hc
        have : prob (slice data i (c' :: cs).prod) = 0 := by
          refine prob_zero_of_getD fun j hj => ?_
          rw [List.getD_eq_getElem?_getD, List.getElem?_eq_getElem hj]
          exact hc _ (List.getElem_mem hj)
        rw [this] at hp
        exact mul_ne_zero (pow_ne_zero _ (norm_ne_zero_iff.2 hrs')) (pow_ne_zero _ (norm_ne_zero_iff.2 h)) hp.symm
      · rintro ⟨x, hx, hx0⟩ h
        rw [h, norm_zero, zero_pow two_ne_zero, mul_zero] at hp
        exact hx0 (prob_eq_zero hp x hx)
    refine ⟨?_, ?_⟩
    · rintro ⟨i, j, a, b, hij, hai, hbj, ha0, hb0⟩ hall
      have h0 := hS.1 ⟨i, j, (hsub i a hai).1, (hsub j b hbj).1, hij, (hlive i a hai).1 ha0, (hlive j b hbj).1 hb0⟩ (by
        intro i j hi hj hi0 hj0
        have hi' : i < t.children.length := by omega
        have hj' : j < t.children.length := by omega
        have ei := List.getElem?_eq_getElem hi'
        have ej := List.getElem?_eq_getElem hj'
        have wi := (hlive i _ ei).2 hi0
        have wj := (hlive j _ ej).2 hj0
        obtain ⟨_, ni, ai⟩ := hsub i _ ei
        obtain ⟨_, nj, aj⟩ := hsub j _ ej
        have posw : ∀ u : MicroDD, Normal (c' :: cs) u → u.weight ≠ 0 → ∃ r : ℝ, 0 < r ∧ u.weight = r := by
          intro u hu h
          rcases hu with ⟨_, h'⟩ | ⟨_, h', _⟩
          · exact absurd h' h
          · exact h'
        obtain ⟨x, hx, ex⟩ := posw _ ni wi
        obtain ⟨y, hy, ey⟩ := posw _ nj wj
        refine ⟨x / y, div_pos hx hy, ?_⟩
        have li := slice_length data c (c' :: cs).prod i hl hi
        have lj := slice_length data c (c' :: cs).prod j hl hj
        apply List.ext_getElem
        · rw [List.length_map, li, lj]
        intro k h1 h2
        rw [li] at h1
        obtain ⟨p, hp, hpk⟩ := index_surj h1
        have e1 := ai p hp
        have e2 := aj p hp
        rw [hpk, List.getD_eq_getElem?_getD, List.getElem?_eq_getElem (by omega), Option.getD_some] at e1
        rw [hpk, List.getD_eq_getElem?_getD, List.getElem?_eq_getElem (by omega), Option.getD_some] at e2
        rw [List.getElem_map, ← e1, ← e2]
        have e3 := hall _ _ (List.getElem_mem hi') (List.getElem_mem hj') wi wj p hp
        unfold amp
        rw [e3, ex, ey]
        have : (y : ℂ) ≠ 0 := by exact_mod_cast hy.ne'
        push_cast
        field_simp)
      have h0c : 0 < t.children.length := by rw [hcl]; exact hpos c (by simp)
      exact ⟨_, List.getElem?_eq_getElem h0c, (hlive 0 _ (List.getElem?_eq_getElem h0c)).2 h0⟩
    · intro u hu
      obtain ⟨i, hi⟩ := List.mem_iff_getElem?.1 hu
      obtain ⟨hic, nu, au⟩ := hsub i u hi
      exact sharable_of_amp (c' :: cs) _ u _ (fun d h => hpos d (by simp only [List.mem_cons] at h ⊢; tauto)) (slice_length data c _ i hl hic) nu
        ⟨r * s, hrs, rfl⟩ au (hS.2 i hic)

end Qudits
