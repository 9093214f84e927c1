import Verif.Lemmas.Remap
import Verif.Lemmas.Embed
import Mathlib.Algebra.BigOperators.Group.List.Basic
/- Labels, histograms and density matrices built from shots. -/
namespace Qudits.Visual
open Spec

variable {n : Nat}

theorem label_fold (item : List Nat) (acc : List Char) :
    item.foldl (fun s state => s ++ Nat.toDigits 10 state) acc = acc ++ item.flatMap (Nat.toDigits 10) := by
  induction item generalizing acc with
  | nil => simp
  | cons a t ih => rw [List.foldl_cons, ih]; simp [List.flatMap_cons]

theorem label_small (item : List Nat) (h : ∀ l ∈ item, l < 10) :
    item.flatMap (Nat.toDigits 10) = item.map Nat.digitChar := by
  induction item with
  | nil => rfl
  | cons a t ih =>
    rw [List.flatMap_cons, List.map_cons, Nat.toDigits_of_lt_base (h a (by simp)), ih (fun l hl => h l (by simp [hl]))]
    rfl

theorem digit_digitChar : ∀ k, k < 10 → digit (Nat.digitChar k) = k := by decide

theorem levels_small {dims ls : List Nat} (h : Levels dims ls) (hd : ∀ x ∈ dims, x ≤ 10) : ∀ l ∈ ls, l < 10 := by
  induction h with
  | nil => simp
  | @cons a d ls ds hl _ ih =>
    intro l hm
    rcases List.mem_cons.1 hm with rfl | hm
    · exact lt_of_lt_of_le hl (hd d (by simp))
    · exact ih (fun x hx => hd x (by simp [hx])) l hm

theorem label_digits (item : List Nat) (h : ∀ l ∈ item, l < 10) :
    (item.foldl (fun s state => s ++ Nat.toDigits 10 state) []).map digit = item := by
  rw [label_fold, List.nil_append, label_small item h, List.map_map]
  calc item.map (digit ∘ Nat.digitChar) = item.map id := List.map_congr_left (fun l hl => digit_digitChar l (h l hl))
    _ = item := List.map_id _

theorem labels_length (dims : List Nat) : (stateLabels dims).length = dims.prod := by
  rw [stateLabels, List.length_map, itProduct_site_length]

theorem labels_nodup (dims : List Nat) (hd : ∀ x ∈ dims, x ≤ 10) : (stateLabels dims).Nodup := by
  unfold stateLabels
  refine List.Nodup.map_on ?_ (itProduct_nodup dims)
  intro a ha b hb h
  have ha' := label_digits a (levels_small (itProduct_mem.1 ha) hd)
  have hb' := label_digits b (levels_small (itProduct_mem.1 hb) hd)
  rw [← ha', ← hb', h]

theorem count_sum (l : List Nat) (N : Nat) (h : ∀ s ∈ l, s < N) :
    ((List.range N).map fun i => (l.count i : ℝ)).sum = (l.length : ℝ) := by
  rw [range_sum]
  induction l with
  | nil => simp
  | cons a t ih =>
    have ih' := ih (fun s hs => h s (by simp [hs]))
    simp only [List.count_cons, List.length_cons, Nat.cast_add, Finset.sum_add_distrib, ih']
    congr 1
    have ha := h a (by simp)
    rw [Finset.sum_eq_single a]
    · simp
    · intro b _ hb
      have : ¬ (a == b) = true := by simpa using fun e => hb e.symm
      rw [if_neg this]; simp
    · intro hn; exact absurd (Finset.mem_range.2 ha) hn

theorem counts_mapM (l : List Nat) (N : Nat) :
    ((List.range N).mapM fun i => (match Shots.list l with
      | .list l => .ok (l.count i : ℝ)
      | .ndarray _ => .error .attributeError : Except PyErr ℝ)) = .ok ((List.range N).map fun i => (l.count i : ℝ)) := by
  exact mapM_ok _ (fun i => (l.count i : ℝ)) _ (fun i _ => rfl)

theorem product_index (dims : List Nat) :
    (itProduct (siteLogics dims)).map (fun item => (uvec dims.prod (index dims item), item.length)) =
      (List.range dims.prod).map fun k => (uvec dims.prod k, dims.length) := by
  apply List.ext_getElem?
  intro k
  by_cases hk : k < dims.prod
  · obtain ⟨ls, h1, rfl⟩ := index_surj hk
    rw [List.getElem?_map, itProduct_getElem? h1, List.getElem?_map, List.getElem?_range hk]
    simp [h1.length]
  · rw [List.getElem?_eq_none (by simpa [itProduct_site_length] using hk), List.getElem?_eq_none (by simpa using hk)]

theorem kets_ok (dims : List Nat) (hne : dims ≠ []) (hd : ∀ x ∈ dims, x ≤ 10) :
    ((stateLabels dims).mapM fun state => do
      let k ← fromDiracToBasis (state.map digit) dims
      pure (k, (state.map digit).length) : Except PyErr (List (List Int × Nat))) =
      .ok ((List.range dims.prod).map fun k => (uvec dims.prod k, dims.length)) := by
  rw [← product_index]
  unfold stateLabels
  rw [List.mapM_map]
  apply mapM_ok
  intro item hi
  have hl := itProduct_mem.1 hi
  have hne' : item ≠ [] := by
    intro h
    have := hl.length
    rw [h] at this
    exact hne (List.length_eq_zero_iff.1 this.symm)
  simp only [Function.comp, label_digits item (levels_small hl hd), dirac_unit hl hne', bind, Except.bind, pure, Except.pure]

theorem outerInt_uvec {d i : Nat} (hi : i < d) (r c : Nat) :
    (outerInt (uvec d i) (uvec d i)).at' r c = if r = i ∧ c = i then 1 else 0 := by
  simp only [outerInt, uvec_getD hi]
  by_cases h1 : r = i <;> by_cases h2 : c = i <;> simp [h1, h2]

theorem density_ok (results dims : List Nat) (h2 : 2 ≤ dims.length) (hd : ∀ x ∈ dims, x ≤ 10) (hr : results ≠ []) :
    ∃ B, densityFromCounts results dims = .ok B ∧ B.rows = dims.prod ∧ B.cols = dims.prod ∧
      ∀ r c, r < dims.prod → c < dims.prod →
        B.at' r c = if r = c then (results.count r : ℝ) / (results.length : ℝ) else 0 := by
  have hne : dims ≠ [] := by intro h; rw [h] at h2; simp at h2
  have hl : ¬ (results.length = 0 ∧ dims.prod ≠ 0) := by
    intro h; exact hr (List.length_eq_zero_iff.1 h.1)
  have h1 : ¬ dims.length = 1 := by omega
  obtain ⟨A, hA, hrow, hcol, hent⟩ := accumulate_ok dims.prod (Arr2.zeros dims.prod dims.prod : Arr2 ℝ)
    (fun i => .ok ((outerInt (uvec dims.prod i) (uvec dims.prod i)).smul
      ((results.count i : ℝ) / (results.length : ℝ))))
    (fun i => (outerInt (uvec dims.prod i) (uvec dims.prod i)).smul ((results.count i : ℝ) / (results.length : ℝ)))
    (fun i _ => rfl) (fun i _ => by simp [outerInt, Arr2.zeros, Arr2.smul])
  refine ⟨A, ?_, hrow, hcol, ?_⟩
  · unfold densityFromCounts
    rw [if_neg hne, if_neg hl]
    have hk := kets_ok dims hne hd
    simp only [bind, Except.bind, pure, Except.pure] at hk ⊢
    rw [hk]
    simp only
    have hz : ((List.range dims.prod).map fun k => (uvec dims.prod k, dims.length)).zip
        ((List.range dims.prod).map fun num => (results.count num : ℝ) / (results.length : ℝ)) =
        (List.range dims.prod).map fun k => ((uvec dims.prod k, dims.length), (results.count k : ℝ) / (results.length : ℝ)) := by
      rw [List.zip_map']
    rw [hz, List.foldlM_map, ← hA]
    unfold Arr2.accumulate
    congr 1
    funext acc i
    rw [if_neg h1]
    rfl
  · intro r c _ hc
    rw [hent, Finset.sum_eq_single c]
    · simp only [Arr2.smul, outerInt_uvec hc, Arr2.zeros, zero_add]
      by_cases h : r = c
      · subst h; simp
      · rw [if_neg (fun e => h e.1), if_neg h, mul_zero]
    · intro i hi hne
      simp only [Arr2.smul, outerInt_uvec (Finset.mem_range.1 hi)]
      rw [if_neg, mul_zero]
      rintro ⟨_, h⟩; exact hne h.symm
    · intro h; exact absurd (Finset.mem_range.2 hc) h

/-- the call fails with AttributeError on one line -/
theorem density_single (results : List Nat) (d : Nat) (hd0 : 0 < d) (hd : d ≤ 10) (hr : results ≠ []) :
    densityFromCounts results [d] = .error .attributeError := by
  have hl : ¬ (results.length = 0 ∧ [d].prod ≠ 0) := by
    intro h; exact hr (List.length_eq_zero_iff.1 h.1)
  unfold densityFromCounts
  rw [if_neg (by simp), if_neg hl]
  have hk := kets_ok [d] (by simp) (by simpa using hd)
  simp only [bind, Except.bind, pure, Except.pure] at hk ⊢
  rw [hk]
  simp only
  rw [List.zip_map', List.foldlM_map]
  obtain ⟨k, rfl⟩ : ∃ k, d = k + 1 := ⟨d - 1, by omega⟩
  have : List.range [k + 1].prod = 0 :: (List.range k).map Nat.succ := by
    rw [List.prod_singleton, List.range_succ_eq_map]
  rw [this, List.foldlM_cons]
  rfl

theorem basisVecs_cases (vec dims : List Nat) : (∃ vs, basisVecs vec dims = .ok vs) ∨ basisVecs vec dims = .error .indexError := by
  induction vec generalizing dims with
  | nil => exact Or.inl ⟨[], rfl⟩
  | cons l ls ih =>
    cases dims with
    | nil => exact Or.inr rfl
    | cons d ds =>
      simp only [basisVecs, basisVec]
      by_cases h : l < d
      · rw [if_pos h]
        rcases ih ds with ⟨vs, h1⟩ | h1 <;> rw [h1]
        · exact Or.inl ⟨_, rfl⟩
        · exact Or.inr rfl
      · rw [if_neg h]; exact Or.inr rfl

theorem dirac_cases (vec dims : List Nat) :
    (∃ v, fromDiracToBasis vec dims = .ok v) ∨ fromDiracToBasis vec dims = .error .indexError := by
  unfold fromDiracToBasis
  rcases basisVecs_cases vec dims with ⟨vs, h⟩ | h <;> rw [h]
  · cases vs with
    | nil => exact Or.inr rfl
    | cons v vs => exact Or.inl ⟨_, rfl⟩
  · exact Or.inr rfl

theorem basisVecs_long (vec dims : List Nat) (h : dims.length < vec.length) : basisVecs vec dims = .error .indexError := by
  induction vec generalizing dims with
  | nil => simp at h
  | cons l ls ih =>
    cases dims with
    | nil => rfl
    | cons d ds =>
      simp only [basisVecs, basisVec]
      by_cases hl : l < d
      · rw [if_pos hl, ih ds (by simpa using h)]; rfl
      · rw [if_neg hl]; rfl

theorem mapM_bad {β γ : Type} (f : β → Except PyErr γ) (e : PyErr) (l : List β)
    (hf : ∀ x ∈ l, (∃ y, f x = .ok y) ∨ f x = .error e) (x : β) (hx : x ∈ l) (hb : f x = .error e) :
    l.mapM f = .error e := by
  induction l with
  | nil => simp at hx
  | cons a t ih =>
    rw [List.mapM_cons]
    rcases hf a (by simp) with ⟨y, hy⟩ | hy
    · rcases List.mem_cons.1 hx with rfl | hx
      · rw [hy] at hb; exact absurd hb (by simp)
      · rw [hy, ih (fun x hx => hf x (by simp [hx])) hx]; rfl
    · rw [hy]; rfl

theorem toDigits_pos (k : Nat) : 0 < (Nat.toDigits 10 k).length := Nat.length_toDigits_pos

/-- the call fails with IndexError as soon as some line has more than ten levels -/
theorem density_wide (results dims : List Nat) (hp : ∀ x ∈ dims, 0 < x) (hw : ∃ x ∈ dims, 10 < x) (hr : results ≠ []) :
    densityFromCounts results dims = .error .indexError := by
  obtain ⟨x, hx, h10⟩ := hw
  have hne : dims ≠ [] := List.ne_nil_of_mem hx
  have hl : ¬ (results.length = 0 ∧ dims.prod ≠ 0) := by
    intro h; exact hr (List.length_eq_zero_iff.1 h.1)
  obtain ⟨pre, post, rfl⟩ := List.append_of_mem hx
  unfold densityFromCounts
  rw [if_neg hne, if_neg hl]
  have hitem : Levels (pre ++ x :: post) (List.replicate pre.length 0 ++ 10 :: List.replicate post.length 0) := by
    have hz : ∀ l : List Nat, (∀ y ∈ l, 0 < y) → Levels l (List.replicate l.length 0) := by
      intro l
      induction l with
      | nil => intro _; exact .nil
      | cons a t ih => intro h; exact .cons (h a (by simp)) (ih fun y hy => h y (by simp [hy]))
    exact (hz pre fun y hy => hp y (by simp [hy])).append (.cons h10 (hz post fun y hy => hp y (by simp [hy])))
  have hm := itProduct_mem.2 hitem
  have := mapM_bad (fun state : List Char => (do
      let k ← fromDiracToBasis (state.map digit) (pre ++ x :: post)
      pure (k, (state.map digit).length) : Except PyErr (List Int × Nat))) .indexError (stateLabels (pre ++ x :: post))
    (by
      intro s _
      rcases dirac_cases (s.map digit) (pre ++ x :: post) with ⟨v, h⟩ | h <;> simp only [h, bind, Except.bind]
      · exact Or.inl ⟨_, rfl⟩
      · exact Or.inr trivial) _ (List.mem_map.2 ⟨_, hm, rfl⟩)
    (by
      have hz : ∀ k : Nat, (List.replicate k 0).flatMap (Nat.toDigits 10) = List.replicate k '0' := by
        intro k
        induction k with
        | zero => rfl
        | succ k ih => rw [List.replicate_succ, List.flatMap_cons, ih, Nat.toDigits_zero]; rfl
      rw [label_fold, List.nil_append, List.flatMap_append, List.flatMap_cons, hz, hz]
      have h10' : Nat.toDigits 10 10 = ['1', '0'] := by decide
      rw [h10']
      simp only [fromDiracToBasis, bind, Except.bind]
      rw [basisVecs_long _ _ (by simp)])
  simp only [bind, Except.bind, pure, Except.pure] at this ⊢
  rw [this]

end Qudits.Visual
