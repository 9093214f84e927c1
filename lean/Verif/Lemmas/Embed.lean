import Verif.Lemmas.Radix
import Mathlib.Algebra.Ring.Defs

namespace Qudits
open Spec

variable {α : Type}

/-- levels on the given lines -/
def sub (lines x : List Nat) : List Nat := lines.map fun i => x.getD i 0

theorem mapM_ok {β γ : Type} (f : β → Except PyErr γ) (g : β → γ) (l : List β)
    (h : ∀ x ∈ l, f x = .ok (g x)) : l.mapM f = .ok (l.map g) := by
  induction l with
  | nil => rfl
  | cons a t ih =>
    rw [List.mapM_cons, h a (by simp), ih (fun x hx => h x (List.mem_cons_of_mem _ hx))]
    rfl

theorem itemgetter_ok (lines x : List Nat) (hne : lines ≠ []) (h : ∀ i ∈ lines, i < x.length) :
    itemgetter lines x = .ok (sub lines x) := by
  unfold itemgetter
  rw [if_neg hne]
  apply mapM_ok
  intro i hi
  have := h i hi
  rw [List.getElem?_eq_getElem this]
  simp [List.getD, List.getElem?_eq_getElem this]

theorem fill_ok [Zero α] (n : Nat) (f : Nat → Nat → Except PyErr α) (g : Nat → Nat → α)
    (h : ∀ r c, r < n → c < n → f r c = .ok (g r c)) :
    ∃ A, Arr2.fill n f = .ok A ∧ A.rows = n ∧ A.cols = n ∧
      ∀ r c, r < n → c < n → A.at' r c = g r c := by
  have h1 : ∀ r ∈ List.range n, ((List.range n).mapM fun c => f r c) =
      .ok ((List.range n).map fun c => g r c) := by
    intro r hr
    apply mapM_ok
    intro c hc
    exact h r c (List.mem_range.1 hr) (List.mem_range.1 hc)
  have h2 := mapM_ok _ (fun r => (List.range n).map fun c => g r c) (List.range n) h1
  refine ⟨Arr2.ofLists n n ((List.range n).map fun r => (List.range n).map fun c => g r c), ?_, rfl, rfl, ?_⟩
  · unfold Arr2.fill
    rw [h2]; rfl
  · intro r c hr hc
    simp only [Arr2.ofLists, List.getElem?_map, List.getElem?_range hr, Option.map_some,
      Option.getD_some, List.getElem?_range hc]

theorem levels_getD {dims x : List Nat} (h : Levels dims x) (i : Nat) (hi : i < dims.length) :
    x.getD i 0 < dims.getD i 0 := by
  have hx : i < x.length := by rw [h.length]; exact hi
  have := List.Forall₂.get h hx hi
  simpa [List.getD, List.getElem?_eq_getElem hx, List.getElem?_eq_getElem hi] using this

theorem levels_sub {dims x : List Nat} (h : Levels dims x) (lines : List Nat)
    (hl : ∀ i ∈ lines, i < dims.length) : Levels (sub lines dims) (sub lines x) := by
  induction lines with
  | nil => exact List.Forall₂.nil
  | cons a t ih =>
    exact List.Forall₂.cons (levels_getD h a (hl a (by simp)))
      (ih fun i hi => hl i (List.mem_cons_of_mem _ hi))

theorem sub_range (x : List Nat) : sub (List.range x.length) x = x := by
  apply List.ext_getElem
  · simp [sub]
  · intro i h1 h2
    simp [sub, List.getD, List.getElem?_eq_getElem h2]

theorem sub_eq_iff (lines x y : List Nat) :
    sub lines x = sub lines y ↔ ∀ i ∈ lines, x.getD i 0 = y.getD i 0 := by
  simp [sub, List.map_inj_left]

theorem restEqual_ok (rest x y : List Nat) (hx : ∀ i ∈ rest, i < x.length)
    (hy : ∀ i ∈ rest, i < y.length) :
    restEqual rest x y = .ok (decide (∀ i ∈ rest, x.getD i 0 = y.getD i 0)) := by
  unfold restEqual
  by_cases h : rest = []
  · subst h; simp
  · rw [if_neg h, itemgetter_ok rest x h hx, itemgetter_ok rest y h hy]
    simp only [bind, Except.bind, pure, Except.pure]
    congr 1
    rw [decide_eq_decide]
    exact sub_eq_iff rest x y

theorem ogValue_ok (m : Arr2 α) (tdims lines x y : List Nat) (hne : lines ≠ [])
    (hx : ∀ i ∈ lines, i < x.length) (hy : ∀ i ∈ lines, i < y.length)
    (lx : Levels tdims (sub lines x)) (ly : Levels tdims (sub lines y))
    (hr : index tdims (sub lines x) < m.rows) (hc : index tdims (sub lines y) < m.cols) :
    ogValue m (itProduct (siteLogics tdims)) lines x y =
      .ok (m.at' (index tdims (sub lines x)) (index tdims (sub lines y))) := by
  unfold ogValue
  rw [itemgetter_ok lines x hne hx, itemgetter_ok lines y hne hy]
  simp only [bind, Except.bind]
  rw [stateIndex_eq lx, stateIndex_eq ly]
  simp only [Arr2.get, hr, hc, and_self, if_true]

/-- sorted duplicate-free list with all elements in `[lo, lo+n)` and length `n` is the whole range -/
theorem sorted_full (ts : List Nat) (lo n : Nat) (hs : ts.Pairwise (· ≤ ·)) (hnd : ts.Nodup)
    (hb : ∀ t ∈ ts, lo ≤ t ∧ t < lo + n) (hl : ts.length = n) : ts = List.range' lo n := by
  have hsub : ts ⊆ List.range' lo n := by
    intro t ht
    rw [List.mem_range'_1]
    exact ⟨(hb t ht).1, (hb t ht).2⟩
  have hp : ts.Perm (List.range' lo n) := by
    refine (List.subperm_of_subset hnd hsub).perm_of_length_le ?_
    rw [List.length_range', hl]
  refine hp.eq_of_pairwise (le := (· ≤ ·)) ?_ hs ?_
  · intro a b _ _ h1 h2; exact Nat.le_antisymm h1 h2
  · exact (List.pairwise_lt_range' (s := lo) (n := n)).imp Nat.le_of_lt

/-- `apply_identities_and_controls` without controls, several targets. -/
theorem block_embed [Zero α] [One α] (m : Arr2 α) (targets dims : List Nat) (lo : Nat)
    (hn : dims.length ≠ 0) (hnd : targets.Nodup) (hne : targets ≠ [])
    (hb : ∀ t ∈ targets, lo ≤ t ∧ t < lo + dims.length)
    (hone : targets.length = 1 → dims.length = 1)
    (hr : m.rows = (sub ((targets.insertionSort (· ≤ ·)).map (· - lo)) dims).prod)
    (hc : m.cols = (sub ((targets.insertionSort (· ≤ ·)).map (· - lo)) dims).prod) :
    ∃ A, applyIdentitiesAndControls m targets dims lo dims.length none = .ok A ∧
      A.rows = dims.prod ∧ A.cols = dims.prod ∧
      ∀ x y, Levels dims x → Levels dims y →
        A.at' (index dims x) (index dims y) =
          let s := (targets.insertionSort (· ≤ ·)).map (· - lo)
          if ∀ i < dims.length, lo + i ∉ targets → x.getD i 0 = y.getD i 0 then
            m.at' (index (sub s dims) (sub s x)) (index (sub s dims) (sub s y))
          else 0 := by
  set ts := targets.insertionSort (· ≤ ·) with hts
  have hperm : ts.Perm targets := List.perm_insertionSort _ _
  have hsorted : ts.Pairwise (· ≤ ·) := List.pairwise_insertionSort _ _
  have hnd' : ts.Nodup := hperm.nodup_iff.2 hnd
  have hb' : ∀ t ∈ ts, lo ≤ t ∧ t < lo + dims.length := fun t ht => hb t (hperm.mem_iff.1 ht)
  have hlen : ts.length = targets.length := hperm.length_eq
  have hne' : ts ≠ [] := by
    intro h; apply hne
    rw [h] at hlen; exact List.length_eq_zero_iff.1 (by simpa using hlen.symm)
  unfold applyIdentitiesAndControls
  simp only [← hts]
  rw [if_neg hn]
  by_cases hfull : ts.length = dims.length
  · rw [if_pos ⟨hfull, trivial⟩]
    have hs := sorted_full ts lo dims.length hsorted hnd' hb' hfull
    have hs2 : ts.map (· - lo) = List.range dims.length := by
      rw [hs]
      apply List.ext_getElem
      · simp
      · intro i _ _; simp
    refine ⟨m, rfl, ?_, ?_, ?_⟩
    · rw [hr, hs2, sub_range]
    · rw [hc, hs2, sub_range]
    · intro x y hx hy
      simp only [hs2]
      rw [if_pos]
      · rw [sub_range]
        conv_rhs => rw [← hx.length, sub_range, hx.length, ← hy.length, sub_range]
      · intro i hi hni
        exfalso; apply hni
        rw [← hperm.mem_iff, hs, List.mem_range'_1]; omega
  · rw [if_neg (fun h => hfull h.1)]
    have h1 : ts.length ≠ 1 := by
      intro h; apply hfull
      rw [h, hone (by omega)]
    have hslt : ∀ i ∈ ts.map (· - lo), i < dims.length := by
      intro i hi
      obtain ⟨t, ht, rfl⟩ := List.mem_map.1 hi
      have := hb' t ht; omega
    have hsne : ts.map (· - lo) ≠ [] := by simpa using hne'
    rw [if_neg h1, itemgetter_ok _ dims hsne hslt]
    simp only [bind, Except.bind, Option.map_none]
    set s := ts.map (· - lo) with hsdef
    obtain ⟨A, hA, hAr, hAc, hAe⟩ := fill_ok dims.prod
      (embedEntry m (itProduct (siteLogics dims)) (itProduct (siteLogics (sub s dims))) s
        (((List.range' lo dims.length).filter fun q => decide (q ∉ ts) && decide (q ∉ ([] : List Nat))).map (· - lo)) none)
      (fun r c =>
        if ∀ i < dims.length, lo + i ∉ targets →
            ((itProduct (siteLogics dims)).getD r []).getD i 0 = ((itProduct (siteLogics dims)).getD c []).getD i 0
        then m.at' (index (sub s dims) (sub s ((itProduct (siteLogics dims)).getD r [])))
          (index (sub s dims) (sub s ((itProduct (siteLogics dims)).getD c []))) else 0) (by
      intro r c hr' hc'
      obtain ⟨x, hx, rfl⟩ := index_surj hr'
      obtain ⟨y, hy, rfl⟩ := index_surj hc'
      have gx : (itProduct (siteLogics dims)).getD (index dims x) [] = x := by
        simp [List.getD, itProduct_getElem? hx]
      have gy : (itProduct (siteLogics dims)).getD (index dims y) [] = y := by
        simp [List.getD, itProduct_getElem? hy]
      rw [gx, gy]
      unfold embedEntry
      rw [indexState_eq hx, indexState_eq hy]
      simp only [bind, Except.bind]
      rw [restEqual_ok]
      · simp only
        have hiff : (∀ i ∈ ((List.range' lo dims.length).filter fun q =>
            decide (q ∉ ts) && decide (q ∉ ([] : List Nat))).map (· - lo), x.getD i 0 = y.getD i 0) ↔
            ∀ i < dims.length, lo + i ∉ targets → x.getD i 0 = y.getD i 0 := by
          simp only [List.mem_map, List.mem_filter, List.mem_range'_1]
          constructor
          · intro h i hi hni
            refine h i ⟨lo + i, ⟨⟨by omega, by omega⟩, ?_⟩, by omega⟩
            simp [hperm.mem_iff, hni]
          · rintro h i ⟨q, ⟨⟨hq1, hq2⟩, hq3⟩, rfl⟩
            apply h (q - lo) (by omega)
            rw [show lo + (q - lo) = q by omega]
            simpa [hperm.mem_iff] using hq3
        by_cases hcond : ∀ i < dims.length, lo + i ∉ targets → x.getD i 0 = y.getD i 0
        · rw [if_pos hcond, if_pos (decide_eq_true (hiff.2 hcond))]
          have lx := levels_sub hx s hslt
          have ly := levels_sub hy s hslt
          apply ogValue_ok
          · exact hsne
          · rw [hx.length]; exact hslt
          · rw [hy.length]; exact hslt
          · exact lx
          · exact ly
          · rw [hr]; exact index_lt lx
          · rw [hc]; exact index_lt ly
        · rw [if_neg hcond, if_neg (by simpa using fun h => hcond (hiff.1 h))]
          rw [if_neg]
          · rfl
          · intro he
            apply hcond
            intro i _ _
            rw [index_inj hx hy he]
      · intro i hi
        simp only [List.mem_map, List.mem_filter, List.mem_range'_1] at hi
        obtain ⟨q, ⟨⟨_, _⟩, _⟩, rfl⟩ := hi
        rw [hx.length]; omega
      · intro i hi
        simp only [List.mem_map, List.mem_filter, List.mem_range'_1] at hi
        obtain ⟨q, ⟨⟨_, _⟩, _⟩, rfl⟩ := hi
        rw [hy.length]; omega)
    refine ⟨A, hA, hAr, hAc, ?_⟩
    intro x y hx hy
    rw [hAe _ _ (index_lt hx) (index_lt hy)]
    have gx : (itProduct (siteLogics dims)).getD (index dims x) [] = x := by
      simp [List.getD, itProduct_getElem? hx]
    have gy : (itProduct (siteLogics dims)).getD (index dims y) [] = y := by
      simp [List.getD, itProduct_getElem? hy]
    rw [gx, gy]

/-- `apply_identities_and_controls` with controls and one target. -/
theorem block_control [Zero α] [One α] (m : Arr2 α) (t : Nat) (cs : List Nat) (levels : List Int)
    (dims : List Nat) (lo d' : Nat)
    (hne : cs ≠ []) (hb : ∀ c ∈ cs, lo ≤ c ∧ c < lo + dims.length)
    (ht : lo ≤ t ∧ t < lo + dims.length)
    (hd' : dims[t]? = some d') (hle : dims.getD (t - lo) 0 ≤ d')
    (hr : m.rows = dims.getD (t - lo) 0) (hc : m.cols = dims.getD (t - lo) 0) :
    ∃ A, applyIdentitiesAndControls m [t] dims lo dims.length (some (cs, levels)) = .ok A ∧
      A.rows = dims.prod ∧ A.cols = dims.prod ∧
      ∀ x y, Levels dims x → Levels dims y →
        A.at' (index dims x) (index dims y) =
          if (cs.map fun c => ((x.getD (c - lo) 0 : Nat) : Int)) = levels ∧
            (∀ c ∈ cs, x.getD (c - lo) 0 = y.getD (c - lo) 0) ∧
            (∀ i < dims.length, lo + i ≠ t → lo + i ∉ cs → x.getD i 0 = y.getD i 0) then
            m.at' (x.getD (t - lo) 0) (y.getD (t - lo) 0)
          else if x = y then 1 else 0 := by
  have hn : dims.length ≠ 0 := by omega
  unfold applyIdentitiesAndControls
  simp only [List.insertionSort_cons, List.insertionSort_nil, List.orderedInsert, List.map_cons, List.map_nil]
  rw [if_neg hn, if_neg (by simp)]
  simp only [List.length_singleton, if_true, List.headD_cons, hd', bind, Except.bind, Option.map_some]
  have hcne : cs.map (· - lo) ≠ [] := by simpa using hne
  have hclt : ∀ i ∈ cs.map (· - lo), i < dims.length := by
    intro i hi
    obtain ⟨c, hc, rfl⟩ := List.mem_map.1 hi
    have := hb c hc; omega
  set rest := (((List.range' lo dims.length).filter fun q => decide (q ∉ [t]) && decide (q ∉ cs)).map (· - lo)) with hrest
  obtain ⟨A, hA, hAr, hAc, hAe⟩ := fill_ok dims.prod
      (embedEntry m (itProduct (siteLogics dims)) (itProduct (siteLogics [d'])) [t - lo] rest
        (some (cs.map (· - lo), levels)))
      (fun r c =>
        let x := (itProduct (siteLogics dims)).getD r []
        let y := (itProduct (siteLogics dims)).getD c []
        if (cs.map fun c => ((x.getD (c - lo) 0 : Nat) : Int)) = levels ∧
            (∀ c ∈ cs, x.getD (c - lo) 0 = y.getD (c - lo) 0) ∧
            (∀ i < dims.length, lo + i ≠ t → lo + i ∉ cs → x.getD i 0 = y.getD i 0) then
            m.at' (x.getD (t - lo) 0) (y.getD (t - lo) 0)
          else if x = y then 1 else 0) (by
      intro r c hr' hc'
      obtain ⟨x, hx, rfl⟩ := index_surj hr'
      obtain ⟨y, hy, rfl⟩ := index_surj hc'
      have gx : (itProduct (siteLogics dims)).getD (index dims x) [] = x := by
        simp [List.getD, itProduct_getElem? hx]
      have gy : (itProduct (siteLogics dims)).getD (index dims y) [] = y := by
        simp [List.getD, itProduct_getElem? hy]
      simp only [gx, gy]
      have hident : (if index dims x = index dims y then (1 : α) else 0) = if x = y then 1 else 0 := by
        by_cases h : x = y
        · subst h; simp
        · rw [if_neg h, if_neg (fun e => h (index_inj hx hy e))]
      unfold embedEntry
      rw [indexState_eq hx, indexState_eq hy]
      simp only [bind, Except.bind]
      rw [itemgetter_ok _ x hcne (by rw [hx.length]; exact hclt),
        itemgetter_ok _ y hcne (by rw [hy.length]; exact hclt)]
      simp only
      rw [restEqual_ok]
      rotate_left
      · intro i hi
        simp only [hrest, List.mem_map, List.mem_filter, List.mem_range'_1] at hi
        obtain ⟨q, ⟨⟨_, _⟩, _⟩, rfl⟩ := hi
        rw [hx.length]; omega
      · intro i hi
        simp only [hrest, List.mem_map, List.mem_filter, List.mem_range'_1] at hi
        obtain ⟨q, ⟨⟨_, _⟩, _⟩, rfl⟩ := hi
        rw [hy.length]; omega
      simp only
      have e1 : (sub (cs.map (· - lo)) x).map (fun (n : Nat) => (n : Int)) =
          cs.map fun c => ((x.getD (c - lo) 0 : Nat) : Int) := by
        simp [sub, List.map_map, Function.comp_def]
      have e2 : sub (cs.map (· - lo)) x = sub (cs.map (· - lo)) y ↔
          ∀ c ∈ cs, x.getD (c - lo) 0 = y.getD (c - lo) 0 := by
        rw [sub_eq_iff]; simp
      have hiff : (∀ i ∈ rest, x.getD i 0 = y.getD i 0) ↔
          (∀ i < dims.length, lo + i ≠ t → lo + i ∉ cs → x.getD i 0 = y.getD i 0) := by
        simp only [hrest, List.mem_map, List.mem_filter, List.mem_range'_1]
        constructor
        · intro h i hi hit hic
          refine h i ⟨lo + i, ⟨⟨by omega, by omega⟩, ?_⟩, by omega⟩
          simp [hit, hic]
        · rintro h i ⟨q, ⟨⟨hq1, hq2⟩, hq3⟩, rfl⟩
          simp only [List.mem_singleton, Bool.and_eq_true, decide_eq_true_eq] at hq3
          apply h (q - lo) (by omega)
          · rw [show lo + (q - lo) = q by omega]; exact hq3.1
          · rw [show lo + (q - lo) = q by omega]; exact hq3.2
      rw [e1]
      by_cases hc1 : (cs.map fun c => ((x.getD (c - lo) 0 : Nat) : Int)) = levels ∧
            (∀ c ∈ cs, x.getD (c - lo) 0 = y.getD (c - lo) 0)
      · rw [if_pos ⟨hc1.1, e2.2 hc1.2⟩]
        by_cases hc2 : ∀ i < dims.length, lo + i ≠ t → lo + i ∉ cs → x.getD i 0 = y.getD i 0
        · rw [if_pos (decide_eq_true (hiff.2 hc2)), if_pos ⟨hc1.1, hc1.2, hc2⟩]
          have htl : t - lo < dims.length := by omega
          have lx := levels_getD hx (t - lo) htl
          have ly := levels_getD hy (t - lo) htl
          rw [ogValue_ok m [d'] [t - lo] x y (by simp) (by simpa [hx.length] using htl)
            (by simpa [hy.length] using htl)
            (List.Forall₂.cons (lt_of_lt_of_le lx hle) List.Forall₂.nil)
            (List.Forall₂.cons (lt_of_lt_of_le ly hle) List.Forall₂.nil)
            (by rw [hr]; simpa [sub, index] using lx) (by rw [hc]; simpa [sub, index] using ly)]
          simp [sub, index]
        · rw [if_neg (fun h => hc2 (hiff.1 (of_decide_eq_true h)))]
          exact congrArg Except.ok (hident.trans (if_neg (fun h => hc2 h.2.2)).symm)
      · rw [if_neg (fun h => hc1 ⟨h.1, e2.1 h.2⟩)]
        exact congrArg Except.ok (hident.trans (if_neg (fun h => hc1 ⟨h.1, h.2.1⟩)).symm))
  refine ⟨A, hA, hAr, hAc, ?_⟩
  intro x y hx hy
  rw [hAe _ _ (index_lt hx) (index_lt hy)]
  have gx : (itProduct (siteLogics dims)).getD (index dims x) [] = x := by
    simp [List.getD, itProduct_getElem? hx]
  have gy : (itProduct (siteLogics dims)).getD (index dims y) [] = y := by
    simp [List.getD, itProduct_getElem? hy]
  simp only [gx, gy]

/-! ### wrap_in_identities -/

theorem foldl_range_succ {β : Type} (f : β → Nat → β) (b : β) (n : Nat) :
    (List.range (n + 1)).foldl f b = f ((List.range n).foldl f b) n := by
  rw [List.range_succ, List.foldl_append]; rfl

theorem take_succ_prod (l : List Nat) (i : Nat) (h : i < l.length) :
    (l.take (i + 1)).prod = (l.take i).prod * l.getD i 0 := by
  rw [List.take_add_one, List.getElem?_eq_getElem h]
  rw [List.prod_append]
  simp [List.getD, List.getElem?_eq_getElem h]

theorem wrap_phase1 [Semiring α] (m : Arr2 α) (lo hi d0 : Nat) (sizes : List Nat)
    (hd0 : sizes.head? = some d0) (_hlo : lo ≤ hi) : ∀ k, k < lo → k < sizes.length →
    ∃ R, (List.range (k + 1)).foldl (wrapStep m lo hi sizes) (Arr2.identity d0) = R ∧
      R.rows = (sizes.take (k + 1)).prod ∧ R.cols = (sizes.take (k + 1)).prod ∧
      ∀ r c, r < R.rows → c < R.cols → R.at' r c = if r = c then 1 else 0 := by
  intro k
  induction k with
  | zero =>
    intro h0 h1
    refine ⟨_, rfl, ?_⟩
    have : (List.range (0 + 1)).foldl (wrapStep m lo hi sizes) (Arr2.identity d0) = Arr2.identity d0 := by
      rw [foldl_range_succ]
      simp only [List.range_zero, List.foldl_nil, wrapStep]
      rw [if_neg (by omega), if_neg (by omega)]
    rw [this]
    cases sizes with
    | nil => simp at hd0
    | cons a t =>
      simp only [List.head?_cons, Option.some.injEq] at hd0
      subst hd0
      refine ⟨by simp [Arr2.identity], by simp [Arr2.identity], ?_⟩
      intro r c _ _; rfl
  | succ k ih =>
    intro h0 h1
    obtain ⟨R, hR, hr, hc, he⟩ := ih (by omega) (by omega)
    refine ⟨_, rfl, ?_⟩
    rw [foldl_range_succ, hR]
    have : wrapStep m lo hi sizes R (k + 1) = R.kron (Arr2.identity (sizes.getD (k + 1) 0)) := by
      simp only [wrapStep]
      rw [if_neg (by omega), if_pos (by omega)]
    rw [this]
    have hr2 := take_succ_prod sizes (k + 1) h1
    refine ⟨by simp [Arr2.kron, Arr2.identity, hr, hr2], by simp [Arr2.kron, Arr2.identity, hc, hr2], ?_⟩
    intro r c hr' hc'
    simp only [Arr2.kron, Arr2.identity] at hr' hc' ⊢
    have hpos : 0 < sizes.getD (k + 1) 0 := by
      rcases Nat.eq_zero_or_pos (sizes.getD (k + 1) 0) with h | h
      · rw [h] at hr'; simp at hr'
      · exact h
    have h1 : r / sizes.getD (k + 1) 0 < R.rows :=
      Nat.div_lt_of_lt_mul (by rw [Nat.mul_comm]; exact hr')
    have h2 : c / sizes.getD (k + 1) 0 < R.cols :=
      Nat.div_lt_of_lt_mul (by rw [Nat.mul_comm]; exact hc')
    rw [he _ _ h1 h2]
    by_cases hrc : r = c
    · subst hrc; simp
    · rw [if_neg hrc]
      by_cases hq : r / sizes.getD (k + 1) 0 = c / sizes.getD (k + 1) 0
      · have : r % sizes.getD (k + 1) 0 ≠ c % sizes.getD (k + 1) 0 := by
          intro hm
          apply hrc
          rw [← Nat.div_add_mod r (sizes.getD (k + 1) 0), ← Nat.div_add_mod c (sizes.getD (k + 1) 0), hq, hm]
        rw [if_neg this, mul_zero]
      · rw [if_neg hq, zero_mul]

/-- value of the loop right after the round that inserts the matrix -/
theorem wrap_phase2 [Semiring α] (m : Arr2 α) (lo hi d0 : Nat) (sizes : List Nat)
    (hd0 : sizes.head? = some d0) (hlo : lo ≤ hi) (hlt : lo < sizes.length) :
    ∃ R, (List.range (lo + 1)).foldl (wrapStep m lo hi sizes) (Arr2.identity d0) = R ∧
      R.rows = (sizes.take lo).prod * m.rows ∧ R.cols = (sizes.take lo).prod * m.cols ∧
      ∀ p r q c, p < (sizes.take lo).prod → q < (sizes.take lo).prod → r < m.rows → c < m.cols →
        R.at' (p * m.rows + r) (q * m.cols + c) = if p = q then m.at' r c else 0 := by
  refine ⟨_, rfl, ?_⟩
  rw [foldl_range_succ]
  cases lo with
  | zero =>
    simp only [wrapStep, if_true]
    refine ⟨by simp, by simp, ?_⟩
    intro p r q c hp hq _ _
    simp only [List.take_zero, List.prod_nil, Nat.lt_one_iff] at hp hq
    subst hp; subst hq; simp
  | succ k =>
    obtain ⟨R, hR, hr, hc, he⟩ := wrap_phase1 m (k + 1) hi d0 sizes hd0 hlo k (by omega) (by omega)
    rw [hR]
    have : wrapStep m (k + 1) hi sizes R (k + 1) = R.kron m := by
      simp [wrapStep]
    rw [this]
    refine ⟨by simp [Arr2.kron, hr], by simp [Arr2.kron, hc], ?_⟩
    intro p r q c hp hq hr' hc'
    simp only [Arr2.kron]
    rw [Nat.mul_comm p, Nat.mul_add_div (by omega), Nat.div_eq_of_lt hr', Nat.add_zero,
      Nat.mul_comm q, Nat.mul_add_div (by omega), Nat.div_eq_of_lt hc', Nat.add_zero,
      Nat.mul_add_mod, Nat.mod_eq_of_lt hr', Nat.mul_add_mod, Nat.mod_eq_of_lt hc']
    rw [he _ _ (by omega) (by omega)]
    by_cases h : p = q
    · subst h; simp
    · simp [h]

theorem wrap_phase3 [Semiring α] (m : Arr2 α) (lo hi d0 : Nat) (sizes : List Nat) (_hlo : lo ≤ hi) :
    ∀ k, lo + k ≤ hi →
    (List.range (lo + k + 1)).foldl (wrapStep m lo hi sizes) (Arr2.identity d0) =
      (List.range (lo + 1)).foldl (wrapStep m lo hi sizes) (Arr2.identity d0) := by
  intro k
  induction k with
  | zero => intro _; rfl
  | succ k ih =>
    intro h
    rw [foldl_range_succ, show lo + (k + 1) = lo + k + 1 by omega, ih (by omega)]
    generalize (List.range (lo + 1)).foldl (wrapStep m lo hi sizes) (Arr2.identity d0) = R
    simp only [wrapStep]
    rw [if_neg (by omega), if_neg (by omega)]

theorem wrap_phase4 [Semiring α] (m : Arr2 α) (lo hi d0 : Nat) (sizes : List Nat)
    (hd0 : sizes.head? = some d0) (hlo : lo ≤ hi) : ∀ k, hi + 1 + k ≤ sizes.length →
    ∃ R, (List.range (hi + 1 + k)).foldl (wrapStep m lo hi sizes) (Arr2.identity d0) = R ∧
      R.rows = (sizes.take lo).prod * m.rows * ((sizes.drop (hi + 1)).take k).prod ∧
      R.cols = (sizes.take lo).prod * m.cols * ((sizes.drop (hi + 1)).take k).prod ∧
      ∀ p r s q c u, p < (sizes.take lo).prod → q < (sizes.take lo).prod → r < m.rows → c < m.cols →
        s < ((sizes.drop (hi + 1)).take k).prod → u < ((sizes.drop (hi + 1)).take k).prod →
        R.at' ((p * m.rows + r) * ((sizes.drop (hi + 1)).take k).prod + s)
          ((q * m.cols + c) * ((sizes.drop (hi + 1)).take k).prod + u) =
          if p = q ∧ s = u then m.at' r c else 0 := by
  intro k
  induction k with
  | zero =>
    intro h
    obtain ⟨R, hR, hr, hc, he⟩ := wrap_phase2 m lo hi d0 sizes hd0 hlo (by omega)
    refine ⟨R, ?_, by simp [hr], by simp [hc], ?_⟩
    · rw [← hR]
      have := wrap_phase3 m lo hi d0 sizes hlo (hi - lo) (by omega)
      rw [show lo + (hi - lo) + 1 = hi + 1 + 0 by omega] at this
      exact this
    · intro p r s q c u hp hq hr' hc' hs hu
      simp only [List.take_zero, List.prod_nil, Nat.lt_one_iff] at hs hu
      subst hs; subst hu
      simpa using he p r q c hp hq hr' hc'
  | succ k ih =>
    intro h
    obtain ⟨R, hR, hr, hc, he⟩ := ih (by omega)
    refine ⟨_, rfl, ?_⟩
    rw [show hi + 1 + (k + 1) = hi + 1 + k + 1 by omega, foldl_range_succ, hR]
    set e := sizes.getD (hi + 1 + k) 0 with hedef
    have hstep : wrapStep m lo hi sizes R (hi + 1 + k) = R.kron (Arr2.identity e) := by
      simp only [wrapStep]
      rw [if_neg (by omega), if_pos (by omega)]
    have hprod : ((sizes.drop (hi + 1)).take (k + 1)).prod = ((sizes.drop (hi + 1)).take k).prod * e := by
      rw [take_succ_prod _ _ (by rw [List.length_drop]; omega)]
      simp [hedef, List.getD, List.getElem?_drop]
    rw [hstep, hprod]
    set P := ((sizes.drop (hi + 1)).take k).prod with hP
    refine ⟨by simp only [Arr2.kron, Arr2.identity, hr]; ring, by simp only [Arr2.kron, Arr2.identity, hc]; ring, ?_⟩
    intro p r s q c u hp hq hr' hc' hs hu
    have hepos : 0 < e := by
      rcases Nat.eq_zero_or_pos e with h | h
      · rw [h] at hs; simp at hs
      · exact h
    have hs1 : s / e < P := Nat.div_lt_of_lt_mul (by rw [Nat.mul_comm]; exact hs)
    have hu1 : u / e < P := Nat.div_lt_of_lt_mul (by rw [Nat.mul_comm]; exact hu)
    have e1 : (p * m.rows + r) * (P * e) + s = e * ((p * m.rows + r) * P) + s := by ring
    have e2 : (q * m.cols + c) * (P * e) + u = e * ((q * m.cols + c) * P) + u := by ring
    simp only [Arr2.kron, Arr2.identity, e1, e2]
    rw [Nat.mul_add_div hepos, Nat.mul_add_div hepos, Nat.mul_add_mod, Nat.mul_add_mod,
      he p r (s / e) q c (u / e) hp hq hr' hc' hs1 hu1]
    by_cases hpq : p = q ∧ s = u
    · obtain ⟨rfl, rfl⟩ := hpq; simp
    · rw [if_neg hpq]
      by_cases h1 : p = q ∧ s / e = u / e
      · rw [if_pos h1, if_neg, mul_zero]
        intro hm
        apply hpq
        refine ⟨h1.1, ?_⟩
        rw [← Nat.div_add_mod s e, ← Nat.div_add_mod u e, h1.2, hm]
      · rw [if_neg h1, zero_mul]

/-- `wrap_in_identities`: the matrix acts on the block between the lowest and highest line, identity
elsewhere. -/
theorem wrap_embed [Semiring α] (m : Arr2 α) (indices : List Nat) (pre blk post : List Nat)
    (hblk : blk ≠ [])
    (hmin : (indices.insertionSort (· ≤ ·)).head? = some pre.length)
    (hmax : (indices.insertionSort (· ≤ ·)).getLast? = some (pre.length + blk.length - 1))
    (hall : ∀ i ∈ indices, i < (pre ++ blk ++ post).length)
    (hr : m.rows = blk.prod) (hc : m.cols = blk.prod) :
    ∃ A, wrapInIdentities m indices (pre ++ blk ++ post) = .ok A ∧
      A.rows = (pre ++ blk ++ post).prod ∧ A.cols = (pre ++ blk ++ post).prod ∧
      ∀ x1 x2 x3 y1 y2 y3, Levels pre x1 → Levels blk x2 → Levels post x3 →
        Levels pre y1 → Levels blk y2 → Levels post y3 →
        A.at' (index (pre ++ blk ++ post) (x1 ++ x2 ++ x3)) (index (pre ++ blk ++ post) (y1 ++ y2 ++ y3)) =
          if x1 = y1 ∧ x3 = y3 then m.at' (index blk x2) (index blk y2) else 0 := by
  have hbl : blk.length ≠ 0 := fun h => hblk (List.length_eq_zero_iff.1 h)
  set sizes := pre ++ blk ++ post with hsz
  have hszl : sizes.length = pre.length + blk.length + post.length := by simp [hsz]; omega
  obtain ⟨d0, hd0⟩ : ∃ d0, sizes.head? = some d0 := by
    cases h : sizes with
    | nil => rw [h] at hszl; simp at hszl; omega
    | cons a t => exact ⟨a, rfl⟩
  unfold wrapInIdentities
  have hnot : ¬ ((indices.insertionSort (· ≤ ·)).any fun i => decide (sizes.length ≤ i)) = true := by
    rw [List.any_eq_true]
    rintro ⟨i, hi, hi2⟩
    have := hall i ((List.perm_insertionSort _ _).mem_iff.1 hi)
    have := of_decide_eq_true hi2
    omega
  rw [if_neg hnot, hmin, hmax, hd0]
  simp only
  obtain ⟨R, hR, hRr, hRc, hRe⟩ := wrap_phase4 m pre.length (pre.length + blk.length - 1) d0 sizes hd0
    (by omega) post.length (by omega)
  have htake : sizes.take pre.length = pre := by
    rw [hsz, List.append_assoc, List.take_left]
  have hdrop : (sizes.drop (pre.length + blk.length - 1 + 1)).take post.length = post := by
    rw [show pre.length + blk.length - 1 + 1 = (pre ++ blk).length by rw [List.length_append]; omega, hsz,
      List.drop_left, List.take_length]
  rw [htake, hdrop] at hRr hRc hRe
  refine ⟨R, ?_, ?_, ?_, ?_⟩
  · rw [← hR, hszl]
    rw [show pre.length + blk.length - 1 + 1 + post.length = pre.length + blk.length + post.length by omega]
  · rw [hRr, hr, hsz, List.prod_append, List.prod_append]
  · rw [hRc, hc, hsz, List.prod_append, List.prod_append]
  · intro x1 x2 x3 y1 y2 y3 hx1 hx2 hx3 hy1 hy2 hy3
    have ex : index sizes (x1 ++ x2 ++ x3) = (index pre x1 * m.rows + index blk x2) * post.prod + index post x3 := by
      rw [hsz, index_append (by simp [hx1.length, hx2.length]), index_append hx1.length, hr]
    have ey : index sizes (y1 ++ y2 ++ y3) = (index pre y1 * m.cols + index blk y2) * post.prod + index post y3 := by
      rw [hsz, index_append (by simp [hy1.length, hy2.length]), index_append hy1.length, hc]
    rw [ex, ey, hRe _ _ _ _ _ _ (index_lt hx1) (index_lt hy1) (by rw [hr]; exact index_lt hx2)
      (by rw [hc]; exact index_lt hy2) (index_lt hx3) (index_lt hy3)]
    by_cases h : x1 = y1 ∧ x3 = y3
    · rw [if_pos h, if_pos ⟨by rw [h.1], by rw [h.2]⟩]
    · rw [if_neg h, if_neg]
      rintro ⟨h1, h3⟩
      exact h ⟨index_inj hx1 hy1 h1, index_inj hx3 hy3 h3⟩

end Qudits
