import Verif.Lemmas.Embed

namespace Qudits
open Spec

variable {α : Type}

theorem sub_drop_take (dims s : List Nat) (lo hi : Nat) (h : ∀ t ∈ s, lo ≤ t ∧ t ≤ hi) :
    sub (s.map (· - lo)) ((dims.take (hi + 1)).drop lo) = sub s dims := by
  simp only [sub, List.map_map]
  apply List.map_congr_left
  intro t ht
  have := h t ht
  simp only [Function.comp, List.getD, List.getElem?_drop]
  rw [show lo + (t - lo) = t by omega, List.getElem?_take_of_lt (by omega)]

/-- lowest and highest element of a sorted list -/
theorem sorted_bounds (s : List Nat) (hs : s.Pairwise (· ≤ ·)) (hne : s ≠ []) :
    s.head? = some (s.headD 0) ∧ s.getLast? = some (s.getLastD 0) ∧
    (∀ t ∈ s, s.headD 0 ≤ t ∧ t ≤ s.getLastD 0) ∧ s.headD 0 ∈ s ∧ s.getLastD 0 ∈ s := by
  cases s with
  | nil => exact absurd rfl hne
  | cons a t =>
    have hlast : (a :: t).getLastD 0 = (a :: t).getLast hne := by
      rw [List.getLastD_eq_getLast?, List.getLast?_eq_some_getLast hne]; rfl
    refine ⟨rfl, ?_, ?_, by simp, ?_⟩
    · rw [hlast]; exact List.getLast?_eq_some_getLast hne
    · intro x hx
      refine ⟨?_, ?_⟩
      · rcases List.mem_cons.1 hx with rfl | hx
        · exact le_refl _
        · exact (List.pairwise_cons.1 hs).1 x hx
      · rw [hlast]
        obtain ⟨i, hi, rfl⟩ := List.mem_iff_getElem.1 hx
        rw [List.getLast_eq_getElem]
        rcases Nat.lt_or_ge i ((a :: t).length - 1) with h | h
        · exact List.pairwise_iff_getElem.1 hs i _ hi (by omega) h
        · have : i = (a :: t).length - 1 := by omega
          subst this; exact le_refl _
    · rw [hlast]; exact List.getLast_mem hne

theorem split3 {pre blk post x : List Nat} (h : Levels (pre ++ blk ++ post) x) :
    ∃ x1 x2 x3, x = x1 ++ x2 ++ x3 ∧ Levels pre x1 ∧ Levels blk x2 ∧ Levels post x3 := by
  obtain ⟨x12, x3, rfl, h12, h3⟩ := Levels.split h
  obtain ⟨x1, x2, rfl, h1, h2⟩ := Levels.split h12
  exact ⟨x1, x2, x3, rfl, h1, h2, h3⟩

theorem getD_append3 (x1 x2 x3 : List Nat) (i : Nat) :
    (x1 ++ x2 ++ x3).getD i 0 = if i < x1.length then x1.getD i 0
      else if i < x1.length + x2.length then x2.getD (i - x1.length) 0
      else x3.getD (i - (x1.length + x2.length)) 0 := by
  simp only [List.getD]
  by_cases h1 : i < x1.length
  · rw [if_pos h1, List.getElem?_append_left (by rw [List.length_append]; omega),
      List.getElem?_append_left h1]
  · rw [if_neg h1]
    by_cases h2 : i < x1.length + x2.length
    · rw [if_pos h2, List.getElem?_append_left (by rw [List.length_append]; omega),
        List.getElem?_append_right (by omega)]
    · rw [if_neg h2, List.getElem?_append_right (by rw [List.length_append]; omega), List.length_append]

theorem list_eq_iff_getD {x y : List Nat} (h : x.length = y.length) :
    x = y ↔ ∀ i < x.length, x.getD i 0 = y.getD i 0 := by
  constructor
  · rintro rfl _ _; rfl
  · intro hi
    apply List.ext_getElem h
    intro i h1 h2
    have := hi i h1
    simpa [List.getD, List.getElem?_eq_getElem h1, List.getElem?_eq_getElem h2] using this

/-- the three parts of a dimension list cut at the lowest and highest line -/
theorem dims_cut (dims : List Nat) (lo hi : Nat) (hlo : lo ≤ hi) (hhi : hi < dims.length) :
    dims = dims.take lo ++ (dims.take (hi + 1)).drop lo ++ dims.drop (hi + 1) ∧
    (dims.take lo).length = lo ∧ ((dims.take (hi + 1)).drop lo).length = hi + 1 - lo := by
  refine ⟨?_, by simp; omega, by simp; omega⟩
  conv_lhs => rw [← List.take_append_drop (hi + 1) dims]
  congr 1
  conv_lhs => rw [← List.take_append_drop lo (dims.take (hi + 1))]
  rw [List.take_take, Nat.min_eq_left (by omega)]

/-- `to_matrix(identities=1)` of an uncontrolled gate. -/
theorem toMatrix_one [Semiring α] [Star α] (g : Gate) (arr : Arr2 α) (T : List Nat)
    (hT : g.target.lines = T.map Int.ofNat) (hctl : g.controls = none)
    (hnd : T.Nodup) (hne : T ≠ []) (hlt : ∀ t ∈ T, t < g.dims.length)
    (hr : arr.rows = (sub (T.insertionSort (· ≤ ·)) g.dims).prod)
    (hc : arr.cols = (sub (T.insertionSort (· ≤ ·)) g.dims).prod) :
    let s := T.insertionSort (· ≤ ·)
    let lo := s.headD 0
    let hi := s.getLastD 0
    let blk := (g.dims.take (hi + 1)).drop lo
    let m := if g.dagger then arr.conjT else arr
    ∃ A, g.toMatrix arr 1 = .ok A ∧
      applyIdentitiesAndControls m T blk lo (hi + 1 - lo) none = .ok A ∧
      A.rows = blk.prod ∧ A.cols = blk.prod ∧
      ∀ x y, Levels blk x → Levels blk y → A.at' (index blk x) (index blk y) =
        if ∀ i < blk.length, lo + i ∉ T → x.getD i 0 = y.getD i 0 then
          m.at' (index (sub s g.dims) (sub (s.map (· - lo)) x)) (index (sub s g.dims) (sub (s.map (· - lo)) y))
        else 0 := by
  intro s lo hi blk m
  have hperm : s.Perm T := List.perm_insertionSort _ _
  have hsorted : s.Pairwise (· ≤ ·) := List.pairwise_insertionSort _ _
  have hsne : s ≠ [] := by
    intro h; apply hne
    have := hperm.length_eq
    rw [h] at this; exact List.length_eq_zero_iff.1 (by simpa using this.symm)
  obtain ⟨hhead, hlast, hbnd, hmemlo, hmemhi⟩ := sorted_bounds s hsorted hsne
  have hlohi : lo ≤ hi := (hbnd lo hmemlo).2
  have hhi : hi < g.dims.length := hlt hi (hperm.mem_iff.1 hmemhi)
  obtain ⟨hcut, hprelen, hblklen⟩ := dims_cut g.dims lo hi hlohi hhi
  have hsubeq : sub (s.map (· - lo)) blk = sub s g.dims := sub_drop_take g.dims s lo hi hbnd
  have hb : ∀ t ∈ T, lo ≤ t ∧ t < lo + blk.length := by
    intro t ht
    have := hbnd t (hperm.mem_iff.2 ht)
    change lo ≤ t ∧ t ≤ hi at this
    have : blk.length = hi + 1 - lo := hblklen
    omega
  have hmr : m.rows = (sub s g.dims).prod := by
    by_cases hd : g.dagger
    · simp [m, hd, Arr2.conjT, hc, s]
    · simp [m, hd, hr, s]
  have hmc : m.cols = (sub s g.dims).prod := by
    by_cases hd : g.dagger
    · simp [m, hd, Arr2.conjT, hr, s]
    · simp [m, hd, hc, s]
  have hbl : blk.length = hi + 1 - lo := hblklen
  obtain ⟨A, hA, hAr, hAc, hAe⟩ := block_embed m T blk lo (by omega) hnd hne hb (by
    intro h1
    have hl : s.length = 1 := by rw [hperm.length_eq, h1]
    obtain ⟨a, ha⟩ := List.length_eq_one_iff.1 hl
    have h1 : lo = a := by simp [lo, ha]
    have h2 : hi = a := by simp [hi, ha]
    omega) (by rw [hmr]; exact congrArg _ hsubeq.symm) (by rw [hmc]; exact congrArg _ hsubeq.symm)
  refine ⟨A, ?_, ?_, hAr, hAc, ?_⟩
  · unfold Gate.toMatrix Gate.referenceLines
    have hcl : g.controlLines = [] := by simp [Gate.controlLines, hctl]
    have hlen : ¬ (g.controlLines ++ g.target.lines).length = 0 := by
      rw [hcl, hT]; simpa using hne
    have htn : (g.controlLines ++ g.target.lines).map Int.toNat = T := by
      rw [hcl, hT, List.nil_append, List.map_map]
      exact (List.map_congr_left (fun a _ => rfl)).trans (List.map_id _)
    have htn2 : g.target.lines.map Int.toNat = T := by
      rw [hcl] at htn; simpa using htn
    simp only [if_neg hlen, bind, Except.bind, htn, htn2, hctl]
    rw [if_pos (by omega)]
    rw [hbl] at hA
    rw [show applyIdentitiesAndControls (if g.dagger = true then arr.conjT else arr) T
        (List.drop ((List.insertionSort (fun x1 x2 => x1 ≤ x2) T).headD 0)
          (List.take ((List.insertionSort (fun x1 x2 => x1 ≤ x2) T).getLastD 0 + 1) g.dims))
        ((List.insertionSort (fun x1 x2 => x1 ≤ x2) T).headD 0)
        ((List.insertionSort (fun x1 x2 => x1 ≤ x2) T).getLastD 0 + 1 -
          (List.insertionSort (fun x1 x2 => x1 ≤ x2) T).headD 0) none = .ok A from hA]
    rfl
  · rw [hbl] at hA; exact hA
  · intro x y hx hy
    rw [hAe x y hx hy]
    simp only
    rw [hsubeq]

/-- `to_matrix(identities=2)` of an uncontrolled gate. -/
theorem toMatrix_two [Semiring α] [Star α] (g : Gate) (arr : Arr2 α) (T : List Nat)
    (hT : g.target.lines = T.map Int.ofNat) (hctl : g.controls = none)
    (hnd : T.Nodup) (hne : T ≠ []) (hlt : ∀ t ∈ T, t < g.dims.length)
    (hr : arr.rows = (sub (T.insertionSort (· ≤ ·)) g.dims).prod)
    (hc : arr.cols = (sub (T.insertionSort (· ≤ ·)) g.dims).prod) :
    ∃ A, g.toMatrix arr 2 = .ok A ∧ A.rows = g.dims.prod ∧ A.cols = g.dims.prod ∧
      ∀ x y, Levels g.dims x → Levels g.dims y → A.at' (index g.dims x) (index g.dims y) =
        let s := T.insertionSort (· ≤ ·)
        if ∀ i < g.dims.length, i ∉ T → x.getD i 0 = y.getD i 0 then
          (if g.dagger then arr.conjT else arr).at' (index (sub s g.dims) (sub s x)) (index (sub s g.dims) (sub s y))
        else 0 := by
  obtain ⟨A, _, hA, hAr, hAc, hAe⟩ := toMatrix_one g arr T hT hctl hnd hne hlt hr hc
  set s := T.insertionSort (· ≤ ·) with hsdef
  set lo := s.headD 0 with hlodef
  set hi := s.getLastD 0 with hhidef
  set blk := (g.dims.take (hi + 1)).drop lo with hblkdef
  set m := if g.dagger then arr.conjT else arr with hmdef
  have hperm : s.Perm T := List.perm_insertionSort _ _
  have hsorted : s.Pairwise (· ≤ ·) := List.pairwise_insertionSort _ _
  have hsne : s ≠ [] := by
    intro h; apply hne
    have := hperm.length_eq
    rw [h] at this; exact List.length_eq_zero_iff.1 (by simpa using this.symm)
  obtain ⟨hhead, hlast, hbnd, hmemlo, hmemhi⟩ := sorted_bounds s hsorted hsne
  have hlohi : lo ≤ hi := (hbnd lo hmemlo).2
  have hhi : hi < g.dims.length := hlt hi (hperm.mem_iff.1 hmemhi)
  obtain ⟨hcut, hprelen, hblklen⟩ := dims_cut g.dims lo hi hlohi hhi
  rw [← hblkdef] at hcut hblklen
  obtain ⟨B, hB, hBr, hBc, hBe⟩ := wrap_embed A T (g.dims.take lo) blk (g.dims.drop (hi + 1))
    (by intro h; rw [h] at hblklen; simp at hblklen; omega)
    (by rw [← hsdef, hprelen]; exact hhead)
    (by rw [← hsdef, hprelen, hblklen, show lo + (hi + 1 - lo) - 1 = hi by omega]; exact hlast)
    (by rw [← hcut]; exact hlt) hAr hAc
  rw [← hcut] at hB hBr hBc hBe
  refine ⟨B, ?_, hBr, hBc, ?_⟩
  · unfold Gate.toMatrix Gate.referenceLines
    have hcl : g.controlLines = [] := by simp [Gate.controlLines, hctl]
    have hlen : ¬ (g.controlLines ++ g.target.lines).length = 0 := by
      rw [hcl, hT]; simpa using hne
    have htn : (g.controlLines ++ g.target.lines).map Int.toNat = T := by
      rw [hcl, hT, List.nil_append, List.map_map]
      exact (List.map_congr_left (fun a _ => rfl)).trans (List.map_id _)
    have htn2 : g.target.lines.map Int.toNat = T := by
      rw [hcl] at htn; simpa using htn
    simp only [if_neg hlen, bind, Except.bind, htn, htn2, hctl]
    rw [if_pos (by omega)]
    rw [show applyIdentitiesAndControls (if g.dagger = true then arr.conjT else arr) T
        (List.drop ((List.insertionSort (fun x1 x2 => x1 ≤ x2) T).headD 0)
          (List.take ((List.insertionSort (fun x1 x2 => x1 ≤ x2) T).getLastD 0 + 1) g.dims))
        ((List.insertionSort (fun x1 x2 => x1 ≤ x2) T).headD 0)
        ((List.insertionSort (fun x1 x2 => x1 ≤ x2) T).getLastD 0 + 1 -
          (List.insertionSort (fun x1 x2 => x1 ≤ x2) T).headD 0) none = .ok A from hA]
    exact hB
  · intro x y hx hy
    have hx' := hx
    have hy' := hy
    rw [hcut] at hx' hy'
    obtain ⟨x1, x2, x3, rfl, hx1, hx2, hx3⟩ := split3 hx'
    obtain ⟨y1, y2, y3, rfl, hy1, hy2, hy3⟩ := split3 hy'
    rw [hBe x1 x2 x3 y1 y2 y3 hx1 hx2 hx3 hy1 hy2 hy3, hAe x2 y2 hx2 hy2]
    have lx1 : x1.length = lo := by rw [hx1.length, hprelen]
    have ly1 : y1.length = lo := by rw [hy1.length, hprelen]
    have lx2 : x2.length = hi + 1 - lo := by rw [hx2.length, hblklen]
    have ly2 : y2.length = hi + 1 - lo := by rw [hy2.length, hblklen]
    have lx3 : x3.length = g.dims.length - (hi + 1) := by rw [hx3.length, List.length_drop]
    have ly3 : y3.length = g.dims.length - (hi + 1) := by rw [hy3.length, List.length_drop]
    have hsx : sub (s.map (· - lo)) x2 = sub s (x1 ++ x2 ++ x3) := by
      simp only [sub, List.map_map]
      apply List.map_congr_left
      intro t ht
      have := hbnd t ht
      simp only [Function.comp]
      rw [getD_append3, if_neg (by omega), if_pos (by omega), lx1]
    have hsy : sub (s.map (· - lo)) y2 = sub s (y1 ++ y2 ++ y3) := by
      simp only [sub, List.map_map]
      apply List.map_congr_left
      intro t ht
      have := hbnd t ht
      simp only [Function.comp]
      rw [getD_append3, if_neg (by omega), if_pos (by omega), ly1]
    have hTb : ∀ t ∈ T, lo ≤ t ∧ t ≤ hi := fun t ht => hbnd t (hperm.mem_iff.2 ht)
    have hiff : ((x1 = y1 ∧ x3 = y3) ∧ ∀ i < blk.length, lo + i ∉ T → x2.getD i 0 = y2.getD i 0) ↔
        ∀ i < g.dims.length, i ∉ T → (x1 ++ x2 ++ x3).getD i 0 = (y1 ++ y2 ++ y3).getD i 0 := by
      constructor
      · rintro ⟨⟨rfl, rfl⟩, h⟩ i hi' hit
        rw [getD_append3, getD_append3, lx1, lx2, ly2]
        by_cases h1 : i < lo
        · simp [h1]
        · rw [if_neg h1, if_neg h1]
          by_cases h2 : i < lo + (hi + 1 - lo)
          · rw [if_pos h2, if_pos h2]
            apply h (i - lo) (by omega)
            rwa [show lo + (i - lo) = i by omega]
          · rw [if_neg h2, if_neg h2]
      · intro h
        refine ⟨⟨?_, ?_⟩, ?_⟩
        · rw [list_eq_iff_getD (by omega)]
          intro i hi'
          have := h i (by omega) (fun hc => by have := hTb i hc; omega)
          rw [getD_append3, getD_append3, if_pos hi', if_pos (by omega)] at this
          exact this
        · rw [list_eq_iff_getD (by omega)]
          intro i hi'
          have := h (hi + 1 + i) (by omega) (fun hc => by have := hTb _ hc; omega)
          rw [getD_append3, getD_append3, if_neg (by omega), if_neg (by omega), if_neg (by omega), if_neg (by omega)] at this
          rw [show hi + 1 + i - (x1.length + x2.length) = i by omega,
            show hi + 1 + i - (y1.length + y2.length) = i by omega] at this
          exact this
        · intro i hi' hit
          have := h (lo + i) (by omega) hit
          rw [getD_append3, getD_append3, if_neg (by omega), if_pos (by omega), if_neg (by omega), if_pos (by omega)] at this
          rw [show lo + i - x1.length = i by omega, show lo + i - y1.length = i by omega] at this
          exact this
    simp only [hsx, hsy]
    by_cases hall : ∀ i < g.dims.length, i ∉ T → (x1 ++ x2 ++ x3).getD i 0 = (y1 ++ y2 ++ y3).getD i 0
    · rw [if_pos hall, if_pos (hiff.2 hall).1, if_pos (hiff.2 hall).2]
    · rw [if_neg hall]
      by_cases h1 : x1 = y1 ∧ x3 = y3
      · rw [if_pos h1, if_neg (fun h2 => hall (hiff.1 ⟨h1, h2⟩))]
      · rw [if_neg h1]


/-! ### controlled gates -/

/-- lines of a controlled gate as natural numbers -/
theorem ctrl_lines (g : Gate) (t : Nat) (cs : List Nat) (levels : List Int)
    (ht : g.target = .one (Int.ofNat t)) (hctl : g.controls = some ⟨cs.map Int.ofNat, levels⟩) :
    g.referenceLines = .ok ((cs ++ [t]).map Int.ofNat) ∧
    ((cs ++ [t]).map Int.ofNat).map Int.toNat = cs ++ [t] ∧ g.target.lines.map Int.toNat = [t] ∧
    (cs.map Int.ofNat).map Int.toNat = cs := by
  have hid : ∀ l : List Nat, (l.map Int.ofNat).map Int.toNat = l := by
    intro l
    rw [List.map_map]
    exact (List.map_congr_left (fun a _ => rfl)).trans (List.map_id _)
  refine ⟨?_, hid _, ?_, hid _⟩
  · unfold Gate.referenceLines
    have : g.controlLines ++ g.target.lines = (cs ++ [t]).map Int.ofNat := by
      simp [Gate.controlLines, hctl, ht, Target.lines]
    simp [this]
  · simp [ht, Target.lines]

/-- With controls and a target line further from the lowest line than the block reaches,
`to_matrix` raises IndexError. -/
theorem toMatrix_ctrl_error [Semiring α] [Star α] (g : Gate) (arr : Arr2 α) (t : Nat) (cs : List Nat)
    (levels : List Int) (ids : Nat)
    (ht : g.target = .one (Int.ofNat t)) (hctl : g.controls = some ⟨cs.map Int.ofNat, levels⟩)
    (hlt : ∀ c ∈ cs ++ [t], c < g.dims.length)
    (hbad : ((cs ++ [t]).insertionSort (· ≤ ·)).getLastD 0 < t + ((cs ++ [t]).insertionSort (· ≤ ·)).headD 0) :
    g.toMatrix arr ids = .error .indexError := by
  obtain ⟨h1, h2, h3, h4⟩ := ctrl_lines g t cs levels ht hctl
  set s := (cs ++ [t]).insertionSort (· ≤ ·) with hsdef
  have hperm : s.Perm (cs ++ [t]) := List.perm_insertionSort _ _
  have hsne : s ≠ [] := by
    intro h
    have := hperm.length_eq
    rw [h] at this; simp at this
  obtain ⟨_, _, hbnd, hmemlo, hmemhi⟩ := sorted_bounds s (List.pairwise_insertionSort _ _) hsne
  have hhi : s.getLastD 0 < g.dims.length := hlt _ (hperm.mem_iff.1 hmemhi)
  have hlohi := (hbnd _ hmemlo).2
  obtain ⟨_, _, hblklen⟩ := dims_cut g.dims (s.headD 0) (s.getLastD 0) hlohi hhi
  unfold Gate.toMatrix
  simp only [h1, bind, Except.bind, h2, h3, hctl, h4, ← hsdef]
  have : applyIdentitiesAndControls (if g.dagger = true then arr.conjT else arr) [t]
      (List.drop (s.headD 0) (List.take (s.getLastD 0 + 1) g.dims)) (s.headD 0)
      (s.getLastD 0 + 1 - s.headD 0) (some (cs, levels)) = .error .indexError := by
    unfold applyIdentitiesAndControls
    simp only [List.insertionSort_cons, List.insertionSort_nil, List.orderedInsert, List.map_cons, List.map_nil]
    rw [if_neg (by omega), if_neg (by simp)]
    simp only [List.length_singleton, if_true, List.headD_cons]
    rw [List.getElem?_eq_none (by omega)]
    rfl
  rw [this]

/-- block operator of a controlled gate -/
theorem toMatrix_ctrl_block [Semiring α] [Star α] (g : Gate) (arr : Arr2 α) (t : Nat) (cs : List Nat)
    (levels : List Int) (d' : Nat)
    (_ht : g.target = .one (Int.ofNat t)) (_hctl : g.controls = some ⟨cs.map Int.ofNat, levels⟩)
    (hne : cs ≠ []) (hlt : ∀ c ∈ cs ++ [t], c < g.dims.length)
    (hr : arr.rows = g.dims.getD t 0) (hc : arr.cols = g.dims.getD t 0)
    (hfit : t + ((cs ++ [t]).insertionSort (· ≤ ·)).headD 0 ≤ ((cs ++ [t]).insertionSort (· ≤ ·)).getLastD 0)
    (hd' : g.dims[t + ((cs ++ [t]).insertionSort (· ≤ ·)).headD 0]? = some d') (hle : g.dims.getD t 0 ≤ d') :
    let s := (cs ++ [t]).insertionSort (· ≤ ·)
    let lo := s.headD 0
    let hi := s.getLastD 0
    let blk := (g.dims.take (hi + 1)).drop lo
    let m := if g.dagger then arr.conjT else arr
    ∃ A, applyIdentitiesAndControls m [t] blk lo (hi + 1 - lo) (some (cs, levels)) = .ok A ∧
      A.rows = blk.prod ∧ A.cols = blk.prod ∧
      ∀ x y, Levels blk x → Levels blk y → A.at' (index blk x) (index blk y) =
          if (cs.map fun c => ((x.getD (c - lo) 0 : Nat) : Int)) = levels ∧
            (∀ c ∈ cs, x.getD (c - lo) 0 = y.getD (c - lo) 0) ∧
            (∀ i < blk.length, lo + i ≠ t → lo + i ∉ cs → x.getD i 0 = y.getD i 0) then
            m.at' (x.getD (t - lo) 0) (y.getD (t - lo) 0)
          else if x = y then 1 else 0 := by
  intro s lo hi blk m
  have hperm : s.Perm (cs ++ [t]) := List.perm_insertionSort _ _
  have hsne : s ≠ [] := by
    intro h
    have := hperm.length_eq
    rw [h] at this; simp at this
  obtain ⟨_, _, hbnd, hmemlo, hmemhi⟩ := sorted_bounds s (List.pairwise_insertionSort _ _) hsne
  have hhi : hi < g.dims.length := hlt _ (hperm.mem_iff.1 hmemhi)
  have hlohi : lo ≤ hi := (hbnd _ hmemlo).2
  obtain ⟨_, _, hblklen⟩ := dims_cut g.dims lo hi hlohi hhi
  have hbl : blk.length = hi + 1 - lo := hblklen
  have htb : lo ≤ t ∧ t ≤ hi := hbnd t (hperm.mem_iff.2 (by simp))
  have hdt : blk.getD (t - lo) 0 = g.dims.getD t 0 := by
    simp only [blk, List.getD, List.getElem?_drop]
    rw [show lo + (t - lo) = t by omega, List.getElem?_take_of_lt (by omega)]
  have hbt : blk[t]? = some d' := by
    simp only [blk, List.getElem?_drop]
    have h1 : t + lo ≤ hi := hfit
    rw [List.getElem?_take_of_lt (by omega), Nat.add_comm]; exact hd'
  have hmr : m.rows = g.dims.getD t 0 := by
    by_cases hd : g.dagger
    · simp only [m, hd, if_true, Arr2.conjT, hc]
    · simp [m, hd, hr]
  have hmc : m.cols = g.dims.getD t 0 := by
    by_cases hd : g.dagger
    · simp only [m, hd, if_true, Arr2.conjT, hr]
    · simp [m, hd, hc]
  obtain ⟨A, h⟩ := block_control m t cs levels blk lo d' hne
    (fun c hc => by
      have : lo ≤ c ∧ c ≤ hi := hbnd c (hperm.mem_iff.2 (by simp [hc]))
      omega)
    (by omega) hbt (by rw [hdt]; exact hle) (by rw [hdt]; exact hmr) (by rw [hdt]; exact hmc)
  rw [hbl] at h
  refine ⟨A, h.1, h.2.1, h.2.2.1, ?_⟩
  rw [hbl]
  exact h.2.2.2

/-- `to_matrix(identities=2)` of a controlled single-line gate. -/
theorem toMatrix_ctrl_two [Semiring α] [Star α] (g : Gate) (arr : Arr2 α) (t : Nat) (cs : List Nat)
    (levels : List Int) (d' : Nat)
    (ht : g.target = .one (Int.ofNat t)) (hctl : g.controls = some ⟨cs.map Int.ofNat, levels⟩)
    (hne : cs ≠ []) (htc : t ∉ cs) (hlt : ∀ c ∈ cs ++ [t], c < g.dims.length)
    (hr : arr.rows = g.dims.getD t 0) (hc : arr.cols = g.dims.getD t 0)
    (hfit : t + ((cs ++ [t]).insertionSort (· ≤ ·)).headD 0 ≤ ((cs ++ [t]).insertionSort (· ≤ ·)).getLastD 0)
    (hd' : g.dims[t + ((cs ++ [t]).insertionSort (· ≤ ·)).headD 0]? = some d') (hle : g.dims.getD t 0 ≤ d') :
    ∃ A, g.toMatrix arr 2 = .ok A ∧ A.rows = g.dims.prod ∧ A.cols = g.dims.prod ∧
      ∀ x y, Levels g.dims x → Levels g.dims y → A.at' (index g.dims x) (index g.dims y) =
        if (cs.map fun c => ((x.getD c 0 : Nat) : Int)) = levels ∧
          (∀ i < g.dims.length, i ≠ t → x.getD i 0 = y.getD i 0) then
          (if g.dagger then arr.conjT else arr).at' (x.getD t 0) (y.getD t 0)
        else if x = y then 1 else 0 := by
  obtain ⟨A, hA, hAr, hAc, hAe⟩ := toMatrix_ctrl_block g arr t cs levels d' ht hctl hne hlt hr hc hfit hd' hle
  obtain ⟨h1, h2, h3, h4⟩ := ctrl_lines g t cs levels ht hctl
  set s := (cs ++ [t]).insertionSort (· ≤ ·) with hsdef
  set lo := s.headD 0 with hlodef
  set hi := s.getLastD 0 with hhidef
  set blk := (g.dims.take (hi + 1)).drop lo with hblkdef
  have hperm : s.Perm (cs ++ [t]) := List.perm_insertionSort _ _
  have hsne : s ≠ [] := by
    intro h
    have := hperm.length_eq
    rw [h] at this; simp at this
  obtain ⟨hhead, hlast, hbnd, hmemlo, hmemhi⟩ := sorted_bounds s (List.pairwise_insertionSort _ _) hsne
  have hhi : hi < g.dims.length := hlt _ (hperm.mem_iff.1 hmemhi)
  have hlohi : lo ≤ hi := (hbnd _ hmemlo).2
  obtain ⟨hcut, hprelen, hblklen⟩ := dims_cut g.dims lo hi hlohi hhi
  rw [← hblkdef] at hcut hblklen
  have htb : lo ≤ t ∧ t ≤ hi := hbnd t (hperm.mem_iff.2 (by simp))
  have hcb : ∀ c ∈ cs, lo ≤ c ∧ c ≤ hi := fun c hc => hbnd c (hperm.mem_iff.2 (by simp [hc]))
  obtain ⟨B, hB, hBr, hBc, hBe⟩ := wrap_embed A (cs ++ [t]) (g.dims.take lo) blk (g.dims.drop (hi + 1))
    (by intro h; rw [h] at hblklen; simp at hblklen; omega)
    (by rw [← hsdef, hprelen]; exact hhead)
    (by rw [← hsdef, hprelen, hblklen, show lo + (hi + 1 - lo) - 1 = hi by omega]; exact hlast)
    (by rw [← hcut]; exact hlt) hAr hAc
  rw [← hcut] at hB hBr hBc hBe
  refine ⟨B, ?_, hBr, hBc, ?_⟩
  · unfold Gate.toMatrix
    simp only [h1, bind, Except.bind, h2, h3, hctl, h4, ← hsdef, ← hlodef, ← hhidef, ← hblkdef]
    rw [hA]
    exact hB
  · intro x y hx hy
    have hx' := hx
    have hy' := hy
    rw [hcut] at hx' hy'
    obtain ⟨x1, x2, x3, rfl, hx1, hx2, hx3⟩ := split3 hx'
    obtain ⟨y1, y2, y3, rfl, hy1, hy2, hy3⟩ := split3 hy'
    rw [hBe x1 x2 x3 y1 y2 y3 hx1 hx2 hx3 hy1 hy2 hy3, hAe x2 y2 hx2 hy2]
    have lx1 : x1.length = lo := by rw [hx1.length, hprelen]
    have ly1 : y1.length = lo := by rw [hy1.length, hprelen]
    have lx2 : x2.length = hi + 1 - lo := by rw [hx2.length, hblklen]
    have ly2 : y2.length = hi + 1 - lo := by rw [hy2.length, hblklen]
    have lx3 : x3.length = g.dims.length - (hi + 1) := by rw [hx3.length, List.length_drop]
    have ly3 : y3.length = g.dims.length - (hi + 1) := by rw [hy3.length, List.length_drop]
    have hblkx : ∀ i, lo ≤ i → i ≤ hi → (x1 ++ x2 ++ x3).getD i 0 = x2.getD (i - lo) 0 := by
      intro i hi1 hi2
      rw [getD_append3, if_neg (by omega), if_pos (by omega), lx1]
    have hblky : ∀ i, lo ≤ i → i ≤ hi → (y1 ++ y2 ++ y3).getD i 0 = y2.getD (i - lo) 0 := by
      intro i hi1 hi2
      rw [getD_append3, if_neg (by omega), if_pos (by omega), ly1]
    have hlev : (cs.map fun c => (((x1 ++ x2 ++ x3).getD c 0 : Nat) : Int)) =
        cs.map fun c => ((x2.getD (c - lo) 0 : Nat) : Int) := by
      apply List.map_congr_left
      intro c hc
      rw [hblkx c (hcb c hc).1 (hcb c hc).2]
    rw [hlev, hblkx t htb.1 htb.2, hblky t htb.1 htb.2]
    have hiff : ((x1 = y1 ∧ x3 = y3) ∧ (∀ c ∈ cs, x2.getD (c - lo) 0 = y2.getD (c - lo) 0) ∧
        (∀ i < blk.length, lo + i ≠ t → lo + i ∉ cs → x2.getD i 0 = y2.getD i 0)) ↔
        ∀ i < g.dims.length, i ≠ t → (x1 ++ x2 ++ x3).getD i 0 = (y1 ++ y2 ++ y3).getD i 0 := by
      constructor
      · rintro ⟨⟨rfl, rfl⟩, hcs, h⟩ i hi' hit
        rw [getD_append3, getD_append3, lx1, lx2, ly2]
        by_cases h1 : i < lo
        · simp [h1]
        · rw [if_neg h1, if_neg h1]
          by_cases h2 : i < lo + (hi + 1 - lo)
          · rw [if_pos h2, if_pos h2]
            by_cases hic : i ∈ cs
            · exact hcs i hic
            · apply h (i - lo) (by omega)
              · rw [show lo + (i - lo) = i by omega]; exact hit
              · rw [show lo + (i - lo) = i by omega]; exact hic
          · rw [if_neg h2, if_neg h2]
      · intro h
        refine ⟨⟨?_, ?_⟩, ?_, ?_⟩
        · rw [list_eq_iff_getD (by omega)]
          intro i hi'
          have := h i (by omega) (by omega)
          rw [getD_append3, getD_append3, if_pos hi', if_pos (by omega)] at this
          exact this
        · rw [list_eq_iff_getD (by omega)]
          intro i hi'
          have := h (hi + 1 + i) (by omega) (by omega)
          rw [getD_append3, getD_append3, if_neg (by omega), if_neg (by omega), if_neg (by omega), if_neg (by omega)] at this
          rw [show hi + 1 + i - (x1.length + x2.length) = i by omega,
            show hi + 1 + i - (y1.length + y2.length) = i by omega] at this
          exact this
        · intro c hc
          have hb := hcb c hc
          have := h c (hlt c (by simp [hc])) (fun e => htc (e ▸ hc))
          rw [hblkx c hb.1 hb.2, hblky c hb.1 hb.2] at this
          exact this
        · intro i hi' hit _
          have := h (lo + i) (by omega) hit
          rw [hblkx _ (by omega) (by omega), hblky _ (by omega) (by omega), show lo + i - lo = i by omega] at this
          exact this
    have hxy : (x1 ++ x2 ++ x3 = y1 ++ y2 ++ y3) ↔ (x1 = y1 ∧ x3 = y3) ∧ x2 = y2 := by
      constructor
      · intro h
        have h' := List.append_inj h (by simp only [List.length_append]; omega)
        have h'' := List.append_inj h'.1 (by omega)
        exact ⟨⟨h''.1, h'.2⟩, h''.2⟩
      · rintro ⟨⟨rfl, rfl⟩, rfl⟩; rfl
    generalize (if g.dagger = true then arr.conjT else arr) = m
    by_cases hL : (cs.map fun c => ((x2.getD (c - lo) 0 : Nat) : Int)) = levels
    · by_cases hall : ∀ i < g.dims.length, i ≠ t → (x1 ++ x2 ++ x3).getD i 0 = (y1 ++ y2 ++ y3).getD i 0
      · have h := hiff.2 hall
        rw [if_pos h.1, if_pos ⟨hL, h.2⟩, if_pos ⟨hL, hall⟩]
      · rw [if_neg (c := _ ∧ (∀ i < g.dims.length, _)) (fun h => hall h.2)]
        have hne' : ¬ (x1 ++ x2 ++ x3 = y1 ++ y2 ++ y3) := by
          intro e; apply hall; intro i _ _; rw [e]
        rw [if_neg hne']
        by_cases h1 : x1 = y1 ∧ x3 = y3
        · rw [if_pos h1, if_neg (fun h => hall (hiff.1 ⟨h1, h.2⟩)), if_neg]
          intro e; exact hne' (hxy.2 ⟨h1, e⟩)
        · rw [if_neg h1]
    · rw [if_neg (c := _ ∧ (∀ i < g.dims.length, _)) (fun h => hL h.1)]
      by_cases h1 : x1 = y1 ∧ x3 = y3
      · rw [if_pos h1, if_neg (fun h => hL h.1)]
        by_cases h2 : x2 = y2
        · rw [if_pos h2, if_pos (hxy.2 ⟨h1, h2⟩)]
        · rw [if_neg h2, if_neg (fun e => h2 (hxy.1 e).2)]
      · rw [if_neg h1, if_neg (fun e => h1 (hxy.1 e).1)]

end Qudits
