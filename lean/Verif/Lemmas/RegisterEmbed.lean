import Verif.Lemmas.Register

set_option linter.unusedSectionVars false

namespace Qudits
open Spec

variable {n : Nat} {α : Type}

theorem ofNat_val (ts : List (Fin n)) : ts.map (fun i : Fin n => ((i : Nat) : Int)) = (ts.map Fin.val).map Int.ofNat := by
  rw [List.map_map]; rfl

theorem agree_iff (d : Fin n → Nat) (ts : List (Fin n)) (x y : Reg d) :
    (∀ i < (List.ofFn d).length, i ∉ ts.map Fin.val →
      (List.ofFn fun i => (x i : Nat)).getD i 0 = (List.ofFn fun i => (y i : Nat)).getD i 0) ↔
    ∀ i, i ∉ ts.toFinset → x i = y i := by
  constructor
  · intro h i hi
    have := h i.1 (by simp) (by
      intro hm
      obtain ⟨j, hj, hji⟩ := List.mem_map.1 hm
      apply hi
      rw [List.mem_toFinset]
      rwa [← Fin.ext hji])
    rw [getD_ofFn _ i.1 i.2, getD_ofFn _ i.1 i.2] at this
    exact Fin.ext this
  · intro h i hi hm
    rw [List.length_ofFn] at hi
    rw [getD_ofFn _ i hi, getD_ofFn _ i hi]
    rw [h ⟨i, hi⟩]
    intro hc
    rw [List.mem_toFinset] at hc
    exact hm (List.mem_map.2 ⟨_, hc, rfl⟩)

theorem embed_full [Semiring α] [Star α] (d : Fin n → Nat) (g : Gate) (ts : List (Fin n)) (arr : Arr2 α)
    (hdims : g.dims = List.ofFn d) (hT : g.target.lines = ts.map fun i : Fin n => ((i : Nat) : Int))
    (hctl : g.controls = none) (hnd : ts.Nodup) (hne : ts ≠ [])
    (hr : arr.rows = ∏ i ∈ ts.toFinset, d i) (hc : arr.cols = ∏ i ∈ ts.toFinset, d i) :
    ∃ A, g.toMatrix arr 2 = .ok A ∧ A.rows = ∏ i, d i ∧ A.cols = ∏ i, d i ∧
      ∀ x y, A.at' (idx d x) (idx d y) =
        embed ts.toFinset (onLines d ts.toFinset (if g.dagger then arr.conjT else arr).at') x y := by
  have hs : sub ((ts.map Fin.val).insertionSort (· ≤ ·)) g.dims = ts.toFinset.sort.map d := by
    rw [insertionSort_val ts hnd, hdims, sub_val_ofFn]
  obtain ⟨A, hA, hAr, hAc, hAe⟩ := toMatrix_two g arr (ts.map Fin.val) (by rw [hT, ofNat_val]) hctl
    (List.Nodup.map Fin.val_injective hnd) (by simpa using hne)
    (by
      intro t ht
      obtain ⟨i, _, rfl⟩ := List.mem_map.1 ht
      rw [hdims]; simp)
    (by rw [hs, sort_map_prod, hr]) (by rw [hs, sort_map_prod, hc])
  rw [hdims, List.prod_ofFn] at hAr hAc
  refine ⟨A, hA, hAr, hAc, ?_⟩
  intro x y
  rw [hdims] at hAe
  have := hAe _ _ (levels_ofFn d x) (levels_ofFn d y)
  unfold idx
  rw [this]
  simp only [embed, onLines, subIdx_restr]
  rw [insertionSort_val ts hnd, sub_val_ofFn, sub_val_ofFn, sub_val_ofFn]
  generalize (if g.dagger = true then arr.conjT else arr) = m
  by_cases h : ∀ i, i ∉ ts.toFinset → x i = y i
  · rw [if_pos h, if_pos ((agree_iff d ts x y).2 h)]
  · rw [if_neg h, if_neg (fun h' => h ((agree_iff d ts x y).1 h'))]

/-- lowest and highest line, and the slice of dimensions between them -/
theorem block_shape (d : Fin n → Nat) (pre post : List Nat) (ts : List (Fin n)) (T : List Nat)
    (hT : T.Perm (ts.map fun i => pre.length + i.1))
    (hfirst : ∃ i ∈ ts, i.1 = 0) (hlast : ∃ i ∈ ts, i.1 + 1 = n) :
    (T.insertionSort (· ≤ ·)).headD 0 = pre.length ∧
    (T.insertionSort (· ≤ ·)).getLastD 0 + 1 = pre.length + n ∧
    ((pre ++ List.ofFn d ++ post).take ((T.insertionSort (· ≤ ·)).getLastD 0 + 1)).drop
      ((T.insertionSort (· ≤ ·)).headD 0) = List.ofFn d := by
  obtain ⟨i0, hi0, h0⟩ := hfirst
  obtain ⟨i1, hi1, h1⟩ := hlast
  set s := T.insertionSort (· ≤ ·) with hsd
  have hperm : s.Perm (ts.map fun i => pre.length + i.1) := (List.perm_insertionSort _ _).trans hT
  have hsne : s ≠ [] := by
    intro h
    have := hperm.length_eq
    rw [h, List.length_map] at this
    have := List.length_pos_of_mem hi0
    simp at *; omega
  obtain ⟨_, _, hbnd, hmemlo, hmemhi⟩ := sorted_bounds s (List.pairwise_insertionSort _ _) hsne
  have hm : ∀ t ∈ s, pre.length ≤ t ∧ t < pre.length + n := by
    intro t ht
    obtain ⟨i, _, rfl⟩ := List.mem_map.1 (hperm.mem_iff.1 ht)
    omega
  have hlo : s.headD 0 = pre.length := by
    have h2 := (hbnd (pre.length + i0.1) (hperm.mem_iff.2 (List.mem_map.2 ⟨i0, hi0, rfl⟩))).1
    have h3 := (hm _ hmemlo).1
    omega
  have hhi : s.getLastD 0 + 1 = pre.length + n := by
    have h2 := (hbnd (pre.length + i1.1) (hperm.mem_iff.2 (List.mem_map.2 ⟨i1, hi1, rfl⟩))).2
    have h3 := (hm _ hmemhi).2
    omega
  refine ⟨hlo, hhi, ?_⟩
  rw [hhi, hlo, show pre.length + n = (pre ++ List.ofFn d).length by simp]
  rw [List.take_left, List.drop_left]

theorem embed_block [Semiring α] [Star α] (d : Fin n → Nat) (pre post : List Nat) (g : Gate)
    (ts : List (Fin n)) (arr : Arr2 α) (hdims : g.dims = pre ++ List.ofFn d ++ post)
    (hT : g.target.lines = ts.map fun i : Fin n => ((pre.length + i.1 : Nat) : Int))
    (hctl : g.controls = none) (hnd : ts.Nodup)
    (hfirst : ∃ i ∈ ts, i.1 = 0) (hlast : ∃ i ∈ ts, i.1 + 1 = n)
    (hr : arr.rows = ∏ i ∈ ts.toFinset, d i) (hc : arr.cols = ∏ i ∈ ts.toFinset, d i) :
    ∃ A, g.toMatrix arr 1 = .ok A ∧ A.rows = ∏ i, d i ∧ A.cols = ∏ i, d i ∧
      ∀ x y, A.at' (idx d x) (idx d y) =
        embed ts.toFinset (onLines d ts.toFinset (if g.dagger then arr.conjT else arr).at') x y := by
  obtain ⟨hlo, hhi, hblk⟩ := block_shape d pre post ts (ts.map fun i => pre.length + i.1)
    (List.Perm.refl _) hfirst hlast
  have hinj : Function.Injective fun i : Fin n => pre.length + i.1 := by
    intro a b h; exact Fin.ext (by simpa using h)
  have hsv : ((ts.map fun i => pre.length + i.1).insertionSort (· ≤ ·)).map (· - pre.length) =
      ts.toFinset.sort.map Fin.val := by
    have : (ts.map fun i => pre.length + i.1).insertionSort (· ≤ ·) =
        (ts.toFinset.sort).map fun i => pre.length + i.1 := by
      have hp : ((ts.map fun i => pre.length + i.1).insertionSort (· ≤ ·)).Perm
          ((ts.toFinset.sort).map fun i => pre.length + i.1) := by
        refine (List.perm_insertionSort _ _).trans ?_
        apply List.Perm.map
        rw [List.perm_ext_iff_of_nodup hnd (Finset.sort_nodup _ _)]
        intro a; simp
      refine hp.eq_of_pairwise (le := (· ≤ ·)) ?_ (List.pairwise_insertionSort _ _) ?_
      · intro a b _ _ h1 h2; exact Nat.le_antisymm h1 h2
      · rw [List.pairwise_map]
        exact (Finset.pairwise_sort ts.toFinset (· ≤ ·)).imp (fun h => by
          have h' : (_ : Fin n).1 ≤ (_ : Fin n).1 := h
          omega)
    rw [this, List.map_map]
    apply List.map_congr_left
    intro i _; simp
  have hbnds : ∀ t ∈ (ts.map fun i => pre.length + i.1).insertionSort (· ≤ ·),
      pre.length ≤ t ∧ t ≤ ((ts.map fun i => pre.length + i.1).insertionSort (· ≤ ·)).getLastD 0 := by
    intro t ht
    obtain ⟨i, _, rfl⟩ := List.mem_map.1 ((List.perm_insertionSort _ _).mem_iff.1 ht)
    omega
  have hsubd : sub ((ts.map fun i => pre.length + i.1).insertionSort (· ≤ ·)) g.dims = ts.toFinset.sort.map d := by
    rw [← sub_drop_take g.dims _ _ _ hbnds, hsv]
    rw [hlo] at hblk
    rw [hdims, hblk, sub_val_ofFn]
  obtain ⟨A, hA, _, hAr, hAc, hAe⟩ := toMatrix_one g arr (ts.map fun i => pre.length + i.1)
    (by rw [hT, List.map_map]; rfl) hctl (List.Nodup.map hinj hnd)
    (by obtain ⟨i, hi, _⟩ := hfirst; intro h; simp at h; rw [h] at hi; cases hi)
    (by
      intro t ht
      obtain ⟨i, _, rfl⟩ := List.mem_map.1 ht
      rw [hdims]; simp; omega)
    (by rw [hsubd, sort_map_prod, hr]) (by rw [hsubd, sort_map_prod, hc])
  rw [hsubd] at hAe
  rw [hdims] at hAr hAc hAe
  simp only [hblk] at hAr hAc hAe
  rw [List.prod_ofFn] at hAr hAc
  refine ⟨A, hA, hAr, hAc, ?_⟩
  intro x y
  unfold idx
  rw [hAe _ _ (levels_ofFn d x) (levels_ofFn d y)]
  simp only [hlo, hsv]
  rw [sub_val_ofFn, sub_val_ofFn]
  simp only [embed, onLines, subIdx_restr]
  generalize (if g.dagger = true then arr.conjT else arr) = m
  have hiff : (∀ i < (List.ofFn d).length, pre.length + i ∉ ts.map (fun i => pre.length + i.1) →
      (List.ofFn fun i => (x i : Nat)).getD i 0 = (List.ofFn fun i => (y i : Nat)).getD i 0) ↔
      ∀ i, i ∉ ts.toFinset → x i = y i := by
    rw [← agree_iff d ts x y]
    have : ∀ i, (pre.length + i ∈ ts.map fun i => pre.length + i.1) ↔ i ∈ ts.map Fin.val := by
      intro i
      simp only [List.mem_map]
      constructor
      · rintro ⟨a, ha, hai⟩; exact ⟨a, ha, by omega⟩
      · rintro ⟨a, ha, hai⟩; exact ⟨a, ha, by omega⟩
    simp only [this]
  by_cases h : ∀ i, i ∉ ts.toFinset → x i = y i
  · rw [if_pos h, if_pos (hiff.2 h)]
  · rw [if_neg h, if_neg (fun h' => h (hiff.1 h'))]

/-! ### controlled -/

theorem ctrl_full [Semiring α] [Star α] (d : Fin n → Nat) (g : Gate) (t : Fin n) (cs : List (Fin n))
    (lev : Reg d) (arr : Arr2 α) (lo hi : Fin n)
    (hdims : g.dims = List.ofFn d) (ht : g.target = .one (t : Nat))
    (hctl : g.controls = some ⟨cs.map fun c : Fin n => ((c : Nat) : Int), cs.map fun c : Fin n => ((lev c : Nat) : Int)⟩)
    (hne : cs ≠ []) (htc : t ∉ cs)
    (hlo : lo ∈ cs ++ [t]) (hlo' : ∀ c ∈ cs ++ [t], lo ≤ c)
    (hhi : hi ∈ cs ++ [t]) (hhi' : ∀ c ∈ cs ++ [t], c ≤ hi)
    (hfit : t.1 + lo.1 ≤ hi.1) (hle : ∀ h : t.1 + lo.1 < n, d t ≤ d ⟨t.1 + lo.1, h⟩)
    (hr : arr.rows = d t) (hc : arr.cols = d t) :
    ∃ A, g.toMatrix arr 2 = .ok A ∧ A.rows = ∏ i, d i ∧ A.cols = ∏ i, d i ∧
      ∀ x y, A.at' (idx d x) (idx d y) =
        controlled cs.toFinset lev
          (embed1 t (fun a b : Fin (d t) => (if g.dagger then arr.conjT else arr).at' a b)) x y := by
  have hlt : t.1 + lo.1 < n := by omega
  set s := (cs.map Fin.val ++ [t.1]).insertionSort (· ≤ ·) with hsd
  have hperm : s.Perm ((cs ++ [t]).map Fin.val) := by
    rw [List.map_append]; exact List.perm_insertionSort _ _
  have hsne : s ≠ [] := by
    intro h
    have := hperm.length_eq
    rw [h] at this; simp at this
  obtain ⟨_, _, hbnd, hmemlo, hmemhi⟩ := sorted_bounds s (List.pairwise_insertionSort _ _) hsne
  have hlo1 : s.headD 0 = lo.1 := by
    have h1 := (hbnd lo.1 (hperm.mem_iff.2 (List.mem_map.2 ⟨lo, hlo, rfl⟩))).1
    obtain ⟨c, hc, hce⟩ := List.mem_map.1 (hperm.mem_iff.1 hmemlo)
    have h2 : lo.1 ≤ c.1 := hlo' c hc
    omega
  have hhi1 : s.getLastD 0 = hi.1 := by
    have h1 := (hbnd hi.1 (hperm.mem_iff.2 (List.mem_map.2 ⟨hi, hhi, rfl⟩))).2
    obtain ⟨c, hc, hce⟩ := List.mem_map.1 (hperm.mem_iff.1 hmemhi)
    have h2 : c.1 ≤ hi.1 := hhi' c hc
    omega
  obtain ⟨A, hA, hAr, hAc, hAe⟩ := toMatrix_ctrl_two g arr t.1 (cs.map Fin.val)
    (cs.map fun c : Fin n => ((lev c : Nat) : Int)) (d ⟨t.1 + lo.1, hlt⟩) (by rw [ht]; rfl)
    (by rw [hctl, ofNat_val]) (by simpa using hne)
    (by
      intro h
      obtain ⟨c, hc, hce⟩ := List.mem_map.1 h
      apply htc
      rwa [← Fin.ext hce])
    (by
      intro c hc
      rw [hdims, List.length_ofFn]
      rw [List.mem_append, List.mem_map, List.mem_singleton] at hc
      rcases hc with ⟨i, _, rfl⟩ | rfl
      · exact i.2
      · exact t.2)
    (by rw [hdims, getD_ofFn d t.1 t.2, hr]) (by rw [hdims, getD_ofFn d t.1 t.2, hc])
    (by rw [← hsd, hlo1, hhi1]; exact hfit)
    (by
      rw [← hsd, hlo1, hdims]
      simp [hlt])
    (by rw [hdims, getD_ofFn d t.1 t.2]; exact hle hlt)
  rw [hdims, List.prod_ofFn] at hAr hAc
  refine ⟨A, hA, hAr, hAc, ?_⟩
  intro x y
  rw [hdims] at hAe
  unfold idx
  rw [hAe _ _ (levels_ofFn d x) (levels_ofFn d y)]
  rw [getD_ofFn _ t.1 t.2, getD_ofFn _ t.1 t.2]
  simp only [controlled, embed1]
  generalize (if g.dagger = true then arr.conjT else arr) = m
  have hctliff : ((cs.map Fin.val).map fun c => (((List.ofFn fun i => (x i : Nat)).getD c 0 : Nat) : Int)) =
      (cs.map fun c : Fin n => ((lev c : Nat) : Int)) ↔ ∀ i ∈ cs.toFinset, x i = lev i := by
    rw [List.map_map]
    have : ∀ c : Fin n, ((fun c => (((List.ofFn fun i => (x i : Nat)).getD c 0 : Nat) : Int)) ∘ Fin.val) c =
        ((x c : Nat) : Int) := by
      intro c
      simp only [Function.comp]
      rw [getD_ofFn _ c.1 c.2]
    simp only [List.map_inj_left, this, List.mem_toFinset]
    constructor
    · intro h i hi; exact Fin.ext (by exact_mod_cast h i hi)
    · intro h i hi; rw [h i hi]
  have hagree : (∀ i < (List.ofFn d).length, i ≠ t.1 →
      (List.ofFn fun i => (x i : Nat)).getD i 0 = (List.ofFn fun i => (y i : Nat)).getD i 0) ↔
      ∀ i, i ≠ t → x i = y i := by
    have := agree_iff d [t] x y
    simpa [Fin.ext_iff] using this
  have heq : (List.ofFn (fun i => (x i : Nat)) = List.ofFn fun i => (y i : Nat)) ↔ x = y := by
    constructor
    · intro h
      have := List.ofFn_injective h
      funext i
      exact Fin.ext (congrFun this i)
    · rintro rfl; rfl
  by_cases hag : ∀ i, i ≠ t → x i = y i
  · have hxy : (∀ i ∈ cs.toFinset, x i = lev i) ↔ ∀ i ∈ cs.toFinset, y i = lev i := by
      have : ∀ i ∈ cs.toFinset, x i = y i := by
        intro i hi
        apply hag
        rintro rfl
        exact htc (List.mem_toFinset.1 hi)
      constructor
      · intro h i hi; rw [← this i hi, h i hi]
      · intro h i hi; rw [this i hi, h i hi]
    by_cases hcl : ∀ i ∈ cs.toFinset, x i = lev i
    · rw [if_pos ⟨hctliff.2 hcl, hagree.2 hag⟩, if_pos (hxy.1 hcl), if_pos hag]
    · rw [if_neg (fun h => hcl (hctliff.1 h.1)), if_neg (fun h => hcl (hxy.2 h))]
      by_cases he : x = y
      · rw [if_pos (heq.2 he), if_pos he]
      · rw [if_neg (fun h => he (heq.1 h)), if_neg he]
  · have he : x ≠ y := by rintro rfl; exact hag (fun _ _ => rfl)
    rw [if_neg (fun h => hag (hagree.1 h.2)), if_neg (fun h => he (heq.1 h)), if_neg hag, if_neg he]
    simp

end Qudits
