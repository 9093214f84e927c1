import Verif.Lemmas.RegisterEmbed
/- Controlled gates whose target has more levels than the line that the code looks up: `to_matrix` raises KeyError. -/
namespace Qudits
open Spec
variable {α : Type}

/-- a list comprehension in which some call raises `e` and no call raises anything else -/
theorem mapM_error {β γ : Type} (e : PyErr) (f : β → Except PyErr γ) : ∀ (l : List β), (∀ x ∈ l, (∃ y, f x = .ok y) ∨ f x = .error e) →
    (∃ x ∈ l, f x = .error e) → l.mapM f = .error e
  | [], _, h => by simp at h
  | a :: l, h, hx => by
    rw [List.mapM_cons]
    rcases h a (by simp) with ⟨y, hy⟩ | hy
    · have : ∃ x ∈ l, f x = .error e := by
        obtain ⟨x, hx, he⟩ := hx
        rcases List.mem_cons.1 hx with rfl | hx
        · rw [hy] at he
          cases he
        · exact ⟨x, hx, he⟩
      rw [hy, mapM_error e f l (fun x hx => h x (List.mem_cons_of_mem _ hx)) this]
      rfl
    · rw [hy]
      rfl

theorem mapM_cases {β γ : Type} (e : PyErr) (f : β → Except PyErr γ) : ∀ (l : List β), (∀ x ∈ l, (∃ y, f x = .ok y) ∨ f x = .error e) →
    (∃ ys, l.mapM f = .ok ys) ∨ l.mapM f = .error e
  | [], _ => .inl ⟨[], rfl⟩
  | a :: l, h => by
    rw [List.mapM_cons]
    rcases h a (by simp) with ⟨y, hy⟩ | hy
    · rcases mapM_cases e f l (fun x hx => h x (List.mem_cons_of_mem _ hx)) with ⟨ys, h2⟩ | h2
      · exact .inl ⟨y :: ys, by rw [hy, h2]; rfl⟩
      · exact .inr (by rw [hy, h2]; rfl)
    · exact .inr (by rw [hy]; rfl)

theorem fill_error [Zero α] (e : PyErr) (n : Nat) (f : Nat → Nat → Except PyErr α) (h : ∀ r c, r < n → c < n → (∃ y, f r c = .ok y) ∨ f r c = .error e)
    (hx : ∃ r c, r < n ∧ c < n ∧ f r c = .error e) : Arr2.fill n f = .error e := by
  unfold Arr2.fill
  obtain ⟨r, c, hr, hc, he⟩ := hx
  rw [mapM_error e _ (List.range n)]
  · rfl
  · intro r hr
    exact mapM_cases e _ _ fun c hc => h r c (List.mem_range.1 hr) (List.mem_range.1 hc)
  · exact ⟨r, List.mem_range.2 hr, mapM_error e _ _ (fun c hc => h r c hr (List.mem_range.1 hc)) ⟨c, List.mem_range.2 hc, he⟩⟩

theorem stateIndex_one (d' k : Nat) : stateIndex (itProduct (siteLogics [d'])) [k] = if k < d' then .ok k else .error .keyError := by
  by_cases hk : k < d'
  · rw [if_pos hk, stateIndex_eq (List.Forall₂.cons hk List.Forall₂.nil)]
    simp [index]
  · rw [if_neg hk]
    unfold stateIndex
    have : [k] ∉ itProduct (siteLogics [d']) := by
      rw [itProduct_mem]
      intro h
      cases h with
      | cons h _ => exact hk h
    rw [List.idxOf?_eq_none_iff.2 this]

/-- `apply_identities_and_controls` with controls and one target, if the line that is looked up has fewer levels than the target. -/
theorem block_control_error [Zero α] [One α] (m : Arr2 α) (t : Nat) (cs : List Nat) (levels : List Int)
    (dims : List Nat) (lo d' : Nat)
    (hne : cs ≠ []) (hb : ∀ c ∈ cs, lo ≤ c ∧ c < lo + dims.length)
    (ht : lo ≤ t ∧ t < lo + dims.length)
    (hd' : dims[t]? = some d') (hle : d' < dims.getD (t - lo) 0)
    (hr : m.rows = dims.getD (t - lo) 0) (hc : m.cols = dims.getD (t - lo) 0)
    (x : List Nat) (hx : Levels dims x) (hxc : (cs.map fun c => ((x.getD (c - lo) 0 : Nat) : Int)) = levels) (hxt : d' ≤ x.getD (t - lo) 0) :
    applyIdentitiesAndControls m [t] dims lo dims.length (some (cs, levels)) = .error .keyError := by
  have hn : dims.length ≠ 0 := by omega
  have htl : t - lo < dims.length := by omega
  unfold applyIdentitiesAndControls
  simp only [List.insertionSort_cons, List.insertionSort_nil, List.orderedInsert, List.map_cons, List.map_nil]
  rw [if_neg hn, if_neg (by simp)]
  simp only [List.length_singleton, if_true, List.headD_cons, hd', bind, Except.bind, Option.map_some]
  have hcne : cs.map (· - lo) ≠ [] := by simpa using hne
  have hclt : ∀ i ∈ cs.map (· - lo), i < dims.length := by
    intro i hi
    obtain ⟨c, hc, rfl⟩ := List.mem_map.1 hi
    have := hb c hc; omega
  set rest := (((List.range' lo dims.length).filter fun q => decide (q ∉ [t]) && decide (q ∉ cs)).map (· - lo)) with hrest
  have hrl : ∀ z, Levels dims z → ∀ i ∈ rest, i < z.length := by
    intro z hz i hi
    simp only [hrest, List.mem_map, List.mem_filter, List.mem_range'_1] at hi
    obtain ⟨q, ⟨⟨_, _⟩, _⟩, rfl⟩ := hi
    rw [hz.length]; omega
  have hog : ∀ x y, Levels dims x → Levels dims y → ogValue m (itProduct (siteLogics [d'])) [t - lo] x y =
      if x.getD (t - lo) 0 < d' ∧ y.getD (t - lo) 0 < d' then .ok (m.at' (x.getD (t - lo) 0) (y.getD (t - lo) 0)) else .error .keyError := by
    intro x y hx hy
    unfold ogValue
    rw [itemgetter_ok _ x (by simp) (by simpa [hx.length] using htl), itemgetter_ok _ y (by simp) (by simpa [hy.length] using htl)]
    simp only [bind, Except.bind, sub, List.map_cons, List.map_nil]
    rw [stateIndex_one, stateIndex_one]
    by_cases h1 : x.getD (t - lo) 0 < d'
    · rw [if_pos h1]
      by_cases h2 : y.getD (t - lo) 0 < d'
      · rw [if_pos h2, if_pos ⟨h1, h2⟩]
        simp only [Arr2.get]
        rw [if_pos ⟨by omega, by omega⟩]
      · have h3 : ¬ (x.getD (t - lo) 0 < d' ∧ y.getD (t - lo) 0 < d') := fun h => h2 h.2
        rw [if_neg h2, if_neg h3]
    · have h3 : ¬ (x.getD (t - lo) 0 < d' ∧ y.getD (t - lo) 0 < d') := fun h => h1 h.1
      rw [if_neg h1, if_neg h3]
  have hentry : ∀ x y, Levels dims x → Levels dims y →
      embedEntry m (itProduct (siteLogics dims)) (itProduct (siteLogics [d'])) [t - lo] rest (some (cs.map (· - lo), levels)) (index dims x) (index dims y) =
        if (cs.map fun c => ((x.getD (c - lo) 0 : Nat) : Int)) = levels ∧ sub (cs.map (· - lo)) x = sub (cs.map (· - lo)) y ∧ (∀ i ∈ rest, x.getD i 0 = y.getD i 0) then
          ogValue m (itProduct (siteLogics [d'])) [t - lo] x y else .ok (if index dims x = index dims y then 1 else 0) := by
    intro x y hx hy
    unfold embedEntry
    rw [indexState_eq hx, indexState_eq hy]
    simp only [bind, Except.bind]
    rw [itemgetter_ok _ x hcne (by rw [hx.length]; exact hclt), itemgetter_ok _ y hcne (by rw [hy.length]; exact hclt)]
    simp only
    rw [restEqual_ok _ _ _ (hrl x hx) (hrl y hy)]
    simp only
    have e1 : (sub (cs.map (· - lo)) x).map (fun (n : Nat) => (n : Int)) = cs.map fun c => ((x.getD (c - lo) 0 : Nat) : Int) := by
      simp [sub, List.map_map, Function.comp_def]
    rw [e1]
    by_cases h1 : (cs.map fun c => ((x.getD (c - lo) 0 : Nat) : Int)) = levels ∧ sub (cs.map (· - lo)) x = sub (cs.map (· - lo)) y
    · rw [if_pos h1]
      by_cases h2 : ∀ i ∈ rest, x.getD i 0 = y.getD i 0
      · rw [if_pos (decide_eq_true h2), if_pos ⟨h1.1, h1.2, h2⟩]
      · have h3 : ¬ ((cs.map fun c => ((x.getD (c - lo) 0 : Nat) : Int)) = levels ∧ sub (cs.map (· - lo)) x = sub (cs.map (· - lo)) y ∧
            (∀ i ∈ rest, x.getD i 0 = y.getD i 0)) := fun h => h2 h.2.2
        rw [if_neg (fun h => h2 (of_decide_eq_true h)), if_neg h3]
        rfl
    · have h3 : ¬ ((cs.map fun c => ((x.getD (c - lo) 0 : Nat) : Int)) = levels ∧ sub (cs.map (· - lo)) x = sub (cs.map (· - lo)) y ∧
          (∀ i ∈ rest, x.getD i 0 = y.getD i 0)) := fun h => h1 ⟨h.1, h.2.1⟩
      rw [if_neg h1, if_neg h3]
      rfl
  apply fill_error
  · intro r c hr' hc'
    obtain ⟨x, hx, rfl⟩ := index_surj hr'
    obtain ⟨y, hy, rfl⟩ := index_surj hc'
    rw [hentry x y hx hy, hog x y hx hy]
    split_ifs
    · exact .inl ⟨_, rfl⟩
    · exact .inr rfl
    · exact .inl ⟨_, rfl⟩
    · exact .inl ⟨_, rfl⟩
  · refine ⟨index dims x, index dims x, index_lt hx, index_lt hx, ?_⟩
    rw [hentry x x hx hx, hog x x hx hx, if_pos ⟨hxc, rfl, fun _ _ => rfl⟩, if_neg (by omega)]

/-- `to_matrix` of a controlled gate, if the line that is looked up has fewer levels than the target. -/
theorem toMatrix_ctrl_keyError {n : Nat} [Semiring α] [Star α] (d : Fin n → Nat) (g : Gate) (t : Fin n) (cs : List (Fin n))
    (lev : Reg d) (arr : Arr2 α) (lo hi : Fin n)
    (hdims : g.dims = List.ofFn d) (ht : g.target = .one (t : Nat))
    (hctl : g.controls = some ⟨cs.map fun c : Fin n => ((c : Nat) : Int), cs.map fun c : Fin n => ((lev c : Nat) : Int)⟩)
    (hne : cs ≠ []) (htc : t ∉ cs)
    (hlo : lo ∈ cs ++ [t]) (hlo' : ∀ c ∈ cs ++ [t], lo ≤ c)
    (hhi : hi ∈ cs ++ [t]) (hhi' : ∀ c ∈ cs ++ [t], c ≤ hi)
    (hfit : t.1 + lo.1 ≤ hi.1) (hlt : t.1 + lo.1 < n) (hle : d ⟨t.1 + lo.1, hlt⟩ < d t)
    (hr : arr.rows = d t) (hc : arr.cols = d t) (ids : Nat) : g.toMatrix arr ids = .error .keyError := by
  obtain ⟨h1, h2, h3, h4⟩ := ctrl_lines g t.1 (cs.map Fin.val) (cs.map fun c : Fin n => ((lev c : Nat) : Int)) (by rw [ht]; rfl) (by rw [hctl, ofNat_val])
  set s := (cs.map Fin.val ++ [t.1]).insertionSort (· ≤ ·) with hsd
  have hperm : s.Perm ((cs ++ [t]).map Fin.val) := by
    rw [List.map_append]; exact List.perm_insertionSort _ _
  have hsne : s ≠ [] := by
    intro h
    have := hperm.length_eq
    rw [h] at this; simp at this
  obtain ⟨_, _, hbnd, hmemlo, hmemhi⟩ := sorted_bounds s (List.pairwise_insertionSort _ _) hsne
  have hlo1 : s.headD 0 = lo.1 := by
    have h1 := (hbnd lo.1 (hperm.mem_iff.2 (List.mem_map.2 ⟨lo, hlo, rfl⟩))).1
    obtain ⟨c, hc, hce⟩ := List.mem_map.1 (hperm.mem_iff.1 hmemlo)
    have h2 : lo.1 ≤ c.1 := hlo' c hc
    omega
  have hhi1 : s.getLastD 0 = hi.1 := by
    have h1 := (hbnd hi.1 (hperm.mem_iff.2 (List.mem_map.2 ⟨hi, hhi, rfl⟩))).2
    obtain ⟨c, hc, hce⟩ := List.mem_map.1 (hperm.mem_iff.1 hmemhi)
    have h2 : c.1 ≤ hi.1 := hhi' c hc
    omega
  have htb : lo.1 ≤ t.1 ∧ t.1 ≤ hi.1 := ⟨hlo' t (by simp), hhi' t (by simp)⟩
  have hcut : ∀ (l : List Nat) (c : Nat), lo.1 ≤ c → c ≤ hi.1 → ((l.take (hi.1 + 1)).drop lo.1).getD (c - lo.1) 0 = l.getD c 0 := by
    intro l c hc1 hc2
    simp only [List.getD, List.getElem?_drop]
    rw [show lo.1 + (c - lo.1) = c by omega, List.getElem?_take_of_lt (by omega)]
  have hlen : (List.drop lo.1 (List.take (hi.1 + 1) g.dims)).length = hi.1 + 1 - lo.1 := by
    rw [List.length_drop, List.length_take, hdims, List.length_ofFn]
    have := hi.2
    omega
  set x : Reg d := Function.update lev t ⟨d ⟨t.1 + lo.1, hlt⟩, hle⟩ with hx
  have hmr : (if g.dagger = true then arr.conjT else arr).rows = d t := by
    by_cases hd : g.dagger
    · simp only [hd, if_true, Arr2.conjT, hc]
    · simp [hd, hr]
  have hmc : (if g.dagger = true then arr.conjT else arr).cols = d t := by
    by_cases hd : g.dagger
    · simp only [hd, if_true, Arr2.conjT, hr]
    · simp [hd, hc]
  have hdt : (List.drop lo.1 (List.take (hi.1 + 1) g.dims)).getD (t.1 - lo.1) 0 = d t := by
    rw [hcut _ _ htb.1 htb.2, hdims, getD_ofFn d t.1 t.2]
  have key := block_control_error (if g.dagger = true then arr.conjT else arr) t.1 (cs.map Fin.val) (cs.map fun c : Fin n => ((lev c : Nat) : Int))
    (List.drop lo.1 (List.take (hi.1 + 1) g.dims)) lo.1 (d ⟨t.1 + lo.1, hlt⟩) (by simpa using hne)
    (by
      intro c hc
      obtain ⟨c, hc', rfl⟩ := List.mem_map.1 hc
      have h5 : lo.1 ≤ c.1 := hlo' c (List.mem_append_left _ hc')
      have h6 : c.1 ≤ hi.1 := hhi' c (List.mem_append_left _ hc')
      rw [hlen]
      omega)
    (by rw [hlen]; omega)
    (by
      rw [List.getElem?_drop, List.getElem?_take_of_lt (by omega), hdims, List.getElem?_ofFn, dif_pos (by omega)]
      simp only [Nat.add_comm])
    (by rw [hdt]; exact hle) (by rw [hdt]; exact hmr) (by rw [hdt]; exact hmc)
    (List.drop lo.1 (List.take (hi.1 + 1) (List.ofFn fun i => (x i : Nat))))
    (by
      rw [hdims]
      exact List.forall₂_drop _ (List.forall₂_take _ (levels_ofFn d x)))
    (by
      rw [List.map_map]
      refine List.map_congr_left fun c hc => ?_
      have h5 : lo.1 ≤ c.1 := hlo' c (by simp [hc])
      have h6 : c.1 ≤ hi.1 := hhi' c (by simp [hc])
      simp only [Function.comp]
      rw [hcut _ _ h5 h6, getD_ofFn _ c.1 c.2]
      have : c ≠ t := fun e => htc (e ▸ hc)
      simp [hx, Function.update_of_ne this])
    (by
      rw [hcut _ _ htb.1 htb.2, getD_ofFn _ t.1 t.2]
      simp [hx])
  unfold Gate.toMatrix
  simp only [h1, bind, Except.bind, h2, h3, hctl, ← hsd, hlo1, hhi1]
  rw [hlen] at key
  rw [ofNat_val, h4, key]

end Qudits
