import Verif.Model.RetrieveState
import Verif.Lemmas.Radix
import Verif.Lemmas.Embed
import Verif.Spec.PrepSpec
import Mathlib.Data.List.Nodup
namespace Qudits
open Spec RetrieveState

theorem allCombinations_length : ∀ dims, (allCombinations dims).length = dims.prod
  | [] => rfl
  | d :: ds => by
    simp [allCombinations, List.length_flatMap, allCombinations_length ds]

theorem allCombinations_get : ∀ {dims p}, Levels dims p → (allCombinations dims)[index dims p]? = some p := by
  intro dims p h
  induction h with
  | nil => rfl
  | @cons l d ls ds hl h ih =>
    rw [allCombinations, index, flatMap_getElem? _ ds.prod _ (fun x _ => by rw [List.length_map, allCombinations_length]) _ _ (index_lt h),
      List.getElem?_range hl]
    simp [ih]

theorem agrees_eq : ∀ {a b : List Nat}, a.length = b.length → agrees a b = .ok (decide (a = b))
  | [], [], _ => rfl
  | a :: as, b :: bs, h => by
    unfold agrees
    by_cases hab : a = b
    · rw [if_neg (by simp [hab]), agrees_eq (by simpa using h)]; simp [hab]
    · rw [if_pos hab]; simp [hab]

theorem mem_allCombinations {dims p : List Nat} (h : p ∈ allCombinations dims) : Levels dims p := by
  obtain ⟨i, hi⟩ := List.mem_iff_getElem?.1 h
  have hlt : i < dims.prod := by rw [← allCombinations_length]; exact (List.getElem?_eq_some_iff.1 hi).1
  obtain ⟨q, hq, e⟩ := index_surj hlt
  rw [← e, allCombinations_get hq] at hi
  injection hi with hi
  rw [← hi]; exact hq

/-- the positions found for entries that exist -/
theorem findIndices_ok (dims : List Nat) (E : List (List Nat)) (hE : ∀ e ∈ E, e.length = dims.length) :
    ∃ l, findIndices (allCombinations dims) E = .ok l ∧ ∀ k, k ∈ l ↔ ∃ e ∈ E, Levels dims e ∧ index dims e = k := by
  have h1 : ∀ e ∈ E, (do
      let marks ← (allCombinations dims).mapM fun cand => agrees cand e
      pure ((List.range (allCombinations dims).length).filter fun i => marks.getD i false) : Except PyErr (List Nat)) =
      .ok ((List.range (allCombinations dims).length).filter fun i =>
        ((allCombinations dims).map fun c => decide (c = e)).getD i false) := by
    intro e he
    rw [mapM_ok _ (fun c => decide (c = e)) _ (fun c hc => agrees_eq (by rw [(mem_allCombinations hc).length, hE e he]))]
    rfl
  unfold findIndices
  rw [mapM_ok _ _ E h1]
  refine ⟨_, rfl, ?_⟩
  intro k
  rw [List.mem_insertionSort, List.mem_flatten]
  constructor
  · rintro ⟨l, hl, hk⟩
    obtain ⟨e, he, rfl⟩ := List.mem_map.1 hl
    rw [List.mem_filter, List.mem_range, List.getD_eq_getElem?_getD, List.getElem?_map] at hk
    obtain ⟨hk1, hk2⟩ := hk
    rw [List.getElem?_eq_getElem hk1] at hk2
    simp only [Option.map_some, Option.getD_some, decide_eq_true_eq] at hk2
    have hm : Levels dims e := by rw [← hk2]; exact mem_allCombinations (List.getElem_mem hk1)
    refine ⟨e, he, hm, ?_⟩
    rw [allCombinations_length] at hk1
    obtain ⟨q, hq, eq⟩ := index_surj hk1
    have h3 := allCombinations_get hq
    rw [eq, List.getElem?_eq_getElem (by rw [allCombinations_length]; exact hk1), hk2] at h3
    injection h3 with h3
    rw [h3]; exact eq
  · rintro ⟨e, he, hl, rfl⟩
    refine ⟨_, List.mem_map.2 ⟨e, he, rfl⟩, ?_⟩
    rw [List.mem_filter, List.mem_range, List.getD_eq_getElem?_getD, List.getElem?_map, allCombinations_get hl, allCombinations_length]
    exact ⟨index_lt hl, by simp⟩

theorem foldl_set_getD (c : ℂ) : ∀ (l : List Nat) (v : List ℂ) (k : Nat), k < v.length →
    (l.foldl (fun v i => v.set i c) v).getD k 0 = if k ∈ l then c else v.getD k 0
  | [], v, k, _ => by simp
  | i :: l, v, k, hk => by
    rw [List.foldl_cons, foldl_set_getD c l _ k (by simpa using hk)]
    by_cases hkl : k ∈ l
    · simp [hkl]
    · rw [if_neg hkl]
      by_cases hki : k = i
      · subst hki; simp [List.getD_eq_getElem?_getD, hk]
      · rw [if_neg (by simp [hki, hkl])]
        simp [List.getD_eq_getElem?_getD, List.getElem?_set, Ne.symm hki]

theorem foldl_set_length (c : ℂ) : ∀ (l : List Nat) (v : List ℂ), (l.foldl (fun v i => v.set i c) v).length = v.length
  | [], v => rfl
  | i :: l, v => by rw [List.foldl_cons, foldl_set_length c l]; simp

theorem list_sum_range (f : ℂ → ℝ) (v : List ℂ) : (v.map f).sum = ∑ k ∈ Finset.range v.length, f (v.getD k 0) := by
  induction v with
  | nil => simp
  | cons a v ih =>
    rw [List.map_cons, List.sum_cons, List.length_cons, Finset.sum_range_succ', ih, add_comm]
    simp

/-- the vector of a list of different entries, some of which exist -/
theorem uniform_vector (dims : List Nat) (E : List (List Nat)) (hne : E ≠ []) (hE : ∀ e ∈ E, e.length = dims.length) (hnd : E.Nodup) :
    ∃ l, findIndices (allCombinations dims) E = .ok l ∧
      (∀ c : ℂ, ∀ p, Levels dims p →
        (l.foldl (fun v i => v.set i c) (List.replicate (allCombinations dims).length 0)).getD (index dims p) 0 = if p ∈ E then c else 0) ∧
      (∀ c : ℂ, (l.foldl (fun v i => v.set i c) (List.replicate (allCombinations dims).length 0)).length = dims.prod) ∧
      (∀ c : ℂ, ((l.foldl (fun v i => v.set i c) (List.replicate (allCombinations dims).length 0)).map fun x => ‖x‖ ^ 2).sum =
        (open Classical in (E.filter fun e => Levels dims e).length) * ‖c‖ ^ 2) := by
  classical
  obtain ⟨l, h1, h2⟩ := findIndices_ok dims E hE
  have hlen : ∀ c : ℂ, (l.foldl (fun v i => v.set i c) (List.replicate (allCombinations dims).length 0)).length = dims.prod := by
    intro c; rw [foldl_set_length, List.length_replicate, allCombinations_length]
  have hget : ∀ (c : ℂ) (k : Nat), k < dims.prod →
      (l.foldl (fun v i => v.set i c) (List.replicate (allCombinations dims).length 0)).getD k 0 = if k ∈ l then c else 0 := by
    intro c k hk
    rw [foldl_set_getD c l _ k (by rw [List.length_replicate, allCombinations_length]; exact hk)]
    congr 1
    simp [List.getD_eq_getElem?_getD, List.getElem?_replicate]
    split <;> rfl
  refine ⟨l, h1, ?_, hlen, ?_⟩
  · intro c p hp
    rw [hget c _ (index_lt hp)]
    refine if_congr ?_ rfl rfl
    rw [h2]
    constructor
    · rintro ⟨e, he, hl, heq⟩
      rw [← index_inj hl hp heq]; exact he
    · intro h; exact ⟨p, h, hp, rfl⟩
  · intro c
    rw [list_sum_range, hlen]
    rw [Finset.sum_congr rfl (fun k hk => by rw [hget c k (Finset.mem_range.1 hk)])]
    have : ∀ k, ‖(if k ∈ l then c else 0)‖ ^ 2 = if k ∈ l then ‖c‖ ^ 2 else 0 := by intro k; split <;> simp
    simp only [this]
    rw [← Finset.sum_filter, Finset.sum_const, nsmul_eq_mul]
    congr 2
    have himg : (Finset.range dims.prod).filter (· ∈ l) = ((E.filter fun e => Levels dims e).toFinset).image (index dims) := by
      ext k
      simp only [Finset.mem_filter, Finset.mem_range, Finset.mem_image, List.mem_toFinset, List.mem_filter, decide_eq_true_eq]
      rw [h2]
      constructor
      · rintro ⟨_, e, he, hl, rfl⟩; exact ⟨e, ⟨he, hl⟩, rfl⟩
      · rintro ⟨e, ⟨he, hl⟩, rfl⟩; exact ⟨index_lt hl, e, he, hl, rfl⟩
    rw [himg, Finset.card_image_of_injOn, List.toFinset_card_of_nodup (hnd.filter _)]
    intro a ha b hb hab
    simp only [Finset.mem_coe, List.mem_toFinset, List.mem_filter, decide_eq_true_eq] at ha hb
    exact index_inj ha.2 hb.2 hab

end Qudits
