import Verif.Spec.Register
import Verif.Lemmas.Space
import Verif.Lemmas.ToMatrix
import Mathlib.Algebra.BigOperators.Fin

set_option linter.unusedSectionVars false

namespace Qudits
open Spec

variable {n : Nat} {α : Type}

theorem levels_ofFn (d : Fin n → Nat) (x : Reg d) :
    Levels (List.ofFn d) (List.ofFn fun i => (x i : Nat)) := by
  unfold Levels
  rw [List.forall₂_iff_get]
  refine ⟨by simp, ?_⟩
  intro i h1 h2
  simp

theorem getD_ofFn {β : Type} (f : Fin n → β) (i : Nat) (h : i < n) (b : β) :
    (List.ofFn f).getD i b = f ⟨i, h⟩ := by
  simp [List.getD, h]

theorem idx_lt (d : Fin n → Nat) (x : Reg d) : idx d x < ∏ i, d i := by
  have := index_lt (levels_ofFn d x)
  rw [List.prod_ofFn] at this
  exact this

theorem idx_injective (d : Fin n → Nat) : Function.Injective (idx d) := by
  intro x y h
  have := index_inj (levels_ofFn d x) (levels_ofFn d y) h
  have := List.ofFn_injective this
  funext i
  exact Fin.ext (congrFun this i)

theorem idx_surjective (d : Fin n → Nat) (k : Nat) (h : k < ∏ i, d i) : ∃ x, idx d x = k := by
  let f : Reg d → Fin (∏ i, d i) := fun x => ⟨idx d x, idx_lt d x⟩
  have hinj : Function.Injective f := fun x y e => idx_injective d (Fin.mk.inj e)
  have hbij : Function.Bijective f := by
    rw [Fintype.bijective_iff_injective_and_card]
    refine ⟨hinj, ?_⟩
    simp [Fintype.card_pi]
  obtain ⟨x, hx⟩ := hbij.2 ⟨k, h⟩
  exact ⟨x, Fin.mk.inj hx⟩

/-- states and indices are in bijection -/
noncomputable def idxEquiv (d : Fin n → Nat) : Reg d ≃ Fin (∏ i, d i) :=
  Equiv.ofBijective (fun x => ⟨idx d x, idx_lt d x⟩)
    ⟨fun _ _ e => idx_injective d (Fin.mk.inj e), fun k => by
      obtain ⟨x, hx⟩ := idx_surjective d k.1 k.2
      exact ⟨x, Fin.ext hx⟩⟩

theorem subIdx_restr (d : Fin n → Nat) (S : Finset (Fin n)) (x : Reg d) :
    subIdx d S (restr S x) = index (S.sort.map d) (S.sort.map fun i => (x i : Nat)) := by
  unfold subIdx restr
  congr 1
  exact List.attach_map_val (l := S.sort) (f := fun i : Fin n => (x i : Nat))

theorem levels_subIdx (d : Fin n → Nat) (S : Finset (Fin n)) (w : SubLv (LvOf d) S) :
    Levels (S.sort.map d) (S.sort.attach.map fun i => (w ⟨i.1, (Finset.mem_sort _).1 i.2⟩ : Nat)) := by
  unfold Levels
  rw [List.forall₂_iff_get]
  refine ⟨by simp, ?_⟩
  intro i h1 h2
  simp only [List.get_eq_getElem, List.getElem_map]
  have hlt : i < S.sort.attach.length := by simpa using h1
  have := (w ⟨(S.sort.attach[i]).1, (Finset.mem_sort _).1 (S.sort.attach[i]).2⟩).2
  have he : (S.sort.attach[i]).1 = S.sort[i]'(by simpa using h1) := by simp
  rw [← he]
  exact this

theorem sort_map_prod (d : Fin n → Nat) (S : Finset (Fin n)) : (S.sort.map d).prod = ∏ i ∈ S, d i := by
  calc (S.sort.map d).prod = ∏ i ∈ S.sort.toFinset, d i :=
        (List.prod_toFinset d (Finset.sort_nodup _ _)).symm
    _ = _ := by rw [Finset.sort_toFinset]

theorem subIdx_lt (d : Fin n → Nat) (S : Finset (Fin n)) (w : SubLv (LvOf d) S) :
    subIdx d S w < ∏ i ∈ S, d i := by
  rw [← sort_map_prod]
  exact index_lt (levels_subIdx d S w)

theorem subIdx_injective (d : Fin n → Nat) (S : Finset (Fin n)) : Function.Injective (subIdx d S) := by
  intro w v h
  have h1 := index_inj (levels_subIdx d S w) (levels_subIdx d S v) h
  rw [List.map_inj_left] at h1
  funext i
  have := h1 ⟨i.1, (Finset.mem_sort _).2 i.2⟩ (List.mem_attach _ _)
  exact Fin.ext this

/-- states of some lines and indices are in bijection -/
noncomputable def subIdxEquiv (d : Fin n → Nat) (S : Finset (Fin n)) :
    SubLv (LvOf d) S ≃ Fin (∏ i ∈ S, d i) :=
  Equiv.ofBijective (fun w => ⟨subIdx d S w, subIdx_lt d S w⟩) (by
    rw [Fintype.bijective_iff_injective_and_card]
    refine ⟨fun _ _ e => subIdx_injective d S (Fin.mk.inj e), ?_⟩
    simp only [Fintype.card_pi, Fintype.card_fin]
    exact Finset.prod_coe_sort S d)

theorem onLines_eq (d : Fin n → Nat) (S : Finset (Fin n)) (A : Arr2 α) :
    onLines d S A.at' = (A.toM (∏ i ∈ S, d i)).submatrix (subIdxEquiv d S) (subIdxEquiv d S) := rfl

theorem toM_eq_of_idx (d : Fin n → Nat) (A : Arr2 α) (M : Matrix (Reg d) (Reg d) α)
    (h : ∀ x y, A.at' (idx d x) (idx d y) = M x y) :
    (A.toM (∏ i, d i)).submatrix (idxEquiv d) (idxEquiv d) = M := by
  ext x y; exact h x y

theorem submatrix_mem_unitary {ι κ : Type} [Fintype ι] [DecidableEq ι] [Fintype κ] [DecidableEq κ]
    [CommRing α] [StarRing α] (e : ι ≃ κ) (M : Matrix κ κ α) :
    M.submatrix e e ∈ Matrix.unitaryGroup ι α ↔ M ∈ Matrix.unitaryGroup κ α := by
  rw [Matrix.mem_unitaryGroup_iff, Matrix.mem_unitaryGroup_iff, Matrix.star_eq_conjTranspose,
    Matrix.star_eq_conjTranspose, Matrix.conjTranspose_submatrix, Matrix.submatrix_mul_equiv]
  constructor
  · intro h
    have := congrArg (fun N => N.submatrix e.symm e.symm) h
    simpa using this
  · intro h; rw [h]; simp

/-- the sorted list of target lines, as natural numbers -/
theorem insertionSort_val (ts : List (Fin n)) (hnd : ts.Nodup) :
    (ts.map Fin.val).insertionSort (· ≤ ·) = (ts.toFinset.sort).map Fin.val := by
  have hp : ((ts.map Fin.val).insertionSort (· ≤ ·)).Perm ((ts.toFinset.sort).map Fin.val) := by
    refine (List.perm_insertionSort _ _).trans ?_
    apply List.Perm.map
    rw [List.perm_ext_iff_of_nodup hnd (Finset.sort_nodup _ _)]
    intro a; simp
  refine hp.eq_of_pairwise (le := (· ≤ ·)) ?_ (List.pairwise_insertionSort _ _) ?_
  · intro a b _ _ h1 h2; exact Nat.le_antisymm h1 h2
  · rw [List.pairwise_map]
    exact (Finset.pairwise_sort ts.toFinset (· ≤ ·)).imp (fun h => h)

theorem sub_val_ofFn (f : Fin n → Nat) (l : List (Fin n)) :
    sub (l.map Fin.val) (List.ofFn f) = l.map f := by
  simp only [sub, List.map_map]
  apply List.map_congr_left
  intro i _
  simp only [Function.comp]
  rw [getD_ofFn f i.1 i.2]

end Qudits
