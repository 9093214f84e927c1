import Verif.Model.Visual
import Verif.Spec.VisualSpec
import Verif.Lemmas.Register
import Verif.Lemmas.GateArrays
/- Evaluation of `remap_result`. -/
namespace Qudits.Visual
open Spec

variable {n : Nat} {α : Type}

/-- image of a level list under per-line lists -/
def mapLv (ms : List (List Nat)) (ys : List Nat) : List Nat := List.zipWith (fun m y => m.getD y 0) ms ys

/-- lists of the right length whose entries are levels of the line -/
def Fits (ds : List Nat) (ms : List (List Nat)) : Prop :=
  List.Forall₂ (fun m d => m.length = d ∧ ∀ l ∈ m, l < d) ms ds

/-- the array moves the states of the lines `ds` by `ms` -/
structure Moves [Zero α] [One α] (ds : List Nat) (ms : List (List Nat)) (P : Arr2 α) : Prop where
  rows : P.rows = ds.prod
  cols : P.cols = ds.prod
  entry : ∀ xs ys, Levels ds xs → Levels ds ys →
    P.at' (index ds xs) (index ds ys) = if xs = mapLv ms ys then 1 else 0

theorem eyeCols_ok [Zero α] [One α] (d : Nat) (m : List Nat) (hm : m.length = d ∧ ∀ l ∈ m, l < d) :
    ∃ P : Arr2 α, eyeCols d m = .ok P ∧ P.rows = d ∧ P.cols = d ∧
      ∀ r c, r < d → c < d → P.at' r c = if r = m.getD c 0 then 1 else 0 := by
  refine ⟨_, if_pos hm.2, rfl, hm.1, ?_⟩
  intro r c _ hc
  simp only [List.getElem?_eq_getElem (hm.1 ▸ hc), List.getD_eq_getElem?_getD, Option.getD_some, Option.some.injEq]
  simp only [eq_comm]

theorem fold_ok [MulZeroOneClass α] (ds : List Nat) (ms : List (List Nat)) (h : Fits ds ms) :
    ∀ (pre : List Nat) (mpre : List (List Nat)) (P : Arr2 α), Fits pre mpre → Moves pre mpre P →
    ∃ Q : Arr2 α, (ms.zipIdx pre.length).foldlM (fun p mi => do
      let d ← dimAt (pre ++ ds) mi.2
      let q ← eyeCols d mi.1
      pure (p.kron q)) P = .ok Q ∧ Moves (pre ++ ds) (mpre ++ ms) Q := by
  unfold Fits at h
  induction h with
  | nil => intro pre mpre P _ hP; exact ⟨P, rfl, by simpa using hP⟩
  | @cons m d ms ds hm hms ih =>
    intro pre mpre P hpre hP
    obtain ⟨E, hE, er, ec, ee⟩ := eyeCols_ok (α := α) d m hm
    have hfit : Fits (pre ++ [d]) (mpre ++ [m]) := List.rel_append hpre (.cons hm .nil)
    have hmov : Moves (pre ++ [d]) (mpre ++ [m]) (P.kron E) := by
      refine ⟨by simp [Arr2.kron, hP.rows, er], by simp [Arr2.kron, hP.cols, ec], ?_⟩
      intro xs ys hx hy
      obtain ⟨x1, x2, rfl, hx1, hx2⟩ := Levels.split hx
      obtain ⟨y1, y2, rfl, hy1, hy2⟩ := Levels.split hy
      cases hx2 with
      | @cons a _ t _ ha ht =>
        cases ht
        cases hy2 with
        | @cons b _ t _ hb ht =>
          cases ht
          rw [index_append hx1.length, index_append hy1.length]
          have := kron_at P E (index pre x1) (index pre y1) a b (by rw [er]; exact ha) (by rw [ec]; exact hb)
          simp only [index, List.prod_cons, List.prod_nil, mul_one, Nat.add_zero]
          rw [er, ec] at this
          rw [this, hP.entry x1 y1 hx1 hy1, ee a b ha hb]
          have hl : mpre.length = y1.length := by rw [hy1.length]; exact List.Forall₂.length_eq hpre
          have hz : mapLv (mpre ++ [m]) (y1 ++ [b]) = mapLv mpre y1 ++ [m.getD b 0] := by
            unfold mapLv; rw [List.zipWith_append hl]; rfl
          have hl2 : x1.length = (mapLv mpre y1).length := by
            unfold mapLv; rw [List.length_zipWith, hl, hx1.length, hy1.length]; simp
          rw [hz]
          by_cases e1 : x1 = mapLv mpre y1
          · rw [if_pos e1, one_mul, ← e1]
            by_cases e2 : a = m.getD b 0
            · rw [if_pos e2, if_pos (by rw [e2])]
            · rw [if_neg e2, if_neg (fun h => e2 (by simpa using h))]
          · rw [if_neg e1, zero_mul, if_neg (fun h => e1 (List.append_inj h hl2).1)]
    obtain ⟨Q, h1, h2⟩ := ih (pre ++ [d]) (mpre ++ [m]) (P.kron E) hfit hmov
    refine ⟨Q, ?_, by simpa using h2⟩
    rw [List.zipIdx_cons, List.foldlM_cons]
    have hd : dimAt (pre ++ d :: ds) pre.length = .ok d := by simp [dimAt]
    simp only [hd, hE, bind, Except.bind, pure, Except.pure] at h1 ⊢
    have e : pre ++ [d] ++ ds = pre ++ d :: ds := by simp
    have el : (pre ++ [d]).length = pre.length + 1 := by simp
    rw [e, el] at h1
    exact h1

theorem permutation_ok [MulZeroOneClass α] (d : Nat) (ds : List Nat) (m : List Nat) (ms : List (List Nat))
    (h : Fits (d :: ds) (m :: ms)) :
    ∃ Q : Arr2 α, permutation (d :: ds) m ms = .ok Q ∧ Moves (d :: ds) (m :: ms) Q := by
  cases h with
  | cons hm hms =>
    obtain ⟨E, hE, er, ec, ee⟩ := eyeCols_ok (α := α) d m hm
    have hmov : Moves [d] [m] E := by
      refine ⟨by simp [er], by simp [ec], ?_⟩
      intro xs ys hx hy
      cases hx with
      | @cons a _ t _ ha ht =>
        cases ht
        cases hy with
        | @cons b _ t _ hb ht =>
          cases ht
          simp only [index, List.prod_nil, mul_one, Nat.add_zero, mapLv, List.zipWith_cons_cons, List.zipWith_nil_right,
            List.cons.injEq, and_true]
          exact ee a b ha hb
    obtain ⟨Q, h1, h2⟩ := fold_ok ds ms hms [d] [m] E (.cons hm .nil) hmov
    refine ⟨Q, ?_, h2⟩
    unfold permutation
    simp only [dimAt, List.getElem?_cons_zero, bind, Except.bind, hE]
    exact h1

theorem mapLv_ofFn (d : Fin n → Nat) (m : (i : Fin n) → Equiv.Perm (Fin (d i))) (x : Reg d) :
    mapLv (mappingLists d m) (List.ofFn fun i => (x i : Nat)) = List.ofFn fun i => (relabel d m x i : Nat) := by
  apply List.ext_getElem
  · simp [mapLv, mappingLists]
  · intro k h1 h2
    simp only [mapLv, mappingLists, List.getElem_zipWith, List.getElem_ofFn]
    rw [getD_ofFn _ _ (x _).2]
    rfl

theorem fits_mapping (d : Fin n → Nat) (m : (i : Fin n) → Equiv.Perm (Fin (d i))) :
    Fits (List.ofFn d) (mappingLists d m) := by
  unfold Fits
  rw [List.forall₂_iff_get]
  refine ⟨by simp [mappingLists], ?_⟩
  intro i h1 h2
  simp only [mappingLists, List.get_eq_getElem, List.getElem_ofFn, List.length_ofFn, true_and]
  intro l hl
  rw [List.mem_ofFn] at hl
  obtain ⟨k, rfl⟩ := hl
  exact (m _ k).2

theorem permutation_reg [MulZeroOneClass α] (d : Fin (n + 1) → Nat) (m : (i : Fin (n + 1)) → Equiv.Perm (Fin (d i))) :
    ∃ (m0 : List Nat) (ms : List (List Nat)) (Q : Arr2 α), mappingLists d m = m0 :: ms ∧
      permutation (List.ofFn d) m0 ms = .ok Q ∧ Q.rows = ∏ i, d i ∧ Q.cols = ∏ i, d i ∧
      ∀ x y, Q.at' (idx d x) (idx d y) = if x = relabel d m y then 1 else 0 := by
  have hf := fits_mapping d m
  have e1 : mappingLists d m = (List.ofFn fun k => (m 0 k : Nat)) :: List.ofFn fun i : Fin n =>
      List.ofFn fun k => (m i.succ k : Nat) := by rw [mappingLists, List.ofFn_succ]
  have e2 : List.ofFn d = d 0 :: List.ofFn fun i : Fin n => d i.succ := by rw [List.ofFn_succ]
  rw [e1, e2] at hf
  obtain ⟨Q, h1, h2⟩ := permutation_ok (α := α) _ _ _ _ hf
  rw [← e1, ← e2] at h2
  rw [← e2] at h1
  refine ⟨_, _, Q, e1, h1, by rw [h2.rows, List.prod_ofFn], by rw [h2.cols, List.prod_ofFn], ?_⟩
  intro x y
  unfold idx
  rw [h2.entry _ _ (levels_ofFn d x) (levels_ofFn d y), mapLv_ofFn]
  by_cases h : x = relabel d m y
  · rw [if_pos h, if_pos (by rw [h])]
  · rw [if_neg h, if_neg]
    intro e
    apply h
    have := List.ofFn_injective e
    funext i
    exact Fin.ext (congrFun this i)

/-- relabelling as a permutation of the basis states -/
def relabelEquiv (d : Fin n → Nat) (m : (i : Fin n) → Equiv.Perm (Fin (d i))) : Equiv.Perm (Reg d) where
  toFun := relabel d m
  invFun := relabel d fun i => (m i)⁻¹
  left_inv x := by funext i; simp [relabel]
  right_inv x := by funext i; simp [relabel]

theorem inv_reg [Field α] (d : Fin n → Nat) (m : (i : Fin n) → Equiv.Perm (Fin (d i))) (Q : Arr2 α)
    (hr : Q.rows = ∏ i, d i) (hc : Q.cols = ∏ i, d i)
    (he : ∀ x y, Q.at' (idx d x) (idx d y) = if x = relabel d m y then 1 else 0) :
    ∃ I : Arr2 α, inv Q = .ok I ∧ I.rows = ∏ i, d i ∧ I.cols = ∏ i, d i ∧
      ∀ x y, I.at' (idx d x) (idx d y) = if y = relabel d m x then 1 else 0 := by
  let N := ∏ i, d i
  let M : Matrix (Reg d) (Reg d) α := fun x y => if x = relabel d m y then 1 else 0
  let W : Matrix (Reg d) (Reg d) α := fun x y => if y = relabel d m x then 1 else 0
  have hWM : W * M = 1 := by
    ext x y
    rw [Matrix.mul_apply, Matrix.one_apply]
    simp only [W, M, ite_mul, one_mul, zero_mul]
    rw [Finset.sum_ite_eq' Finset.univ (relabel d m x), if_pos (Finset.mem_univ _)]
    by_cases h : x = y
    · rw [if_pos h, if_pos (by rw [h])]
    · rw [if_neg h, if_neg (fun e : relabel d m x = relabel d m y => h ((relabelEquiv d m).injective e))]
  have hQ : Q.toM N = M.submatrix (idxEquiv d).symm (idxEquiv d).symm := by
    have := toM_eq_of_idx d Q M he
    rw [← this, Matrix.submatrix_submatrix]
    simp [N]
  have hinv : (W.submatrix (idxEquiv d).symm (idxEquiv d).symm) * Q.toM N = 1 := by
    rw [hQ, Matrix.submatrix_mul_equiv, hWM, Matrix.submatrix_one_equiv]
  have hdet : (Q.toM N).det ≠ 0 := by
    intro h
    have := congrArg Matrix.det hinv
    rw [Matrix.det_mul, h, mul_zero, Matrix.det_one] at this
    exact zero_ne_one this
  have hI : (Q.toM N)⁻¹ = W.submatrix (idxEquiv d).symm (idxEquiv d).symm := Matrix.inv_eq_left_inv hinv
  obtain ⟨qr, qc, qa⟩ := Q
  simp only at hr hc
  subst hr
  unfold inv
  refine ⟨_, if_pos ⟨hc.symm, hdet⟩, rfl, rfl, ?_⟩
  intro x y
  have hx := idx_lt d x
  have hy := idx_lt d y
  simp only
  rw [dif_pos ⟨hx, hy⟩]
  have := congrFun (congrFun hI (idxEquiv d x)) (idxEquiv d y)
  rw [Matrix.submatrix_apply, Equiv.symm_apply_apply, Equiv.symm_apply_apply] at this
  exact this

theorem range_sum [AddCommMonoid α] (N : Nat) (f : Nat → α) : ((List.range N).map f).sum = ∑ k ∈ Finset.range N, f k := by
  induction N with
  | zero => simp
  | succ N ih => rw [List.range_succ, List.map_append, List.sum_append, ih, Finset.sum_range_succ]; simp

theorem remap_ok [Field α] (d : Fin (n + 1) → Nat) (m : (i : Fin (n + 1)) → Equiv.Perm (Fin (d i))) (v : List α)
    (hv : v.length = ∏ i, d i) :
    ∃ r, remapResult v (List.ofFn d) (some (mappingLists d m)) = .ok r ∧ r.length = ∏ i, d i ∧
      ∀ x, r[idx d (relabel d m x)]? = v[idx d x]? := by
  obtain ⟨m0, ms, Q, e, h1, hr, hc, he⟩ := permutation_reg (α := α) d m
  obtain ⟨I, i1, ir, ic, ie⟩ := inv_reg d m Q hr hc he
  refine ⟨(List.range I.cols).map fun c => ((List.range I.rows).map fun k => (v[k]?.getD 0) * I.at' k c).sum, ?_, ?_, ?_⟩
  · rw [e]
    simp only [remapResult, h1, i1, bind, Except.bind]
    exact if_pos (by rw [hv, ir])
  · simp [ic]
  · intro x
    rw [ic, ir, List.getElem?_map, List.getElem?_range (idx_lt d _), Option.map_some]
    have hx : idx d x < v.length := by rw [hv]; exact idx_lt d x
    rw [List.getElem?_eq_getElem hx]
    congr 1
    rw [range_sum, Finset.sum_range, ← (idxEquiv d).sum_comp, Finset.sum_eq_single x]
    · have := ie x (relabel d m x)
      rw [if_pos rfl] at this
      change (v[idx d x]?.getD 0) * I.at' (idx d x) (idx d (relabel d m x)) = _
      rw [this, mul_one, List.getElem?_eq_getElem hx, Option.getD_some]
    · intro y _ hy
      have := ie y (relabel d m x)
      rw [if_neg (fun e : relabel d m x = relabel d m y => hy ((relabelEquiv d m).injective e).symm)] at this
      change (v[idx d y]?.getD 0) * I.at' (idx d y) (idx d (relabel d m x)) = _
      rw [this, mul_zero]
    · intro h; exact absurd (Finset.mem_univ _) h

end Qudits.Visual
