import Verif.Lemmas.Expand
import Verif.Lemmas.Sud
import Verif.Lemmas.VarSplit
import Verif.Lemmas.Misim
import Verif.Spec.SimSpec

namespace Qudits
namespace Variational
open Spec Matrix

variable {n : Nat}

theorem ofFn_split {β : Type} (f : Fin n → β) (t : Fin n) :
    List.ofFn f = (List.ofFn f).take t ++ f t :: (List.ofFn f).drop (t + 1) := by
  have h : t.1 < (List.ofFn f).length := by simp
  conv_lhs => rw [← List.take_append_drop t.1 (List.ofFn f), List.drop_eq_getElem_cons h]
  simp

/-- `gate_expand_to_circuit` acts on the target line -/
theorem gateExpand_reg (d : Fin n → Nat) (t : Fin n) (gate : Arr2 ℂ) (hr : gate.rows = d t) (hc : gate.cols = d t) :
    ∃ A, gateExpand gate n t (List.ofFn d) = .ok A ∧ A.rows = ∏ i, d i ∧ A.cols = ∏ i, d i ∧
      ∀ x y, A.at' (idx d x) (idx d y) = embed1 (X := LvOf d) t (fun a b : Fin (d t) => gate.at' a b) x y := by
  obtain ⟨A, h1, h2, h3, h4⟩ := gateExpand_list gate ((List.ofFn d).take t) ((List.ofFn d).drop (t + 1)) (d t) hr hc
  rw [← ofFn_split d t] at h1 h2 h3 h4
  have hl : ((List.ofFn d).take t).length = t.1 := by
    rw [List.length_take, List.length_ofFn]; exact Nat.min_eq_left (le_of_lt t.2)
  rw [List.length_ofFn, hl] at h1
  rw [List.prod_ofFn] at h2 h3
  refine ⟨A, h1, h2, h3, ?_⟩
  intro x y
  have key : ∀ z : Reg d, Levels ((List.ofFn d).take t) ((List.ofFn fun i => (z i : Nat)).take t) ∧
      Levels ((List.ofFn d).drop (t + 1)) ((List.ofFn fun i => (z i : Nat)).drop (t + 1)) := by
    intro z
    have := levels_ofFn d z
    exact ⟨List.forall₂_take _ this, List.forall₂_drop _ this⟩
  have := h4 _ (x t) _ _ (y t) _ (key x).1 (x t).2 (key x).2 (key y).1 (y t).2 (key y).2
  rw [← ofFn_split (fun i => (x i : Nat)) t, ← ofFn_split (fun i => (y i : Nat)) t] at this
  unfold idx
  rw [this]
  unfold embed1
  have hiff : ((List.ofFn fun i => (x i : Nat)).take t = (List.ofFn fun i => (y i : Nat)).take t ∧
      (List.ofFn fun i => (x i : Nat)).drop (t + 1) = (List.ofFn fun i => (y i : Nat)).drop (t + 1)) ↔
      ∀ i, i ≠ t → x i = y i := by
    constructor
    · rintro ⟨e1, e2⟩ i hi
      have hne : i.1 ≠ t.1 := fun e => hi (Fin.ext e)
      rcases Nat.lt_or_gt_of_ne hne with hlt | hgt
      · have := congrArg (fun l => l[i.1]?) e1
        simp only [List.getElem?_take, if_pos hlt, List.getElem?_ofFn, i.2, dif_pos, Option.some.injEq] at this
        exact Fin.ext this
      · have := congrArg (fun l => l[i.1 - (t.1 + 1)]?) e2
        simp only [List.getElem?_drop] at this
        rw [show t.1 + 1 + (i.1 - (t.1 + 1)) = i.1 by omega] at this
        simp only [List.getElem?_ofFn, i.2, dif_pos, Option.some.injEq] at this
        exact Fin.ext this
    · intro h
      constructor
      · apply List.ext_getElem?
        intro k
        simp only [List.getElem?_take, List.getElem?_ofFn]
        by_cases hk : k < t.1
        · rw [if_pos hk, if_pos hk]
          by_cases hkn : k < n
          · rw [dif_pos hkn, dif_pos hkn, h ⟨k, hkn⟩ (fun e => by rw [Fin.ext_iff] at e; simp only at e; omega)]
          · rw [dif_neg hkn, dif_neg hkn]
        · rw [if_neg hk, if_neg hk]
      · apply List.ext_getElem?
        intro k
        simp only [List.getElem?_drop, List.getElem?_ofFn]
        by_cases hkn : t.1 + 1 + k < n
        · rw [dif_pos hkn, dif_pos hkn, h ⟨_, hkn⟩ (fun e => by rw [Fin.ext_iff] at e; simp only at e; omega)]
        · rw [dif_neg hkn, dif_neg hkn]
  by_cases hx : ∀ i, i ≠ t → x i = y i
  · rw [if_pos (hiff.2 hx), if_pos hx]
  · rw [if_neg (fun e => hx (hiff.1 e)), if_neg hx]

/-- the operator whose entries are in the array -/
def regM (d : Fin n → Nat) (A : Arr2 ℂ) : Matrix (Reg d) (Reg d) ℂ := fun x y => A.at' (idx d x) (idx d y)

theorem regM_eq (d : Fin n → Nat) (A : Arr2 ℂ) :
    regM d A = (A.toM (∏ i, d i)).submatrix (idxEquiv d) (idxEquiv d) := rfl

theorem matmul_reg (d : Fin n → Nat) (a b : Arr2 ℂ) (h1 : a.rows = ∏ i, d i) (h2 : a.cols = ∏ i, d i)
    (h3 : b.rows = ∏ i, d i) (h4 : b.cols = ∏ i, d i) :
    ∃ A, a.matmul b = .ok A ∧ A.rows = ∏ i, d i ∧ A.cols = ∏ i, d i ∧ regM d A = regM d a * regM d b := by
  obtain ⟨A, e1, e2, e3, e4⟩ := matmul_ok a b (∏ i, d i) h1 h2 h3 h4
  refine ⟨A, e1, e2, e3, ?_⟩
  rw [regM_eq, e4, regM_eq, regM_eq, Matrix.submatrix_mul_equiv]

/-- operator of one local unitary -/
noncomputable def localOp (d : Fin 2 → Nat) (k : Nat) (p : List ℝ) : Matrix (Reg d) (Reg d) ℂ :=
  if k = 0 then embed1 (X := LvOf d) 0 (sudMatrix (d 0) fun r c => p.getD (r * d 0 + c) 0)
  else embed1 (X := LvOf d) 1 (sudMatrix (d 1) fun r c => p.getD (r * d 1 + c) 0)

/-- the operators of the ansatz in order -/
noncomputable def opsFrom (d : Fin 2 → Nat) (U : Matrix (Reg d) (Reg d) ℂ) : Nat → List (List ℝ) → List (Matrix (Reg d) (Reg d) ℂ)
  | _, [] => []
  | k, p :: ps => if k = 2 then U :: localOp d 0 p :: opsFrom d U 1 ps else localOp d k p :: opsFrom d U (k + 1) ps

/-- the chunks have the right lengths, beginning with line `k` -/
def GoodChunks (d : Fin 2 → Nat) : Nat → List (List ℝ) → Prop
  | _, [] => True
  | k, p :: ps =>
    if k = 2 then (d 0) ^ 2 - 1 ≤ p.length ∧ GoodChunks d 1 ps
    else (if k = 0 then (d 0) ^ 2 - 1 ≤ p.length else (d 1) ^ 2 - 1 ≤ p.length) ∧ GoodChunks d (k + 1) ps

theorem init_single (dims : List Nat) (name : String) (q : Int) :
    Gate.init dims name .single (.one q) none = .ok ⟨dims, name, .single, .one q, none, false, false⟩ := rfl

theorem init_pair (dims : List Nat) (name : String) :
    Gate.init dims name .two (.many [0, 1]) none = .ok ⟨dims, name, .two, .many [0, 1], none, false, false⟩ := by
  have : ([0, 1] : List Int).insertionSort (· ≤ ·) = [0, 1] := by decide
  simp [Gate.init, Gate.checkLongRange, Gate.referenceLines, Gate.controlLines, Target.lines, bind, Except.bind, pure, Except.pure,
    Gate.anyGap]

theorem custom_op (d : Fin n → Nat) (t : Fin n) (m : Arr2 ℂ) (hr : m.rows = d t) (hc : m.cols = d t) (nm : String) :
    HasOperator d ⟨List.ofFn d, nm, .single, .one ((t : Nat) : Int), none, false, false⟩ m
      (embed1 (X := LvOf d) t (fun a b : Fin (d t) => m.at' a b)) := by
  obtain ⟨A, h1, h2, h3, h4⟩ := embed_full d ⟨List.ofFn d, nm, .single, .one ((t : Nat) : Int), none, false, false⟩ [t] m rfl rfl rfl
    (by simp) (by simp) (by simpa using hr) (by simpa using hc)
  refine ⟨A, h1, h2, h3, fun x y => ?_⟩
  rw [h4]
  simp only [Bool.false_eq_true, if_false]
  exact congrFun (congrFun (DD.embed_single d t m) x) y

theorem local_ok (d : Fin 2 → Nat) (k : Nat) (hk : k < 2) (p : List ℝ)
    (hp : if k = 0 then (d 0) ^ 2 - 1 ≤ p.length else (d 1) ^ 2 - 1 ≤ p.length) :
    ∃ dk s e g, dimAt [d 0, d 1] k = .ok dk ∧ genericSud p dk = .ok s ∧ gateExpand s 2 k [d 0, d 1] = .ok e ∧
      e.rows = ∏ i, d i ∧ e.cols = ∏ i, d i ∧ regM d e = localOp d k p ∧
      customOne [d 0, d 1] k s = .ok g ∧ HasOperator d g.gate g.arr (localOp d k p) := by
  have hof : List.ofFn d = [d 0, d 1] := by simp
  have main : ∀ t : Fin 2, (d t) ^ 2 - 1 ≤ p.length →
      ∃ s e g, genericSud p (d t) = .ok s ∧ gateExpand s 2 t [d 0, d 1] = .ok e ∧
      e.rows = ∏ i, d i ∧ e.cols = ∏ i, d i ∧
      regM d e = embed1 (X := LvOf d) t (sudMatrix (d t) fun r c => p.getD (r * d t + c) 0) ∧
      customOne [d 0, d 1] t s = .ok g ∧
      HasOperator d g.gate g.arr (embed1 (X := LvOf d) t (sudMatrix (d t) fun r c => p.getD (r * d t + c) 0)) := by
    intro t ht
    obtain ⟨s, s1, s2, s3, s4⟩ := genericSud_ok p (d t) ht
    obtain ⟨e, e1, e2, e3, e4⟩ := gateExpand_reg d t s s2 s3
    rw [hof] at e1
    refine ⟨s, e, ⟨⟨[d 0, d 1], "CUo_SUD", .single, .one ((t : Nat) : Int), none, false, false⟩, s⟩, s1, e1, e2, e3, ?_, ?_, ?_⟩
    · ext x y
      rw [regM, e4, ← s4]; rfl
    · unfold customOne
      rw [init_single]; rfl
    · have := custom_op d t s s2 s3 "CUo_SUD"
      rw [hof] at this
      rw [← s4]
      exact this
  match k, hk with
  | 0, _ =>
    obtain ⟨s, e, g, h1, h2, h3, h4, h5, h6, h7⟩ := main 0 hp
    exact ⟨d 0, s, e, g, rfl, h1, h2, h3, h4, h5, h6, h7⟩
  | 1, _ =>
    obtain ⟨s, e, g, h1, h2, h3, h4, h5, h6, h7⟩ := main 1 hp
    exact ⟨d 1, s, e, g, rfl, h1, h2, h3, h4, h5, h6, h7⟩

/-- both loops side by side -/
theorem ansatz_loops (d : Fin 2 → Nat) (u : AGate) (U : Matrix (Reg d) (Reg d) ℂ) (hr : u.arr.rows = ∏ i, d i)
    (hc : u.arr.cols = ∏ i, d i) (hU : regM d u.arr = U) (hop : HasOperator d u.gate u.arr U) (chunks : List (List ℝ)) :
    ∀ (k : Nat), k ≤ 2 → GoodChunks d k chunks → ∀ (c : Arr2 ℂ) (l : List AGate) (Ms : List (Matrix (Reg d) (Reg d) ℂ)),
      c.rows = ∏ i, d i → c.cols = ∏ i, d i → List.Forall₂ (fun (g : AGate) M => HasOperator d g.gate g.arr M) l Ms →
      regM d c = Ms.prod →
      ∃ k' A gates, chunks.foldlM (ansatzStep (some u.arr) [d 0, d 1]) (k, c) = .ok (k', A) ∧
        chunks.foldlM (decomposeStep [d 0, d 1] u [d 0, d 1]) (k, l) = .ok (k', gates) ∧
        A.rows = ∏ i, d i ∧ A.cols = ∏ i, d i ∧
        List.Forall₂ (fun (g : AGate) M => HasOperator d g.gate g.arr M) gates (Ms ++ opsFrom d U k chunks) ∧
        regM d A = (Ms ++ opsFrom d U k chunks).prod := by
  induction chunks with
  | nil =>
    intro k _ _ c l Ms h1 h2 h3 h4
    refine ⟨k, c, l, rfl, rfl, h1, h2, ?_, ?_⟩
    · simpa [opsFrom] using h3
    · simpa [opsFrom] using h4
  | cons p ps ih =>
    intro k hk hg c l Ms h1 h2 h3 h4
    by_cases hk2 : k = 2
    · subst hk2
      simp only [GoodChunks, if_true] at hg
      obtain ⟨dk, s, e, g, e1, e2, e3, e4, e5, e6, e7, e8⟩ := local_ok d 0 (by omega) p (by simpa using hg.1)
      obtain ⟨c1, m1, m2, m3, m4⟩ := matmul_reg d c u.arr h1 h2 hr hc
      obtain ⟨c2, m5, m6, m7, m8⟩ := matmul_reg d c1 e m2 m3 e4 e5
      obtain ⟨k', A, gates, r1, r2, r3, r4, r5, r6⟩ := ih 1 (by omega) hg.2 c2 (l ++ [u] ++ [g]) (Ms ++ [U] ++ [localOp d 0 p]) m6 m7
        (List.rel_append (List.rel_append h3 (.cons hop .nil)) (.cons e8 .nil))
        (by rw [m8, m4, h4, hU, e6]; simp [Matrix.mul_assoc])
      have hs1 : ansatzStep (some u.arr) [d 0, d 1] (2, c) p = .ok (1, c2) := by
        unfold ansatzStep
        simp only [if_true, timesPrim, m1, bind, Except.bind, pure, Except.pure, e1, e2, e3, m5, Nat.zero_add]
      have hs2 : decomposeStep [d 0, d 1] u [d 0, d 1] (2, l) p = .ok (1, l ++ [u] ++ [g]) := by
        unfold decomposeStep
        simp only [if_true, bind, Except.bind, pure, Except.pure, e1, e2, e7, Nat.zero_add]
      refine ⟨k', A, gates, ?_, ?_, r3, r4, ?_, ?_⟩
      · rw [List.foldlM_cons, hs1]; exact r1
      · rw [List.foldlM_cons, hs2]; exact r2
      · simpa [opsFrom, List.append_assoc] using r5
      · simpa [opsFrom, List.append_assoc] using r6
    · simp only [GoodChunks, if_neg hk2] at hg
      obtain ⟨dk, s, e, g, e1, e2, e3, e4, e5, e6, e7, e8⟩ := local_ok d k (by omega) p hg.1
      obtain ⟨c2, m5, m6, m7, m8⟩ := matmul_reg d c e h1 h2 e4 e5
      obtain ⟨k', A, gates, r1, r2, r3, r4, r5, r6⟩ := ih (k + 1) (by omega) hg.2 c2 (l ++ [g]) (Ms ++ [localOp d k p]) m6 m7
        (List.rel_append h3 (.cons e8 .nil)) (by rw [m8, h4, e6]; simp)
      have hs1 : ansatzStep (some u.arr) [d 0, d 1] (k, c) p = .ok (k + 1, c2) := by
        unfold ansatzStep
        simp only [if_neg hk2, bind, Except.bind, pure, Except.pure, e1, e2, e3, m5]
      have hs2 : decomposeStep [d 0, d 1] u [d 0, d 1] (k, l) p = .ok (k + 1, l ++ [g]) := by
        unfold decomposeStep
        simp only [if_neg hk2, bind, Except.bind, pure, Except.pure, e1, e2, e7]
      refine ⟨k', A, gates, ?_, ?_, r3, r4, ?_, ?_⟩
      · rw [List.foldlM_cons, hs1]; exact r1
      · rw [List.foldlM_cons, hs2]; exact r2
      · simpa [opsFrom, hk2, List.append_assoc] using r5
      · simpa [opsFrom, hk2, List.append_assoc] using r6

theorem start_ok (d : Fin 2 → Nat) :
    ∃ e, gateExpand (Arr2.identity (d 0)) 2 0 [d 0, d 1] = .ok e ∧ e.rows = ∏ i, d i ∧ e.cols = ∏ i, d i ∧ regM d e = 1 := by
  have hof : List.ofFn d = [d 0, d 1] := by simp
  obtain ⟨e, e1, e2, e3, e4⟩ := gateExpand_reg d 0 (Arr2.identity (d 0)) rfl rfl
  rw [hof] at e1
  refine ⟨e, e1, e2, e3, ?_⟩
  ext x y
  rw [regM, e4]
  have : (fun a b : Fin (d 0) => (Arr2.identity (d 0) : Arr2 ℂ).at' a b) = (1 : Matrix (Fin (d 0)) (Fin (d 0)) ℂ) :=
    identity_toM (d 0)
  rw [this]
  simp only [embed1, Matrix.one_apply]
  by_cases h : x = y
  · subst h; simp
  · rw [if_neg h]
    split_ifs with h1 h2
    · exfalso
      apply h
      funext i
      by_cases hi : i = 0
      · subst hi; exact h2
      · exact h1 i hi
    · rfl
    · rfl

theorem good_of_lengths (d : Fin 2 → Nat) (k : Nat) : ∀ (chunks : List (List ℝ)),
    chunks.map List.length = (List.replicate k [(d 0) ^ 2 - 1, (d 1) ^ 2 - 1]).flatten →
    GoodChunks d 0 chunks ∧ GoodChunks d 2 chunks := by
  induction k with
  | zero =>
    intro chunks h
    have : chunks = [] := by simpa using h
    subst this
    exact ⟨trivial, trivial⟩
  | succ k ih =>
    intro chunks h
    rw [List.replicate_succ, List.flatten_cons] at h
    match chunks, h with
    | [], h => simp at h
    | [_], h => simp at h
    | p :: q :: ps, h =>
      simp only [List.map_cons, List.cons_append, List.nil_append, List.cons.injEq] at h
      have := (ih ps h.2.2).2
      constructor
      · simp only [GoodChunks, if_true, OfNat.zero_ne_ofNat, if_false, Nat.zero_add, Nat.reduceAdd, OfNat.one_ne_ofNat,
          Nat.one_ne_zero]
        exact ⟨le_of_eq h.1.symm, le_of_eq h.2.1.symm, this⟩
      · simp only [GoodChunks, if_true, if_false, Nat.reduceAdd, OfNat.one_ne_ofNat, Nat.one_ne_zero]
        exact ⟨le_of_eq h.1.symm, le_of_eq h.2.1.symm, this⟩

end Variational
end Qudits
