import Verif.Model.Variational
import Mathlib.Data.List.Induction
import Mathlib.Data.Nat.Log
import Mathlib.Tactic.Ring
import Mathlib.Tactic.Linarith

namespace Qudits
namespace Variational

/-! ### chunks -/

theorem slice_shift {β : Type} (l : List β) (a i j : Nat) : slice (l.drop a) i j = slice l (a + i) (a + j) := by
  unfold slice
  rw [List.take_drop, List.drop_drop]

/-- the chunks of the code, computed from the front -/
theorem chunks_succ {β : Type} (l : List β) (n m k : Nat) :
    ((List.range (k + 1)).flatMap fun i =>
      [slice l (i * (n + m)) (i * (n + m) + n), slice l (i * (n + m) + n) (i * (n + m) + (n + m))]) =
    l.take n :: (l.drop n).take m :: ((List.range k).flatMap fun i =>
      [slice (l.drop (n + m)) (i * (n + m)) (i * (n + m) + n),
        slice (l.drop (n + m)) (i * (n + m) + n) (i * (n + m) + (n + m))]) := by
  rw [List.range_succ_eq_map, List.flatMap_cons, List.flatMap_map]
  have h1 : slice l (0 * (n + m)) (0 * (n + m) + n) = l.take n := by simp [slice]
  have h2 : slice l (0 * (n + m) + n) (0 * (n + m) + (n + m)) = (l.drop n).take m := by
    simp only [slice, Nat.zero_mul, Nat.zero_add]
    rw [List.take_drop]
  rw [h1, h2]
  simp only [List.cons_append, List.nil_append, List.cons.injEq, true_and]
  congr 1
  funext i
  rw [slice_shift, slice_shift]
  have e1 : (i.succ) * (n + m) = (n + m) + i * (n + m) := by rw [Nat.succ_mul, Nat.add_comm]
  rw [e1]
  simp only [Nat.add_assoc]

theorem chunks_spec {β : Type} (n m k : Nat) (l : List β) (h : l.length = k * (n + m)) :
    let cs := (List.range k).flatMap fun i =>
      [slice l (i * (n + m)) (i * (n + m) + n), slice l (i * (n + m) + n) (i * (n + m) + (n + m))]
    cs.flatten = l ∧ cs.map List.length = (List.replicate k [n, m]).flatten := by
  induction k generalizing l with
  | zero =>
    have : l = [] := List.length_eq_zero_iff.1 (by rw [h, Nat.zero_mul])
    subst this; exact ⟨rfl, rfl⟩
  | succ k ih =>
    have hl : (l.drop (n + m)).length = k * (n + m) := by
      rw [List.length_drop, h, Nat.succ_mul]; omega
    obtain ⟨h1, h2⟩ := ih (l.drop (n + m)) hl
    intro cs
    have hcs : cs = _ := chunks_succ l n m k
    rw [hcs]
    constructor
    · rw [List.flatten_cons, List.flatten_cons, h1, ← List.append_assoc]
      rw [show l.drop (n + m) = (l.drop n).drop m by rw [List.drop_drop], List.append_assoc,
        List.take_append_drop, List.take_append_drop]
    · rw [List.map_cons, List.map_cons, h2, List.replicate_succ, List.flatten_cons]
      have : n + m ≤ l.length := by rw [h, Nat.succ_mul]; omega
      rw [List.length_take, List.length_take, List.length_drop]
      rw [Nat.min_eq_left (by omega), Nat.min_eq_left (by omega)]
      rfl

/-- a list of lists is determined by its concatenation and its lengths -/
theorem flatten_inj {β : Type} (a b : List (List β)) (h : a.flatten = b.flatten)
    (hl : a.map List.length = b.map List.length) : a = b := by
  induction a generalizing b with
  | nil => cases b with
    | nil => rfl
    | cons y b => simp at hl
  | cons x a ih =>
    cases b with
    | nil => simp at hl
    | cons y b =>
      rw [List.map_cons, List.map_cons, List.cons.injEq] at hl
      rw [List.flatten_cons, List.flatten_cons] at h
      obtain ⟨h1, h2⟩ := List.append_inj h hl.1
      rw [h1, ih b h2 hl.2]

theorem lengths_flatten (k n m : Nat) : ((List.replicate k [n, m]).flatten).sum = k * (n + m) := by
  induction k with
  | zero => simp
  | succ k ih =>
    rw [List.replicate_succ, List.flatten_cons, List.sum_append, ih, Nat.succ_mul]
    simp only [List.sum_cons, List.sum_nil]; omega

/-! ### bounds -/

/-- the bound of the parameter in row `m` and column `n` -/
def kind {β : Type} (b1 b2 b3 : β) (m n : Nat) : β := if m = n then b3 else if m > n then b1 else b2

theorem boundStep_eq {β : Type} (b1 b2 b3 : β) (d m : Nat) (l : List β) (n : Nat) :
    boundStep b1 b2 b3 d m l n = assign l (m * d + n) (kind b1 b2 b3 m n) := by
  unfold boundStep kind reindex
  split_ifs <;> rfl

theorem inner_bounds {β : Type} (b1 b2 b3 : β) (d m k : Nat) (l : List β) (hl : m * d + k ≤ l.length) :
    ∃ l', (List.range k).foldlM (boundStep b1 b2 b3 d m) l = .ok l' ∧ l'.length = l.length ∧
      ∀ i, l'[i]? = if m * d ≤ i ∧ i < m * d + k then some (kind b1 b2 b3 m (i - m * d)) else l[i]? := by
  induction k with
  | zero =>
    refine ⟨l, rfl, rfl, fun i => ?_⟩
    rw [if_neg (by omega)]
  | succ k ih =>
    obtain ⟨l', h1, h2, h3⟩ := ih (by omega)
    refine ⟨l'.set (m * d + k) (kind b1 b2 b3 m k), ?_, by rw [List.length_set, h2], ?_⟩
    · rw [List.range_succ, List.foldlM_append, h1]
      simp only [bind, Except.bind, List.foldlM_cons, List.foldlM_nil, boundStep_eq, assign, pure, Except.pure]
      rw [if_pos (by omega)]
    · intro i
      rw [List.getElem?_set]
      by_cases hi : m * d + k = i
      · subst hi
        rw [if_pos rfl, if_pos (by omega), if_pos (by omega)]
        congr 2; omega
      · rw [if_neg hi, h3]
        by_cases hc : m * d ≤ i ∧ i < m * d + k
        · rw [if_pos hc, if_pos (by omega)]
        · rw [if_neg hc, if_neg (by omega)]

theorem outer_bounds {β : Type} (b1 b2 b3 : β) (d k : Nat) (l : List β) (hl : k * d ≤ l.length) :
    ∃ l', (List.range k).foldlM (fun l m => (List.range d).foldlM (boundStep b1 b2 b3 d m) l) l = .ok l' ∧
      l'.length = l.length ∧
      ∀ i, l'[i]? = if i < k * d then some (kind b1 b2 b3 (i / d) (i % d)) else l[i]? := by
  induction k with
  | zero =>
    refine ⟨l, rfl, rfl, fun i => ?_⟩
    rw [if_neg (by omega)]
  | succ k ih =>
    rw [Nat.succ_mul] at hl
    obtain ⟨l', h1, h2, h3⟩ := ih (by omega)
    obtain ⟨l'', g1, g2, g3⟩ := inner_bounds b1 b2 b3 d k d l' (by omega)
    refine ⟨l'', ?_, by rw [g2, h2], ?_⟩
    · rw [List.range_succ, List.foldlM_append, h1]
      simp only [bind, Except.bind, List.foldlM_cons, List.foldlM_nil, g1, pure, Except.pure]
    · intro i
      rw [g3, h3, Nat.succ_mul]
      by_cases hc : k * d ≤ i ∧ i < k * d + d
      · rw [if_pos hc, if_pos (by omega)]
        have hd : 0 < d := by omega
        have e1 : i / d = k := by
          rw [Nat.div_eq_iff hd]; constructor
          · exact hc.1
          · have := hc.2; omega
        have e2 : i % d = i - k * d := by
          have := Nat.div_add_mod i d
          rw [e1, Nat.mul_comm] at this; omega
        rw [e1, e2]
      · rw [if_neg hc]
        by_cases hi : i < k * d
        · rw [if_pos hi, if_pos (by omega)]
        · rw [if_neg hi, if_neg (by omega)]

theorem boundsAssigner_ok {β : Type} (zero b1 b2 b3 : β) (d : Nat) (hd : 0 < d) :
    boundsAssigner zero b1 b2 b3 (d ^ 2 - 1) d =
      .ok ((List.range (d ^ 2 - 1)).map fun i => kind b1 b2 b3 (i / d) (i % d)) := by
  have hp : 0 < d ^ 2 := Nat.pow_pos hd
  obtain ⟨l, h1, h2, h3⟩ := outer_bounds b1 b2 b3 d d (List.replicate (d ^ 2 - 1 + 1) zero)
    (by rw [List.length_replicate, ← Nat.pow_two]; omega)
  unfold boundsAssigner
  rw [h1]
  simp only [bind, Except.bind, pure, Except.pure]
  congr 1
  apply List.ext_getElem?
  intro i
  rw [List.getElem?_dropLast, h2, List.length_replicate, h3, List.getElem?_map]
  by_cases hi : i < d ^ 2 - 1
  · rw [if_pos (by omega), if_pos (by rw [← Nat.pow_two]; omega), List.getElem?_range hi]; rfl
  · rw [if_neg (by omega), List.getElem?_eq_none (by rw [List.length_range]; omega)]; rfl

theorem foldl_two {β : Type} (a b : List β) (k : Nat) (s : List β) :
    (List.range k).foldl (fun acc _ => acc ++ a ++ b) s = s ++ (List.replicate k (a ++ b)).flatten := by
  induction k generalizing s with
  | zero => simp
  | succ k ih =>
    rw [List.range_succ, List.foldl_append, ih, List.foldl_cons, List.foldl_nil, List.replicate_succ',
      List.flatten_append]
    simp [List.append_assoc]

/-! ### binary search -/

theorem searchLoop_counter {β : Type} (run : Nat → ℝ × β) (tol : ℝ) (N : Nat) :
    ∀ (low high : Int) (best : Nat × WithTop ℝ × β) (c : Nat), (high + 1 - low).toNat < 2 ^ N →
      (searchLoop run tol low high best c).2 ≤ c + N := by
  induction N with
  | zero =>
    intro low high best c h
    unfold searchLoop
    rw [dif_neg (by omega)]; simp
  | succ N ih =>
    intro low high best c h
    unfold searchLoop
    by_cases hlh : low ≤ high
    · rw [dif_pos hlh]
      simp only
      have hp : (2 : Nat) ^ (N + 1) = 2 * 2 ^ N := by rw [pow_succ]; ring
      split_ifs
      · refine le_trans (ih _ _ _ _ ?_) (by omega)
        omega
      · refine le_trans (ih _ _ _ _ ?_) (by omega)
        omega
    · rw [dif_neg hlh]; simp

/-- What the loop returns: the old state if every probe failed, else a probe that succeeded. -/
theorem searchLoop_sound {β : Type} (run : Nat → ℝ × β) (tol : ℝ) (low high : Int) (best : Nat × WithTop ℝ × β) (c : Nat)
    (h0 : 0 ≤ low) :
    (searchLoop run tol low high best c).1 = best ∨
    ∃ k : Nat, low ≤ k ∧ (k : Int) ≤ high ∧ (run k).1 ≤ tol ∧
      (searchLoop run tol low high best c).1 = (k, (((run k).1 : ℝ) : WithTop ℝ), (run k).2) := by
  induction low, high, best, c using searchLoop.induct (run := run) (tol := tol) with
  | case1 low high best c hlh mid r hgt ih =>
    unfold searchLoop
    rw [dif_pos hlh]
    simp only
    rw [if_pos hgt]
    rcases ih (by omega) with h | ⟨k, h1, h2, h3, h4⟩
    · exact .inl h
    · exact .inr ⟨k, by omega, h2, h3, h4⟩
  | case2 low high best c hlh mid r hle ih =>
    unfold searchLoop
    rw [dif_pos hlh]
    simp only
    rw [if_neg hle]
    right
    rcases ih h0 with h | ⟨k, h1, h2, h3, h4⟩
    · exact ⟨mid.toNat, by omega, by omega, not_lt.1 hle, h⟩
    · exact ⟨k, h1, by omega, h3, h4⟩
  | case3 low high best c hlh =>
    unfold searchLoop
    rw [dif_neg hlh]
    exact .inl rfl

theorem searchLoop_least {β : Type} (run : Nat → ℝ × β) (tol : ℝ)
    (hmono : ∀ i j : Nat, i ≤ j → (run i).1 ≤ tol → (run j).1 ≤ tol) (low high : Int)
    (best : Nat × WithTop ℝ × β) (c : Nat) (k : Nat) (h0 : 0 ≤ low) (hk : (run k).1 ≤ tol)
    (hleast : ∀ j < k, tol < (run j).1) (h1 : low ≤ k) (h2 : (k : Int) ≤ high) :
    (searchLoop run tol low high best c).1 = (k, (((run k).1 : ℝ) : WithTop ℝ), (run k).2) := by
  induction low, high, best, c using searchLoop.induct (run := run) (tol := tol) with
  | case1 low high best c hlh mid r hgt ih =>
    unfold searchLoop
    rw [dif_pos hlh]
    simp only
    rw [if_pos hgt]
    refine ih (by omega) ?_ h2
    by_contra hcon
    have : k ≤ mid.toNat := by omega
    exact absurd (hmono _ _ this hk) (not_le.2 hgt)
  | case2 low high best c hlh mid r hle ih =>
    unfold searchLoop
    rw [dif_pos hlh]
    simp only
    rw [if_neg hle]
    by_cases hkm : (k : Int) ≤ mid - 1
    · exact ih h0 h1 hkm
    · have hmk : mid.toNat = k := by
        by_contra hne
        have hlt : k < mid.toNat ∨ mid.toNat < k := by omega
        rcases hlt with hlt | hlt
        · omega
        · exact hle (hleast _ hlt)
      rcases searchLoop_sound run tol low (mid - 1) (mid.toNat, ((r.1 : ℝ) : WithTop ℝ), r.2) (c + 1) h0 with h | ⟨j, a1, a2, a3, a4⟩
      · rw [show searchLoop run tol low (low + (high - low) / 2 - 1) _ (c + 1) = searchLoop run tol low (mid - 1) (mid.toNat, ((r.1 : ℝ) : WithTop ℝ), r.2) (c + 1) from rfl, h]
        have : r = run k := by rw [← hmk]
        rw [this, hmk]
      · have : j < k := by omega
        exact absurd a3 (not_le.2 (hleast j this))
  | case3 low high best c hlh => omega

end Variational
end Qudits
