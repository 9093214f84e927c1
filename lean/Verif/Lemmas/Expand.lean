import Verif.Model.Variational
import Verif.Lemmas.RegisterEmbed
import Verif.Lemmas.GateArrays

namespace Qudits
namespace Variational
open Spec

/-- Kronecker product of a list, from the left -/
noncomputable def kronR : List (Arr2 ℂ) → Arr2 ℂ
  | [] => Arr2.identity 1
  | [a] => a
  | a :: b :: l => a.kron (kronR (b :: l))

theorem foldl_kron (l : List (Arr2 ℂ)) (a : Arr2 ℂ) :
    ∃ last rest, (a :: l).reverse = last :: rest ∧ rest.foldl (fun res g => g.kron res) last = kronR (a :: l) := by
  induction l generalizing a with
  | nil => exact ⟨a, [], rfl, rfl⟩
  | cons b l ih =>
    obtain ⟨last, rest, h1, h2⟩ := ih b
    refine ⟨last, rest ++ [a], ?_, ?_⟩
    · rw [List.reverse_cons, h1]; rfl
    · rw [List.foldl_append, h2]; rfl

/-- square arrays of the given sizes -/
def Sizes (dims : List Nat) (l : List (Arr2 ℂ)) : Prop := List.Forall₂ (fun a d => a.rows = d ∧ a.cols = d) l dims

theorem kronR_shape {dims : List Nat} {l : List (Arr2 ℂ)} (h : Sizes dims l) :
    (kronR l).rows = dims.prod ∧ (kronR l).cols = dims.prod := by
  induction h with
  | nil => exact ⟨rfl, rfl⟩
  | @cons a d l ds ha ht ih =>
    cases ht with
    | nil => simp [kronR, ha.1, ha.2]
    | cons hb ht =>
      simp only [kronR, Arr2.kron]
      rw [ih.1, ih.2, ha.1, ha.2]
      simp

/-- product of the entries -/
def entryProd : List (Arr2 ℂ) → List Nat → List Nat → ℂ
  | a :: l, x :: xs, y :: ys => a.at' x y * entryProd l xs ys
  | _, _, _ => 1

theorem kronR_at {dims : List Nat} {l : List (Arr2 ℂ)} (h : Sizes dims l) (hne : l ≠ []) :
    ∀ {xs ys : List Nat}, Levels dims xs → Levels dims ys →
      (kronR l).at' (index dims xs) (index dims ys) = entryProd l xs ys := by
  induction h with
  | nil => exact absurd rfl hne
  | @cons a d l ds ha ht ih =>
    intro xs ys hx hy
    cases hx with
    | @cons x _ xs _ hx hxs =>
    cases hy with
    | @cons y _ ys _ hy hys =>
    cases ht with
    | nil =>
      cases hxs; cases hys
      simp [kronR, entryProd, index]
    | @cons b d' l ds hb ht =>
      have hs : Sizes (d' :: ds) (b :: l) := .cons hb ht
      have hsh := kronR_shape hs
      have := kron_at a (kronR (b :: l)) x y (index (d' :: ds) xs) (index (d' :: ds) ys)
        (by rw [hsh.1]; exact index_lt hxs) (by rw [hsh.2]; exact index_lt hys)
      rw [hsh.1, hsh.2] at this
      simp only [kronR]
      rw [show index (d :: d' :: ds) (x :: xs) = x * (d' :: ds).prod + index (d' :: ds) xs from rfl,
        show index (d :: d' :: ds) (y :: ys) = y * (d' :: ds).prod + index (d' :: ds) ys from rfl, this,
        ih (by simp) hxs hys]
      rfl

theorem entryProd_append (l1 l2 : List (Arr2 ℂ)) (x1 x2 y1 y2 : List Nat) (hx : x1.length = l1.length) (hy : y1.length = l1.length) :
    entryProd (l1 ++ l2) (x1 ++ x2) (y1 ++ y2) = entryProd l1 x1 y1 * entryProd l2 x2 y2 := by
  induction l1 generalizing x1 y1 with
  | nil =>
    have h1 : x1 = [] := List.length_eq_zero_iff.1 hx
    have h2 : y1 = [] := List.length_eq_zero_iff.1 hy
    subst h1; subst h2
    simp [entryProd]
  | cons a l ih =>
    match x1, y1, hx, hy with
    | x :: x1, y :: y1, hx, hy =>
      simp only [List.cons_append, entryProd]
      rw [ih x1 y1 (by simpa using hx) (by simpa using hy), mul_assoc]

theorem entryProd_ids (ds xs ys : List Nat) (hx : xs.length = ds.length) (hy : ys.length = ds.length) :
    entryProd (ds.map fun d => (Arr2.identity d : Arr2 ℂ)) xs ys = if xs = ys then 1 else 0 := by
  induction ds generalizing xs ys with
  | nil =>
    have h1 : xs = [] := List.length_eq_zero_iff.1 hx
    have h2 : ys = [] := List.length_eq_zero_iff.1 hy
    subst h1; subst h2
    simp [entryProd]
  | cons d ds ih =>
    match xs, ys, hx, hy with
    | x :: xs, y :: ys, hx, hy =>
      simp only [List.map_cons, entryProd]
      rw [ih xs ys (by simpa using hx) (by simpa using hy)]
      simp only [Arr2.identity, List.cons.injEq]
      split_ifs <;> simp_all

theorem identities_ok (dims l : List Nat) (h : ∀ i ∈ l, i < dims.length) :
    identities dims l = .ok ((l.map fun i => dims.getD i 0).map fun d => (Arr2.identity d : Arr2 ℂ)) := by
  unfold identities
  rw [mapM_ok _ (fun i => (Arr2.identity (dims.getD i 0) : Arr2 ℂ))]
  · rw [List.map_map]; rfl
  · intro i hi
    rw [List.getD_eq_getElem?_getD, List.getElem?_eq_getElem (h i hi)]; rfl

theorem map_range_getD (l : List Nat) (k : Nat) (h : k ≤ l.length) : (List.range k).map (fun i => l.getD i 0) = l.take k := by
  apply List.ext_getElem?
  intro i
  rw [List.getElem?_map, List.getElem?_take]
  by_cases hi : i < k
  · rw [List.getElem?_range hi, if_pos hi, Option.map_some, List.getD_eq_getElem?_getD,
      List.getElem?_eq_getElem (by omega)]; rfl
  · rw [if_neg hi, List.getElem?_eq_none (by rw [List.length_range]; omega)]; rfl

theorem map_range'_getD (l : List Nat) (k : Nat) (h : k ≤ l.length) :
    (List.range' k (l.length - k)).map (fun i => l.getD i 0) = l.drop k := by
  apply List.ext_getElem?
  intro i
  rw [List.getElem?_map, List.getElem?_drop]
  by_cases hi : i < l.length - k
  · rw [List.getElem?_range' hi, Option.map_some, List.getD_eq_getElem?_getD, Nat.one_mul,
      List.getElem?_eq_getElem (by omega)]; rfl
  · rw [List.getElem?_eq_none (by rw [List.length_range']; omega), List.getElem?_eq_none (by omega)]; rfl

theorem gateExpand_list (gate : Arr2 ℂ) (pre post : List Nat) (d : Nat) (hr : gate.rows = d) (hc : gate.cols = d) :
    ∃ A, gateExpand gate (pre ++ d :: post).length pre.length (pre ++ d :: post) = .ok A ∧
      A.rows = (pre ++ d :: post).prod ∧ A.cols = (pre ++ d :: post).prod ∧
      ∀ x1 x x2 y1 y y2, Levels pre x1 → x < d → Levels post x2 → Levels pre y1 → y < d → Levels post y2 →
        A.at' (index (pre ++ d :: post) (x1 ++ x :: x2)) (index (pre ++ d :: post) (y1 ++ y :: y2)) =
          if x1 = y1 ∧ x2 = y2 then gate.at' x y else 0 := by
  have hlen : (pre ++ d :: post).length = pre.length + 1 + post.length := by simp; omega
  have hup := identities_ok (pre ++ d :: post)
    (List.range' (pre.length + 1) ((pre ++ d :: post).length - (pre.length + 1)))
    (by intro i hi; have := List.mem_range'_1.1 hi; omega)
  have hlo := identities_ok (pre ++ d :: post) (List.range pre.length)
    (by intro i hi; have := List.mem_range.1 hi; omega)
  rw [map_range'_getD _ _ (by omega)] at hup
  rw [map_range_getD _ _ (by omega)] at hlo
  have hdrop : (pre ++ d :: post).drop (pre.length + 1) = post := by
    rw [List.drop_append]; simp
  rw [hdrop] at hup
  rw [List.take_left'  rfl] at hlo
  set L := (pre.map fun d => (Arr2.identity d : Arr2 ℂ)) ++ gate :: (post.map fun d => (Arr2.identity d : Arr2 ℂ)) with hL
  have hLne : L ≠ [] := by rw [hL]; simp
  have hids : ∀ ds : List Nat, Sizes ds (ds.map fun d => (Arr2.identity d : Arr2 ℂ)) := by
    intro ds
    induction ds with
    | nil => exact .nil
    | cons a ds ih => exact .cons ⟨rfl, rfl⟩ ih
  have hS : Sizes (pre ++ d :: post) L := List.rel_append (hids pre) (.cons ⟨hr, hc⟩ (hids post))
  have hsh := kronR_shape hS
  refine ⟨kronR L, ?_, hsh.1, hsh.2, ?_⟩
  · unfold gateExpand
    rw [if_neg (by omega), if_neg (by omega)]
    simp only [hup, hlo, bind, Except.bind]
    rw [← hL]
    obtain ⟨a, l, hal⟩ := List.exists_cons_of_ne_nil hLne
    obtain ⟨last, rest, h1, h2⟩ := foldl_kron l a
    rw [hal, h1]
    simp only [pure, Except.pure]
    rw [h2]
  · intro x1 x x2 y1 y y2 h1 h2 h3 g1 g2 g3
    rw [kronR_at hS hLne (Levels.append h1 (.cons h2 h3)) (Levels.append g1 (.cons g2 g3)), hL,
      entryProd_append _ _ _ _ _ _ (by rw [h1.length, List.length_map]) (by rw [g1.length, List.length_map])]
    simp only [entryProd]
    rw [entryProd_ids _ _ _ h1.length g1.length, entryProd_ids _ _ _ h3.length g3.length]
    split_ifs <;> simp_all

end Variational
end Qudits
