import Verif.Model.DDPrint
import Verif.Spec.PrintSpec
import Verif.Props.DDProps
import Verif.Lemmas.Counts
/-
C100: printing a vector diagram.
-/
namespace Qudits
open Spec DD
open Classical

variable {n : Nat} {d : Fin n → Nat}

/-- C100: for every proper diagram of a vector, one line is printed for each basis state (if only those are asked for, for each one with an amplitude
that is not zero up to the tolerance), in the order of their numbers: the levels in digits, a colon, and the amplitude aligned to the right. -/
theorem C100_print (tol : ℝ) (txt : ℂ → List Char) (e : Edge (regs d)) (hp : Proper .vec (regs d) e) (nonZero : Bool) :
    ∃ (xs : List (Reg d)) (vs : Reg d → List Char), xs.Pairwise (fun x y => number x < number y) ∧
      (∀ x, x ∈ xs ↔ (nonZero = true → tol < |(vecOf d e x).re| ∨ tol < |(vecOf d e x).im|)) ∧
      (∀ x, rightAligned 13 (txt (vecOf d e x)) (vs x)) ∧
      printVector tol txt (regs d) e nonZero = .ok (xs.map fun x => label x ++ ": ".toList ++ vs x) := by
  have key : ∀ k ≤ (regs d).prod, ∃ xs : List (Reg d), xs.Pairwise (fun x y => number x < number y) ∧
      (∀ x, x ∈ xs ↔ number x < k ∧ (nonZero = true → tol < |(vecOf d e x).re| ∨ tol < |(vecOf d e x).im|)) ∧
      (List.range k).foldlM (fun out i => do
        let repr := reprOfIndex (regs d) i (regs d).prod
        let a ← valueByPathV (regs d) e 1 repr
        pure (if ¬ ApproxZero tol a ∨ nonZero = false then out ++ [printLine txt repr a] else out)) ([] : List (List Char)) =
        (Except.ok (xs.map fun x => label x ++ ": ".toList ++ setw 13 (txt (vecOf d e x))) : Except DD.Err _) := by
    intro k
    induction k with
    | zero => exact fun _ => ⟨[], List.Pairwise.nil, fun x => by simp, rfl⟩
    | succ k ih =>
      intro hk
      obtain ⟨xs, h1, h2, h3⟩ := ih (by omega)
      obtain ⟨p, hp1, hp2⟩ := index_surj (dims := regs d) (k := k) (by omega)
      obtain ⟨x, rfl⟩ := top_surjective hp1
      have hx : number x = k := hp2
      have huniq : ∀ y : Reg d, number y = k → y = x := by
        intro y hy
        have := index_inj (levels_top y) (levels_top x) (hy.trans hx.symm)
        have h' := List.reverse_injective this
        funext i
        have := congrArg (·[(i : Nat)]?) h'
        simpa [Fin.ext_iff] using this
      have hr : reprOfIndex (regs d) k (regs d).prod = (List.ofFn fun i => (x i : Nat)).reverse := by
        rw [← hx]; exact C54_digits x
      have hstep : (do
          let repr := reprOfIndex (regs d) k (regs d).prod
          let a ← valueByPathV (regs d) e 1 repr
          pure (if ¬ ApproxZero tol a ∨ nonZero = false then (xs.map fun x => label x ++ ": ".toList ++ setw 13 (txt (vecOf d e x))) ++ [printLine txt repr a]
            else (xs.map fun x => label x ++ ": ".toList ++ setw 13 (txt (vecOf d e x)))) : Except DD.Err (List (List Char))) =
          .ok (if ¬ ApproxZero tol (vecOf d e x) ∨ nonZero = false then
            ((xs ++ [x]).map fun x => label x ++ ": ".toList ++ setw 13 (txt (vecOf d e x)))
            else (xs.map fun x => label x ++ ": ".toList ++ setw 13 (txt (vecOf d e x)))) := by
        simp only [hr, C54_vector_entry e hp x, bind, Except.bind, pure, Except.pure]
        split_ifs
        · refine congrArg Except.ok ?_
          rw [List.map_append]
          rfl
        · rfl
      have hz : ApproxZero tol (vecOf d e x) ↔ ¬ (tol < |(vecOf d e x).re| ∨ tol < |(vecOf d e x).im|) := by
        unfold ApproxZero
        rw [not_or, not_lt, not_lt]
      by_cases hs : nonZero = true → tol < |(vecOf d e x).re| ∨ tol < |(vecOf d e x).im|
      · refine ⟨xs ++ [x], ?_, ?_, ?_⟩
        · rw [List.pairwise_append]
          refine ⟨h1, List.pairwise_singleton _ _, fun a ha b hb => ?_⟩
          rw [List.mem_singleton] at hb
          subst hb
          rw [hx]
          exact ((h2 a).1 ha).1
        · intro y
          rw [List.mem_append, List.mem_singleton, h2]
          constructor
          · rintro (⟨q1, q2⟩ | rfl)
            · exact ⟨by omega, q2⟩
            · exact ⟨by omega, hs⟩
          · rintro ⟨q1, q2⟩
            by_cases hy : number y = k
            · exact Or.inr (huniq y hy)
            · exact Or.inl ⟨by omega, q2⟩
        · rw [List.range_succ, List.foldlM_append, h3]
          simp only [List.foldlM_cons, List.foldlM_nil, bind_pure]
          refine Eq.trans ?_ (hstep.trans ?_)
          · rfl
          rw [if_pos]
          rw [hz, not_not]
          rcases Bool.eq_false_or_eq_true nonZero with q | q
          · exact Or.inl (hs q)
          · exact Or.inr q
      · refine ⟨xs, h1, ?_, ?_⟩
        · intro y
          rw [h2]
          constructor
          · rintro ⟨q1, q2⟩
            exact ⟨by omega, q2⟩
          · rintro ⟨q1, q2⟩
            by_cases hy : number y = k
            · rw [huniq y hy] at q2
              exact absurd q2 hs
            · exact ⟨by omega, q2⟩
        · rw [List.range_succ, List.foldlM_append, h3]
          simp only [List.foldlM_cons, List.foldlM_nil, bind_pure]
          refine Eq.trans ?_ (hstep.trans ?_)
          · rfl
          rw [if_neg]
          rw [Classical.not_imp] at hs
          rw [hz, not_not]
          rintro (q | q)
          · exact hs.2 q
          · rw [q] at hs; exact absurd hs.1 (by decide)
  obtain ⟨xs, h1, h2, h3⟩ := key _ le_rfl
  refine ⟨xs, fun x => setw 13 (txt (vecOf d e x)), h1, fun x => ?_, fun x => ?_, h3⟩
  · rw [h2]
    exact ⟨fun h => h.2, fun h => ⟨index_lt (levels_top x), h⟩⟩
  · refine ⟨?_, _, rfl⟩
    unfold setw
    rw [List.length_append, List.length_replicate]
    omega

/-- a basis state of a mixed register: one line of text, with its own levels -/
example (txt : ℂ → List Char) (x : Reg ![2, 3, 4]) : ∃ (e : Edge (regs ![2, 3, 4])) (v : List Char), Proper .vec (regs ![2, 3, 4]) e ∧
    printVector (1 / 2) txt (regs ![2, 3, 4]) e true = .ok [label x ++ ": ".toList ++ v] := by
  obtain ⟨e, _, hv, hve⟩ := C16_basis_state (d := ![2, 3, 4]) x
  obtain ⟨xs, vs, h1, h2, _, h4⟩ := C100_print (1 / 2) txt e hv true
  have hm : ∀ y, y ∈ xs ↔ y = x := by
    intro y
    rw [h2, hve]
    by_cases hy : y = x
    · subst hy
      simp
      norm_num
    · simp [hy]
  have hx : xs = [x] := by
    match xs, h1, hm with
    | [], _, hm => exact absurd ((hm x).2 rfl) (by simp)
    | [a], _, hm => rw [(hm a).1 (by simp)]
    | a :: b :: l, h1, hm =>
      have ha := (hm a).1 (by simp)
      have hb := (hm b).1 (by simp)
      rw [ha, hb] at h1
      exact absurd (List.rel_of_pairwise_cons h1 List.mem_cons_self) (lt_irrefl _)
  exact ⟨e, vs x, hv, by rw [h4, hx]; rfl⟩

/-- C100, partial: on lines of at most ten levels the lines of text of different basis states are labelled differently.  Missing: `C100_labels_violated`. -/
theorem C100_labels_partial (hd : ∀ i, d i ≤ 10) {x y : Reg d} (h : label x = label y) : x = y := by
  have one : ∀ {l : List Nat}, (∀ a ∈ l, a < 10) → l.flatMap (Nat.toDigits 10) = l.map Nat.digitChar := by
    intro l hl
    induction l with
    | nil => rfl
    | cons a l ih =>
      rw [List.flatMap_cons, List.map_cons, Nat.toDigits_of_lt_base (hl a List.mem_cons_self), ih fun b hb => hl b (List.mem_cons_of_mem _ hb)]
      rfl
  have small : ∀ z : Reg d, ∀ a ∈ (List.ofFn fun i => (z i : Nat)).reverse, a < 10 := by
    intro z a ha
    rw [List.mem_reverse, List.mem_ofFn] at ha
    obtain ⟨i, rfl⟩ := ha
    exact lt_of_lt_of_le (z i).isLt (hd i)
  unfold label at h
  rw [one (small x), one (small y), List.map_reverse, List.map_reverse] at h
  have h' := List.reverse_injective h
  funext i
  have := congrArg (·[(i : Nat)]?) h'
  simp only [List.getElem?_map, List.getElem?_ofFn, i.isLt, dite_true, Option.map_some, Option.some.injEq, Fin.eta] at this
  have inj : ∀ a < 10, ∀ b < 10, Nat.digitChar a = Nat.digitChar b → a = b := by decide
  exact Fin.ext (inj _ (lt_of_lt_of_le (x i).isLt (hd i)) _ (lt_of_lt_of_le (y i).isLt (hd i)) this)

/-- The digits of the levels are not separated: on lines of eleven and twelve levels two basis states have the label 110. -/
theorem C100_labels_violated : ∃ x y : Reg ![11, 12], x ≠ y ∧ label x = label y :=
  ⟨Fin.cons (10 : Fin 11) (Fin.cons (1 : Fin 12) finZeroElim), Fin.cons (0 : Fin 11) (Fin.cons (11 : Fin 12) finZeroElim),
    fun h => absurd (congrFun h 0) (by decide), rfl⟩

end Qudits
