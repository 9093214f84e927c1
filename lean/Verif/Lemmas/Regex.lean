import Verif.Model.Regex
import Mathlib.Data.List.Basic
import Mathlib.Tactic.ByContra

/-
Matching lemmas for the pattern engine: the first match of a pattern on a text of known shape.
-/
namespace Qudits.Qasm
open Re

/-- the first match of `r` on `s` leaves `t` -/
def Fst (r : Re) (s : Text) (c : Caps) (t : Text) (c' : Caps) : Prop := (r.run s c).head? = some (t, c')

theorem fst_eps (s c) : Fst .eps s c s c := rfl

theorem fst_cls {p : Char → Bool} {x : Char} (h : p x = true) (s c) : Fst (.cls p) (x :: s) c s c := by
  simp [Fst, Re.run, h]

theorem fst_ch (x : Char) (s c) : Fst (ch x) (x :: s) c s c := fst_cls (by simp) s c

theorem fst_seq {a b : Re} {s c t c' u c''} (ha : Fst a s c t c') (hb : Fst b t c' u c'') :
    Fst (.seq a b) s c u c'' := by
  unfold Fst at *
  obtain ⟨rest, hr⟩ := List.head?_eq_some_iff.1 ha
  obtain ⟨rest', hr'⟩ := List.head?_eq_some_iff.1 hb
  simp [Re.run, hr, hr']

theorem none_seq {a b : Re} {s c} (ha : a.run s c = []) : (Re.seq a b).run s c = [] := by
  simp [Re.run, ha]

theorem none_seq' {a b : Re} {s c} (h : ∀ x ∈ a.run s c, b.run x.1 x.2 = []) :
    (Re.seq a b).run s c = [] := by
  simp only [Re.run, List.flatMap_eq_nil_iff]
  exact h

theorem fst_lit (u s : Text) (c) : Fst (lit u) (u ++ s) c s c := by
  induction u with
  | nil => exact fst_eps _ _
  | cons x u ih => exact fst_seq (fst_ch x _ c) ih

theorem none_cls {p : Char → Bool} {s : Text} {c} (h : ∀ x t, s = x :: t → p x = false) :
    (Re.cls p).run s c = [] := by
  cases s with
  | nil => rfl
  | cons x t => simp [Re.run, h x t rfl]

/-- a literal that is not a prefix does not match -/
theorem none_lit (u s : Text) (c) (h : ¬ u <+: s) : (lit u).run s c = [] := by
  induction u generalizing s with
  | nil => simp at h
  | cons x u ih =>
    cases s with
    | nil => exact none_seq rfl
    | cons y s =>
      by_cases e : y = x
      · subst e
        have : ¬ u <+: s := fun hp => h (by simpa using hp)
        show (Re.seq (ch y) (lit u)).run _ _ = []
        simp [Re.run, ch, ih s this]
      · exact none_seq (by simp [ch, Re.run, e])

theorem fst_alt_left {a b : Re} {s c t c'} (h : Fst a s c t c') : Fst (.alt a b) s c t c' := by
  unfold Fst at *
  obtain ⟨rest, hr⟩ := List.head?_eq_some_iff.1 h
  simp [Re.run, hr]

theorem fst_opt {a : Re} {s c t c'} (h : Fst a s c t c') : Fst (.opt a) s c t c' := by
  unfold Fst at *
  obtain ⟨rest, hr⟩ := List.head?_eq_some_iff.1 h
  simp [Re.run, hr]

theorem fst_opt_none {a : Re} {s c} (h : a.run s c = []) : Fst (.opt a) s c s c := by
  simp [Fst, Re.run, h]

theorem fst_grp {a : Re} {u s c t c'} (n : Nat) (hs : s = u ++ t) (h : Fst a s c t c') :
    Fst (.grp n a) s c t ((n, u) :: c') := by
  unfold Fst at *
  obtain ⟨rest, hr⟩ := List.head?_eq_some_iff.1 h
  subst hs
  simp [Re.run, hr]

theorem none_grp {a : Re} {s c} (n : Nat) (h : a.run s c = []) : (Re.grp n a).run s c = [] := by
  simp [Re.run, h]

/-- enough rounds: the bound on the repetition does not matter -/
theorem starRun_fuel (f : Text → Caps → List (Text × Caps)) (k m : Nat) (s : Text) (c : Caps)
    (hk : s.length ≤ k) (hm : s.length ≤ m) : starRun f k s c = starRun f m s c := by
  induction k generalizing m s c with
  | zero =>
    have : s.length = 0 := by omega
    have e : s = [] := List.length_eq_zero_iff.1 this
    subst e
    cases m with
    | zero => rfl
    | succ m => simp [starRun]
  | succ k ih =>
    cases m with
    | zero =>
      have e : s = [] := List.length_eq_zero_iff.1 (by omega)
      subst e; simp [starRun]
    | succ m =>
      simp only [starRun]
      congr 1
      apply List.flatMap_congr
      intro x _
      by_cases hx : x.1.length < s.length
      · rw [if_pos hx, if_pos hx]; exact ih m x.1 x.2 (by omega) (by omega)
      · rw [if_neg hx, if_neg hx]

theorem fst_star_step {a : Re} {s c t c' u c''} (h : Fst a s c t c') (hlt : t.length < s.length)
    (hs : Fst (.star a) t c' u c'') : Fst (.star a) s c u c'' := by
  unfold Fst at *
  obtain ⟨rest, hr⟩ := List.head?_eq_some_iff.1 h
  simp only [Re.run] at hs ⊢
  obtain ⟨n, hn⟩ : ∃ n, s.length = n + 1 := ⟨s.length - 1, by omega⟩
  rw [starRun_fuel a.run t.length n t c' (Nat.le_refl _) (by omega)] at hs
  obtain ⟨rest', hr'⟩ := List.head?_eq_some_iff.1 hs
  rw [hn]
  have hlt' : t.length < n + 1 := by omega
  simp only [starRun, hr, hn, List.flatMap_cons, hlt', if_true, hr']
  simp

theorem star_stop {a : Re} {s c} (h : a.run s c = []) : (Re.star a).run s c = [(s, c)] := by
  simp only [Re.run]
  cases hl : s.length with
  | zero => rfl
  | succ n => simp [starRun, h]

theorem fst_star_stop {a : Re} {s c} (h : a.run s c = []) : Fst (.star a) s c s c := by
  simp [Fst, star_stop h]

/-- greedy repetition of a class takes the longest run -/
theorem fst_star_cls {p : Char → Bool} (u t : Text) (c) (hu : ∀ x ∈ u, p x = true)
    (ht : ∀ x v, t = x :: v → p x = false) : Fst (.star (.cls p)) (u ++ t) c t c := by
  induction u with
  | nil => exact fst_star_stop (none_cls ht)
  | cons x u ih =>
    exact fst_star_step (fst_cls (hu x (by simp)) (u ++ t) c) (by simp)
      (ih fun y hy => hu y (by simp [hy]))

theorem fst_plus_cls {p : Char → Bool} (u t : Text) (c) (hne : u ≠ []) (hu : ∀ x ∈ u, p x = true)
    (ht : ∀ x v, t = x :: v → p x = false) : Fst (plus (.cls p)) (u ++ t) c t c := by
  cases u with
  | nil => exact absurd rfl hne
  | cons x u =>
    exact fst_seq (fst_cls (hu x (by simp)) (u ++ t) c)
      (fst_star_cls u t c (fun y hy => hu y (by simp [hy])) ht)

theorem none_plus_cls {p : Char → Bool} {s : Text} {c} (h : ∀ x t, s = x :: t → p x = false) :
    (plus (.cls p)).run s c = [] := none_seq (none_cls h)

/-- every match of a repeated class leaves a suffix and the captures alone -/
theorem mem_starRun_cls {p : Char → Bool} (k : Nat) (s : Text) (c : Caps) (x : Text × Caps)
    (hx : x ∈ starRun (Re.cls p).run k s c) :
    ∃ u, s = u ++ x.1 ∧ (∀ y ∈ u, p y = true) ∧ x.2 = c := by
  induction k generalizing s with
  | zero =>
    simp only [starRun, List.mem_singleton] at hx
    exact ⟨[], by simp [hx], by simp, by simp [hx]⟩
  | succ k ih =>
    simp only [starRun, List.mem_append, List.mem_flatMap, List.mem_singleton] at hx
    rcases hx with ⟨y, hy, hx⟩ | hx
    · cases s with
      | nil => simp [Re.run] at hy
      | cons z s =>
        by_cases hz : p z = true
        · simp only [Re.run, hz, if_true, List.mem_singleton] at hy
          subst hy
          simp only [List.length_cons, Nat.lt_succ_self, if_true] at hx
          obtain ⟨u, hu, hp, hc⟩ := ih s hx
          exact ⟨z :: u, by simp [← hu], by simpa [hz] using hp, hc⟩
        · simp [Re.run, hz] at hy
    · exact ⟨[], by simp [hx], by simp, by simp [hx]⟩

theorem matchAt_of_fst {r : Re} {s t c'} (h : Fst r s [] t c') : r.matchAt s = some (t, c') := h

theorem matchAt_none {r : Re} {s : Text} (h : r.run s [] = []) : r.matchAt s = none := by
  simp [Re.matchAt, h]

theorem search_of_fst {r : Re} {s t c'} (h : Fst r s [] t c') : r.search s = some (t, c') := by
  cases s with
  | nil => exact h
  | cons x s => simp [Re.search, matchAt_of_fst h]

theorem group_cons_self (n : Nat) (u : Text) (c : Caps) : group ((n, u) :: c) n = some u := by
  simp [group]

theorem group_cons_ne (n m : Nat) (u : Text) (c : Caps) (h : m ≠ n) :
    group ((m, u) :: c) n = group c n := by
  simp [group, h]

/-! ### text functions -/

theorem splitChar_ne_nil (sep : Char) (s : Text) : splitChar sep s ≠ [] := by
  cases s with
  | nil => simp [splitChar]
  | cons x s =>
    simp only [splitChar]
    split
    · simp
    · split <;> simp

theorem splitChar_single (sep : Char) (w : Text) (h : sep ∉ w) : splitChar sep w = [w] := by
  induction w with
  | nil => rfl
  | cons x w ih =>
    have hx : x ≠ sep := fun e => h (by simp [e])
    have hw : sep ∉ w := fun e => h (by simp [e])
    simp [splitChar, hx, ih hw]

theorem splitChar_append (sep : Char) (w s : Text) (h : sep ∉ w) :
    splitChar sep (w ++ sep :: s) = w :: splitChar sep s := by
  induction w with
  | nil => simp [splitChar]
  | cons x w ih =>
    have hx : x ≠ sep := fun e => h (by simp [e])
    have hw : sep ∉ w := fun e => h (by simp [e])
    simp only [List.cons_append, splitChar, if_neg hx, ih hw]

/-- a text of complete lines splits into these lines and a last empty one -/
theorem split_lines (ls : List Text) (h : ∀ l ∈ ls, '\n' ∉ l) :
    splitChar '\n' ((ls.map fun l => l ++ ['\n']).flatten) = ls ++ [[]] := by
  induction ls with
  | nil => rfl
  | cons l ls ih =>
    simp only [List.map_cons, List.flatten_cons, List.append_assoc, List.singleton_append]
    rw [splitChar_append _ _ _ (h l (by simp)), ih fun x hx => h x (by simp [hx])]
    rfl

theorem dropWhile_id {p : Char → Bool} (s : Text) (h : ∀ x t, s = x :: t → p x = false) :
    s.dropWhile p = s := by
  cases s with
  | nil => rfl
  | cons x t => simp [h x t rfl]

/-- stripping a text whose end characters are not stripped -/
theorem stripWith_id {p : Char → Bool} (s : Text) (h1 : ∀ x t, s = x :: t → p x = false)
    (h2 : ∀ x t, s = t ++ [x] → p x = false) : stripWith p s = s := by
  unfold stripWith
  rw [dropWhile_id s h1, dropWhile_id, List.reverse_reverse]
  intro x t hx
  have : s = t.reverse ++ [x] := by rw [← List.reverse_reverse s, hx]; simp
  exact h2 x _ this

theorem showNat_ne_nil (n : Nat) : showNat n ≠ [] := by
  have := Nat.length_toDigits_pos (b := 10) (n := n)
  intro h
  unfold showNat at h
  rw [h] at this
  simp at this

theorem showNat_digit (n : Nat) : ∀ x ∈ showNat n, isDigit x = true := fun _ hx =>
  Nat.isDigit_of_mem_toDigits (by decide) (by decide) hx

theorem digit_word {x : Char} (h : isDigit x = true) : isWord x = true := by
  unfold isDigit at h
  simp [isWord, Char.isAlphanum, h]

theorem ofDigits_showNat (n : Nat) : Nat.ofDigitChars 10 (showNat n) 0 = n :=
  Nat.ofDigitChars_ten_toDigits

/-- characters of a class are different from characters outside it -/
theorem not_mem_of_class {p : Char → Bool} {s : Text} (h : ∀ x ∈ s, p x = true) {y : Char}
    (hy : p y = false) : y ∉ s := fun hm => by
  have := h y hm
  rw [hy] at this
  cases this

end Qudits.Qasm
