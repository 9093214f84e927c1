import Verif.Spec.DrawSpec
import Mathlib.Data.Nat.Digits.Defs
/-
C99: the drawing of a circuit as text.
-/
namespace Qudits
open Spec Visual

variable {R : Type} {fmt : R → List Char}

private theorem split_at {c : Char} : ∀ {x x' y y' : List Char}, c ∉ x → c ∉ x' → x ++ c :: y = x' ++ c :: y' → x = x' ∧ y = y'
  | [], [], _, _, _, _, h => by simpa using h
  | [], a :: x', _, _, _, h2, h => by
    simp only [List.nil_append, List.cons_append, List.cons.injEq] at h
    exact absurd (by rw [h.1]; exact List.mem_cons_self) h2
  | a :: x, [], _, _, h1, _, h => by
    simp only [List.nil_append, List.cons_append, List.cons.injEq] at h
    exact absurd (by rw [h.1]; exact List.mem_cons_self) h1
  | a :: x, b :: x', y, y', h1, h2, h => by
    simp only [List.cons_append, List.cons.injEq] at h
    obtain ⟨rfl, h⟩ := h
    obtain ⟨rfl, k⟩ := split_at (fun m => h1 (List.mem_cons_of_mem _ m)) (fun m => h2 (List.mem_cons_of_mem _ m)) h
    exact ⟨rfl, k⟩

private theorem lev_no (n : Nat) : '(' ∉ Nat.toDigits 10 n := fun h => by
  have := Nat.isDigit_of_mem_toDigits (by decide) (by decide) h
  exact absurd this (by decide)

/-- the symbol of what is told -/
private def symbol : View → List Char
  | .nothing => ['-', '-', 'M', 'G', '-', '-']
  | .someGate => ['-', '-', 'G', '-', '-']
  | .custom => ['-', '-', '[', 'C', 'u', 'O', 'n', 'e', ']', '-', '-']
  | .phase a p => ['-', '-', '[', 'V', 'R', 'z'] ++ (Nat.toDigits 10 a ++ '(' :: (p ++ [')', ']', '-', '-']))
  | .rotation l t p => ['-', '-', '[', 'R'] ++ (l ++ '(' :: (t ++ ',' :: (p ++ [')', ']', '-', '-'])))

/-- views that come from gates -/
private def Proper : View → Prop
  | .phase _ p => ')' ∉ p
  | .rotation l t p => '(' ∉ l ∧ ',' ∉ t ∧ ')' ∉ p
  | _ => True

private theorem proper_view (hf : PlainText fmt) (j : Nat) (g : DrawGate R) : Proper (view fmt j g) := by
  unfold view
  split_ifs
  · rcases g.kind with (_ | ⟨a, p⟩) | (_ | ⟨a, b, t, p⟩) | _ | _
    · trivial
    · exact (hf p).2
    · trivial
    · refine ⟨?_, (hf t).1, (hf p).2⟩
      intro h
      rcases List.mem_append.1 h with h | h
      · exact lev_no _ h
      · exact lev_no _ h
    · trivial
    · trivial
  · trivial

private theorem digits_inj {a b : Nat} (h : Nat.toDigits 10 a = Nat.toDigits 10 b) : a = b := by
  have := congrArg (Nat.ofDigitChars 10 · 0) h
  simpa using this

private theorem symbol_split {v w : View} (hv : Proper v) (hw : Proper w) {x y : List Char} (h : symbol v ++ x = symbol w ++ y) : v = w ∧ x = y := by
  have third : (symbol v)[2]? = (symbol w)[2]? := by
    have := congrArg (·[2]?) h
    cases v <;> cases w <;> exact this
  have fourth : (symbol v)[3]? = (symbol w)[3]? := by
    have := congrArg (·[3]?) h
    cases v <;> cases w <;> exact this
  cases v with
  | nothing =>
    cases w with
    | nothing => exact ⟨rfl, List.append_cancel_left h⟩
    | _ => exact absurd (Option.some.inj third) (by decide)
  | someGate =>
    cases w with
    | someGate => exact ⟨rfl, List.append_cancel_left h⟩
    | _ => exact absurd (Option.some.inj third) (by decide)
  | custom =>
    cases w with
    | custom => exact ⟨rfl, List.append_cancel_left h⟩
    | nothing => exact absurd (Option.some.inj third) (by decide)
    | someGate => exact absurd (Option.some.inj third) (by decide)
    | _ => exact absurd (Option.some.inj fourth) (by decide)
  | phase a p =>
    cases w with
    | phase a' p' =>
      simp only [symbol, List.append_assoc, List.cons_append, List.nil_append, List.cons.injEq, true_and] at h
      obtain ⟨e1, h2⟩ := split_at (lev_no _) (lev_no _) h
      obtain ⟨e2, h3⟩ := split_at hv hw h2
      exact ⟨by rw [digits_inj e1, e2], by simpa using h3⟩
    | nothing => exact absurd (Option.some.inj third) (by decide)
    | someGate => exact absurd (Option.some.inj third) (by decide)
    | _ => exact absurd (Option.some.inj fourth) (by decide)
  | rotation l t p =>
    cases w with
    | rotation l' t' p' =>
      simp only [symbol, List.append_assoc, List.cons_append, List.nil_append, List.cons.injEq, true_and] at h
      obtain ⟨e1, h2⟩ := split_at hv.1 hw.1 h
      obtain ⟨e2, h3⟩ := split_at hv.2.1 hw.2.1 h2
      obtain ⟨e3, h4⟩ := split_at hv.2.2 hw.2.2 h3
      exact ⟨by rw [e1, e2, e3], by simpa using h4⟩
    | nothing => exact absurd (Option.some.inj third) (by decide)
    | someGate => exact absurd (Option.some.inj third) (by decide)
    | _ => exact absurd (Option.some.inj fourth) (by decide)

private theorem symbols_split : ∀ {vs ws : List View}, (∀ v ∈ vs, Proper v) → (∀ w ∈ ws, Proper w) →
    (vs.map symbol).flatten ++ ['-', '-', '-', '=', '|', '|'] = (ws.map symbol).flatten ++ ['-', '-', '-', '=', '|', '|'] → vs = ws
  | [], [], _, _, _ => rfl
  | [], w :: ws, _, _, h => by
    have := congrArg (·[2]?) h
    cases w <;> exact absurd (Option.some.inj this) (by decide)
  | v :: vs, [], _, _, h => by
    have := congrArg (·[2]?) h
    cases v <;> exact absurd (Option.some.inj this) (by decide)
  | v :: vs, w :: ws, hv, hw, h => by
    simp only [List.map_cons, List.flatten_cons, List.append_assoc] at h
    obtain ⟨rfl, h1⟩ := symbol_split (hv v List.mem_cons_self) (hw w List.mem_cons_self) h
    rw [symbols_split (fun x hx => hv x (List.mem_cons_of_mem _ hx)) (fun x hx => hw x (List.mem_cons_of_mem _ hx)) h1]

private theorem mapM_ok {α β : Type} {f : α → Except PyErr β} {h : α → β} : ∀ {l : List α}, (∀ x ∈ l, f x = .ok (h x)) → l.mapM f = .ok (l.map h)
  | [], _ => rfl
  | a :: l, k => by
    rw [List.mapM_cons, k a List.mem_cons_self, mapM_ok fun x hx => k x (List.mem_cons_of_mem _ hx)]
    rfl

private theorem mapM_err {α β : Type} {f : α → Except PyErr β} {e : PyErr} : ∀ {l : List α}, (∀ x ∈ l, f x = .error e ∨ ∃ y, f x = .ok y) →
    (∃ x ∈ l, f x = .error e) → l.mapM f = .error e
  | [], _, ⟨x, h, _⟩ => by cases h
  | a :: l, k, ⟨x, hx, hf⟩ => by
    rw [List.mapM_cons]
    rcases k a List.mem_cons_self with h | ⟨y, h⟩
    · rw [h]; rfl
    · have : x ∈ l := by
        rcases List.mem_cons.1 hx with rfl | h'
        · rw [h] at hf; cases hf
        · exact h'
      rw [h, mapM_err (fun x hx => k x (List.mem_cons_of_mem _ hx)) ⟨x, this, hf⟩]
      rfl

private theorem drawGate_ok {j : Nat} {g : DrawGate R} (h : ¬ (LocalTo j g ∧ Unfinished g)) : drawGate fmt j g = .ok (symbol (view fmt j g)) := by
  unfold drawGate view
  by_cases hl : LocalTo j g
  · rw [if_pos hl, if_pos (show g.single = true ∧ g.target = some j from hl)]
    rcases hk : g.kind with (_ | ⟨a, p⟩) | (_ | ⟨a, b, t, p⟩) | _ | _
    · exact absurd ⟨hl, Or.inl hk⟩ h
    · refine congrArg Except.ok ?_
      simp [symbol, levText]
    · exact absurd ⟨hl, Or.inr hk⟩ h
    · refine congrArg Except.ok ?_
      simp [symbol, levText]
    · rfl
    · rfl
  · rw [if_neg hl, if_neg (show ¬ (g.single = true ∧ g.target = some j) from hl)]
    rfl

private theorem drawGate_err {j : Nat} {g : DrawGate R} (h : LocalTo j g ∧ Unfinished g) : drawGate fmt j g = .error .attributeError := by
  unfold drawGate
  rw [if_pos (show g.single = true ∧ g.target = some j from h.1)]
  rcases h.2 with h | h <;> rw [h]

private theorem drawLine_ok {j : Nat} {gs : List (DrawGate R)} (h : ∀ g ∈ gs, ¬ (LocalTo j g ∧ Unfinished g)) :
    drawLine fmt gs j = .ok ("|0>---".toList ++ ((gs.map (view fmt j)).map symbol).flatten ++ ['-', '-', '-', '=', '|', '|']) := by
  unfold drawLine
  rw [mapM_ok (h := fun g => symbol (view fmt j g)) fun g hg => drawGate_ok (h g hg), List.map_map]
  rfl

private theorem drawLine_err {j : Nat} {gs : List (DrawGate R)} (h : ∃ g ∈ gs, LocalTo j g ∧ Unfinished g) :
    drawLine fmt gs j = .error .attributeError := by
  obtain ⟨g, hg, h⟩ := h
  unfold drawLine
  rw [mapM_err (e := .attributeError) (fun x _ => ?_) ⟨g, hg, drawGate_err h⟩]
  · rfl
  · by_cases hx : LocalTo j x ∧ Unfinished x
    · exact Or.inl (drawGate_err hx)
    · exact Or.inr ⟨_, drawGate_ok hx⟩

/-- C99: a circuit is drawn, one line of text for each of its lines, exactly if it has no phase gate or rotation with parameters that were not accepted on
one of its lines; otherwise AttributeError is raised. -/
theorem C99_drawn (n : Nat) (gs : List (DrawGate R)) :
    ((∀ g ∈ gs, ∀ j < n, ¬ (LocalTo j g ∧ Unfinished g)) ∧ ∃ t, draw fmt n gs = .ok t ∧ t.length = n) ∨
    ((∃ g ∈ gs, ∃ j < n, LocalTo j g ∧ Unfinished g) ∧ draw fmt n gs = .error .attributeError) := by
  by_cases h : ∃ g ∈ gs, ∃ j < n, LocalTo j g ∧ Unfinished g
  · refine Or.inr ⟨h, ?_⟩
    obtain ⟨g, hg, j, hj, h⟩ := h
    refine mapM_err (fun x _ => ?_) ⟨j, List.mem_range.2 hj, drawLine_err ⟨g, hg, h⟩⟩
    by_cases hx : ∃ g ∈ gs, LocalTo x g ∧ Unfinished g
    · exact Or.inl (drawLine_err hx)
    · exact Or.inr ⟨_, drawLine_ok fun g hg hh => hx ⟨g, hg, hh⟩⟩
  · have h' : ∀ g ∈ gs, ∀ j < n, ¬ (LocalTo j g ∧ Unfinished g) := fun g hg j hj hh => h ⟨g, hg, j, hj, hh⟩
    refine Or.inl ⟨h', _, mapM_ok fun j hj => drawLine_ok fun g hg => h' g hg j (List.mem_range.1 hj), ?_⟩
    simp

private theorem drawn_eq {n : Nat} {gs : List (DrawGate R)} {t : List (List Char)} (h : draw fmt n gs = .ok t) :
    t = (List.range n).map fun j => "|0>---".toList ++ ((gs.map (view fmt j)).map symbol).flatten ++ ['-', '-', '-', '=', '|', '|'] := by
  rcases C99_drawn (fmt := fmt) n gs with ⟨h', _⟩ | ⟨_, k⟩
  · have := mapM_ok (f := drawLine fmt gs) (l := List.range n) fun j hj => drawLine_ok fun g hg => h' g hg j (List.mem_range.1 hj)
    unfold draw at h
    rw [this] at h
    exact (Except.ok.inj h).symm
  · rw [k] at h; cases h

/-- C99: two circuits have the same drawing exactly if they have the same number of lines and, line by line and gate by gate, the same is to be told about
them: symbols that stand next to each other are never mistaken. -/
theorem C99_same_drawing (hf : PlainText fmt) {n n' : Nat} {gs gs' : List (DrawGate R)} {t t' : List (List Char)} (h : draw fmt n gs = .ok t)
    (h' : draw fmt n' gs' = .ok t') : t = t' ↔ n = n' ∧ ∀ j < n, gs.map (view fmt j) = gs'.map (view fmt j) := by
  have e := drawn_eq h
  have e' := drawn_eq h'
  constructor
  · intro ht
    have hn : n = n' := by
      have := congrArg List.length (e.symm.trans (ht.trans e'))
      simpa using this
    subst hn
    refine ⟨rfl, fun j hj => ?_⟩
    have := congrArg (·[j]?) (e.symm.trans (ht.trans e'))
    simp only [List.getElem?_map, List.getElem?_range hj, Option.map_some, Option.some.injEq, List.append_assoc, List.append_cancel_left_eq] at this
    refine symbols_split ?_ ?_ this
    · intro v hv
      obtain ⟨g, _, rfl⟩ := List.mem_map.1 hv
      exact proper_view hf j g
    · intro v hv
      obtain ⟨g, _, rfl⟩ := List.mem_map.1 hv
      exact proper_view hf j g
  · rintro ⟨rfl, k⟩
    rw [e, e']
    refine List.map_congr_left fun j hj => ?_
    rw [k j (List.mem_range.1 hj)]

/-- C99, partial: for rotations between the first ten levels, equal drawings show at every place of a line gates of the same kind with the same levels and
angles that are rounded alike.  Missing: `C99_levels_violated`, and what is not shown at all (`C99_idle_violated`). -/
theorem C99_gates_partial (hf : PlainText fmt) {n : Nat} {gs gs' : List (DrawGate R)} {t : List (List Char)} (h : draw fmt n gs = .ok t)
    (h' : draw fmt n gs' = .ok t) (hd : ∀ g ∈ gs, OneDigit g) (hd' : ∀ g ∈ gs', OneDigit g) :
    (0 < n → gs.length = gs'.length) ∧ ∀ j < n, ∀ (k : Nat) (g g' : DrawGate R), gs[k]? = some g → gs'[k]? = some g' →
      (LocalTo j g ↔ LocalTo j g') ∧ (LocalTo j g → SameShown fmt g.kind g'.kind) := by
  have key := ((C99_same_drawing hf h h').1 rfl).2
  refine ⟨fun hn => by simpa using congrArg List.length (key 0 hn), ?_⟩
  intro j hj k g g' hk hk'
  have hv : view fmt j g = view fmt j g' := by
    have := congrArg (·[k]?) (key j hj)
    simpa [hk, hk'] using this
  have hu : ¬ (LocalTo j g ∧ Unfinished g) := by
    rcases C99_drawn (fmt := fmt) n gs with ⟨q, _⟩ | ⟨_, q⟩
    · exact q g (List.mem_of_getElem? hk) j hj
    · rw [q] at h; cases h
  have hu' : ¬ (LocalTo j g' ∧ Unfinished g') := by
    rcases C99_drawn (fmt := fmt) n gs' with ⟨q, _⟩ | ⟨_, q⟩
    · exact q g' (List.mem_of_getElem? hk') j hj
    · rw [q] at h'; cases h'
  have ho := hd g (List.mem_of_getElem? hk)
  have ho' := hd' g' (List.mem_of_getElem? hk')
  have loc : ∀ x : DrawGate R, LocalTo j x ↔ view fmt j x ≠ .nothing := by
    intro x
    unfold view
    by_cases hx : LocalTo j x
    · rw [if_pos hx]
      rcases x.kind with (_ | ⟨a, p⟩) | (_ | ⟨a, b, t, p⟩) | _ | _ <;> simp [hx]
    · rw [if_neg hx]; simp [hx]
  refine ⟨by rw [loc, loc, hv], fun hl => ?_⟩
  have hl' : LocalTo j g' := by rw [loc, ← hv, ← loc]; exact hl
  unfold view at hv
  rw [if_pos hl, if_pos hl'] at hv
  have q : ¬ Unfinished g := fun x => hu ⟨hl, x⟩
  have q' : ¬ Unfinished g' := fun x => hu' ⟨hl', x⟩
  unfold Unfinished at q q'
  unfold OneDigit at ho ho'
  rcases e : g.kind with (_ | ⟨a, p⟩) | (_ | ⟨a, b, t, p⟩) | _ | _ <;> rcases e' : g'.kind with (_ | ⟨a', p'⟩) | (_ | ⟨a', b', t', p'⟩) | _ | _ <;>
    rw [e] at q hv ho <;> rw [e'] at q' hv ho'
  all_goals first
    | exact absurd (Or.inl rfl) q
    | exact absurd (Or.inr rfl) q
    | exact absurd (Or.inl rfl) q'
    | exact absurd (Or.inr rfl) q'
    | (simp at hv; done)
    | trivial
    | skip
  · simp only [View.phase.injEq] at hv
    exact hv
  · obtain ⟨a1, b1⟩ := ho _ _ _ _ rfl
    obtain ⟨a2, b2⟩ := ho' _ _ _ _ rfl
    simp only [View.rotation.injEq, Nat.toDigits_of_lt_base a1, Nat.toDigits_of_lt_base b1, Nat.toDigits_of_lt_base a2, Nat.toDigits_of_lt_base b2,
      List.cons_append, List.nil_append, List.cons.injEq, and_true] at hv
    obtain ⟨⟨h1, h2⟩, h3, h4⟩ := hv
    refine ⟨digits_inj ?_, digits_inj ?_, h3, h4⟩
    · rw [Nat.toDigits_of_lt_base a1, Nat.toDigits_of_lt_base a2, h1]
    · rw [Nat.toDigits_of_lt_base b1, Nat.toDigits_of_lt_base b2, h2]

/-- Levels beyond nine can be mistaken: rotations between levels 1 and 112 and between levels 11 and 12 are drawn alike. -/
theorem C99_levels_violated (theta phi : R) : draw fmt 1 [⟨true, some 0, .r (some (1, 112, theta, phi))⟩] =
    draw fmt 1 [⟨true, some 0, .r (some (11, 12, theta, phi))⟩] := rfl

/-- A line on which nothing happens is not drawn as such: a gate on line 0 alone puts the symbol of a gate on several lines into line 1. -/
theorem C99_idle_violated : draw fmt 2 [⟨true, some 0, .other⟩] = .ok ["|0>-----G-----=||".toList, "|0>-----MG-----=||".toList] := rfl

/-- Three gates on two lines, drawn. -/
example : draw (fun x : Nat => Nat.toDigits 10 x) 2 [⟨true, some 0, .r (some (0, 1, 3, 2))⟩, ⟨false, none, .other⟩, ⟨true, some 1, .virtRz (some (1, 7))⟩] =
    .ok ["|0>-----[R01(3,2)]----MG----MG-----=||".toList, "|0>-----MG----MG----[VRz1(7)]-----=||".toList] := rfl

example : PlainText (fun x : Nat => Nat.toDigits 10 x) := fun x =>
  ⟨fun h => absurd (Nat.isDigit_of_mem_toDigits (by decide) (by decide) h) (by decide),
    fun h => absurd (Nat.isDigit_of_mem_toDigits (by decide) (by decide) h) (by decide)⟩

/-- A phase gate whose parameters were not accepted. -/
example : draw fmt 2 [⟨true, some 1, .virtRz none⟩] = .error .attributeError := rfl

end Qudits
