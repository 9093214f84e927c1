import Verif.Spec.DDSpec
import Verif.Lemmas.Tnsim
import Mathlib.Tactic.FieldSimp
import Mathlib.Tactic.Positivity
namespace Qudits.DD
open Spec Classical

variable {ds : List Nat}

theorem at'_lt {es : List (Edge ds)} {i : Nat} (h : i < es.length) : at' es i = es[i] := by
  unfold at'; rw [List.getElem?_eq_getElem h]; rfl

theorem at'_ge {es : List (Edge ds)} {i : Nat} (h : es.length ≤ i) : at' es i = none := by
  unfold at'; rw [List.getElem?_eq_none h]; rfl

theorem at'_mem {es : List (Edge ds)} {i : Nat} (h : i < es.length) : at' es i ∈ es := by
  rw [at'_lt h]; exact List.getElem_mem h

theorem mem_at' {es : List (Edge ds)} {e : Edge ds} (h : e ∈ es) : ∃ i, i < es.length ∧ at' es i = e := by
  obtain ⟨i, hi, rfl⟩ := List.mem_iff_getElem.1 h
  exact ⟨i, hi, at'_lt hi⟩

theorem at'_mapIdx (es : List (Edge ds)) (f : Nat → Edge ds → Edge ds) (i : Nat) (hi : i < es.length) :
    at' (es.mapIdx f) i = f i (at' es i) := by
  rw [at'_lt (by rw [List.length_mapIdx]; exact hi), at'_lt hi, List.getElem_mapIdx]

@[simp] theorem val_none (p : List Nat) : val ds none p = 0 := by
  cases ds <;> rfl

theorem val_nil (w : ℂ) (u : Node []) (p : List Nat) : val [] (some (w, u)) p = w := rfl

theorem val_cons {d : Nat} (w : ℂ) (n : Node (d :: ds)) (k : Nat) (p : List Nat) :
    val (d :: ds) (some (w, n)) (k :: p) = w * val ds (at' n.edges k) p := rfl

theorem val_short {d : Nat} (e : Edge (d :: ds)) : val (d :: ds) e [] = 0 := by
  rcases e with _ | ⟨w, n⟩ <;> rfl

theorem val_some (w : ℂ) (n : Node ds) (p : List Nat) : val ds (some (w, n)) p = w * val ds (some (1, n)) p := by
  cases ds with
  | nil => rw [val_nil, val_nil, mul_one]
  | cons d ds =>
    cases p with
    | nil => rw [val_short, val_short, mul_zero]
    | cons k p => rw [val_cons, val_cons, one_mul]

theorem setW_some (w a : ℂ) (n : Node ds) : setW w (some (a, n)) = if w = 0 then none else some (w, n) := rfl

theorem val_setW (w a : ℂ) (n : Node ds) (p : List Nat) :
    val ds (setW w (some (a, n))) p = w * val ds (some (1, n)) p := by
  rw [setW_some]
  by_cases h : w = 0
  · rw [if_pos h, h, zero_mul, val_none]
  · rw [if_neg h, val_some]

@[simp] theorem setW_none (w : ℂ) : setW w (none : Edge ds) = none := rfl

theorem val_scale (a : ℂ) (e : Edge ds) (p : List Nat) : val ds (scale a e) p = a * val ds e p := by
  rcases e with _ | ⟨w, n⟩
  · rw [scale, setW_none, val_none, mul_zero]
  · rw [scale, val_setW, val_some w n]
    change w * a * _ = _
    ring

/-! ### proper diagrams -/

theorem proper_none (k : Kind) : Proper k ds none := by
  cases ds <;> trivial

theorem proper_weight {k : Kind} {w : ℂ} {n : Node ds} (h : Proper k ds (some (w, n))) : w ≠ 0 := by
  cases ds with
  | nil => exact h
  | cons d ds => exact h.1

theorem proper_some {k : Kind} {w a : ℂ} {n : Node ds} (h : Proper k ds (some (w, n))) (ha : a ≠ 0) :
    Proper k ds (some (a, n)) := by
  cases ds with
  | nil => exact ha
  | cons d ds => exact ⟨ha, h.2⟩

theorem proper_setW {k : Kind} {e : Edge ds} (h : Proper k ds e) (w : ℂ) : Proper k ds (setW w e) := by
  rcases e with _ | ⟨a, n⟩
  · exact h
  · rw [setW_some]
    by_cases hw : w = 0
    · rw [if_pos hw]; exact proper_none k
    · rw [if_neg hw]; exact proper_some h hw

theorem proper_scale {k : Kind} {e : Edge ds} (h : Proper k ds e) (w : ℂ) : Proper k ds (scale w e) := proper_setW h _

theorem weight_eq_zero {k : Kind} {e : Edge ds} (h : Proper k ds e) : weight e = 0 ↔ e = none := by
  rcases e with _ | ⟨a, n⟩
  · exact ⟨fun _ => rfl, fun _ => rfl⟩
  · constructor
    · intro h0; exact absurd h0 (proper_weight h)
    · intro h0; cases h0

theorem proper_at' {k : Kind} {es : List (Edge ds)} (h : ∀ e ∈ es, Proper k ds e) (i : Nat) : Proper k ds (at' es i) := by
  by_cases hi : i < es.length
  · exact h _ (at'_mem hi)
  · rw [at'_ge (by omega)]; exact proper_none k

/-- a proper diagram whose value is zero on all paths is the zero edge -/
theorem eq_none_of_val {k : Kind} : ∀ {ds : List Nat} {e : Edge ds}, Proper k ds e →
    (∀ p, Levels (ds.map (arity k)) p → val ds e p = 0) → e = none
  | [], none, _, _ => rfl
  | [], some (w, u), h, hv => absurd (hv [] List.Forall₂.nil) h
  | d :: ds, none, _, _ => rfl
  | d :: ds, some (w, n), h, hv => by
    obtain ⟨hw, hlen, hpr, ⟨e, he, hne⟩, _⟩ := h
    obtain ⟨i, hi, rfl⟩ := mem_at' he
    exfalso
    apply hne
    apply eq_none_of_val (hpr _ he)
    intro p hp
    have := hv (i :: p) (List.Forall₂.cons (by rw [← hlen]; exact hi) hp)
    rw [val_cons] at this
    exact (mul_eq_zero.1 this).resolve_left hw

/-! ### matrix normalisation -/

theorem maxM_cons (e : Edge ds) (es : List (Edge ds)) (i : Nat) (best : Option (Nat × ℂ)) :
    maxM (e :: es) i best = if weight e = 0 then maxM es (i + 1) best
      else
        match best with
        | none => maxM es (i + 1) (some (i, weight e))
        | some (k, w) =>
          if Complex.normSq (weight e) - Complex.normSq w > 0 then maxM es (i + 1) (some (i, weight e))
          else maxM es (i + 1) (some (k, w)) := by
  conv_lhs => unfold maxM
  rfl

theorem maxM_none {es : List (Edge ds)} : ∀ {i best}, maxM es i best = none → best = none ∧ ∀ e ∈ es, weight e = 0 := by
  induction es with
  | nil => intro i best h; exact ⟨h, by intro e he; cases he⟩
  | cons e es ih =>
    intro i best h
    rw [maxM_cons] at h
    by_cases he : weight e = 0
    · rw [if_pos he] at h
      obtain ⟨h1, h2⟩ := ih h
      refine ⟨h1, ?_⟩
      intro e' he'
      rcases List.mem_cons.1 he' with rfl | h'
      · exact he
      · exact h2 _ h'
    · rw [if_neg he] at h
      rcases best with _ | ⟨k, w⟩
      · exact absurd (ih h).1 (by simp)
      · dsimp only at h
        split at h
        · exact absurd (ih h).1 (by simp)
        · exact absurd (ih h).1 (by simp)

theorem maxM_some {es : List (Edge ds)} : ∀ {i best k w}, maxM es i best = some (k, w) →
    best = some (k, w) ∨ ∃ j, j < es.length ∧ k = i + j ∧ weight (at' es j) = w ∧ w ≠ 0 := by
  induction es with
  | nil => intro i best k w h; exact Or.inl h
  | cons e es ih =>
    intro i best k w h
    have hshift : (∃ j, j < es.length ∧ k = (i + 1) + j ∧ weight (at' es j) = w ∧ w ≠ 0) →
        ∃ j, j < (e :: es).length ∧ k = i + j ∧ weight (at' (e :: es) j) = w ∧ w ≠ 0 := by
      rintro ⟨j, hj, hk, hw, h0⟩
      exact ⟨j + 1, by simpa using hj, by omega, hw, h0⟩
    rw [maxM_cons] at h
    by_cases he : weight e = 0
    · rw [if_pos he] at h
      rcases ih h with h1 | h1
      · exact Or.inl h1
      · exact Or.inr (hshift h1)
    · rw [if_neg he] at h
      have hnew : (some (i, weight e) : Option (Nat × ℂ)) = some (k, w) →
          ∃ j, j < (e :: es).length ∧ k = i + j ∧ weight (at' (e :: es) j) = w ∧ w ≠ 0 := by
        intro h1
        injection h1 with h1
        injection h1 with h1 h2
        exact ⟨0, by simp, by omega, h2, h2 ▸ he⟩
      rcases best with _ | ⟨k', w'⟩
      · rcases ih h with h1 | h1
        · exact Or.inr (hnew h1)
        · exact Or.inr (hshift h1)
      · dsimp only at h
        split at h
        · rcases ih h with h1 | h1
          · exact Or.inr (hnew h1)
          · exact Or.inr (hshift h1)
        · rcases ih h with h1 | h1
          · exact Or.inl h1
          · exact Or.inr (hshift h1)

/-- what normalisation achieves -/
structure Normal (k : Kind) (es : List (Edge ds)) (w : ℂ) (es' : List (Edge ds)) : Prop where
  ne : w ≠ 0
  len : es'.length = es.length
  proper : ∀ e ∈ es', Proper k ds e
  some : ∃ e ∈ es', e ≠ none
  val : ∀ i p, w * val ds (at' es' i) p = val ds (at' es i) p

/-- what normalisation gives back is zero only where the input was zero -/
theorem normal_zero {k : Kind} {es es' : List (Edge ds)} {w : ℂ} (h : Normal k es w es') (hp : ∀ e ∈ es, Proper k ds e)
    (i : Nat) : at' es' i = none ↔ at' es i = none := by
  constructor
  · intro h0
    apply eq_none_of_val (proper_at' hp i)
    intro p _
    rw [← h.val i p, h0, val_none, mul_zero]
  · intro h0
    apply eq_none_of_val (proper_at' h.proper i)
    intro p _
    have := h.val i p
    rw [h0, val_none] at this
    exact (mul_eq_zero.1 this).resolve_left h.ne

theorem normalizeM_none {k : Kind} {es : List (Edge ds)} (hp : ∀ e ∈ es, Proper k ds e) (h : normalizeM es = none) (i : Nat) :
    at' es i = none := by
  unfold normalizeM at h
  have hm : maxM es 0 none = none := by
    rcases hm : maxM es 0 none with _ | ⟨k, w⟩
    · rfl
    · rw [hm] at h; cases h
  by_cases hi : i < es.length
  · exact (weight_eq_zero (hp _ (at'_mem hi))).1 ((maxM_none hm).2 _ (at'_mem hi))
  · exact at'_ge (by omega)

theorem normalizeM_some {k : Kind} {es es' : List (Edge ds)} {w : ℂ} (hp : ∀ e ∈ es, Proper k ds e)
    (h : normalizeM es = some (w, es')) : Normal k es w es' := by
  unfold normalizeM at h
  rcases hm : maxM es 0 none with _ | ⟨j, w'⟩
  · rw [hm] at h; cases h
  rw [hm] at h
  injection h with h
  injection h with h1 h2
  subst h1 h2
  rcases maxM_some hm with h0 | ⟨j', hj, hjk, hw, h0⟩
  · cases h0
  have hj' : j' = j := by omega
  subst hj'
  have hval : ∀ i p, w' * val ds (at' (es.mapIdx fun i e => if i = j' then setW 1 e else setW (weight e / w') e) i) p
      = val ds (at' es i) p := by
    intro i p
    by_cases hi : i < es.length
    · rw [at'_mapIdx _ _ _ hi]
      rcases he : at' es i with _ | ⟨a, n⟩
      · by_cases hij : i = j'
        · rw [if_pos hij, setW_none, val_none, mul_zero]
        · rw [if_neg hij, setW_none, val_none, mul_zero]
      · by_cases hij : i = j'
        · rw [if_pos hij, val_setW, val_some a n]
          have : a = w' := by rw [← hw, ← hij, he]; rfl
          rw [this]; ring
        · rw [if_neg hij, val_setW, val_some a n]
          change w' * (a / w' * _) = _
          field_simp
    · rw [at'_ge (es := es.mapIdx _) (i := i) (by rw [List.length_mapIdx]; omega), at'_ge (es := es) (i := i) (by omega),
        val_none, mul_zero]
  refine ⟨h0, List.length_mapIdx, ?_, ?_, hval⟩
  · intro e he
    obtain ⟨i, hi, rfl⟩ := mem_at' he
    rw [List.length_mapIdx] at hi
    rw [at'_mapIdx _ _ _ hi]
    split
    · exact proper_setW (hp _ (at'_mem hi)) _
    · exact proper_setW (hp _ (at'_mem hi)) _
  · refine ⟨_, at'_mem (i := j') (by rw [List.length_mapIdx]; exact hj), ?_⟩
    rw [at'_mapIdx _ _ _ hj, if_pos rfl]
    rcases he : at' es j' with _ | ⟨a, n⟩
    · rw [he] at hw; exact absurd hw.symm h0
    · rw [setW_some, if_neg one_ne_zero]; simp

/-! ### vector normalisation -/

theorem argMaxV_spec (es : List (Edge ds)) (h : es ≠ []) :
    (argMaxV es).2 < es.length ∧ (argMaxV es).1 = Complex.normSq (weight (at' es (argMaxV es).2)) ∧
      ∀ i, i < es.length → Complex.normSq (weight (at' es i)) ≤ (argMaxV es).1 := by
  have key : ∀ l : List Nat, (∀ i ∈ l, i < es.length) →
      let b := l.foldr (fun i b => if Complex.normSq (weight (at' es i)) ≥ b.1 then
        (Complex.normSq (weight (at' es i)), i) else b) ((Complex.normSq (weight (at' es 0)), 0) : ℝ × Nat)
      b.2 < es.length ∧ b.1 = Complex.normSq (weight (at' es b.2)) ∧
        ∀ i ∈ l, Complex.normSq (weight (at' es i)) ≤ b.1 := by
    intro l
    induction l with
    | nil => intro _; exact ⟨List.length_pos_of_ne_nil h, rfl, by intro i hi; cases hi⟩
    | cons a l ih =>
      intro hl
      obtain ⟨h1, h2, h3⟩ := ih fun i hi => hl i (List.mem_cons_of_mem _ hi)
      dsimp only at h1 h2 h3 ⊢
      rw [List.foldr_cons]
      split
      · rename_i hge
        refine ⟨hl a List.mem_cons_self, rfl, ?_⟩
        intro i hi
        rcases List.mem_cons.1 hi with rfl | hi
        · exact le_refl _
        · exact le_trans (h3 i hi) hge
      · rename_i hge
        refine ⟨h1, h2, ?_⟩
        intro i hi
        rcases List.mem_cons.1 hi with rfl | hi
        · exact le_of_lt (not_le.1 hge)
        · exact h3 i hi
  obtain ⟨h1, h2, h3⟩ := key (List.range es.length) fun i hi => List.mem_range.1 hi
  exact ⟨h1, h2, fun i hi => h3 i (List.mem_range.2 hi)⟩

theorem normalizeV_none {cached : Bool} {es : List (Edge ds)} (hp : ∀ e ∈ es, Proper .vec ds e)
    (h : normalizeV cached es = none) (i : Nat) :
    at' es i = none := by
  by_contra hne
  have hi : i < es.length := by
    by_contra hi
    exact hne (at'_ge (by omega))
  have hw : weight (at' es i) ≠ 0 := fun h0 => hne ((weight_eq_zero (hp _ (at'_mem hi))).1 h0)
  have hes : es ≠ [] := by rintro rfl; exact absurd hi (by simp)
  obtain ⟨ha, hm, hmax⟩ := argMaxV_spec es hes
  have hpos : 0 < (argMaxV es).1 := lt_of_lt_of_le (Complex.normSq_pos.2 hw) (hmax i hi)
  have hwa : weight (at' es (argMaxV es).2) ≠ 0 := by
    rw [← Complex.normSq_pos, ← hm]; exact hpos
  unfold normalizeV at h
  have hin : i ∈ (List.range es.length).filter (fun i => weight (at' es i) ≠ 0) := by
    simp [hi, hw]
  split at h
  · rename_i heq; rw [heq] at hin; cases hin
  · cases h
  · dsimp only at h
    have hsum : (argMaxV es).1 ≤ (es.map fun e => Complex.normSq (weight e)).sum := by
      rw [hm]
      apply List.single_le_sum
      · intro x hx
        obtain ⟨e, _, rfl⟩ := List.mem_map.1 hx
        exact Complex.normSq_nonneg _
      · exact List.mem_map.2 ⟨_, at'_mem ha, rfl⟩
    have hc : ((Real.sqrt ((es.map fun e => Complex.normSq (weight e)).sum) / Real.sqrt (argMaxV es).1 : ℝ) : ℂ) ≠ 0 := by
      have h1 : 0 < Real.sqrt ((es.map fun e => Complex.normSq (weight e)).sum) :=
        Real.sqrt_pos.2 (lt_of_lt_of_le hpos hsum)
      have h2 : 0 < Real.sqrt (argMaxV es).1 := Real.sqrt_pos.2 hpos
      exact_mod_cast (div_pos h1 h2).ne'
    rw [if_neg] at h
    · cases h
    · split_ifs
      · exact mul_ne_zero hwa hc
      · exact hc

theorem normalizeV_some {cached : Bool} {es es' : List (Edge ds)} {w : ℂ} (hp : ∀ e ∈ es, Proper .vec ds e)
    (hc : cached = true ∨ (∃ k, (List.range es.length).filter (fun i => weight (at' es i) ≠ 0) = [k]) ∨
      weight (at' es (argMaxV es).2) = 1)
    (h : normalizeV cached es = some (w, es')) : Normal .vec es w es' := by
  unfold normalizeV at h
  split at h
  · cases h
  · rename_i k hk
    injection h with h
    injection h with h1 h2
    subst h1 h2
    have hkm : k ∈ (List.range es.length).filter (fun i => weight (at' es i) ≠ 0) := by rw [hk]; simp
    rw [List.mem_filter, List.mem_range] at hkm
    obtain ⟨hkl, hkw⟩ := hkm
    have hkw : weight (at' es k) ≠ 0 := of_decide_eq_true hkw
    have hother : ∀ i, i < es.length → i ≠ k → at' es i = none := by
      intro i hi hik
      by_contra hne
      have hw : weight (at' es i) ≠ 0 := fun h0 => hne ((weight_eq_zero (hp _ (at'_mem hi))).1 h0)
      have : i ∈ (List.range es.length).filter (fun i => weight (at' es i) ≠ 0) := by
        simp [hi, hw]
      rw [hk] at this
      exact hik (List.mem_singleton.1 this)
    refine ⟨hkw, List.length_mapIdx, ?_, ?_, ?_⟩
    · intro e he
      obtain ⟨i, hi, rfl⟩ := mem_at' he
      rw [List.length_mapIdx] at hi
      rw [at'_mapIdx _ _ _ hi]
      split
      · exact proper_setW (hp _ (at'_mem hi)) _
      · exact hp _ (at'_mem hi)
    · refine ⟨_, at'_mem (i := k) (by rw [List.length_mapIdx]; exact hkl), ?_⟩
      rw [at'_mapIdx _ _ _ hkl, if_pos rfl]
      rcases he : at' es k with _ | ⟨a, n⟩
      · rw [he] at hkw; exact absurd rfl hkw
      · rw [setW_some, if_neg one_ne_zero]; simp
    · intro i p
      by_cases hi : i < es.length
      · rw [at'_mapIdx _ _ _ hi]
        by_cases hik : i = k
        · rw [if_pos hik, hik]
          rcases he : at' es k with _ | ⟨a, n⟩
          · rw [he] at hkw; exact absurd rfl hkw
          · rw [val_setW, val_some a n, one_mul]; rfl
        · rw [if_neg hik, hother i hi hik, val_none, mul_zero]
      · rw [at'_ge (es := es.mapIdx _) (i := i) (by rw [List.length_mapIdx]; omega), at'_ge (es := es) (i := i) (by omega),
        val_none, mul_zero]
  · rename_i hnil hone
    have hes : es ≠ [] := by rintro rfl; exact hnil rfl
    obtain ⟨ha, hm, hmax⟩ := argMaxV_spec es hes
    have hpos : 0 < (argMaxV es).1 := by
      obtain ⟨i, hi⟩ := List.exists_mem_of_ne_nil _ hnil
      rw [List.mem_filter, List.mem_range] at hi
      exact lt_of_lt_of_le (Complex.normSq_pos.2 (of_decide_eq_true hi.2)) (hmax i hi.1)
    have hwa : weight (at' es (argMaxV es).2) ≠ 0 := by
      rw [← Complex.normSq_pos, ← hm]; exact hpos
    have hsum : (argMaxV es).1 ≤ (es.map fun e => Complex.normSq (weight e)).sum := by
      rw [hm]
      apply List.single_le_sum
      · intro x hx
        obtain ⟨e, _, rfl⟩ := List.mem_map.1 hx
        exact Complex.normSq_nonneg _
      · exact List.mem_map.2 ⟨_, at'_mem ha, rfl⟩
    have h1 : Real.sqrt ((es.map fun e => Complex.normSq (weight e)).sum) ≠ 0 :=
      (Real.sqrt_pos.2 (lt_of_lt_of_le hpos hsum)).ne'
    have h2 : Real.sqrt (argMaxV es).1 ≠ 0 := (Real.sqrt_pos.2 hpos).ne'
    have h1c : ((Real.sqrt ((es.map fun e => Complex.normSq (weight e)).sum) : ℝ) : ℂ) ≠ 0 := by exact_mod_cast h1
    have h2c : ((Real.sqrt (argMaxV es).1 : ℝ) : ℂ) ≠ 0 := by exact_mod_cast h2
    dsimp only at h
    have hwv : (if cached = true ∧ weight (at' es (argMaxV es).2) ≠ 1 then
          weight (at' es (argMaxV es).2) * ((Real.sqrt ((es.map fun e => Complex.normSq (weight e)).sum) / Real.sqrt (argMaxV es).1 : ℝ) : ℂ)
        else ((Real.sqrt ((es.map fun e => Complex.normSq (weight e)).sum) / Real.sqrt (argMaxV es).1 : ℝ) : ℂ)) =
        weight (at' es (argMaxV es).2) * ((Real.sqrt ((es.map fun e => Complex.normSq (weight e)).sum) / Real.sqrt (argMaxV es).1 : ℝ) : ℂ) := by
      by_cases h1' : weight (at' es (argMaxV es).2) = 1
      · rw [if_neg (fun h => h.2 h1'), h1', one_mul]
      · rw [if_pos]
        refine ⟨?_, h1'⟩
        rcases hc with hc | ⟨k, hk⟩ | hc
        · exact hc
        · exact absurd hk (hone k)
        · exact absurd hc h1'
    rw [hwv] at h
    split at h
    · cases h
    · rename_i hw0
      injection h with h
      injection h with h3 h4
      subst h4
      rw [h3] at hw0
      have hwm : w * ((Real.sqrt (argMaxV es).1 / Real.sqrt ((es.map fun e => Complex.normSq (weight e)).sum) : ℝ) : ℂ) =
          weight (at' es (argMaxV es).2) := by
        rw [← h3]
        push_cast
        field_simp
      refine ⟨hw0, List.length_mapIdx, ?_, ?_, ?_⟩
      · intro e he
        obtain ⟨i, hi, rfl⟩ := mem_at' he
        rw [List.length_mapIdx] at hi
        rw [at'_mapIdx _ _ _ hi]
        split
        · exact proper_setW (hp _ (at'_mem hi)) _
        · exact proper_setW (hp _ (at'_mem hi)) _
      · refine ⟨_, at'_mem (i := (argMaxV es).2) (by rw [List.length_mapIdx]; exact ha), ?_⟩
        rw [at'_mapIdx _ _ _ ha, if_pos rfl]
        rcases he : at' es (argMaxV es).2 with _ | ⟨a, n⟩
        · rw [he] at hwa; exact absurd rfl hwa
        · rw [setW_some, if_neg]
          · simp
          · intro h0; rw [h0, mul_zero] at hwm; exact hwa hwm.symm
      · intro i p
        by_cases hi : i < es.length
        · rw [at'_mapIdx _ _ _ hi]
          by_cases hik : i = (argMaxV es).2
          · rw [if_pos hik, hik]
            rcases he : at' es (argMaxV es).2 with _ | ⟨a, n⟩
            · rw [he] at hwa; exact absurd rfl hwa
            · rw [val_setW, val_some a n, ← mul_assoc, hwm, he]; rfl
          · rw [if_neg hik]
            rcases he : at' es i with _ | ⟨a, n⟩
            · rw [setW_none, val_none, mul_zero]
            · rw [val_setW, val_some a n, h3]
              change w * (a / w * _) = _
              field_simp
        · rw [at'_ge (es := es.mapIdx _) (i := i) (by rw [List.length_mapIdx]; omega), at'_ge (es := es) (i := i) (by omega),
        val_none, mul_zero]

end Qudits.DD
