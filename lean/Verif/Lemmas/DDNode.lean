import Verif.Lemmas.DDBasic
/- Nodes, the two flags of matrix nodes, and the shape of matrices acting on one line. -/
namespace Qudits.DD
open Spec Classical

variable {ds : List Nat}

theorem mem_pairs {r c : Nat} {p : Nat × Nat} : p ∈ pairs r c ↔ p.1 < r ∧ p.2 < c := by
  unfold pairs
  rw [List.mem_flatMap]
  constructor
  · rintro ⟨i, hi, hp⟩
    obtain ⟨j, hj, rfl⟩ := List.mem_map.1 hp
    exact ⟨List.mem_range.1 hi, List.mem_range.1 hj⟩
  · rintro ⟨h1, h2⟩
    exact ⟨p.1, List.mem_range.2 h1, List.mem_map.2 ⟨p.2, List.mem_range.2 h2, rfl⟩⟩

theorem pairs_length (r c : Nat) : (pairs r c).length = r * c := by
  unfold pairs
  rw [List.length_flatMap]
  simp

theorem pairs_getElem? (r c i j : Nat) (hi : i < r) (hj : j < c) : (pairs r c)[c * i + j]? = some (i, j) := by
  unfold pairs
  induction r with
  | zero => omega
  | succ r ih =>
    rw [List.range_succ, List.flatMap_append]
    have hl : ((List.range r).flatMap fun i => (List.range c).map fun j => (i, j)).length = r * c := pairs_length r c
    by_cases h : i < r
    · rw [List.getElem?_append_left]
      · exact ih h
      · rw [hl]
        calc c * i + j < c * i + c := by omega
          _ = c * (i + 1) := by ring
          _ ≤ c * r := Nat.mul_le_mul_left c (by omega)
          _ = r * c := by ring
    · have : i = r := by omega
      subst this
      rw [List.getElem?_append_right (by rw [hl, Nat.mul_comm]; omega), hl]
      rw [show c * i + j - i * c = j by rw [Nat.mul_comm i c]; omega]
      simp [hj]

/-! ### flags -/

/-- the weight of an edge is irrelevant for `symOf` -/
theorem symOf_setW {e : Edge ds} (h : symOf e = true) (w : ℂ) : symOf (setW w e) = true := by
  rcases e with _ | ⟨a, n⟩
  · exact h
  · rw [setW_some]
    split
    · cases ds <;> rfl
    · cases ds
      · rfl
      · exact h

theorem transpose_sym {e : Edge ds} (h : symOf e = true) : transpose e = .ok e := by
  rcases e with _ | ⟨a, n⟩
  · cases ds <;> rfl
  · cases ds with
    | nil => rfl
    | cons d ds =>
      have h' : n.sym = true := h
      unfold transpose
      dsimp only
      rw [if_pos h']

theorem symLoop_total {d : Nat} {es : List (Edge ds)}
    (h : ∀ i j, i < d → j < d → i ≠ j → symOf (at' es (i * d + j)) = true) :
    ∀ ps : List (Nat × Nat), (∀ p ∈ ps, p.1 < d ∧ p.2 < d) → ∃ b, symLoop d es ps = .ok b := by
  intro ps
  induction ps with
  | nil => intro _; exact ⟨true, rfl⟩
  | cons p ps ih =>
    intro hps
    obtain ⟨i, j⟩ := p
    unfold symLoop
    split
    · exact ih fun p hp => hps p (List.mem_cons_of_mem _ hp)
    · rename_i hij
      rw [transpose_sym (h i j (hps _ List.mem_cons_self).1 (hps _ List.mem_cons_self).2 hij)]
      dsimp only
      split
      · exact ih fun p hp => hps p (List.mem_cons_of_mem _ hp)
      · exact ⟨false, rfl⟩

theorem symLoop_true {d : Nat} {es : List (Edge ds)} {ps : List (Nat × Nat)} (h : symLoop d es ps = .ok true) :
    ∀ i j, (i, j) ∈ ps → i ≠ j → transpose (at' es (i * d + j)) = .ok (at' es (j * d + i)) := by
  induction ps with
  | nil => intro i j h; cases h
  | cons p ps ih =>
    obtain ⟨i', j'⟩ := p
    unfold symLoop at h
    intro i j hm hij
    split at h
    · rename_i h0
      rcases List.mem_cons.1 hm with h1 | h1
      · injection h1 with h1 h2
        exact absurd (h1.trans (h0.trans h2.symm)) hij
      · exact ih h i j h1 hij
    · split at h
      · cases h
      · rename_i t ht
        split at h
        · rename_i heq
          rcases List.mem_cons.1 hm with h1 | h1
          · injection h1 with h1 h2
            subst h1 h2
            rw [ht, heq]
          · exact ih h i j h1 hij
        · injection h with h; cases h

theorem symLoop_of {d : Nat} {es : List (Edge ds)} {ps : List (Nat × Nat)}
    (h : ∀ i j, (i, j) ∈ ps → i ≠ j → transpose (at' es (i * d + j)) = .ok (at' es (j * d + i))) :
    symLoop d es ps = .ok true := by
  induction ps with
  | nil => rfl
  | cons p ps ih =>
    obtain ⟨i, j⟩ := p
    unfold symLoop
    split
    · exact ih fun i j hm => h i j (List.mem_cons_of_mem _ hm)
    · rename_i hij
      rw [h i j List.mem_cons_self hij]
      dsimp only
      rw [if_pos rfl]
      exact ih fun i j hm => h i j (List.mem_cons_of_mem _ hm)

theorem checkSpecial_total {d : Nat} {es : List (Edge ds)}
    (h : ∀ i j, i < d → j < d → i ≠ j → symOf (at' es (i * d + j)) = true) :
    ∃ b, checkSpecial d es = .ok b := by
  unfold checkSpecial
  split
  · obtain ⟨b, hb⟩ := symLoop_total h (pairs d d) fun p hp => mem_pairs.1 hp
    rw [hb]
    cases b
    · exact ⟨_, rfl⟩
    · exact ⟨_, rfl⟩
  · exact ⟨_, rfl⟩

/-- what the flags of a node say about its children -/
theorem checkSpecial_ident {d : Nat} {es : List (Edge ds)} {s : Bool} (h : checkSpecial d es = .ok (s, true)) (i j : Nat)
    (hi : i < d) (hj : j < d) :
    (i = j → identOf (at' es (i * d + j)) = true ∧ weight (at' es (i * d + j)) = 1) ∧
      (i ≠ j → weight (at' es (i * d + j)) = 0) := by
  unfold checkSpecial at h
  split at h
  · split at h
    · cases h
    · injection h with h; injection h with h1 h2; cases h2
    · injection h with h
      injection h with h1 h2
      have := List.all_eq_true.1 h2 (i, j) (mem_pairs.2 ⟨hi, hj⟩)
      constructor
      · intro hij
        rw [if_pos (by exact hij)] at this
        rw [Bool.and_eq_true] at this
        exact ⟨this.1, of_decide_eq_true this.2⟩
      · intro hij
        rw [if_neg (by exact hij)] at this
        exact of_decide_eq_true this
  · injection h with h; injection h with h1 h2; cases h2

theorem checkSpecial_sym {d : Nat} {es : List (Edge ds)} {b : Bool} (h : checkSpecial d es = .ok (true, b)) :
    (∀ i, i < d → symOf (at' es (i * d + i)) = true) ∧
      ∀ i j, i < d → j < d → i ≠ j → transpose (at' es (i * d + j)) = .ok (at' es (j * d + i)) := by
  unfold checkSpecial at h
  split at h
  · rename_i hall
    refine ⟨fun i hi => List.all_eq_true.1 hall i (List.mem_range.2 hi), ?_⟩
    intro i j hi hj hij
    split at h
    · cases h
    · injection h with h; injection h with h1 h2; cases h1
    · rename_i hs
      exact symLoop_true hs i j (mem_pairs.2 ⟨hi, hj⟩) hij
  · injection h with h; injection h with h1 h2; cases h1

theorem checkSpecial_of {d : Nat} {es : List (Edge ds)} (h1 : ∀ i, i < d → symOf (at' es (i * d + i)) = true)
    (h2 : ∀ i j, i < d → j < d → i ≠ j → transpose (at' es (i * d + j)) = .ok (at' es (j * d + i))) :
    ∃ b, checkSpecial d es = .ok (true, b) := by
  unfold checkSpecial
  rw [if_pos, symLoop_of]
  · exact ⟨_, rfl⟩
  · intro i j hm hij
    exact h2 i j (mem_pairs.1 hm).1 (mem_pairs.1 hm).2 hij
  · rw [List.all_eq_true]
    intro i hi
    exact h1 i (List.mem_range.1 hi)

/-! ### entries -/

theorem entry_none (xs ys : List Nat) : entry ds none xs ys = 0 := val_none _

theorem entry_cons {d : Nat} (w : ℂ) (n : Node (d :: ds)) (x y : Nat) (xs ys : List Nat) :
    entry (d :: ds) (some (w, n)) (x :: xs) (y :: ys) = w * entry ds (at' n.edges (d * x + y)) xs ys := rfl

theorem entry_some (w : ℂ) (n : Node ds) (xs ys : List Nat) :
    entry ds (some (w, n)) xs ys = w * entry ds (some (1, n)) xs ys := val_some _ _ _

theorem levels_cons_iff {d : Nat} {ds ls : List Nat} :
    Levels (d :: ds) ls ↔ ∃ x xs, ls = x :: xs ∧ x < d ∧ Levels ds xs := by
  constructor
  · intro h
    cases h with
    | cons h1 h2 => exact ⟨_, _, rfl, h1, h2⟩
  · rintro ⟨x, xs, rfl, h1, h2⟩
    exact List.Forall₂.cons h1 h2

theorem levels_nil_iff {ls : List Nat} : Levels [] ls ↔ ls = [] := by
  constructor
  · intro h; cases h; rfl
  · rintro rfl; exact List.Forall₂.nil

/-- an edge into an identity node with weight `w` is `w` times the identity -/
theorem ident_entry : ∀ {ds : List Nat} {w : ℂ} {n : Node ds}, Proper .mat ds (some (w, n)) →
    identOf (some (w, n) : Edge ds) = true → ∀ xs ys, Levels ds xs → Levels ds ys →
    entry ds (some (w, n)) xs ys = if xs = ys then w else 0
  | [], w, n, _, _, xs, ys, hx, hy => by
    rw [levels_nil_iff] at hx hy
    subst hx hy
    rw [if_pos rfl]
    rfl
  | d :: ds, w, n, hp, hi, xs, ys, hx, hy => by
    obtain ⟨x, xs, rfl, hx1, hx2⟩ := levels_cons_iff.1 hx
    obtain ⟨y, ys, rfl, hy1, hy2⟩ := levels_cons_iff.1 hy
    obtain ⟨hw, hlen, hpr, _, hflag⟩ := hp
    have hi : n.ident = true := hi
    have hch := hflag rfl
    rw [hi] at hch
    have hc := checkSpecial_ident hch x y hx1 hy1
    rw [Nat.mul_comm x d] at hc
    rw [entry_cons]
    have hpc := proper_at' hpr (d * x + y)
    by_cases hxy : x = y
    · obtain ⟨h1, h2⟩ := hc.1 hxy
      rcases he : at' n.edges (d * x + y) with _ | ⟨a, m⟩
      · rw [he] at h2; exact absurd h2.symm one_ne_zero
      · rw [he] at h1 h2 hpc
        rw [ident_entry hpc h1 xs ys hx2 hy2]
        have h2 : a = 1 := h2
        by_cases hl : xs = ys
        · rw [if_pos hl, if_pos (by rw [hxy, hl]), h2, mul_one]
        · rw [if_neg hl, if_neg (by intro h; exact hl (List.cons.inj h).2), mul_zero]
    · have h2 := hc.2 hxy
      rw [(weight_eq_zero hpc).1 h2, entry_none, mul_zero, if_neg (by intro h; exact hxy (List.cons.inj h).1)]

/-- a node flagged symmetric is a symmetric matrix -/
theorem sym_entry : ∀ {ds : List Nat} {e : Edge ds}, Proper .mat ds e → symOf e = true →
    ∀ xs ys, Levels ds xs → Levels ds ys → entry ds e xs ys = entry ds e ys xs
  | ds, none, _, _, xs, ys, _, _ => by rw [entry_none, entry_none]
  | [], some (w, n), _, _, xs, ys, hx, hy => by
    rw [levels_nil_iff] at hx hy
    subst hx hy
    rfl
  | d :: ds, some (w, n), hp, hs, xs, ys, hx, hy => by
    obtain ⟨x, xs, rfl, hx1, hx2⟩ := levels_cons_iff.1 hx
    obtain ⟨y, ys, rfl, hy1, hy2⟩ := levels_cons_iff.1 hy
    obtain ⟨hw, hlen, hpr, _, hflag⟩ := hp
    have hs : n.sym = true := hs
    have hch := hflag rfl
    rw [hs] at hch
    obtain ⟨h1, h2⟩ := checkSpecial_sym hch
    rw [entry_cons, entry_cons]
    congr 1
    by_cases hxy : x = y
    · subst hxy
      have h1 := h1 x hx1
      rw [Nat.mul_comm x d] at h1
      exact sym_entry (proper_at' hpr _) h1 xs ys hx2 hy2
    · have h3 := h2 x y hx1 hy1 hxy
      rw [Nat.mul_comm x d, Nat.mul_comm y d] at h3
      have hpc := proper_at' hpr (d * x + y)
      rcases he : at' n.edges (d * x + y) with _ | ⟨a, m⟩
      · rw [he] at h3
        have h3 : (none : Edge ds) = at' n.edges (d * y + x) := by
          cases ds <;> (injection h3)
        rw [← h3, entry_none, entry_none]
      · rw [he] at h3 hpc
        have h4 : symOf (some (a, m) : Edge ds) = true ∧ some (a, m) = at' n.edges (d * y + x) := by
          cases ds with
          | nil => injection h3 with h3; exact ⟨rfl, h3⟩
          | cons d' ds' =>
            unfold transpose at h3
            dsimp only at h3
            split at h3
            · rename_i hm; injection h3 with h3; exact ⟨hm, h3⟩
            · split at h3
              · rename_i hd'
                obtain ⟨_, hl', _, ⟨e', he', _⟩, _⟩ := hpc
                have : m.edges = [] := List.eq_nil_of_length_eq_zero (hl'.trans (by rw [hd']; rfl))
                rw [this] at he'; cases he'
              · cases h3
        rw [← h4.2]
        exact sym_entry hpc h4.1 xs ys hx2 hy2

/-! ### building nodes -/

theorem makeV_ok {d : Nat} {cached : Bool} {es : List (Edge ds)} (hp : ∀ e ∈ es, Proper .vec ds e) (hl : es.length = d)
    (hc : cached = true ∨ (∃ k, (List.range es.length).filter (fun i => weight (at' es i) ≠ 0) = [k]) ∨
      weight (at' es (argMaxV es).2) = 1) :
    Proper .vec (d :: ds) (makeV d es cached) ∧ ∀ i p, val (d :: ds) (makeV d es cached) (i :: p) = val ds (at' es i) p := by
  unfold makeV
  rcases h : normalizeV cached es with _ | ⟨w, es'⟩
  · refine ⟨proper_none _, ?_⟩
    intro i p
    rw [normalizeV_none hp h i]
    exact (val_none _).trans (val_none _).symm
  · have hn := normalizeV_some hp hc h
    refine ⟨⟨hn.ne, ?_, hn.proper, hn.some, fun h => nomatch h⟩, ?_⟩
    · change es'.length = _
      rw [hn.len, hl, arity, cols, Nat.mul_one]
    · intro i p
      exact hn.val i p

theorem makeM_ok {d : Nat} {es : List (Edge ds)} (hp : ∀ e ∈ es, Proper .mat ds e) (hl : es.length = d * d)
    {r : Edge (d :: ds)} (h : makeM d es = .ok r) :
    Proper .mat (d :: ds) r ∧ ∀ i p, val (d :: ds) r (i :: p) = val ds (at' es i) p := by
  unfold makeM at h
  rcases hm : normalizeM es with _ | ⟨w, es'⟩
  · rw [hm] at h
    injection h with h
    subst h
    refine ⟨proper_none _, ?_⟩
    intro i p
    rw [normalizeM_none hp hm i]
    exact (val_none _).trans (val_none _).symm
  · rw [hm] at h
    dsimp only at h
    have hn := normalizeM_some hp hm
    split at h
    · cases h
    · rename_i s i hc
      injection h with h
      subst h
      refine ⟨⟨hn.ne, ?_, hn.proper, hn.some, fun _ => hc⟩, ?_⟩
      · change es'.length = _
        rw [hn.len, hl]; rfl
      · intro i p
        exact hn.val i p

theorem makeM_total {d : Nat} {es : List (Edge ds)}
    (h : ∀ i j, i < d → j < d → i ≠ j → symOf (at' es (i * d + j)) = true) :
    ∃ r, makeM d es = .ok r := by
  unfold makeM
  rcases hm : normalizeM es with _ | ⟨w, es'⟩
  · exact ⟨_, rfl⟩
  · dsimp only
    have : ∀ i j, i < d → j < d → i ≠ j → symOf (at' es' (i * d + j)) = true := by
      intro i j hi hj hij
      unfold normalizeM at hm
      split at hm
      · cases hm
      · injection hm with hm
        injection hm with h1 h2
        subst h2
        by_cases hk : i * d + j < es.length
        · rw [at'_mapIdx _ _ _ hk]
          split
          · exact symOf_setW (h i j hi hj hij) _
          · exact symOf_setW (h i j hi hj hij) _
        · rw [at'_ge (by rw [List.length_mapIdx]; omega)]
          cases ds <;> rfl
    obtain ⟨⟨s, i⟩, hb⟩ := checkSpecial_total this
    rw [hb]
    exact ⟨_, rfl⟩

theorem makeDDNode_ok {k : Kind} {d : Nat} {es : List (Edge ds)} (hp : ∀ e ∈ es, Proper k ds e) (hl : es.length = arity k d)
    {r : Edge (d :: ds)} (h : makeDDNode k d es = .ok r) :
    Proper k (d :: ds) r ∧ ∀ i p, val (d :: ds) r (i :: p) = val ds (at' es i) p := by
  cases k with
  | vec =>
    injection h with h
    subst h
    exact makeV_ok hp (by rw [hl, arity, cols, Nat.mul_one]) (Or.inl rfl)
  | mat => exact makeM_ok hp hl h

/-! ### matrices acting on one line -/

/-- the levels agree on all registers except possibly register `t` -/
def Agree (t : Nat) : List Nat → List Nat → Prop
  | x :: xs, y :: ys => (x = y ∨ xs.length = t) ∧ Agree t xs ys
  | _, _ => True

/-- the entries are zero unless the levels agree on all registers other than `t`; for `t` beyond the registers this is a
diagonal matrix -/
def Shape (t : Nat) (ds : List Nat) (e : Edge ds) : Prop :=
  ∀ xs ys, Levels ds xs → Levels ds ys → ¬ Agree t xs ys → entry ds e xs ys = 0

theorem Agree.refl (t : Nat) : ∀ xs, Agree t xs xs
  | [] => trivial
  | _ :: xs => ⟨Or.inl rfl, Agree.refl t xs⟩

theorem Agree.trans {t : Nat} : ∀ {xs ys zs : List Nat}, xs.length = ys.length → ys.length = zs.length →
    Agree t xs ys → Agree t ys zs → Agree t xs zs
  | [], _, _, _, _, _, _ => by unfold Agree; trivial
  | x :: xs, [], _, h, _, _, _ => by cases h
  | x :: xs, y :: ys, [], _, h, _, _ => by cases h
  | x :: xs, y :: ys, z :: zs, h1, h2, ⟨a1, a2⟩, ⟨b1, b2⟩ => by
    have h1' : xs.length = ys.length := by simpa using h1
    have h2' : ys.length = zs.length := by simpa using h2
    refine ⟨?_, Agree.trans h1' h2' a2 b2⟩
    rcases a1 with rfl | a1
    · rcases b1 with rfl | b1
      · exact Or.inl rfl
      · exact Or.inr (by omega)
    · exact Or.inr a1

theorem Agree.symm {t : Nat} : ∀ {xs ys : List Nat}, xs.length = ys.length → Agree t xs ys → Agree t ys xs
  | [], _, _, _ => by cases ‹List Nat› <;> (unfold Agree; trivial)
  | x :: xs, [], h, _ => by cases h
  | x :: xs, y :: ys, h, ⟨a1, a2⟩ => by
    have h' : xs.length = ys.length := by simpa using h
    refine ⟨?_, Agree.symm h' a2⟩
    rcases a1 with rfl | a1
    · exact Or.inl rfl
    · exact Or.inr (by omega)

theorem levels_len {ds xs : List Nat} (h : Levels ds xs) : xs.length = ds.length := List.Forall₂.length_eq h

theorem shape_none (t : Nat) : Shape t ds none := fun _ _ _ _ _ => entry_none _ _

theorem shape_child {t d : Nat} {w : ℂ} {n : Node (d :: ds)} (hw : w ≠ 0) (h : Shape t (d :: ds) (some (w, n))) (i j : Nat)
    (hi : i < d) (hj : j < d) : Shape t ds (at' n.edges (d * i + j)) := by
  intro xs ys hx hy hn
  have := h (i :: xs) (j :: ys) (List.Forall₂.cons hi hx) (List.Forall₂.cons hj hy) (fun ha => hn ha.2)
  rw [entry_cons] at this
  exact (mul_eq_zero.1 this).resolve_left hw

/-- two level lists give one path, and every path is of this form -/
theorem flat_surj : ∀ {ds p : List Nat}, Levels (ds.map (arity .mat)) p → ∃ xs ys, Levels ds xs ∧ Levels ds ys ∧ flat ds xs ys = p
  | [], p, h => by
    have : p = [] := levels_nil_iff.1 h
    subst this
    exact ⟨[], [], List.Forall₂.nil, List.Forall₂.nil, rfl⟩
  | d :: ds, p, h => by
    obtain ⟨k, p, rfl, hk, hp⟩ := levels_cons_iff.1 h
    obtain ⟨xs, ys, hx, hy, rfl⟩ := flat_surj hp
    have hk : k < d * d := hk
    have hd : 0 < d := by
      rcases Nat.eq_zero_or_pos d with h0 | h0
      · subst h0; omega
      · exact h0
    refine ⟨k / d :: xs, k % d :: ys, List.Forall₂.cons (Nat.div_lt_of_lt_mul hk) hx,
      List.Forall₂.cons (Nat.mod_lt _ hd) hy, ?_⟩
    rw [flat, Nat.div_add_mod]

theorem eq_none_of_entry {e : Edge ds} (hp : Proper .mat ds e)
    (h : ∀ xs ys, Levels ds xs → Levels ds ys → entry ds e xs ys = 0) : e = none := by
  apply eq_none_of_val hp
  intro p hl
  obtain ⟨xs, ys, hx, hy, rfl⟩ := flat_surj hl
  exact h xs ys hx hy

/-- a diagonal matrix is flagged symmetric -/
theorem diag_sym {t : Nat} : ∀ {ds : List Nat} {e : Edge ds}, Proper .mat ds e → Shape t ds e → ds.length ≤ t → symOf e = true
  | ds, none, _, _, _ => by cases ds <;> rfl
  | [], some (w, n), _, _, _ => rfl
  | d :: ds, some (w, n), hp, hs, hl => by
    obtain ⟨hw, hlen, hpr, _, hflag⟩ := hp
    change n.sym = true
    have hl' : ds.length < t := by simpa using hl
    have hoff : ∀ i j, i < d → j < d → i ≠ j → at' n.edges (i * d + j) = none := by
      intro i j hi hj hij
      rw [Nat.mul_comm i d]
      apply eq_none_of_entry (proper_at' hpr _)
      intro xs ys hx hy
      have := hs (i :: xs) (j :: ys) (List.Forall₂.cons hi hx) (List.Forall₂.cons hj hy) (by
        rintro ⟨h1 | h1, _⟩
        · exact hij h1
        · rw [levels_len hx] at h1; omega)
      rw [entry_cons] at this
      exact (mul_eq_zero.1 this).resolve_left hw
    obtain ⟨b, hb⟩ := checkSpecial_of (d := d) (es := n.edges)
      (fun i hi => by
        rw [Nat.mul_comm i d]
        exact diag_sym (proper_at' hpr _) (shape_child hw hs i i hi hi) (by omega))
      (fun i j hi hj hij => by
        rw [hoff i j hi hj hij, hoff j i hj hi (Ne.symm hij)]
        cases ds <;> rfl)
    rw [hflag rfl] at hb
    injection hb with hb
    injection hb

/-- building a node of a matrix acting on one line does not throw -/
theorem makeM_shape {t d : Nat} {es : List (Edge ds)} (hp : ∀ e ∈ es, Proper .mat ds e)
    (h : ∀ i j xs ys, i < d → j < d → Levels ds xs → Levels ds ys → ¬ Agree t (i :: xs) (j :: ys) →
      entry ds (at' es (d * i + j)) xs ys = 0) :
    ∃ r, makeM d es = .ok r := by
  apply makeM_total
  intro i j hi hj hij
  rw [Nat.mul_comm i d]
  by_cases ht : ds.length = t
  · apply diag_sym (t := t) (proper_at' hp _) _ (le_of_eq ht)
    intro xs ys hx hy hn
    exact h i j xs ys hi hj hx hy (fun ha => hn ha.2)
  · rw [eq_none_of_entry (proper_at' hp _)]
    · cases ds <;> rfl
    · intro xs ys hx hy
      apply h i j xs ys hi hj hx hy
      rintro ⟨h1 | h1, _⟩
      · exact hij h1
      · rw [levels_len hx] at h1; exact ht h1

end Qudits.DD
