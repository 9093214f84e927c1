import Verif.Lemmas.DDRead
import Verif.Spec.KronSpec
/- Kronecker products of matrix diagrams. -/
namespace Qudits.DD
open Spec Classical Tnsim

variable {ds ds1 ds2 : List Nat}

/-- the entry of a diagram in which the weights in front of identity nodes are dropped -/
noncomputable def kept : (ds : List Nat) → Edge ds → List Nat → List Nat → ℂ
  | _, none, _, _ => 0
  | [], some (w, _), _, _ => w
  | d :: ds, some (w, n), x :: xs, y :: ys =>
    if n.ident then (if x :: xs = y :: ys then 1 else 0) else w * kept ds (at' n.edges (d * x + y)) xs ys
  | _ :: _, some _, _, _ => 0

def KGood (x : Edge ds1) (y : Edge ds2) (r : Edge (ds1 ++ ds2)) : Prop :=
  SameSizes ds1 → Proper .mat ds1 x → Proper .mat ds2 y → Proper .mat (ds1 ++ ds2) r ∧
    ∀ xs ys us vs, Levels ds1 xs → Levels ds1 ys → Levels ds2 us → Levels ds2 vs →
      entry (ds1 ++ ds2) r (xs ++ us) (ys ++ vs) = kept ds1 x xs ys * entry ds2 y us vs

def KSound (t : KTable) : Prop :=
  ∀ b p (e : KEntry p.1 p.2), t b = some ⟨p, e⟩ → KGood e.left e.right e.result

theorem ksound_empty : KSound fun _ => none := fun _ _ _ h => (nomatch h)

theorem klookup_some {t : KTable} {b : Nat} {x : Edge ds1} {y : Edge ds2} {r : Edge (ds1 ++ ds2)}
    (h : t.lookup b x y = some r) : t b = some ⟨(ds1, ds2), ⟨x, y, r⟩⟩ := by
  unfold KTable.lookup at h
  rcases ht : t b with _ | ⟨p, e⟩
  · rw [ht] at h; cases h
  · rw [ht] at h
    dsimp only at h
    split at h
    · rename_i hd
      subst hd
      dsimp only at h
      split at h
      · cases h
      · rename_i hl
        split at h
        · cases h
        · rename_i hr
          injection h with h
          rw [not_not] at hl hr
          obtain ⟨l, r', res⟩ := e
          dsimp only at hl hr h
          subst hl hr h
          rfl
    · cases h

theorem ksound_insert {t : KTable} (ht : KSound t) (b : Nat) {x : Edge ds1} {y : Edge ds2} {r : Edge (ds1 ++ ds2)}
    (h : KGood x y r) : KSound (t.insert b x y r) := by
  intro b' p e h'
  unfold KTable.insert at h'
  split at h'
  · injection h' with h'
    obtain ⟨rfl, h''⟩ := Sigma.mk.inj h'
    rw [← eq_of_heq h'']
    exact h
  · exact ht b' p e h'

/-- what a computation guarantees -/
def KTri {α : Type} (tot : Prop) (m : KM α) (Q : α → Prop) : Prop :=
  ∀ t, KSound t → (∀ a t', m t = .ok (a, t') → KSound t' ∧ Q a) ∧ (tot → ∃ a t', m t = .ok (a, t'))

variable {α β : Type} {tot : Prop}

theorem ktri_pure {a : α} {Q : α → Prop} (h : Q a) : KTri tot (pure a : KM α) Q := by
  intro t ht
  constructor
  · intro a' t' heq
    injection heq with heq
    injection heq with h1 h2
    subst h1 h2
    exact ⟨ht, h⟩
  · intro _
    exact ⟨a, t, rfl⟩

theorem ktri_bind {m : KM α} {f : α → KM β} {Q : α → Prop} {R : β → Prop} (h1 : KTri tot m Q)
    (h2 : ∀ a, Q a → KTri tot (f a) R) : KTri tot (m >>= f) R := by
  intro t ht
  have hb : (m >>= f) t = (match m t with
      | .error e => .error e
      | .ok (a, s) => f a s) := by
    change (m t >>= fun p => f p.1 p.2) = _
    rcases m t with e | ⟨a, s⟩
    · rfl
    · rfl
  constructor
  · intro b t' heq
    rw [hb] at heq
    rcases hm : m t with e | ⟨a, s⟩
    · rw [hm] at heq; cases heq
    · rw [hm] at heq
      obtain ⟨hs, hq⟩ := (h1 t ht).1 a s hm
      exact (h2 a hq s hs).1 b t' heq
  · intro htot
    obtain ⟨a, s, hm⟩ := (h1 t ht).2 htot
    obtain ⟨hs, hq⟩ := (h1 t ht).1 a s hm
    obtain ⟨b, t', hf⟩ := (h2 a hq s hs).2 htot
    exact ⟨b, t', by rw [hb, hm]; exact hf⟩

theorem ktri_weaken {m : KM α} {Q Q' : α → Prop} {tot' : Prop} (h : KTri tot m Q) (hq : ∀ a, Q a → Q' a) (ht : tot' → tot) :
    KTri tot' m Q' := by
  intro t hs
  exact ⟨fun a t' he => ⟨((h t hs).1 a t' he).1, hq a ((h t hs).1 a t' he).2⟩, fun h' => (h t hs).2 (ht h')⟩

theorem ktri_get {f : KTable → KM β} {R : β → Prop} (h : ∀ t, KSound t → KTri tot (f t) R) : KTri tot (get >>= f) R := by
  intro t ht
  exact h t ht t ht

theorem ktri_modify {f : KTable → KTable} (h : ∀ t, KSound t → KSound (f t)) :
    KTri tot (modify f : KM PUnit) fun _ => True := by
  intro t ht
  constructor
  · intro a t' heq
    injection heq with heq
    injection heq with h1 h2
    subst h2
    exact ⟨h t ht, trivial⟩
  · intro _
    exact ⟨PUnit.unit, f t, rfl⟩

theorem ktri_lift {x : Except Err α} {Q : α → Prop} (h : ∀ a, x = .ok a → Q a) (ht : tot → ∃ a, x = .ok a) :
    KTri tot (klift x) Q := by
  intro t hs
  constructor
  · intro a t' heq
    unfold klift at heq
    split at heq
    · cases heq
    · rename_i b
      injection heq with heq
      injection heq with h1 h2
      subst h1 h2
      exact ⟨hs, h _ rfl⟩
  · intro h'
    obtain ⟨a, ha⟩ := ht h'
    exact ⟨a, t, by unfold klift; rw [ha]⟩

theorem ktri_mapM {f : α → KM β} {Q : α → β → Prop} {l : List α} (h : ∀ a ∈ l, KTri tot (f a) (Q a)) :
    KTri tot (l.mapM f) fun bs => List.Forall₂ Q l bs := by
  induction l with
  | nil => exact ktri_pure List.Forall₂.nil
  | cons a l ih =>
    rw [List.mapM_cons]
    refine ktri_bind (h a List.mem_cons_self) fun b hb => ?_
    refine ktri_bind (ih fun a ha => h a (List.mem_cons_of_mem _ ha)) fun bs hbs => ?_
    exact ktri_pure (List.Forall₂.cons hb hbs)

/-! ### the identity branch -/

theorem at'_set (es : List (Edge ds)) (k i : Nat) (e : Edge ds) (hk : k < es.length) :
    at' (es.set k e) i = if i = k then e else at' es i := by
  unfold at'
  rw [List.getElem?_set]
  by_cases h : k = i
  · subst h
    rw [if_pos rfl, if_pos hk, if_pos rfl]
    rfl
  · rw [if_neg h, if_neg (fun h' => h h'.symm)]

theorem diagFold (d : Nat) (e : Edge ds) : ∀ (l : List Nat) (es : List (Edge ds)), (∀ i ∈ l, i + i * d < es.length) →
    ∃ es', l.foldlM (fun es i => if i + i * d < es.length then Except.ok (es.set (i + i * d) e) else .error Err.outOfRange) es
        = .ok es' ∧ es'.length = es.length ∧
      ∀ k, at' es' k = if ∃ i ∈ l, k = i + i * d then e else at' es k
  | [], es, _ => ⟨es, rfl, rfl, fun k => by rw [if_neg (by simp)]⟩
  | i :: l, es, h => by
    have hi := h i List.mem_cons_self
    obtain ⟨es', h1, h2, h3⟩ := diagFold d e l (es.set (i + i * d) e)
      (fun j hj => by rw [List.length_set]; exact h j (List.mem_cons_of_mem _ hj))
    refine ⟨es', ?_, by rw [h2, List.length_set], ?_⟩
    · rw [List.foldlM_cons, if_pos hi]
      exact h1
    · intro k
      rw [h3 k, at'_set _ _ _ _ hi]
      by_cases hk : ∃ j ∈ l, k = j + j * d
      · obtain ⟨j, hj, hjk⟩ := hk
        rw [if_pos ⟨j, hj, hjk⟩, if_pos ⟨j, List.mem_cons_of_mem _ hj, hjk⟩]
      · rw [if_neg hk]
        by_cases hki : k = i + i * d
        · rw [if_pos hki, if_pos ⟨i, List.mem_cons_self, hki⟩]
        · rw [if_neg hki, if_neg]
          rintro ⟨j, hj, hjk⟩
          rcases List.mem_cons.1 hj with rfl | hj
          · exact hki hjk
          · exact hk ⟨j, hj, hjk⟩

theorem at'_replicate (m k : Nat) : at' (List.replicate m (none : Edge ds)) k = none := by
  unfold at'
  rw [List.getElem?_replicate]
  split <;> rfl

theorem diagEdges_ok {len d : Nat} (hl : len = d * d) (e : Edge ds) : ∃ es, diagEdges len d e = .ok es ∧ es.length = d * d ∧
    (∀ i j, i < d → j < d → at' es (d * i + j) = if i = j then e else none) ∧ (∀ k, at' es k = e ∨ at' es k = none) := by
  obtain ⟨es, h1, h2, h3⟩ := diagFold d e (List.range d) (List.replicate len none) (by
    intro i hi
    have hi := List.mem_range.1 hi
    rw [List.length_replicate, hl]
    have : (i + 1) * d ≤ d * d := Nat.mul_le_mul_right _ hi
    have h' : (i + 1) * d = i * d + d := by ring
    omega)
  refine ⟨es, h1, by rw [h2, List.length_replicate, hl], ?_, ?_⟩
  · intro i j hi hj
    rw [h3, at'_replicate]
    by_cases hij : i = j
    · subst hij
      rw [if_pos rfl, if_pos ⟨i, List.mem_range.2 hi, by ring⟩]
    · rw [if_neg hij, if_neg]
      rintro ⟨q, hq, hqe⟩
      have hq := List.mem_range.1 hq
      have e1 : (d * i + j) % d = j := by rw [Nat.mul_add_mod, Nat.mod_eq_of_lt hj]
      have e2 : (q + q * d) % d = q := by rw [Nat.add_mul_mod_self_right, Nat.mod_eq_of_lt hq]
      have hjq : j = q := by rw [← e1, hqe, e2]
      have e3 : (d * i + j) / d = i := by rw [Nat.mul_add_div (by omega), Nat.div_eq_of_lt hj]; rfl
      have e4 : (q + q * d) / d = q := by rw [Nat.add_mul_div_right _ _ (by omega), Nat.div_eq_of_lt hq]; omega
      have hiq : i = q := by rw [← e3, hqe, e4]
      exact hij (hiq.trans hjq.symm)
  · intro k
    rw [h3, at'_replicate]
    split
    · exact Or.inl rfl
    · exact Or.inr rfl

theorem makeM_weight {d : Nat} {es : List (Edge ds)} {r : Edge (d :: ds)} {b : ℂ}
    (h : ∀ k, weight (at' es k) = b ∨ at' es k = none) (hr : makeM d es = .ok r) : weight r = b ∨ r = none := by
  unfold makeM normalizeM at hr
  rcases hm : maxM es 0 none with _ | ⟨k, w⟩
  · rw [hm] at hr
    injection hr with hr
    exact Or.inr hr.symm
  · rw [hm] at hr
    dsimp only at hr
    split at hr
    · cases hr
    · injection hr with hr
      subst hr
      left
      change w = b
      rcases maxM_some hm with h0 | ⟨j, hj, _, hw, hne⟩
      · cases h0
      · rcases h j with h1 | h1
        · rw [← hw, h1]
        · rw [h1] at hw; exact absurd hw.symm hne

theorem diagNode {d : Nat} (hd : 0 < d) {es : List (Edge ds)} {e : Edge ds} (he : Proper .mat ds e) (hne : e ≠ none)
    (hlen : es.length = d * d) (hes : ∀ i j, i < d → j < d → at' es (d * i + j) = if i = j then e else none)
    (hany : ∀ k, at' es k = e ∨ at' es k = none) :
    ∃ r, makeM d es = .ok r ∧ Proper .mat (d :: ds) r ∧ weight r = weight e ∧ r ≠ none ∧
      ∀ i j xs ys, i < d → j < d → entry (d :: ds) r (i :: xs) (j :: ys) = if i = j then entry ds e xs ys else 0 := by
  have hp : ∀ e' ∈ es, Proper .mat ds e' := by
    intro e' he'
    obtain ⟨k, _, rfl⟩ := mem_at' he'
    rcases hany k with h | h
    · rw [h]; exact he
    · rw [h]; exact proper_none _
  obtain ⟨r, hr⟩ := makeM_total (d := d) (es := es) (by
    intro i j hi hj hij
    rw [Nat.mul_comm i d, hes i j hi hj, if_neg hij]
    cases ds <;> rfl)
  obtain ⟨h1, h2⟩ := makeM_ok hp hlen hr
  have h3 : ∀ i j xs ys, i < d → j < d → entry (d :: ds) r (i :: xs) (j :: ys) = if i = j then entry ds e xs ys else 0 := by
    intro i j xs ys hi hj
    have := h2 (d * i + j) (flat ds xs ys)
    rw [hes i j hi hj] at this
    refine Eq.trans this ?_
    split
    · rfl
    · exact val_none _
  have h4 : r ≠ none := by
    intro h
    apply hne
    apply eq_none_of_entry he
    intro xs ys _ _
    have := h3 0 0 xs ys hd hd
    rw [if_pos rfl, h, entry_none] at this
    exact this.symm
  refine ⟨r, hr, h1, ?_, h4, h3⟩
  rcases makeM_weight (b := weight e) (fun k => by
    rcases hany k with h | h
    · exact Or.inl (by rw [h])
    · exact Or.inr h) hr with h | h
  · exact h
  · exact absurd h h4

theorem identUp_ok {len d : Nat} (hd : 0 < d) (hl : len = d * d) : ∀ (as : List Nat), as ≠ [] → (∀ a ∈ as, a = d) →
    ∀ {ds2 : List Nat} (y : Edge ds2), Proper .mat ds2 y → y ≠ none →
    ∃ r, identUp len d as y = .ok r ∧ Proper .mat (as ++ ds2) r ∧ weight r = weight y ∧ r ≠ none ∧
      ∀ xs ys us vs, Levels as xs → Levels as ys →
        entry (as ++ ds2) r (xs ++ us) (ys ++ vs) = if xs = ys then entry ds2 y us vs else 0
  | [], h, _, _, _, _, _ => absurd rfl h
  | [a], _, ha, ds2, y, hy, hne => by
    obtain rfl := ha a List.mem_cons_self
    obtain ⟨es, h1, h2, h3, h4⟩ := diagEdges_ok hl y
    obtain ⟨r, g1, g2, g3, g4, g5⟩ := diagNode hd hy hne h2 h3 h4
    refine ⟨r, ?_, g2, g3, g4, ?_⟩
    · unfold identUp
      rw [h1]
      exact g1
    · intro xs ys us vs hx hy'
      obtain ⟨x, xs, rfl, hx1, hx2⟩ := levels_cons_iff.1 hx
      obtain ⟨y', ys, rfl, hy1, hy2⟩ := levels_cons_iff.1 hy'
      rw [levels_nil_iff] at hx2 hy2
      subst hx2 hy2
      refine (g5 x y' us vs hx1 hy1).trans ?_
      apply if_congr _ rfl rfl
      simp
  | a :: b :: as, _, ha, ds2, y, hy, hne => by
    obtain rfl := ha a List.mem_cons_self
    obtain rfl := ha b (List.mem_cons_of_mem _ List.mem_cons_self)
    obtain ⟨e, e1, e2, e3, e4, e5⟩ := identUp_ok hd hl (b :: as) (by simp) (fun c hc => ha c (List.mem_cons_of_mem _ hc)) y hy hne
    rcases e with _ | ⟨w, n⟩
    · exact absurd rfl e4
    have hlen : n.edges.length = b * b := e2.2.1
    obtain ⟨es, h1, h2, h3, h4⟩ := diagEdges_ok hlen (some (w, n) : Edge (b :: as ++ ds2))
    obtain ⟨r, g1, g2, g3, g4, g5⟩ := diagNode hd e2 e4 h2 h3 h4
    refine ⟨r, ?_, g2, g3.trans e3, g4, ?_⟩
    · unfold identUp
      rw [e1]
      dsimp only
      rw [h1]
      exact g1
    · intro xs ys us vs hx hy'
      obtain ⟨x, xs, rfl, hx1, hx2⟩ := levels_cons_iff.1 hx
      obtain ⟨y', ys, rfl, hy1, hy2⟩ := levels_cons_iff.1 hy'
      refine (g5 x y' (xs ++ us) (ys ++ vs) hx1 hy1).trans ?_
      rw [e5 xs ys us vs hx2 hy2]
      by_cases h1 : x = y' <;> by_cases h2 : xs = ys <;> simp [h1, h2]

/-! ### Kronecker products -/

theorem kept_none (xs ys : List Nat) : kept ds none xs ys = 0 := by
  cases ds <;> rfl

theorem kept_cons {d : Nat} (w : ℂ) (n : Node (d :: ds)) (x y : Nat) (xs ys : List Nat) :
    kept (d :: ds) (some (w, n)) (x :: xs) (y :: ys) =
      if n.ident then (if x :: xs = y :: ys then 1 else 0) else w * kept ds (at' n.edges (d * x + y)) xs ys := rfl

theorem sameSizes_tail {d : Nat} (h : SameSizes (d :: ds)) : SameSizes ds :=
  fun a ha b hb => h a (List.mem_cons_of_mem _ ha) b (List.mem_cons_of_mem _ hb)

theorem proper_pos {d : Nat} {w : ℂ} {n : Node (d :: ds)} (h : Proper .mat (d :: ds) (some (w, n))) : 0 < d := by
  obtain ⟨e, he, _⟩ := h.2.2.2.1
  rcases Nat.eq_zero_or_pos d with h0 | h0
  · subst h0
    have hl : n.edges.length = 0 * 0 := h.2.1
    rw [Nat.mul_zero, List.length_eq_zero_iff] at hl
    rw [hl] at he
    cases he
  · exact h0

theorem kronecker_none_right (H : KHash) (x : Edge ds1) : kronecker H ds1 x ds2 none = pure none := by
  cases ds1 <;> rcases x with _ | ⟨w, n⟩ <;> (unfold kronecker; rfl)

theorem kronecker_none_left (H : KHash) (y : Edge ds2) : kronecker H ds1 none ds2 y = pure none := by
  cases ds1 <;> (unfold kronecker; rfl)

theorem kgood_none_left (y : Edge ds2) : KGood (none : Edge ds1) y none :=
  fun _ _ _ => ⟨proper_none _, fun _ _ _ _ _ _ _ _ => by rw [entry_none, kept_none, zero_mul]⟩

theorem kgood_none_right (x : Edge ds1) : KGood x (none : Edge ds2) none :=
  fun _ _ _ => ⟨proper_none _, fun _ _ _ _ _ _ _ _ => by rw [entry_none, entry_none, mul_zero]⟩

theorem kronecker_ok (H : KHash) : ∀ (ds1 : List Nat) (x : Edge ds1) (ds2 : List Nat) (y : Edge ds2),
    KTri (SameSizes ds1 ∧ Proper .mat ds1 x ∧ Proper .mat ds2 y ∧ ∃ t, ds1.length ≤ t ∧ Shape t ds1 x) (kronecker H ds1 x ds2 y)
      fun r => (x = none → r = none) ∧ KGood x y r := by
  intro ds1
  induction ds1 with
  | nil =>
    intro x ds2 y
    rcases y with _ | ⟨b, m⟩
    · rw [kronecker_none_right]
      exact ktri_pure ⟨fun _ => rfl, kgood_none_right x⟩
    rcases x with _ | ⟨a, n⟩
    · rw [kronecker_none_left]
      exact ktri_pure ⟨fun _ => rfl, kgood_none_left _⟩
    unfold kronecker
    refine ktri_pure ⟨fun h => (nomatch h), ?_⟩
    intro _ hx hy
    refine ⟨proper_some hy (mul_ne_zero hx (proper_weight hy)), ?_⟩
    intro xs ys us vs hxs hys _ _
    rw [levels_nil_iff] at hxs hys
    subst hxs hys
    change entry ds2 (some (a * b, m)) us vs = a * entry ds2 (some (b, m)) us vs
    rw [entry_some, entry_some b, mul_assoc]
  | cons d ds ih =>
    intro x ds2 y
    rcases y with _ | ⟨b, m⟩
    · rw [kronecker_none_right]
      exact ktri_pure ⟨fun _ => rfl, kgood_none_right x⟩
    rcases x with _ | ⟨a, n⟩
    · rw [kronecker_none_left]
      exact ktri_pure ⟨fun _ => rfl, kgood_none_left _⟩
    unfold kronecker
    apply ktri_get
    intro t ht
    split
    · rename_i r hr
      exact ktri_pure ⟨fun h => (nomatch h), ht _ _ _ (klookup_some hr)⟩
    split
    · rename_i hid
      refine ktri_bind (ktri_lift (Q := fun e => identUp n.edges.length d (d :: ds) (some (b, m) : Edge ds2) = .ok e)
        (fun a ha => ha) ?_) fun e he => ?_
      · rintro ⟨hs, hx, hy, _⟩
        obtain ⟨r, hr, _⟩ := identUp_ok (proper_pos hx) hx.2.1 (d :: ds) (by simp)
          (fun c hc => hs c hc d List.mem_cons_self) (some (b, m)) hy (fun h => (nomatch h))
        exact ⟨r, hr⟩
      · have hg : KGood (some (a, n) : Edge (d :: ds)) (some (b, m) : Edge ds2) (setW b e) := by
          intro hs hx hy
          obtain ⟨r, hr, h2, h3, h4, h5⟩ := identUp_ok (proper_pos hx) hx.2.1 (d :: ds) (by simp)
            (fun c hc => hs c hc d List.mem_cons_self) (some (b, m)) hy (fun h => (nomatch h))
          rw [hr] at he
          injection he with he
          subst he
          rcases r with _ | ⟨w, k⟩
          · exact absurd rfl h4
          have hw : w = b := h3
          subst hw
          have hset : setW w (some (w, k) : Edge (d :: ds ++ ds2)) = some (w, k) := by
            rw [setW_some, if_neg (proper_weight hy)]
          rw [hset]
          refine ⟨h2, ?_⟩
          intro xs ys us vs hxs hys hus hvs
          rw [h5 xs ys us vs hxs hys]
          obtain ⟨x, xs, rfl, hx1, hx2⟩ := levels_cons_iff.1 hxs
          obtain ⟨y, ys, rfl, hy1, hy2⟩ := levels_cons_iff.1 hys
          rw [kept_cons, if_pos hid]
          split
          · rw [one_mul]
          · rw [zero_mul]
        exact ktri_bind (ktri_modify fun t ht => ksound_insert ht _ hg) fun _ _ => ktri_pure ⟨fun h => (nomatch h), hg⟩
    · rename_i hid
      refine ktri_bind (ktri_mapM (Q := fun (i : Nat) r => (at' n.edges i = none → r = none) ∧
        KGood (at' n.edges i) (some (b, m) : Edge ds2) r) ?_) fun es hes => ?_
      · intro i hi
        have hi := List.mem_range.1 hi
        refine ktri_weaken (ih (at' n.edges i) ds2 (some (b, m))) (fun _ h => h) ?_
        rintro ⟨hs, hx, hy, t, htl, hsh⟩
        refine ⟨sameSizes_tail hs, proper_at' hx.2.2.1 i, hy, t, by rw [List.length_cons] at htl; omega, ?_⟩
        have hl : n.edges.length = d * d := hx.2.1
        have hd := proper_pos hx
        have := shape_child hx.1 hsh (i / d) (i % d) (by rw [Nat.div_lt_iff_lt_mul hd]; omega) (Nat.mod_lt _ hd)
        rwa [Nat.div_add_mod] at this
      · have hlen : es.length = n.edges.length := by rw [← hes.length_eq, List.length_range]
        have hq : ∀ i, i < n.edges.length → (at' n.edges i = none → at' es i = none) ∧
            KGood (at' n.edges i) (some (b, m) : Edge ds2) (at' es i) := by
          intro i hi
          have := forall₂_at' hes i (by rw [List.length_range]; exact hi)
          rwa [List.getElem_range] at this
        refine ktri_bind (ktri_lift (Q := fun e => makeM d es = .ok e) (fun a ha => ha) ?_) fun e he => ?_
        · rintro ⟨hs, hx, hy, t, htl, hsh⟩
          have hl : n.edges.length = d * d := hx.2.1
          apply makeM_total
          intro i j hi hj hij
          have hlt : d * i + j < d * d := by
            have : d * (i + 1) ≤ d * d := Nat.mul_le_mul_left _ hi
            rw [Nat.mul_add] at this
            omega
          have hc : at' n.edges (d * i + j) = none := by
            apply eq_none_of_entry (proper_at' hx.2.2.1 _)
            intro xs ys hxs hys
            have := hsh (i :: xs) (j :: ys) (List.Forall₂.cons hi hxs) (List.Forall₂.cons hj hys) (by
              rintro ⟨h | h, _⟩
              · exact hij h
              · rw [levels_len hxs] at h
                rw [List.length_cons] at htl
                omega)
            rw [entry_cons] at this
            exact (mul_eq_zero.1 this).resolve_left hx.1
          rw [Nat.mul_comm i d, (hq _ (by rw [hl]; exact hlt)).1 hc]
          cases ds <;> cases ds2 <;> rfl
        · have hg : KGood (some (a, n) : Edge (d :: ds)) (some (b, m) : Edge ds2) (scale a e) := by
            intro hs hx hy
            have hl : n.edges.length = d * d := hx.2.1
            have hpr : ∀ e ∈ es, Proper .mat (ds ++ ds2) e := by
              intro e' he'
              obtain ⟨i, hi, rfl⟩ := mem_at' he'
              exact ((hq i (by omega)).2 (sameSizes_tail hs) (proper_at' hx.2.2.1 i) hy).1
            obtain ⟨h1, h2⟩ := makeM_ok hpr (by omega) he
            refine ⟨proper_scale h1 a, ?_⟩
            intro xs ys us vs hxs hys hus hvs
            obtain ⟨x, xs, rfl, hx1, hx2⟩ := levels_cons_iff.1 hxs
            obtain ⟨y, ys, rfl, hy1, hy2⟩ := levels_cons_iff.1 hys
            have hlt : d * x + y < d * d := by
              have : d * (x + 1) ≤ d * d := Nat.mul_le_mul_left _ hx1
              rw [Nat.mul_add] at this
              omega
            rw [kept_cons, if_neg hid, mul_assoc,
              ← ((hq (d * x + y) (by omega)).2 (sameSizes_tail hs) (proper_at' hx.2.2.1 _) hy).2 xs ys us vs hx2 hy2 hus hvs]
            refine (entry_scale a e _ _).trans ?_
            congr 1
            exact h2 (d * x + y) (flat (ds ++ ds2) (xs ++ us) (ys ++ vs))
          exact ktri_bind (ktri_modify fun t ht => ksound_insert ht _ hg) fun _ _ => ktri_pure ⟨fun h => (nomatch h), hg⟩

theorem kreachable_sound {H : KHash} {t : KTable} (h : KReachable H t) : KSound t := by
  induction h with
  | new => exact ksound_empty
  | kron ds1 x ds2 y r t t' _ heq ih => exact ((kronecker_ok H ds1 x ds2 y t ih).1 r t' heq).1

/-! ### when the weights matter -/

theorem ident_levels : ∀ {ds : List Nat} {w : ℂ} {n : Node ds}, Proper .mat ds (some (w, n)) → ∃ xs, Levels ds xs
  | [], _, _, _ => ⟨[], List.Forall₂.nil⟩
  | d :: ds, w, n, hp => by
    obtain ⟨e, he, hne⟩ := hp.2.2.2.1
    rcases e with _ | ⟨a, k⟩
    · exact absurd rfl hne
    · obtain ⟨xs, hxs⟩ := ident_levels (hp.2.2.1 _ he)
      exact ⟨0 :: xs, List.Forall₂.cons (proper_pos hp) hxs⟩

theorem kept_iff : ∀ {ds : List Nat} {x : Edge ds}, Proper .mat ds x →
    ((∀ xs ys, Levels ds xs → Levels ds ys → kept ds x xs ys = entry ds x xs ys) ↔ PlainIdentities ds x)
  | ds, none, _ => by
    constructor
    · intro _; cases ds <;> trivial
    · intro _ xs ys _ _
      rw [kept_none, entry_none]
  | [], some (w, n), _ => by
    constructor
    · intro _; trivial
    · intro _ xs ys _ _
      rfl
  | d :: ds, some (w, n), hp => by
    have hl : n.edges.length = d * d := hp.2.1
    have hd := proper_pos hp
    unfold PlainIdentities
    by_cases hid : n.ident = true
    · rw [if_pos hid]
      constructor
      · intro h
        obtain ⟨xs, hxs⟩ := ident_levels hp
        have := h xs xs hxs hxs
        rw [ident_entry hp hid xs xs hxs hxs, if_pos rfl] at this
        obtain ⟨x, xs, rfl, _, _⟩ := levels_cons_iff.1 hxs
        rw [kept_cons, if_pos hid, if_pos rfl] at this
        exact this.symm
      · intro h xs ys hxs hys
        rw [ident_entry hp hid xs ys hxs hys, h]
        obtain ⟨x, xs, rfl, _, _⟩ := levels_cons_iff.1 hxs
        obtain ⟨y, ys, rfl, _, _⟩ := levels_cons_iff.1 hys
        rw [kept_cons, if_pos hid]
    · rw [if_neg hid]
      constructor
      · intro h e he
        obtain ⟨i, hi, rfl⟩ := mem_at' he
        refine (kept_iff (proper_at' hp.2.2.1 i)).1 ?_
        intro xs ys hxs hys
        have := h (i / d :: xs) (i % d :: ys)
          (List.Forall₂.cons (by rw [Nat.div_lt_iff_lt_mul hd]; omega) hxs) (List.Forall₂.cons (Nat.mod_lt _ hd) hys)
        rw [kept_cons, if_neg hid, entry_cons, Nat.div_add_mod] at this
        exact mul_left_cancel₀ hp.1 this
      · intro h xs ys hxs hys
        obtain ⟨x, xs, rfl, hx1, hx2⟩ := levels_cons_iff.1 hxs
        obtain ⟨y, ys, rfl, hy1, hy2⟩ := levels_cons_iff.1 hys
        rw [kept_cons, if_neg hid, entry_cons]
        have hlt : d * x + y < d * d := by
          have : d * (x + 1) ≤ d * d := Nat.mul_le_mul_left _ hx1
          rw [Nat.mul_add] at this
          omega
        rw [(kept_iff (proper_at' hp.2.2.1 (d * x + y))).2 (h _ (at'_mem (by omega))) xs ys hx2 hy2]

/-! ### identities built by the package -/

theorem normalizeM_ones {es es' : List (Edge ds)} {w : ℂ} (h : ∀ k, weight (at' es k) = 1 ∨ at' es k = none)
    (hn : normalizeM es = some (w, es')) : w = 1 ∧ es' = es := by
  unfold normalizeM at hn
  rcases hm : maxM es 0 none with _ | ⟨k, w'⟩
  · rw [hm] at hn; cases hn
  · rw [hm] at hn
    injection hn with hn
    injection hn with h1 h2
    have hw : w' = 1 := by
      rcases maxM_some hm with h0 | ⟨j, hj, _, hw, hne⟩
      · cases h0
      · rcases h j with h1 | h1
        · rw [← hw, h1]
        · rw [h1] at hw; exact absurd hw.symm hne
    subst hw
    refine ⟨h1.symm, ?_⟩
    rw [← h2]
    apply List.ext_getElem
    · rw [List.length_mapIdx]
    · intro i hi1 hi2
      rw [List.getElem_mapIdx]
      have := h i
      rw [at'_lt hi2] at this
      rcases hes : es[i] with _ | ⟨v, n⟩
      · split <;> rfl
      · rw [hes] at this
        rcases this with h | h
        · have hv : v = 1 := h
          subst hv
          split
          · rw [setW_some, if_neg one_ne_zero]
          · rw [setW_some]
            change (if (1 : ℂ) / 1 = 0 then none else some ((1 : ℂ) / 1, n)) = _
            rw [div_one, if_neg one_ne_zero]
        · cases h

theorem makeIdent_plain : ∀ {ds : List Nat} {e : Edge ds}, makeIdent ds = .ok e → PlainIdentities ds e
  | [], e, _ => by rcases e with _ | ⟨w, n⟩ <;> trivial
  | d :: ds, e, h => by
    obtain ⟨e', he, _⟩ := makeIdent_ok ds
    have hw := makeIdent_weight h
    unfold makeIdent at h
    rw [he] at h
    dsimp only at h
    have ih := makeIdent_plain he
    have hw' := makeIdent_weight he
    unfold makeM at h
    have hones : ∀ k, weight (at' ((pairs d d).map fun p => if p.1 = p.2 then e' else none) k) = 1 ∨
        at' ((pairs d d).map fun p => if p.1 = p.2 then e' else none) k = none := by
      intro k
      by_cases hk : k < ((pairs d d).map fun p => if p.1 = p.2 then e' else none).length
      · obtain ⟨p, _, hp⟩ := List.mem_map.1 (at'_mem hk)
        rw [← hp]
        split
        · exact hw'
        · exact Or.inr rfl
      · exact Or.inr (at'_ge (by omega))
    rcases hn : normalizeM ((pairs d d).map fun p => if p.1 = p.2 then e' else none) with _ | ⟨w, es'⟩
    · rw [hn] at h
      injection h with h
      subst h
      trivial
    · rw [hn] at h
      dsimp only at h
      obtain ⟨_, rfl⟩ := normalizeM_ones hones hn
      split at h
      · cases h
      · rename_i s i _
        injection h with h
        subst h
        unfold PlainIdentities
        split
        · exact hw.resolve_right (fun h => (nomatch h))
        · intro e he
          obtain ⟨p, _, rfl⟩ := List.mem_map.1 he
          split
          · exact ih
          · cases ds <;> trivial

theorem makeIdent_shape {e : Edge ds} (h : makeIdent ds = .ok e) : Shape ds.length ds e := by
  obtain ⟨e', he, _, hv⟩ := makeIdent_ok ds
  rw [he] at h
  injection h with h
  subst h
  intro xs ys hx hy hn
  rw [hv xs ys hx hy, if_neg]
  rintro rfl
  exact hn (Agree.refl _ _)

/-! ### registers of different sizes -/

theorem diagFold_other (d : Nat) (e : Edge ds) (k : Nat) : ∀ (l : List Nat) (es es' : List (Edge ds)),
    l.foldlM (fun es i => if i + i * d < es.length then Except.ok (es.set (i + i * d) e) else .error Err.outOfRange) es
      = .ok es' → (∀ i ∈ l, k ≠ i + i * d) → at' es' k = at' es k
  | [], es, es', h, _ => by
    injection h with h
    rw [h]
  | i :: l, es, es', h, hk => by
    rw [List.foldlM_cons] at h
    by_cases hi : i + i * d < es.length
    · rw [if_pos hi] at h
      rw [diagFold_other d e k l _ es' h (fun j hj => hk j (List.mem_cons_of_mem _ hj)), at'_set _ _ _ _ hi,
        if_neg (hk i List.mem_cons_self)]
    · rw [if_neg hi] at h
      cases h

theorem kronecker_ident_new (H : KHash) {d : Nat} {a b : ℂ} {n : Node (d :: ds)} {m : Node ds2} (hid : n.ident = true)
    {r : Edge (d :: ds ++ ds2)} {t' : KTable}
    (h : kronecker H (d :: ds) (some (a, n)) ds2 (some (b, m)) (fun _ => none) = .ok (r, t')) :
    ∃ e, identUp n.edges.length d (d :: ds) (some (b, m) : Edge ds2) = .ok e ∧ r = setW b e := by
  unfold kronecker at h
  rw [if_pos hid] at h
  rcases hi : identUp n.edges.length d (d :: ds) (some (b, m) : Edge ds2) with er | e
  · rw [hi] at h
    cases h
  · rw [hi] at h
    injection h with h
    injection h with h1 h2
    exact ⟨e, rfl, h1.symm⟩

theorem makeM_none {d : Nat} {es : List (Edge ds)} {w : ℂ} {n : Node (d :: ds)} {k : Nat} (h : at' es k = none)
    (hr : makeM d es = .ok (some (w, n))) : at' n.edges k = none := by
  unfold makeM normalizeM at hr
  rcases hm : maxM es 0 none with _ | ⟨j, w'⟩
  · rw [hm] at hr
    cases hr
  · rw [hm] at hr
    dsimp only at hr
    split at hr
    · cases hr
    · injection hr with hr
      injection hr with hr
      injection hr with h1 h2
      subst h1 h2
      change at' (es.mapIdx fun i e => if i = j then setW 1 e else setW (weight e / w') e) k = none
      by_cases hk : k < es.length
      · rw [at'_mapIdx _ _ _ hk, h]
        split <;> rfl
      · exact at'_ge (by rw [List.length_mapIdx]; omega)

end Qudits.DD
