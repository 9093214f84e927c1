import Verif.Lemmas.DDNode
/- Addition, multiplication and conjugate transposition with compute tables. -/
namespace Qudits.DD
open Spec Classical Tnsim

variable {ds : List Nat}

/-- path for row `xs` and column `zs`, where a vector has one column -/
def gpath (k : Kind) : List Nat → List Nat → List Nat → List Nat
  | d :: ds, x :: xs, z :: zs => (cols k d * x + z) :: gpath k ds xs zs
  | _, _, _ => []

theorem gpath_mat : ∀ (ds xs zs : List Nat), gpath .mat ds xs zs = flat ds xs zs
  | [], _, _ => rfl
  | _ :: _, [], _ => rfl
  | _ :: _, _ :: _, [] => rfl
  | d :: ds, x :: xs, z :: zs => by rw [gpath, flat, gpath_mat ds xs zs]; rfl

def IsSum (ds : List Nat) (x y r : Edge ds) : Prop := ∀ p, val ds r p = val ds x p + val ds y p

def IsProd (k : Kind) (ds : List Nat) (x y r : Edge ds) : Prop :=
  ∀ xs zs, Levels ds xs → Levels (ds.map (cols k)) zs →
    val ds r (gpath k ds xs zs) = lsum ds fun ys => entry ds x xs ys * val ds y (gpath k ds ys zs)

def IsAdj (ds : List Nat) (x r : Edge ds) : Prop :=
  ∀ xs ys, Levels ds xs → Levels ds ys → entry ds r xs ys = star (entry ds x ys xs)

/-- every remembered result is right -/
structure Sound (t : Tables) : Prop where
  add : ∀ k b ds (e : Entry ds), t.add k b = some ⟨ds, e⟩ → Proper k ds e.result ∧ IsSum ds e.left e.right e.result
  mul : ∀ k b ds (e : Entry ds), t.mul k b = some ⟨ds, e⟩ → Proper k ds e.result ∧ IsProd k ds e.left e.right e.result
  ctrans : ∀ b ds (e : Entry ds), t.ctrans b = some ⟨ds, e⟩ → Proper .mat ds e.result ∧ IsAdj ds e.left e.result

theorem sound_empty : Sound Tables.empty :=
  ⟨fun _ _ _ _ h => (nomatch h), fun _ _ _ _ h => (nomatch h), fun _ _ _ h => (nomatch h)⟩

theorem lookup_some {t : Table} {b : Nat} {x y r : Edge ds} (h : t.lookup b x y = some r) :
    t b = some ⟨ds, ⟨x, y, r⟩⟩ := by
  unfold Table.lookup at h
  rcases ht : t b with _ | ⟨ds', e⟩
  · rw [ht] at h; cases h
  · rw [ht] at h
    dsimp only at h
    split at h
    · rename_i hd
      subst hd
      dsimp only at h
      split at h
      · cases h
      · rename_i hl
        split at h
        · cases h
        · rename_i hr
          injection h with h
          rw [not_not] at hl hr
          obtain ⟨l, r', res⟩ := e
          dsimp only at hl hr h
          subst hl hr h
          rfl
    · cases h

/-- what a computation guarantees: it keeps the tables sound, its result satisfies `Q`, and it does not throw if `tot` -/
def Tri {α : Type} (tot : Prop) (m : M α) (Q : α → Prop) : Prop :=
  ∀ t, Sound t → (∀ a t', m t = .ok (a, t') → Sound t' ∧ Q a) ∧ (tot → ∃ a t', m t = .ok (a, t'))

variable {α β : Type} {tot : Prop}

theorem tri_pure {a : α} {Q : α → Prop} (h : Q a) : Tri tot (pure a : M α) Q := by
  intro t ht
  constructor
  · intro a' t' heq
    injection heq with heq
    injection heq with h1 h2
    subst h1 h2
    exact ⟨ht, h⟩
  · intro _
    exact ⟨a, t, rfl⟩

theorem tri_bind {m : M α} {f : α → M β} {Q : α → Prop} {R : β → Prop} (h1 : Tri tot m Q) (h2 : ∀ a, Q a → Tri tot (f a) R) :
    Tri tot (m >>= f) R := by
  intro t ht
  have hb : (m >>= f) t = (match m t with
      | .error e => .error e
      | .ok (a, s) => f a s) := by
    change (m t >>= fun p => f p.1 p.2) = _
    rcases m t with e | ⟨a, s⟩
    · rfl
    · rfl
  constructor
  · intro b t' heq
    rw [hb] at heq
    rcases hm : m t with e | ⟨a, s⟩
    · rw [hm] at heq; cases heq
    · rw [hm] at heq
      obtain ⟨hs, hq⟩ := (h1 t ht).1 a s hm
      exact (h2 a hq s hs).1 b t' heq
  · intro htot
    obtain ⟨a, s, hm⟩ := (h1 t ht).2 htot
    obtain ⟨hs, hq⟩ := (h1 t ht).1 a s hm
    obtain ⟨b, t', hf⟩ := (h2 a hq s hs).2 htot
    exact ⟨b, t', by rw [hb, hm]; exact hf⟩

theorem tri_weaken {m : M α} {Q Q' : α → Prop} {tot' : Prop} (h : Tri tot m Q) (hq : ∀ a, Q a → Q' a) (ht : tot' → tot) :
    Tri tot' m Q' := by
  intro t hs
  exact ⟨fun a t' he => ⟨((h t hs).1 a t' he).1, hq a ((h t hs).1 a t' he).2⟩, fun h' => (h t hs).2 (ht h')⟩

/-- partial correctness under an extra assumption `tot` for the rest -/
theorem tri_split {m : M α} {Q : α → Prop} (h1 : Tri False m Q) (h2 : tot → Tri True m fun _ => True) : Tri tot m Q := by
  intro t hs
  exact ⟨(h1 t hs).1, fun h' => ((h2 h') t hs).2 trivial⟩

theorem tri_get {f : Tables → M β} {R : β → Prop} (h : ∀ t, Sound t → Tri tot (f t) R) : Tri tot (get >>= f) R := by
  intro t ht
  exact h t ht t ht

theorem tri_modify {f : Tables → Tables} (h : ∀ t, Sound t → Sound (f t)) : Tri tot (modify f : M Unit) fun _ => True := by
  intro t ht
  constructor
  · intro a t' heq
    injection heq with heq
    injection heq with h1 h2
    subst h2
    exact ⟨h t ht, trivial⟩
  · intro _
    exact ⟨(), f t, rfl⟩

theorem tri_lift {x : Except Err α} {Q : α → Prop} (h : ∀ a, x = .ok a → Q a) (ht : tot → ∃ a, x = .ok a) :
    Tri tot (lift x) Q := by
  intro t hs
  constructor
  · intro a t' heq
    unfold lift at heq
    split at heq
    · cases heq
    · rename_i b
      injection heq with heq
      injection heq with h1 h2
      subst h1 h2
      exact ⟨hs, h _ rfl⟩
  · intro h'
    obtain ⟨a, ha⟩ := ht h'
    exact ⟨a, t, by unfold lift; rw [ha]⟩

theorem tri_mapM {f : α → M β} {Q : α → β → Prop} {l : List α} (h : ∀ a ∈ l, Tri tot (f a) (Q a)) :
    Tri tot (l.mapM f) fun bs => List.Forall₂ Q l bs := by
  induction l with
  | nil => exact tri_pure List.Forall₂.nil
  | cons a l ih =>
    rw [List.mapM_cons]
    refine tri_bind (h a List.mem_cons_self) fun b hb => ?_
    refine tri_bind (ih fun a ha => h a (List.mem_cons_of_mem _ ha)) fun bs hbs => ?_
    exact tri_pure (List.Forall₂.cons hb hbs)

theorem tri_foldlM {f : β → α → M β} {I : Nat → β → Prop} {l : List α} :
    ∀ {s : Nat} {b : β}, I s b → (∀ i, ∀ h : i < l.length, ∀ b, I (s + i) b → Tri tot (f b l[i]) (I (s + i + 1))) →
    Tri tot (l.foldlM f b) (I (s + l.length)) := by
  induction l with
  | nil => intro s b h0 _; exact tri_pure h0
  | cons a l ih =>
    intro s b h0 h
    rw [List.foldlM_cons]
    have h1 := h 0 (by simp) b h0
    refine tri_bind h1 fun b' hb' => ?_
    have := ih (s := s + 1) (b := b') hb' (by
      intro i hi b'' hb''
      have := h (i + 1) (by simpa using hi) b'' (by rw [show s + (i + 1) = s + 1 + i by omega]; exact hb'')
      rw [show s + 1 + i + 1 = s + (i + 1) + 1 by omega]
      exact this)
    rw [show s + (a :: l).length = s + 1 + l.length by simp; omega]
    exact this

variable (H : Hashes)

/-- a list of children, one for each index -/
theorem forall₂_at' {γ : Type} {l : List γ} {es : List (Edge ds)} {Q : γ → Edge ds → Prop} (h : List.Forall₂ Q l es) (i : Nat)
    (hi : i < l.length) : Q l[i] (at' es i) := by
  have hlen := h.length_eq
  rw [at'_lt (by omega)]
  exact List.Forall₂.get h hi (by omega)

theorem forall₂_mem {γ : Type} {l : List γ} {es : List (Edge ds)} {Q : γ → Edge ds → Prop} (h : List.Forall₂ Q l es) :
    ∀ e ∈ es, ∃ c ∈ l, Q c e := by
  intro e he
  obtain ⟨i, hi, rfl⟩ := List.mem_iff_getElem.1 he
  have hlen := h.length_eq
  exact ⟨l[i], List.getElem_mem _, List.Forall₂.get h (by omega) hi⟩

theorem tri_makeDDNode {k : Kind} {d : Nat} {es : List (Edge ds)} (hp : ∀ e ∈ es, Proper k ds e) (hl : es.length = arity k d)
    (ht : tot → k = .vec ∨ ∃ t, ∀ i j xs ys, i < d → j < d → Levels ds xs → Levels ds ys → ¬ Agree t (i :: xs) (j :: ys) →
      entry ds (at' es (d * i + j)) xs ys = 0) :
    Tri tot (lift (makeDDNode k d es))
      fun r => Proper k (d :: ds) r ∧ ∀ i p, val (d :: ds) r (i :: p) = val ds (at' es i) p := by
  apply tri_lift
  · intro a ha
    exact makeDDNode_ok hp hl ha
  · intro h
    cases k with
    | vec => exact ⟨_, rfl⟩
    | mat =>
      rcases ht h with h | ⟨t, h⟩
      · cases h
      · exact makeM_shape hp h

/-! ### addition -/

theorem proper_ext {k : Kind} {d : Nat} {w : ℂ} {n : Node (d :: ds)} (h : Proper k (d :: ds) (some (w, n))) :
    n.edges.length = arity k d ∧ ∀ e ∈ n.edges, Proper k ds e := ⟨h.2.1, h.2.2.1⟩

theorem shape_scale {t : Nat} {e : Edge ds} (h : Shape t ds e) (a : ℂ) : Shape t ds (scale a e) := by
  intro xs ys hx hy hn
  have := h xs ys hx hy hn
  unfold entry at this ⊢
  rw [val_scale, this, mul_zero]

theorem index_split {d i : Nat} (h : i < d * d) : ∃ a b, a < d ∧ b < d ∧ i = d * a + b := by
  have hd : 0 < d := by
    rcases Nat.eq_zero_or_pos d with h0 | h0
    · subst h0; omega
    · exact h0
  exact ⟨i / d, i % d, Nat.div_lt_of_lt_mul h, Nat.mod_lt _ hd, (Nat.div_add_mod i d).symm⟩

theorem sq_lt {d a b : Nat} (ha : a < d) (hb : b < d) : d * a + b < d * d :=
  calc d * a + b < d * a + d := by omega
    _ = d * (a + 1) := by ring
    _ ≤ d * d := Nat.mul_le_mul_left d (by omega)

theorem add2_ok (k : Kind) : ∀ (ds : List Nat) (x y : Edge ds), Proper k ds x → Proper k ds y →
    Tri (k = .vec ∨ ∃ t, Shape t ds x ∧ Shape t ds y) (add2 H k ds x y) fun r => Proper k ds r ∧ IsSum ds x y r := by
  intro ds
  induction ds with
  | nil =>
    intro x y hx hy
    rcases x with _ | ⟨a, n⟩
    · unfold add2
      exact tri_pure ⟨hy, fun p => by rw [val_none, zero_add]⟩
    rcases y with _ | ⟨b, m⟩
    · unfold add2
      exact tri_pure ⟨hx, fun p => by rw [val_none, add_zero]⟩
    unfold add2
    apply tri_pure
    split
    · rename_i h0
      exact ⟨proper_none _, fun p => by rw [val_none, val_nil, val_nil, h0]⟩
    · rename_i h0
      exact ⟨h0, fun p => rfl⟩
  | cons d ds ih =>
    intro x y hx hy
    rcases x with _ | ⟨a, n⟩
    · unfold add2
      exact tri_pure ⟨hy, fun p => by rw [val_none, zero_add]⟩
    rcases y with _ | ⟨b, m⟩
    · unfold add2
      exact tri_pure ⟨hx, fun p => by rw [val_none, add_zero]⟩
    unfold add2
    split
    · rename_i hnm
      subst hnm
      apply tri_pure
      split
      · rename_i h0
        refine ⟨proper_none _, fun p => ?_⟩
        rw [val_none, val_some a, val_some b, ← add_mul, h0, zero_mul]
      · rename_i h0
        refine ⟨proper_some hx h0, fun p => ?_⟩
        rw [val_some a, val_some b, val_some (a + b), add_mul]
    · apply tri_get
      intro t ht
      split
      · rename_i r hr
        have := ht.add _ _ _ _ (lookup_some hr)
        exact tri_pure this
      · obtain ⟨hxl, hxp⟩ := proper_ext hx
        obtain ⟨hyl, hyp⟩ := proper_ext hy
        refine tri_bind (tri_mapM (Q := fun i r => Proper k ds r ∧
          IsSum ds (scale a (at' n.edges i)) (scale b (at' m.edges i)) r) ?_) fun es hes => ?_
        · intro i hi
          rw [List.mem_range, hxl] at hi
          refine tri_weaken (ih _ _ (proper_scale (proper_at' hxp i) a) (proper_scale (proper_at' hyp i) b)) (fun _ h => h) ?_
          rintro (hk | ⟨s, h1, h2⟩)
          · exact Or.inl hk
          · rcases hk : k with _ | _
            · exact Or.inl rfl
            · right
              rw [hk] at hi
              obtain ⟨u, v, hu, hv, rfl⟩ := index_split hi
              exact ⟨s, shape_scale (shape_child hx.1 h1 u v hu hv) a, shape_scale (shape_child hy.1 h2 u v hu hv) b⟩
        · have hlen : es.length = arity k d := by
            have := hes.length_eq
            rw [List.length_range] at this
            omega
          have hv : ∀ i p, val ds (at' es i) p = a * val ds (at' n.edges i) p + b * val ds (at' m.edges i) p := by
            intro i p
            by_cases hi : i < n.edges.length
            · have h1 := forall₂_at' hes i (by simpa using hi)
              rw [List.getElem_range] at h1
              rw [h1.2 p, val_scale, val_scale]
            · rw [at'_ge (es := es) (by omega), at'_ge (es := n.edges) (by omega), at'_ge (es := m.edges) (by omega)]
              simp
          refine tri_bind (tri_makeDDNode (fun e he => (by
              obtain ⟨c, _, hc⟩ := forall₂_mem hes e he
              exact hc.1)) hlen ?_) fun e he => ?_
          · rintro (hk | ⟨s, h1, h2⟩)
            · exact Or.inl hk
            · right
              refine ⟨s, ?_⟩
              intro i j xs ys hi hj hxs hys hn
              have e1 := h1 (i :: xs) (j :: ys) (List.Forall₂.cons hi hxs) (List.Forall₂.cons hj hys) hn
              have e2 := h2 (i :: xs) (j :: ys) (List.Forall₂.cons hi hxs) (List.Forall₂.cons hj hys) hn
              rw [entry_cons] at e1 e2
              unfold entry at e1 e2 ⊢
              rw [hv, e1, e2, add_zero]
          · have hfin : IsSum (d :: ds) (some (a, n)) (some (b, m)) e := by
              intro p
              cases p with
              | nil => rw [val_short, val_short, val_short, add_zero]
              | cons i p => rw [he.2, hv, val_cons, val_cons]
            refine tri_bind (tri_modify fun t ht => ?_) fun _ _ => tri_pure ⟨he.1, hfin⟩
            refine ⟨?_, ht.mul, ht.ctrans⟩
            intro k' b' ds' e' h'
            dsimp only at h'
            by_cases hk : k' = k
            · subst hk
              rw [Function.update_self] at h'
              unfold Table.insert at h'
              split at h'
              · injection h' with h'
                injection h' with h1 h2
                subst h1
                have h2 := eq_of_heq h2
                subst h2
                exact ⟨he.1, hfin⟩
              · exact ht.add _ _ _ _ h'
            · rw [Function.update_of_ne hk] at h'
              exact ht.add _ _ _ _ h'

end Qudits.DD
