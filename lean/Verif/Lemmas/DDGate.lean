import Verif.Lemmas.DDRead
/- Gate diagrams. -/
namespace Qudits.DD
open Spec Classical Tnsim

variable {ds : List Nat}

/-- the level of register `r` in a list of levels that starts with the last register -/
def levelAt (xs : List Nat) (r : Nat) : Nat := xs.reverse.getD r 0

theorem levelAt_head (x : Nat) (xs : List Nat) : levelAt (x :: xs) xs.length = x := by
  unfold levelAt
  rw [List.reverse_cons, List.getD, List.getElem?_append_right (by simp)]
  simp

theorem levelAt_tail (x : Nat) (xs : List Nat) (r : Nat) (h : r < xs.length) : levelAt (x :: xs) r = levelAt xs r := by
  unfold levelAt
  rw [List.reverse_cons, List.getD, List.getD, List.getElem?_append_left (by simpa using h)]

theorem agree_iff {t : Nat} : ∀ {xs ys : List Nat}, xs.length = ys.length →
    (Agree t xs ys ↔ ∀ r, r < xs.length → r ≠ t → levelAt xs r = levelAt ys r)
  | [], _, _ => by
    constructor
    · intro _ r hr; exact absurd hr (by simp)
    · intro _; unfold Agree; trivial
  | x :: xs, [], h => by cases h
  | x :: xs, y :: ys, h => by
    have h' : xs.length = ys.length := by simpa using h
    unfold Agree
    rw [agree_iff h']
    constructor
    · rintro ⟨h1, h2⟩ r hr hrt
      rcases Nat.lt_or_ge r xs.length with hlt | hge
      · rw [levelAt_tail _ _ _ hlt, levelAt_tail _ _ _ (by omega)]
        exact h2 r hlt hrt
      · have : r = xs.length := by simp at hr; omega
        rw [this, levelAt_head, h', levelAt_head]
        rcases h1 with h1 | h1
        · exact h1
        · omega
    · intro h3
      constructor
      · by_cases ht : xs.length = t
        · exact Or.inr ht
        · left
          have := h3 xs.length (by simp) ht
          rw [levelAt_head, h', levelAt_head] at this
          exact this
      · intro r hr hrt
        have := h3 r (by simp; omega) hrt
        rw [levelAt_tail _ _ _ hr, levelAt_tail _ _ _ (by omega)] at this
        exact this

theorem agree_eq {t : Nat} : ∀ {xs ys : List Nat}, xs.length = ys.length → xs.length ≤ t → Agree t xs ys → xs = ys
  | [], [], _, _, _ => rfl
  | [], _ :: _, h, _, _ => by cases h
  | _ :: _, [], h, _, _ => by cases h
  | x :: xs, y :: ys, h, hl, ⟨h1, h2⟩ => by
    have h' : xs.length = ys.length := by simpa using h
    have hl' : xs.length < t := by simpa using hl
    rcases h1 with h1 | h1
    · rw [h1, agree_eq h' (by omega) h2]
    · omega

/-- the controls on registers below `L` are met -/
def Met (cs : List Ctrl) (L : Nat) (ys : List Nat) : Prop := ∀ c ∈ cs, c.1 < L → levelAt ys c.1 = c.2

theorem exceptMapM {α β : Type} {f : α → Except Err β} {Q : α → β → Prop} {l : List α}
    (h : ∀ a ∈ l, ∃ b, f a = .ok b ∧ Q a b) : ∃ bs, l.mapM f = .ok bs ∧ List.Forall₂ Q l bs := by
  induction l with
  | nil => exact ⟨[], rfl, List.Forall₂.nil⟩
  | cons a l ih =>
    obtain ⟨b, hb, hq⟩ := h a List.mem_cons_self
    obtain ⟨bs, hbs, hqs⟩ := ih fun a ha => h a (List.mem_cons_of_mem _ ha)
    refine ⟨b :: bs, ?_, List.Forall₂.cons hq hqs⟩
    rw [List.mapM_cons, hb]
    change (l.mapM f >>= fun bs => pure (b :: bs)) = _
    rw [hbs]
    rfl

/-- a diagonal block matrix with diagonal children -/
theorem makeM_diag {d : Nat} (f : Nat → Edge ds) (hp : ∀ i, i < d → Proper .mat ds (f i))
    (t : Nat) (hs : ∀ i, i < d → Shape t ds (f i)) :
    ∃ r, makeM d ((pairs d d).map fun q => if q.1 = q.2 then f q.1 else none) = .ok r ∧ Proper .mat (d :: ds) r ∧
      ∀ x y xs ys, x < d → y < d → entry (d :: ds) r (x :: xs) (y :: ys) = if x = y then entry ds (f x) xs ys else 0 := by
  have hpr : ∀ e' ∈ (pairs d d).map (fun q => if q.1 = q.2 then f q.1 else none), Proper .mat ds e' := by
    intro e' he'
    obtain ⟨p, hp', rfl⟩ := List.mem_map.1 he'
    split
    · exact hp _ (mem_pairs.1 hp').1
    · exact proper_none _
  have hat : ∀ i j xs ys, i < d → j < d →
      entry ds (at' ((pairs d d).map fun q => if q.1 = q.2 then f q.1 else none) (d * i + j)) xs ys =
      if i = j then entry ds (f i) xs ys else 0 := by
    intro i j xs ys hi hj
    rw [at'_pairs _ i j hi hj]
    dsimp only
    split
    · rfl
    · exact entry_none _ _
  obtain ⟨r, hr⟩ := makeM_shape (t := t) hpr (by
    intro i j xs ys hi hj hx hy hn
    rw [hat i j xs ys hi hj]
    by_cases hij : i = j
    · rw [if_pos hij]
      apply hs i hi xs ys hx hy
      intro ha
      exact hn ⟨Or.inl hij, ha⟩
    · rw [if_neg hij])
  obtain ⟨h1, h2⟩ := makeM_ok hpr (by rw [List.length_map, pairs_length]) hr
  refine ⟨r, hr, h1, ?_⟩
  intro x y xs ys hx hy
  rw [← hat x y xs ys hx hy]
  exact h2 _ _

/-- the entry of a gate block on the registers below the target -/
noncomputable def blockEntry (mat : List ℂ) (r : Nat) (cs : List Ctrl) (L : Nat) (i j : Nat) (xs ys : List Nat) : ℂ :=
  if xs = ys then (if Met cs L ys then mat.getD (r * i + j) 0 else if i = j then 1 else 0) else 0

theorem met_cons_free {cs : List Ctrl} {x : Nat} {xs : List Nat} (h : ∀ c ∈ cs, c.1 ≠ xs.length) :
    Met cs (xs.length + 1) (x :: xs) ↔ Met cs xs.length xs := by
  constructor
  · intro hm c hc hlt
    rw [← levelAt_tail x xs _ hlt]
    exact hm c hc (by omega)
  · intro hm c hc hlt
    have := h c hc
    rw [levelAt_tail x xs _ (by omega)]
    exact hm c hc (by omega)

theorem met_cons_ctrl {cs : List Ctrl} {x : Nat} {xs : List Nat} {c : Ctrl} (hc : c ∈ cs) (h0 : c.1 = xs.length)
    (h : ∀ c' ∈ cs, c'.1 = xs.length → c' = c) :
    Met cs (xs.length + 1) (x :: xs) ↔ x = c.2 ∧ Met cs xs.length xs := by
  constructor
  · intro hm
    constructor
    · have := hm c hc (by omega)
      rw [h0, levelAt_head] at this
      exact this
    · intro c' hc' hlt
      rw [← levelAt_tail x xs _ hlt]
      exact hm c' hc' (by omega)
  · rintro ⟨h1, hm⟩ c' hc' hlt
    rcases Nat.lt_or_ge c'.1 xs.length with hl | hl
    · rw [levelAt_tail x xs _ hl]
      exact hm c' hc' hl
    · have : c' = c := h c' hc' (by omega)
      rw [this, h0, levelAt_head, h1]

/-- the control on register `L`, if any, is the next one -/
theorem next_ctrl {cs : List Ctrl} (hs : cs.Pairwise fun a b => a.1 < b.1) (L : Nat) :
    (∃ c, c ∈ cs ∧ c.1 = L ∧ (∀ c' ∈ cs, c'.1 = L → c' = c) ∧
      cs.filter (fun c => L ≤ c.1) = c :: cs.filter fun c => L + 1 ≤ c.1) ∨
    ((∀ c ∈ cs, c.1 ≠ L) ∧ cs.filter (fun c => L ≤ c.1) = cs.filter fun c => L + 1 ≤ c.1) := by
  induction cs with
  | nil => right; exact ⟨fun c hc => (nomatch hc), rfl⟩
  | cons a cs ih =>
    rw [List.pairwise_cons] at hs
    by_cases ha : a.1 = L
    · left
      have hgt : ∀ c ∈ cs, L + 1 ≤ c.1 := fun c hc => by have := hs.1 c hc; omega
      refine ⟨a, List.mem_cons_self, ha, ?_, ?_⟩
      · intro c' hc' h'
        rcases List.mem_cons.1 hc' with h | h
        · exact h
        · have := hgt c' h; omega
      · rw [List.filter_cons_of_pos (by simp; omega), List.filter_cons_of_neg (by simp; omega)]
        congr 1
        apply List.filter_congr
        intro c hc
        have := hgt c hc
        simp; omega
    · rcases ih hs.2 with ⟨c, h1, h2, h3, h4⟩ | ⟨h1, h2⟩
      · left
        have hac := hs.1 c h1
        refine ⟨c, List.mem_cons_of_mem _ h1, h2, ?_, ?_⟩
        · intro c' hc' h'
          rcases List.mem_cons.1 hc' with h | h
          · rw [h] at h'; exact absurd h' ha
          · exact h3 c' h h'
        · rw [List.filter_cons_of_neg (by simp; omega), List.filter_cons_of_neg (by simp; omega)]
          exact h4
      · right
        refine ⟨?_, ?_⟩
        · intro c hc
          rcases List.mem_cons.1 hc with h | h
          · rw [h]; exact ha
          · exact h1 c h
        · by_cases hlt : L ≤ a.1
          · rw [List.filter_cons_of_pos (by simpa using hlt), List.filter_cons_of_pos (by simp; omega), h2]
          · rw [List.filter_cons_of_neg (by simpa using hlt), List.filter_cons_of_neg (by simp; omega), h2]

theorem shape_diag {e : Edge ds} {t : Nat} (h : ∀ xs ys, Levels ds xs → Levels ds ys → xs ≠ ys → entry ds e xs ys = 0) :
    Shape t ds e := by
  intro xs ys hx hy hn
  apply h xs ys hx hy
  rintro rfl
  exact hn (Agree.refl _ _)

theorem gateBelow_ok (mat : List ℂ) (r : Nat) (hm : r * r ≤ mat.length) (cs : List Ctrl)
    (hs : cs.Pairwise fun a b => a.1 < b.1) :
    ∀ ds : List Nat, (∀ c ∈ cs, c.1 < ds.length → c.2 < ds.reverse.getD c.1 0) →
    ∃ es, gateBelow mat r ds cs = .ok (es, cs.filter fun c => ds.length ≤ c.1) ∧ es.length = r * r ∧
      (∀ e ∈ es, Proper .mat ds e) ∧ ∀ i j xs ys, i < r → j < r → Levels ds xs → Levels ds ys →
        entry ds (at' es (r * i + j)) xs ys = blockEntry mat r cs ds.length i j xs ys
  | [], _ => by
    refine ⟨(List.range (r * r)).map fun i => if mat.getD i 0 = 0 then none else some (mat.getD i 0, ()), ?_, ?_, ?_, ?_⟩
    · unfold gateBelow
      rw [if_neg (by omega)]
      congr 2
      symm
      apply List.filter_eq_self.2
      intro c _
      simp
    · simp
    · intro e he
      obtain ⟨i, _, rfl⟩ := List.mem_map.1 he
      split
      · exact proper_none _
      · rename_i h; exact h
    · intro i j xs ys hi hj hx hy
      rw [levels_nil_iff] at hx hy
      subst hx hy
      have hlt := sq_lt hi hj
      rw [at'_lt (by simpa using hlt), List.getElem_map, List.getElem_range]
      unfold blockEntry
      rw [if_pos rfl, if_pos (c := Met cs [].length []) (fun c _ h => absurd h (by simp))]
      split
      · rename_i h; rw [h]; exact entry_none _ _
      · rfl
  | d :: ds, hc => by
    obtain ⟨es, hes, hel, hep, hev⟩ := gateBelow_ok mat r hm cs hs ds (by
      intro c h hlt
      have := hc c h (by simp; omega)
      rw [List.reverse_cons, List.getD, List.getElem?_append_left (by simpa using hlt)] at this
      exact this)
    have hdiag : ∀ i j, i < r → j < r → Shape (ds.length) ds (at' es (r * i + j)) := by
      intro i j hi hj
      apply shape_diag
      intro xs ys hx hy hne
      rw [hev i j xs ys hi hj hx hy]
      unfold blockEntry
      rw [if_neg hne]
    rcases next_ctrl hs ds.length with ⟨c, h1, h2, h3, h4⟩ | ⟨h1, h2⟩
    · -- a control on this register
      obtain ⟨ident, hid, hip, hiv⟩ := makeIdent_ok ds
      have hcd : c.2 < d := by
        have := hc c h1 (by simp; omega)
        rw [h2, List.reverse_cons, List.getD, List.getElem?_append_right (by simp)] at this
        simpa using this
      have hmap : ∃ es', (pairs r r).mapM (fun p : Nat × Nat =>
              if p.1 = p.2 then
                makeM d ((pairs d d).map fun q =>
                  if q.1 = q.2 then (if q.1 = c.2 then at' es (p.1 * r + p.2) else ident) else none)
              else if c.2 < d then
                makeM d ((List.replicate (d * d) none).set (c.2 + d * c.2) (at' es (p.1 * r + p.2)))
              else .error .outOfRange) = .ok es' ∧
          List.Forall₂ (fun (p : Nat × Nat) e => Proper .mat (d :: ds) e ∧ ∀ x y xs ys, x < d → y < d → Levels ds xs →
            Levels ds ys → entry (d :: ds) e (x :: xs) (y :: ys) =
              blockEntry mat r cs (ds.length + 1) p.1 p.2 (x :: xs) (y :: ys)) (pairs r r) es' := by
        apply exceptMapM
        intro p hp
        obtain ⟨hp1, hp2⟩ := mem_pairs.1 hp
        have hmet : ∀ (y : Nat) (ys : List Nat), Levels ds ys →
            (Met cs (ds.length + 1) (y :: ys) ↔ y = c.2 ∧ Met cs ds.length ys) := by
          intro y ys hy
          have := levels_len hy
          rw [← this]
          exact met_cons_ctrl h1 (by omega) (by rw [this]; exact h3)
        have hfin : ∀ x y xs ys, x < d → y < d → Levels ds xs → Levels ds ys →
            blockEntry mat r cs (ds.length + 1) p.1 p.2 (x :: xs) (y :: ys) =
            if x = y then (if x = c.2 then entry ds (at' es (r * p.1 + p.2)) xs ys
              else if p.1 = p.2 then entry ds ident xs ys else 0) else 0 := by
          intro x y xs ys hx hy hxs hys
          rw [hev p.1 p.2 xs ys hp1 hp2 hxs hys, hiv xs ys hxs hys]
          unfold blockEntry
          rw [if_congr (hmet y ys hys) rfl rfl]
          by_cases hxy : x = y
          · subst hxy
            rw [if_pos rfl]
            by_cases hxl : xs = ys
            · rw [if_pos (by rw [hxl]), if_pos hxl, if_pos hxl]
              by_cases hxc : x = c.2
              · rw [if_pos hxc]
                exact if_congr (by simp [hxc]) rfl rfl
              · rw [if_neg hxc, if_neg (by simp [hxc])]
            · rw [if_neg (by simp [hxl]), if_neg hxl, if_neg hxl]
              simp
          · rw [if_neg (by simp [hxy]), if_neg hxy]
        by_cases hpp : p.1 = p.2
        · rw [if_pos hpp]
          obtain ⟨e, he, hepr, hee⟩ := makeM_diag (d := d) (fun i => if i = c.2 then at' es (p.1 * r + p.2) else ident)
            (fun i _ => by
              split
              · exact proper_at' hep _
              · exact hip) ds.length (fun i _ => by
              split
              · rw [Nat.mul_comm]; exact hdiag _ _ hp1 hp2
              · apply shape_diag
                intro xs ys hx hy hne
                rw [hiv xs ys hx hy, if_neg hne])
          refine ⟨e, he, hepr, ?_⟩
          intro x y xs ys hx hy hxs hys
          rw [hee x y xs ys hx hy, hfin x y xs ys hx hy hxs hys]
          apply if_congr Iff.rfl _ rfl
          rw [if_pos hpp, Nat.mul_comm p.1 r]
          split <;> rfl
        · rw [if_neg hpp, if_pos hcd]
          obtain ⟨e, he, hepr, hee⟩ := makeM_diag (d := d) (fun i => if i = c.2 then at' es (p.1 * r + p.2) else none)
            (fun i _ => by
              split
              · exact proper_at' hep _
              · exact proper_none _) ds.length (fun i _ => by
              split
              · rw [Nat.mul_comm]; exact hdiag _ _ hp1 hp2
              · exact shape_none _)
          have hlist : ((List.replicate (d * d) none).set (c.2 + d * c.2) (at' es (p.1 * r + p.2)) : List (Edge ds)) =
              (pairs d d).map fun q => if q.1 = q.2 then (if q.1 = c.2 then at' es (p.1 * r + p.2) else none) else none := by
            apply List.ext_getElem
            · simp [pairs_length]
            · intro i hi1 hi2
              rw [List.length_map, pairs_length] at hi2
              obtain ⟨u, v, hu, hv, rfl⟩ := index_split hi2
              have hl := pairs_getElem? d d u v hu hv
              obtain ⟨hlt, hget⟩ := List.getElem?_eq_some_iff.1 hl
              rw [List.getElem_set, List.getElem_map, hget]
              dsimp only
              by_cases huv : u = v
              · subst huv
                rw [if_pos rfl]
                by_cases huc : u = c.2
                · rw [if_pos huc, if_pos (by rw [huc]; omega)]
                · rw [if_neg huc, if_neg, List.getElem_replicate]
                  intro h
                  apply huc
                  have h' : (d + 1) * c.2 = (d + 1) * u := by
                    rw [Nat.add_mul, Nat.add_mul, one_mul, one_mul]; omega
                  exact (Nat.eq_of_mul_eq_mul_left (by omega) h').symm
              · rw [if_neg huv, if_neg, List.getElem_replicate]
                intro h
                have hmod : (c.2 + d * c.2) % d = (d * u + v) % d := by rw [h]
                rw [Nat.add_mul_mod_self_left, Nat.mul_add_mod, Nat.mod_eq_of_lt hcd, Nat.mod_eq_of_lt hv] at hmod
                have hdiv : (c.2 + d * c.2) / d = (d * u + v) / d := by rw [h]
                rw [Nat.add_mul_div_left _ _ (by omega), Nat.mul_add_div (by omega), Nat.div_eq_of_lt hcd,
                  Nat.div_eq_of_lt hv] at hdiv
                omega
          rw [hlist]
          refine ⟨e, he, hepr, ?_⟩
          intro x y xs ys hx hy hxs hys
          rw [hee x y xs ys hx hy, hfin x y xs ys hx hy hxs hys]
          apply if_congr Iff.rfl _ rfl
          rw [if_neg hpp, Nat.mul_comm p.1 r]
          split
          · rfl
          · exact entry_none _ _
      obtain ⟨es', hm', hall⟩ := hmap
      refine ⟨es', ?_, ?_, ?_, ?_⟩
      · unfold gateBelow
        rw [hes, h4]
        dsimp only
        rw [if_pos h2, hid]
        dsimp only
        rw [hm']
        rfl
      · rw [← hall.length_eq, pairs_length]
      · intro e he
        obtain ⟨p, _, hp⟩ := forall₂_mem hall e he
        exact hp.1
      · intro i j xs ys hi hj hxs hys
        obtain ⟨x, xs, rfl, hx, hxs⟩ := levels_cons_iff.1 hxs
        obtain ⟨y, ys, rfl, hy, hys⟩ := levels_cons_iff.1 hys
        have hl := pairs_getElem? r r i j hi hj
        obtain ⟨hlt, hget⟩ := List.getElem?_eq_some_iff.1 hl
        have := (forall₂_at' hall _ hlt).2 x y xs ys hx hy hxs hys
        rw [hget] at this
        exact this
    · -- no control on this register
      have hmap : ∃ es', (pairs r r).mapM (fun p : Nat × Nat =>
            makeM d ((pairs d d).map fun q => if q.1 = q.2 then at' es (p.1 * r + p.2) else none)) = .ok es' ∧
          List.Forall₂ (fun (p : Nat × Nat) e => Proper .mat (d :: ds) e ∧ ∀ x y xs ys, x < d → y < d → Levels ds xs →
            Levels ds ys → entry (d :: ds) e (x :: xs) (y :: ys) =
              blockEntry mat r cs (ds.length + 1) p.1 p.2 (x :: xs) (y :: ys)) (pairs r r) es' := by
        apply exceptMapM
        intro p hp
        obtain ⟨hp1, hp2⟩ := mem_pairs.1 hp
        obtain ⟨e, he, hepr, hee⟩ := makeM_diag (d := d) (fun _ => at' es (p.1 * r + p.2))
            (fun i _ => proper_at' hep _) ds.length (fun i _ => by
              rw [Nat.mul_comm]; exact hdiag _ _ hp1 hp2)
        refine ⟨e, he, hepr, ?_⟩
        intro x y xs ys hx hy hxs hys
        rw [hee x y xs ys hx hy, Nat.mul_comm p.1 r, hev p.1 p.2 xs ys hp1 hp2 hxs hys]
        unfold blockEntry
        have hmet : Met cs (ds.length + 1) (y :: ys) ↔ Met cs ds.length ys := by
          have := levels_len hys
          rw [← this]
          exact met_cons_free (by rw [this]; exact h1)
        rw [if_congr hmet rfl rfl]
        by_cases hxy : x = y
        · rw [if_pos hxy]
          exact if_congr (by simp [hxy]) rfl rfl
        · rw [if_neg hxy, if_neg (by simp [hxy])]
      obtain ⟨es', hm', hall⟩ := hmap
      refine ⟨es', ?_, ?_, ?_, ?_⟩
      · unfold gateBelow
        rw [hes]
        have hl : (d :: ds).length = ds.length + 1 := rfl
        rcases hrest : cs.filter (fun c => ds.length ≤ c.1) with _ | ⟨c, cs'⟩
        · rw [hrest] at h2 ⊢
          dsimp only
          rw [hm', hl, ← h2]
        · have hcm : c ∈ cs := by
            have : c ∈ cs.filter (fun c => ds.length ≤ c.1) := by rw [hrest]; exact List.mem_cons_self
            exact (List.mem_filter.1 this).1
          rw [hrest] at h2 ⊢
          dsimp only
          rw [if_neg (h1 c hcm), hm', hl, ← h2]
      · rw [← hall.length_eq, pairs_length]
      · intro e he
        obtain ⟨p, _, hp⟩ := forall₂_mem hall e he
        exact hp.1
      · intro i j xs ys hi hj hxs hys
        obtain ⟨x, xs, rfl, hx, hxs⟩ := levels_cons_iff.1 hxs
        obtain ⟨y, ys, rfl, hy, hys⟩ := levels_cons_iff.1 hys
        have hl := pairs_getElem? r r i j hi hj
        obtain ⟨hlt, hget⟩ := List.getElem?_eq_some_iff.1 hl
        have := (forall₂_at' hall _ hlt).2 x y xs ys hx hy hxs hys
        rw [hget] at this
        exact this

/-- the entry of a whole gate -/
noncomputable def gateEntry (mat : List ℂ) (r target : Nat) (cs : List Ctrl) (L : Nat) (xs ys : List Nat) : ℂ :=
  if Agree target xs ys then
    (if Met cs L ys then mat.getD (r * levelAt xs target + levelAt ys target) 0 else if xs = ys then 1 else 0)
  else 0

theorem gateUp_ok (mat : List ℂ) (target : Nat) (cs : List Ctrl) (hs : cs.Pairwise fun a b => a.1 < b.1)
    (ht : ∀ c ∈ cs, c.1 ≠ target) :
    ∀ ds : List Nat, target < ds.length → (∀ c ∈ cs, c.1 < ds.length → c.2 < ds.reverse.getD c.1 0) →
    ds.reverse.getD target 0 * ds.reverse.getD target 0 ≤ mat.length →
    ∃ e, gateUp mat target ds cs = .ok (e, cs.filter fun c => ds.length ≤ c.1) ∧ Proper .mat ds e ∧
      ∀ xs ys, Levels ds xs → Levels ds ys →
        entry ds e xs ys = gateEntry mat (ds.reverse.getD target 0) target cs ds.length xs ys
  | [], h, _, _ => absurd h (by simp)
  | d :: ds, h, hc, hm => by
    have hc' : ∀ c ∈ cs, c.1 < ds.length → c.2 < ds.reverse.getD c.1 0 := by
      intro c h hlt
      have := hc c h (by simp; omega)
      rw [List.reverse_cons, List.getD, List.getElem?_append_left (by simpa using hlt)] at this
      exact this
    by_cases hT : ds.length = target
    · -- the target register
      have hr : (d :: ds).reverse.getD target 0 = d := by
        rw [List.reverse_cons, List.getD, List.getElem?_append_right (by simp; omega)]
        simp [hT]
      rw [hr] at hm ⊢
      obtain ⟨es, hes, hel, hep, hev⟩ := gateBelow_ok mat d hm cs hs ds hc'
      obtain ⟨e, he⟩ := makeM_shape (t := target) (d := d) hep (by
        intro i j xs ys hi hj hxs hys hn
        rw [hev i j xs ys hi hj hxs hys]
        unfold blockEntry
        rw [if_neg]
        rintro rfl
        exact hn ⟨Or.inr (by rw [levels_len hxs]; exact hT), Agree.refl _ _⟩)
      obtain ⟨h1, h2⟩ := makeM_ok hep hel he
      refine ⟨e, ?_, h1, ?_⟩
      · unfold gateUp
        rw [if_pos hT, hes]
        dsimp only
        rw [he]
        dsimp only
        congr 2
        apply List.filter_congr
        intro c hcm
        have := ht c hcm
        simp; omega
      · intro xs ys hxs hys
        obtain ⟨x, xs, rfl, hx, hxs⟩ := levels_cons_iff.1 hxs
        obtain ⟨y, ys, rfl, hy, hys⟩ := levels_cons_iff.1 hys
        refine (h2 _ _).trans ?_
        refine (hev x y xs ys hx hy hxs hys).trans ?_
        have hlx := levels_len hxs
        have hly := levels_len hys
        unfold blockEntry gateEntry
        have hag : Agree target (x :: xs) (y :: ys) ↔ xs = ys := by
          constructor
          · intro ha; exact agree_eq (by omega) (by omega) ha.2
          · rintro rfl; exact ⟨Or.inr (by omega), Agree.refl _ _⟩
        have hmet : Met cs (ds.length + 1) (y :: ys) ↔ Met cs ds.length ys := by
          rw [← hly]
          exact met_cons_free (by rw [hly, hT]; exact ht)
        rw [List.length_cons, if_congr hag rfl rfl, if_congr hmet rfl rfl]
        have e1 : levelAt (x :: xs) target = x := by rw [← hT, ← hlx]; exact levelAt_head x xs
        have e2 : levelAt (y :: ys) target = y := by rw [← hT, ← hly]; exact levelAt_head y ys
        rw [e1, e2]
        by_cases hxl : xs = ys
        · rw [if_pos hxl, if_pos hxl]
          apply if_congr Iff.rfl rfl
          exact if_congr (by simp [hxl]) rfl rfl
        · rw [if_neg hxl, if_neg hxl]
    · -- a register above the target
      have hlt : target < ds.length := by simp at h; omega
      have hr : (d :: ds).reverse.getD target 0 = ds.reverse.getD target 0 := by
        rw [List.reverse_cons, List.getD, List.getElem?_append_left (by simpa using hlt)]
        rfl
      rw [hr] at hm ⊢
      obtain ⟨e, he, hep, hev⟩ := gateUp_ok mat target cs hs ht ds hlt hc' hm
      have hsh : Shape target ds e := by
        intro xs ys hx hy hn
        rw [hev xs ys hx hy]
        unfold gateEntry
        rw [if_neg hn]
      have hag : ∀ x y xs ys, Levels ds xs → (Agree target (x :: xs) (y :: ys) ↔ x = y ∧ Agree target xs ys) := by
        intro x y xs ys hxs
        have := levels_len hxs
        constructor
        · rintro ⟨h1 | h1, h2⟩
          · exact ⟨h1, h2⟩
          · omega
        · rintro ⟨h1, h2⟩
          exact ⟨Or.inl h1, h2⟩
      have hlev : ∀ (x : Nat) xs, Levels ds xs → levelAt (x :: xs) target = levelAt xs target := by
        intro x xs hxs
        exact levelAt_tail x xs target (by rw [levels_len hxs]; exact hlt)
      rcases next_ctrl hs ds.length with ⟨c, h1, h2, h3, h4⟩ | ⟨h1, h2⟩
      · obtain ⟨ident, hid, hip, hiv⟩ := makeIdent_ok ds
        obtain ⟨e', he', hepr, hee⟩ := makeM_diag (d := d) (fun i => if i = c.2 then e else ident)
          (fun i _ => by
            split
            · exact hep
            · exact hip) target (fun i _ => by
            split
            · exact hsh
            · apply shape_diag
              intro xs ys hx hy hne
              rw [hiv xs ys hx hy, if_neg hne])
        refine ⟨e', ?_, hepr, ?_⟩
        · unfold gateUp
          rw [if_neg hT, he, h4]
          dsimp only
          rw [if_pos h2, hid]
          dsimp only
          rw [he']
          rfl
        · intro xs ys hxs hys
          obtain ⟨x, xs, rfl, hx, hxs⟩ := levels_cons_iff.1 hxs
          obtain ⟨y, ys, rfl, hy, hys'⟩ := levels_cons_iff.1 hys
          clear hys
          have hys := hys'
          have hly := levels_len hys
          have hmet : Met cs (ds.length + 1) (y :: ys) ↔ y = c.2 ∧ Met cs ds.length ys := by
            rw [← hly]
            exact met_cons_ctrl h1 (by omega) (by rw [hly]; exact h3)
          rw [hee x y xs ys hx hy]
          unfold gateEntry
          rw [List.length_cons, if_congr (hag x y xs ys hxs) rfl rfl, if_congr hmet rfl rfl, hlev x xs hxs, hlev y ys hys]
          by_cases hxy : x = y
          · subst hxy
            rw [if_pos rfl]
            by_cases hxc : x = c.2
            · rw [if_pos hxc, hev xs ys hxs hys]
              unfold gateEntry
              apply if_congr (by simp) _ rfl
              apply if_congr (by simp [hxc]) rfl
              exact if_congr (by simp) rfl rfl
            · rw [if_neg hxc, hiv xs ys hxs hys]
              rw [if_neg (c := x = c.2 ∧ Met cs ds.length ys) (fun h => hxc h.1)]
              by_cases hxl : xs = ys
              · rw [if_pos hxl, if_pos ⟨rfl, by rw [hxl]; exact Agree.refl _ _⟩, if_pos (by rw [hxl])]
              · rw [if_neg hxl, if_neg (c := x :: xs = x :: ys) (by simp [hxl])]
                simp
          · rw [if_neg hxy, if_neg (fun h => hxy h.1)]
      · obtain ⟨e', he', hepr, hee⟩ := makeM_diag (d := d) (fun _ => e) (fun i _ => hep) target (fun i _ => hsh)
        refine ⟨e', ?_, hepr, ?_⟩
        · unfold gateUp
          rw [if_neg hT, he]
          have hl : (d :: ds).length = ds.length + 1 := rfl
          rcases hrest : cs.filter (fun c => ds.length ≤ c.1) with _ | ⟨c, cs'⟩
          · rw [hrest] at h2 ⊢
            dsimp only
            rw [he', hl, ← h2]
          · have hcm : c ∈ cs := by
              have : c ∈ cs.filter (fun c => ds.length ≤ c.1) := by rw [hrest]; exact List.mem_cons_self
              exact (List.mem_filter.1 this).1
            rw [hrest] at h2 ⊢
            dsimp only
            rw [if_neg (h1 c hcm), he', hl, ← h2]
        · intro xs ys hxs hys
          obtain ⟨x, xs, rfl, hx, hxs⟩ := levels_cons_iff.1 hxs
          obtain ⟨y, ys, rfl, hy, hys⟩ := levels_cons_iff.1 hys
          have hly := levels_len hys
          have hmet : Met cs (ds.length + 1) (y :: ys) ↔ Met cs ds.length ys := by
            rw [← hly]
            exact met_cons_free (by rw [hly]; exact h1)
          rw [hee x y xs ys hx hy, hev xs ys hxs hys]
          unfold gateEntry
          rw [List.length_cons, if_congr (hag x y xs ys hxs) rfl rfl, if_congr hmet rfl rfl, hlev x xs hxs, hlev y ys hys]
          by_cases hxy : x = y
          · rw [if_pos hxy]
            apply if_congr (by simp [hxy]) _ rfl
            apply if_congr Iff.rfl rfl
            exact if_congr (by simp [hxy]) rfl rfl
          · rw [if_neg hxy, if_neg (fun h => hxy h.1)]

theorem makeGateDD_ok (ds : List Nat) (mat : List ℂ) (cs : List Ctrl) (target : Nat)
    (hs : cs.Pairwise fun a b => a.1 < b.1) (ht : ∀ c ∈ cs, c.1 ≠ target) (hlt : target < ds.length)
    (hc : ∀ c ∈ cs, c.1 < ds.length → c.2 < ds.reverse.getD c.1 0)
    (hm : ds.reverse.getD target 0 * ds.reverse.getD target 0 ≤ mat.length) :
    ∃ e, makeGateDD ds mat cs target = .ok e ∧ Proper .mat ds e ∧ Shape target ds e ∧
      ∀ xs ys, Levels ds xs → Levels ds ys →
        entry ds e xs ys = gateEntry mat (ds.reverse.getD target 0) target cs ds.length xs ys := by
  obtain ⟨e, he, hp, hv⟩ := gateUp_ok mat target cs hs ht ds hlt hc hm
  refine ⟨e, ?_, hp, ?_, hv⟩
  · unfold makeGateDD
    rw [he]
  · intro xs ys hx hy hn
    rw [hv xs ys hx hy]
    unfold gateEntry
    rw [if_neg hn]

end Qudits.DD
