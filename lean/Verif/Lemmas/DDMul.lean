import Verif.Lemmas.DDOps
namespace Qudits.DD
open Spec Classical Tnsim

variable {ds : List Nat} {tot : Prop} (H : Hashes)

theorem lsum_cons {α : Type} [AddCommMonoid α] (d : Nat) (ds : List Nat) (f : List Nat → α) :
    lsum (d :: ds) f = ((List.range d).map fun i => lsum ds fun a => f (i :: a)).sum := by
  unfold lsum
  change (((List.range d).flatMap fun x => (itProduct (siteLogics ds)).map (x :: ·)).map f).sum = _
  rw [sum_flatMap]
  congr 1
  apply List.map_congr_left
  intro a _
  rw [List.map_map]
  rfl

theorem lsum_eq_zero {α : Type} [AddCommMonoid α] {dims : List Nat} {f : List Nat → α} (h : ∀ a, Levels dims a → f a = 0) :
    lsum dims f = 0 := by
  rw [lsum_congr h, lsum_zero]

theorem at'_pairs {r c : Nat} (f : Nat × Nat → Edge ds) (i j : Nat) (hi : i < r) (hj : j < c) :
    at' ((pairs r c).map f) (c * i + j) = f (i, j) := by
  unfold at'
  rw [List.getElem?_map, pairs_getElem? r c i j hi hj]
  rfl

/-! ### the identity -/

theorem makeIdent_ok : ∀ ds : List Nat, ∃ e, makeIdent ds = .ok e ∧ Proper .mat ds e ∧
    ∀ xs ys, Levels ds xs → Levels ds ys → entry ds e xs ys = if xs = ys then 1 else 0
  | [] => ⟨_, rfl, one_ne_zero, fun xs ys hx hy => by
      rw [levels_nil_iff] at hx hy
      subst hx hy
      rw [if_pos rfl]
      rfl⟩
  | d :: ds => by
    obtain ⟨e, he, hp, hv⟩ := makeIdent_ok ds
    have hpr : ∀ e' ∈ (pairs d d).map (fun p => if p.1 = p.2 then e else none), Proper .mat ds e' := by
      intro e' he'
      obtain ⟨p, _, rfl⟩ := List.mem_map.1 he'
      split
      · exact hp
      · exact proper_none _
    have hat : ∀ i j, i < d → j < d → at' ((pairs d d).map fun p => if p.1 = p.2 then e else none) (d * i + j) =
        if i = j then e else none := fun i j hi hj => at'_pairs _ i j hi hj
    have hent : ∀ i j xs ys, i < d → j < d → Levels ds xs → Levels ds ys →
        entry ds (at' ((pairs d d).map fun p => if p.1 = p.2 then e else none) (d * i + j)) xs ys =
          if i :: xs = j :: ys then 1 else 0 := by
      intro i j xs ys hi hj hx hy
      rw [hat i j hi hj]
      by_cases hij : i = j
      · rw [if_pos hij, hv xs ys hx hy, hij]
        apply if_congr _ rfl rfl
        simp
      · rw [if_neg hij, entry_none, if_neg (fun h => hij (List.cons.inj h).1)]
    obtain ⟨r, hr⟩ := makeM_shape (t := 0) hpr (by
      intro i j xs ys hi hj hx hy hn
      rw [hent i j xs ys hi hj hx hy, if_neg]
      intro h
      rw [h] at hn
      exact hn (Agree.refl _ _))
    have hok := makeM_ok hpr (by rw [List.length_map, pairs_length]) hr
    refine ⟨r, ?_, hok.1, ?_⟩
    · unfold makeIdent
      rw [he]
      exact hr
    · intro xs ys hx hy
      obtain ⟨x, xs, rfl, hx1, hx2⟩ := levels_cons_iff.1 hx
      obtain ⟨y, ys, rfl, hy1, hy2⟩ := levels_cons_iff.1 hy
      rw [← hent x y xs ys hx1 hy1 hx2 hy2]
      exact hok.2 _ _

theorem makeIdent_weight : ∀ {ds : List Nat} {e : Edge ds}, makeIdent ds = .ok e → weight e = 1 ∨ e = none
  | [], e, h => by
    injection h with h
    subst h
    exact Or.inl rfl
  | d :: ds, e, h => by
    obtain ⟨e', he, _⟩ := makeIdent_ok ds
    unfold makeIdent at h
    rw [he] at h
    dsimp only at h
    have ih := makeIdent_weight he
    unfold makeM at h
    unfold normalizeM at h
    rcases hm : maxM ((pairs d d).map fun p => if p.1 = p.2 then e' else none) 0 none with _ | ⟨k, w⟩
    · rw [hm] at h
      injection h with h
      exact Or.inr h.symm
    · rw [hm] at h
      dsimp only at h
      split at h
      · cases h
      · injection h with h
        subst h
        left
        change w = 1
        rcases maxM_some hm with h0 | ⟨j, hj, _, hw, hne⟩
        · cases h0
        · obtain ⟨p, _, hp⟩ := List.mem_map.1 (at'_mem hj)
          rw [← hp] at hw
          split at hw
          · rcases ih with h1 | h1
            · rw [← hw, h1]
            · rw [h1] at hw; exact absurd hw.symm hne
          · exact absurd hw.symm hne

/-! ### multiplication -/

theorem isProd_scale {k : Kind} {n m : Node ds} {r : Edge ds} (a b : ℂ) (h : IsProd k ds (some (1, n)) (some (1, m)) r) :
    IsProd k ds (some (a, n)) (some (b, m)) (scale b (scale a r)) := by
  intro xs zs hx hz
  rw [val_scale, val_scale, h xs zs hx hz, lsum_mul, lsum_mul]
  apply lsum_congr
  intro ys _
  rw [entry_some a, val_some b]
  ring

theorem scale_eq_setW {r : Edge ds} {a b : ℂ} (h : weight r = 1 ∨ r = none) : setW (a * b) r = scale b (scale a r) := by
  rcases r with _ | ⟨w, n⟩
  · rfl
  · rcases h with h | h
    · have h : w = 1 := h
      subst h
      change setW (a * b) (some (1, n)) = setW (weight (setW (1 * a) (some (1, n))) * b) (setW (1 * a) (some (1, n)))
      rw [one_mul]
      by_cases ha : a = 0
      · rw [setW_some a, if_pos ha, setW_none, setW_some, if_pos (by rw [ha, zero_mul])]
      · rw [setW_some a, if_neg ha, setW_some, setW_some]
        rfl
    · cases h

theorem rememberMul_ok {k : Kind} {d : Nat} {x y r : Edge (d :: ds)} (hp : Proper k (d :: ds) r) (h : IsProd k (d :: ds) x y r) :
    Tri tot (rememberMul H k x y r) fun _ => True := by
  apply tri_modify
  intro t ht
  refine ⟨ht.add, ?_, ht.ctrans⟩
  intro k' b' ds' e' h'
  dsimp only at h'
  by_cases hk : k' = k
  · subst hk
    rw [Function.update_self] at h'
    unfold Table.insert at h'
    split at h'
    · injection h' with h'
      injection h' with h1 h2
      subst h1
      have h2 := eq_of_heq h2
      subst h2
      exact ⟨hp, h⟩
    · exact ht.mul _ _ _ _ h'
  · rw [Function.update_of_ne hk] at h'
    exact ht.mul _ _ _ _ h'

/-- left operand an identity -/
theorem isProd_left {k : Kind} {n m : Node ds} (hp : Proper .mat ds (some (1, n)))
    (hi : identOf (some (1, n) : Edge ds) = true) : IsProd k ds (some (1, n)) (some (1, m)) (some (1, m)) := by
  intro xs zs hx hz
  rw [← lsum_single ds xs hx fun ys => val ds (some (1, m)) (gpath k ds ys zs)]
  apply lsum_congr
  intro ys hy
  rw [ident_entry hp hi xs ys hx hy]
  by_cases h : ys = xs
  · rw [if_pos h, if_pos h.symm, one_mul]
  · rw [if_neg h, if_neg (Ne.symm h), zero_mul]

theorem map_cols_mat (ds : List Nat) : ds.map (cols .mat) = ds := by
  induction ds with
  | nil => rfl
  | cons d ds ih => rw [List.map_cons, ih]; rfl

/-- right operand an identity -/
theorem isProd_right {x : Edge ds} {m : Node ds} (hp : Proper .mat ds (some (1, m)))
    (hi : identOf (some (1, m) : Edge ds) = true) : IsProd .mat ds x (some (1, m)) x := by
  intro xs zs hx hz
  rw [map_cols_mat] at hz
  rw [gpath_mat, ← lsum_single ds zs hz fun ys => val ds x (flat ds xs ys)]
  apply lsum_congr
  intro ys hy
  rw [gpath_mat]
  have := ident_entry hp hi ys zs hy hz
  unfold entry at this
  rw [this]
  by_cases h : ys = zs
  · rw [if_pos h, if_pos h, mul_one]; rfl
  · rw [if_neg h, if_neg h, mul_zero]

/-- a sum of products of matrices acting on line `t` -/
theorem agree_zero {t : Nat} {x y : Edge ds} (hx : Shape t ds x) (hy : Shape t ds y) {xs zs : List Nat} (hxs : Levels ds xs)
    (hzs : Levels ds zs) (hn : ¬ Agree t xs zs) : (lsum ds fun ys => entry ds x xs ys * val ds y (gpath .mat ds ys zs)) = 0 := by
  apply lsum_eq_zero
  intro ys hys
  by_cases h1 : Agree t xs ys
  · by_cases h2 : Agree t ys zs
    · exact absurd (Agree.trans (by rw [levels_len hxs, levels_len hys]) (by rw [levels_len hys, levels_len hzs]) h1 h2) hn
    · rw [gpath_mat]
      have := hy ys zs hys hzs h2
      unfold entry at this
      rw [this, mul_zero]
  · rw [hx xs ys hxs hys h1, zero_mul]

theorem cols_lt {k : Kind} {d i j : Nat} (hi : i < d) (hj : j < cols k d) : cols k d * i + j < arity k d := by
  unfold arity
  calc cols k d * i + j < cols k d * i + cols k d := by omega
    _ = cols k d * (i + 1) := by ring
    _ ≤ cols k d * d := Nat.mul_le_mul_left _ (by omega)
    _ = d * cols k d := by ring

theorem multiply_ok (k : Kind) : ∀ (ds : List Nat) (x y : Edge ds), Proper .mat ds x → Proper k ds y →
    Tri (k = .vec ∨ ∃ t, Shape t ds x ∧ Shape t ds y) (multiply H k ds x y) fun r => Proper k ds r ∧ IsProd k ds x y r := by
  intro ds
  induction ds with
  | nil =>
    intro x y hx hy
    rcases x with _ | ⟨a, n⟩
    · unfold multiply
      refine tri_pure ⟨proper_none _, fun xs zs _ _ => ?_⟩
      rw [val_none]
      exact (lsum_eq_zero fun _ _ => by rw [entry_none, zero_mul]).symm
    rcases y with _ | ⟨b, m⟩
    · unfold multiply
      refine tri_pure ⟨proper_none _, fun xs zs _ _ => ?_⟩
      rw [val_none]
      exact (lsum_eq_zero fun _ _ => by rw [val_none, mul_zero]).symm
    unfold multiply
    refine tri_pure ⟨mul_ne_zero hx hy, fun xs zs _ _ => ?_⟩
    change a * b = ([[]].map fun _ => a * b).sum
    simp
  | cons d ds ih =>
    intro x y hx hy
    rcases x with _ | ⟨a, n⟩
    · unfold multiply
      refine tri_pure ⟨proper_none _, fun xs zs _ _ => ?_⟩
      rw [val_none]
      exact (lsum_eq_zero fun _ _ => by rw [entry_none, zero_mul]).symm
    rcases y with _ | ⟨b, m⟩
    · unfold multiply
      refine tri_pure ⟨proper_none _, fun xs zs _ _ => ?_⟩
      rw [val_none]
      exact (lsum_eq_zero fun _ _ => by rw [val_none, mul_zero]).symm
    have hx1 : Proper .mat (d :: ds) (some (1, n)) := proper_some hx one_ne_zero
    have hy1 : Proper k (d :: ds) (some (1, m)) := proper_some hy one_ne_zero
    unfold multiply
    apply tri_get
    intro t ht
    split
    · rename_i r hr
      obtain ⟨h1, h2⟩ := ht.mul _ _ _ _ (lookup_some hr)
      exact tri_pure ⟨proper_scale (proper_scale h1 a) b, isProd_scale a b h2⟩
    · split
      · rename_i hni
        -- the left operand is the identity
        have hcont : ∀ r : Edge (d :: ds), Proper k (d :: ds) r ∧ (weight r = 1 ∨ r = none) ∧
            IsProd k (d :: ds) (some (1, n)) (some (1, m)) r →
            Tri (k = .vec ∨ ∃ t, Shape t (d :: ds) (some (a, n)) ∧ Shape t (d :: ds) (some (b, m)))
              (do
                rememberMul H k (some (1, n)) (some (1, m)) r
                pure (setW (a * b) r)) fun r => Proper k (d :: ds) r ∧ IsProd k (d :: ds) (some (a, n)) (some (b, m)) r := by
          rintro r ⟨h1, h2, h3⟩
          refine tri_bind (rememberMul_ok H h1 h3) fun _ _ => tri_pure ?_
          rw [scale_eq_setW h2]
          exact ⟨proper_scale (proper_scale h1 a) b, isProd_scale a b h3⟩
        dsimp only
        split
        · rename_i hk
          obtain ⟨hk, hmi⟩ := hk
          subst hk
          obtain ⟨e, he, hep, hev⟩ := makeIdent_ok (d :: ds)
          refine tri_bind (tri_lift (Q := fun r => r = e) ?_ fun _ => ⟨e, he⟩) ?_
          · intro r hr
            rw [he] at hr
            injection hr with hr
            exact hr.symm
          · rintro r rfl
            apply hcont
            refine ⟨hep, makeIdent_weight he, ?_⟩
            intro xs zs hxs hzs
            rw [← isProd_left (k := .mat) hx1 hni xs zs hxs hzs]
            rw [map_cols_mat] at hzs
            rw [gpath_mat]
            have h1 := ident_entry hy1 hmi xs zs hxs hzs
            have h2 := hev xs zs hxs hzs
            unfold entry at h1 h2
            rw [h1, h2]
        · exact hcont _ ⟨hy1, Or.inl rfl, isProd_left hx1 hni⟩
      · split
        · rename_i hk
          obtain ⟨hk, hmi⟩ := hk
          subst hk
          have h3 : IsProd .mat (d :: ds) (some (1, n)) (some (1, m)) (some (1, n)) := isProd_right hy1 hmi
          refine tri_bind (rememberMul_ok H hx1 h3) fun _ _ => tri_pure ?_
          rw [scale_eq_setW (Or.inl rfl)]
          exact ⟨proper_scale (proper_scale hx1 a) b, isProd_scale a b h3⟩
        · -- the general case
          obtain ⟨hnl, hnp⟩ := proper_ext hx
          obtain ⟨hml, hmp⟩ := proper_ext hy
          refine tri_bind (tri_mapM (Q := fun (p : Nat × Nat) r => Proper k ds r ∧
            ∀ xs zs, Levels ds xs → Levels (ds.map (cols k)) zs → val ds r (gpath k ds xs zs) =
              ((List.range d).map fun q => lsum ds fun ys => entry ds (at' n.edges (d * p.1 + q)) xs ys *
                val ds (at' m.edges (p.2 + cols k d * q)) (gpath k ds ys zs)).sum) ?_) fun es hes => ?_
          · intro p hp
            obtain ⟨hp1, hp2⟩ := mem_pairs.1 hp
            have := tri_foldlM (tot := k = .vec ∨ ∃ t, Shape t (d :: ds) (some (a, n)) ∧ Shape t (d :: ds) (some (b, m)))
              (f := fun acc q => do
                let r ← multiply H k ds (at' n.edges (d * p.1 + q)) (at' m.edges (p.2 + cols k d * q))
                if weight acc = 0 then pure r
                else if weight r ≠ 0 then add2 H k ds acc r
                else pure acc) (l := List.range d) (s := 0) (b := none)
              (I := fun s acc => Proper k ds acc ∧
                ∀ xs zs, Levels ds xs → Levels (ds.map (cols k)) zs → val ds acc (gpath k ds xs zs) =
                  ((List.range s).map fun q => lsum ds fun ys => entry ds (at' n.edges (d * p.1 + q)) xs ys *
                    val ds (at' m.edges (p.2 + cols k d * q)) (gpath k ds ys zs)).sum)
              ⟨proper_none _, fun xs zs _ _ => by rw [val_none]; rfl⟩ ?_
            · rw [List.length_range, Nat.zero_add] at this
              exact this
            · intro q hq acc hacc
              rw [List.length_range] at hq
              simp only [List.getElem_range]
              rw [Nat.zero_add] at hacc ⊢
              have hsh : k = .mat → (∃ t, Shape t (d :: ds) (some (a, n)) ∧ Shape t (d :: ds) (some (b, m))) →
                  ∃ t, ∀ q, q < d → Shape t ds (at' n.edges (d * p.1 + q)) ∧
                    Shape t ds (at' m.edges (p.2 + cols k d * q)) := by
                rintro hk ⟨t, h1, h2⟩
                subst hk
                refine ⟨t, fun q hq => ⟨shape_child hx.1 h1 _ _ hp1 hq, ?_⟩⟩
                rw [Nat.add_comm]
                exact shape_child hy.1 h2 q _ hq hp2
              refine tri_bind (tri_weaken (ih _ _ (proper_at' hnp _) (proper_at' hmp _)) (fun _ h => h) ?_) fun r hr => ?_
              · rintro (hk | hs)
                · exact Or.inl hk
                · rcases hk : k with _ | _
                  · exact Or.inl rfl
                  · right
                    obtain ⟨t, h⟩ := hsh hk hs
                    rw [hk] at h
                    exact ⟨t, h q hq⟩
              · have hsucc : ∀ xs zs, Levels ds xs → Levels (ds.map (cols k)) zs →
                    ((List.range (q + 1)).map fun q => lsum ds fun ys => entry ds (at' n.edges (d * p.1 + q)) xs ys *
                      val ds (at' m.edges (p.2 + cols k d * q)) (gpath k ds ys zs)).sum =
                    val ds acc (gpath k ds xs zs) + val ds r (gpath k ds xs zs) := by
                  intro xs zs h1 h2
                  rw [List.range_succ, List.map_append, List.sum_append, hacc.2 xs zs h1 h2, hr.2 xs zs h1 h2]
                  simp
                split
                · rename_i h0
                  refine tri_pure ⟨hr.1, fun xs zs h1 h2 => ?_⟩
                  rw [hsucc xs zs h1 h2, (weight_eq_zero hacc.1).1 h0, val_none, zero_add]
                · split
                  · refine tri_weaken (add2_ok H k ds acc r hacc.1 hr.1) ?_ ?_
                    · rintro s ⟨h1, h2⟩
                      refine ⟨h1, fun xs zs h3 h4 => ?_⟩
                      rw [hsucc xs zs h3 h4, h2]
                    · rintro (hk | hs)
                      · exact Or.inl hk
                      · rcases hk : k with _ | _
                        · exact Or.inl rfl
                        · right
                          obtain ⟨t, h⟩ := hsh hk hs
                          subst hk
                          refine ⟨t, ?_, ?_⟩
                          · intro xs zs h1 h2 hn
                            have := hacc.2 xs zs h1 (by rw [map_cols_mat]; exact h2)
                            rw [gpath_mat] at this
                            unfold entry
                            rw [this]
                            apply List.sum_eq_zero
                            intro v hv
                            obtain ⟨q', hq', rfl⟩ := List.mem_map.1 hv
                            rw [List.mem_range] at hq'
                            exact agree_zero (h q' (by omega)).1 (h q' (by omega)).2 h1 h2 hn
                          · intro xs zs h1 h2 hn
                            have := hr.2 xs zs h1 (by rw [map_cols_mat]; exact h2)
                            rw [gpath_mat] at this
                            unfold entry
                            rw [this]
                            exact agree_zero (h q hq).1 (h q hq).2 h1 h2 hn
                  · rename_i h0
                    rw [not_not] at h0
                    refine tri_pure ⟨hacc.1, fun xs zs h1 h2 => ?_⟩
                    rw [hsucc xs zs h1 h2, (weight_eq_zero hr.1).1 h0, val_none, add_zero]
          · have hlen : es.length = arity k d := by
              rw [← hes.length_eq, pairs_length]; rfl
            have hv : ∀ i j xs zs, i < d → j < cols k d → Levels ds xs → Levels (ds.map (cols k)) zs →
                val ds (at' es (cols k d * i + j)) (gpath k ds xs zs) =
                  lsum (d :: ds) fun ys => entry (d :: ds) (some (1, n)) (i :: xs) ys *
                    val (d :: ds) (some (1, m)) (gpath k (d :: ds) ys (j :: zs)) := by
              intro i j xs zs hi hj hxs hzs
              have hl := pairs_getElem? d (cols k d) i j hi hj
              obtain ⟨hlt, hget⟩ := List.getElem?_eq_some_iff.1 hl
              have := (forall₂_at' hes _ hlt).2 xs zs hxs hzs
              rw [hget] at this
              rw [this, lsum_cons]
              congr 1
              apply List.map_congr_left
              intro q _
              apply lsum_congr
              intro ys _
              rw [entry_cons, one_mul, gpath, val_cons, one_mul, Nat.add_comm j]
            refine tri_bind (tri_makeDDNode (fun e he => (by
                obtain ⟨c, _, hc⟩ := forall₂_mem hes e he
                exact hc.1)) hlen ?_) fun e he => ?_
            · rintro (hk | ⟨s, h1, h2⟩)
              · exact Or.inl hk
              · rcases hk : k with _ | _
                · exact Or.inl rfl
                · right
                  subst hk
                  refine ⟨s, ?_⟩
                  intro i j xs zs hi hj hxs hzs hn
                  have := hv i j xs zs hi hj hxs (by rw [map_cols_mat]; exact hzs)
                  rw [gpath_mat] at this
                  unfold entry
                  refine this.trans ?_
                  have g1 : Shape s (d :: ds) (some (1, n)) := by
                    intro u v hu hv hn
                    have := h1 u v hu hv hn
                    rw [entry_some] at this
                    exact (mul_eq_zero.1 this).resolve_left hx.1
                  have g2 : Shape s (d :: ds) (some (1, m)) := by
                    intro u v hu hv hn
                    have := h2 u v hu hv hn
                    rw [entry_some] at this
                    exact (mul_eq_zero.1 this).resolve_left hy.1
                  exact agree_zero g1 g2 (List.Forall₂.cons hi hxs) (List.Forall₂.cons hj hzs) hn
            · have h3 : IsProd k (d :: ds) (some (1, n)) (some (1, m)) e := by
                intro xs zs hxs hzs
                obtain ⟨i, xs, rfl, hi, hxs⟩ := levels_cons_iff.1 hxs
                obtain ⟨j, zs, rfl, hj, hzs⟩ := levels_cons_iff.1 hzs
                rw [gpath, he.2]
                exact hv i j xs zs hi hj hxs hzs
              refine tri_bind (rememberMul_ok H he.1 h3) fun _ _ => tri_pure ?_
              exact ⟨proper_scale (proper_scale he.1 a) b, isProd_scale a b h3⟩

end Qudits.DD
