import Verif.Lemmas.DDMul
/- Conjugate transposition, states, reading a vector, inner product. -/
namespace Qudits.DD
open Spec Classical Tnsim

variable {ds : List Nat} {tot : Prop} (H : Hashes)

theorem entry_scale (a : ℂ) (e : Edge ds) (xs ys : List Nat) : entry ds (scale a e) xs ys = a * entry ds e xs ys :=
  val_scale _ _ _

theorem conjugateTranspose_ok : ∀ (ds : List Nat) (x : Edge ds), Proper .mat ds x →
    Tri (∃ t, Shape t ds x) (conjugateTranspose H ds x) fun r => Proper .mat ds r ∧ IsAdj ds x r := by
  intro ds
  induction ds with
  | nil =>
    intro x hx
    rcases x with _ | ⟨w, n⟩
    · unfold conjugateTranspose
      exact tri_pure ⟨proper_none _, fun xs ys _ _ => by rw [entry_none, entry_none, star_zero]⟩
    · unfold conjugateTranspose
      refine tri_pure ⟨star_ne_zero.2 hx, fun xs ys hxs hys => ?_⟩
      rw [levels_nil_iff] at hxs hys
      subst hxs hys
      rfl
  | cons d ds ih =>
    intro x hx
    rcases x with _ | ⟨w, n⟩
    · unfold conjugateTranspose
      exact tri_pure ⟨proper_none _, fun xs ys _ _ => by rw [entry_none, entry_none, star_zero]⟩
    unfold conjugateTranspose
    apply tri_get
    intro t ht
    split
    · rename_i r hr
      have := ht.ctrans _ _ _ (lookup_some hr)
      exact tri_pure this
    · obtain ⟨hnl, hnp⟩ := proper_ext hx
      refine tri_bind (tri_mapM (Q := fun (p : Nat × Nat) r => Proper .mat ds r ∧ IsAdj ds (at' n.edges (d * p.2 + p.1)) r) ?_)
        fun es hes => ?_
      · intro p hp
        obtain ⟨hp1, hp2⟩ := mem_pairs.1 hp
        refine tri_weaken (ih _ (proper_at' hnp _)) (fun _ h => h) ?_
        rintro ⟨s, h⟩
        exact ⟨s, shape_child hx.1 h _ _ hp2 hp1⟩
      · have hlen : es.length = d * d := by rw [← hes.length_eq, pairs_length]
        have hv : ∀ i j xs ys, i < d → j < d → Levels ds xs → Levels ds ys →
            entry ds (at' es (d * i + j)) xs ys = star (entry ds (at' n.edges (d * j + i)) ys xs) := by
          intro i j xs ys hi hj hxs hys
          have hl := pairs_getElem? d d i j hi hj
          obtain ⟨hlt, hget⟩ := List.getElem?_eq_some_iff.1 hl
          have := (forall₂_at' hes _ hlt).2 xs ys hxs hys
          rw [hget] at this
          exact this
        have hpr : ∀ e ∈ es, Proper .mat ds e := by
          intro e he
          obtain ⟨c, _, hc⟩ := forall₂_mem hes e he
          exact hc.1
        refine tri_bind (tri_lift (Q := fun e => Proper .mat (d :: ds) e ∧
          ∀ i p, val (d :: ds) e (i :: p) = val ds (at' es i) p) (fun a ha => makeM_ok hpr hlen ha) ?_) fun e he => ?_
        · rintro ⟨s, h⟩
          apply makeM_shape (t := s) hpr
          intro i j xs ys hi hj hxs hys hn
          rw [hv i j xs ys hi hj hxs hys]
          have := h (j :: ys) (i :: xs) (List.Forall₂.cons hj hys) (List.Forall₂.cons hi hxs) (by
            intro ha
            exact hn (Agree.symm (by rw [List.length_cons, List.length_cons, levels_len hxs, levels_len hys]) ha))
          rw [entry_cons] at this
          rw [(mul_eq_zero.1 this).resolve_left hx.1, star_zero]
        · have hfin : IsAdj (d :: ds) (some (w, n)) (scale (star w) e) := by
            intro xs ys hxs hys
            obtain ⟨i, xs, rfl, hi, hxs⟩ := levels_cons_iff.1 hxs
            obtain ⟨j, ys, rfl, hj, hys⟩ := levels_cons_iff.1 hys
            rw [entry_scale, entry_cons, star_mul', ← hv i j xs ys hi hj hxs hys]
            congr 1
            exact he.2 _ _
          have hp' := proper_scale he.1 (star w)
          refine tri_bind (tri_modify fun t ht => ?_) fun _ _ => tri_pure ⟨hp', hfin⟩
          refine ⟨ht.add, ht.mul, ?_⟩
          intro b' ds' e' h'
          dsimp only at h'
          unfold Table.insert at h'
          split at h'
          · injection h' with h'
            injection h' with h1 h2
            subst h1
            have h2 := eq_of_heq h2
            subst h2
            exact ⟨hp', hfin⟩
          · exact ht.ctrans _ _ _ h'

/-! ### states -/

theorem filter_single {es : List (Edge ds)} {k : Nat} (hk : k < es.length) (h1 : weight (at' es k) ≠ 0)
    (h2 : ∀ i, i < es.length → i ≠ k → weight (at' es i) = 0) :
    (List.range es.length).filter (fun i => weight (at' es i) ≠ 0) = [k] := by
  have hcong : (List.range es.length).filter (fun i => weight (at' es i) ≠ 0) =
      (List.range es.length).filter (fun i => i == k) := by
    apply List.filter_congr
    intro i hi
    rw [List.mem_range] at hi
    by_cases hik : i = k
    · subst hik; simp [h1]
    · simp [hik, h2 i hi hik]
  rw [hcong]
  rw [List.filter_beq, List.count_eq_one_of_mem List.nodup_range (List.mem_range.2 hk)]
  rfl

/-- the levels are all zero -/
def allZero (p : List Nat) : Prop := ∀ x ∈ p, x = 0

theorem makeV_single {d k : Nat} {f : Edge ds} {es : List (Edge ds)} (hl : es.length = d) (hk : k < d)
    (hf : Proper .vec ds f) (hne : f ≠ none) (hat : ∀ i, i < d → at' es i = if i = k then f else none) :
    Proper .vec (d :: ds) (makeV d es false) ∧ makeV d es false ≠ none ∧
      ∀ i p, i < d → val (d :: ds) (makeV d es false) (i :: p) = if i = k then val ds f p else 0 := by
  have hpr : ∀ e ∈ es, Proper .vec ds e := by
    intro e he
    obtain ⟨i, hi, rfl⟩ := mem_at' he
    rw [hat i (by omega)]
    split
    · exact hf
    · exact proper_none _
  have hfil : (List.range es.length).filter (fun i => weight (at' es i) ≠ 0) = [k] := by
    apply filter_single (by omega)
    · rw [hat k hk, if_pos rfl]
      intro h0
      exact hne ((weight_eq_zero hf).1 h0)
    · intro i hi hik
      rw [hat i (by omega), if_neg hik]
      rfl
  obtain ⟨h1, h2⟩ := makeV_ok (cached := false) hpr hl (Or.inr (Or.inl ⟨k, hfil⟩))
  refine ⟨h1, ?_, ?_⟩
  · unfold makeV normalizeV
    rw [hfil]
    simp
  · intro i p hi
    rw [h2, hat i hi]
    split
    · rfl
    · exact val_none _

theorem makeZeroState_ok : ∀ (ds : List Nat), (∀ d ∈ ds, 0 < d) → Proper .vec ds (makeZeroState ds) ∧ makeZeroState ds ≠ none ∧
    ∀ p, Levels ds p → val ds (makeZeroState ds) p = if allZero p then 1 else 0
  | [], _ => ⟨one_ne_zero, by simp [makeZeroState], fun p hp => by
      rw [levels_nil_iff] at hp
      subst hp
      rw [if_pos (by intro x hx; cases hx)]
      rfl⟩
  | d :: ds, hd => by
    obtain ⟨h1, h2, h3⟩ := makeZeroState_ok ds fun x hx => hd x (List.mem_cons_of_mem _ hx)
    have hd0 : 0 < d := hd d List.mem_cons_self
    obtain ⟨g1, g2, g3⟩ := makeV_single (d := d) (k := 0) (es := makeZeroState ds :: List.replicate (d - 1) none)
      (by simp; omega) hd0 h1 h2 (by
        intro i hi
        cases i with
        | zero => rfl
        | succ i =>
          rw [if_neg (by omega)]
          unfold at'
          rw [List.getElem?_cons_succ]
          by_cases hi' : i < d - 1
          · rw [List.getElem?_replicate, if_pos hi']; rfl
          · rw [List.getElem?_replicate, if_neg hi']; rfl)
    refine ⟨g1, g2, ?_⟩
    intro p hp
    obtain ⟨x, p, rfl, hx, hp⟩ := levels_cons_iff.1 hp
    refine (g3 x p hx).trans ?_
    rw [h3 p hp]
    by_cases hx0 : x = 0
    · rw [if_pos hx0]
      apply if_congr _ rfl rfl
      constructor
      · intro h y hy
        rcases List.mem_cons.1 hy with rfl | hy
        · exact hx0
        · exact h y hy
      · intro h y hy
        exact h y (List.mem_cons_of_mem _ hy)
    · rw [if_neg hx0, if_neg]
      intro h
      exact hx0 (h x List.mem_cons_self)

theorem makeBasisState_ok : ∀ (ds state : List Nat), Levels ds state → ∃ e, makeBasisState ds state = .ok e ∧
    Proper .vec ds e ∧ e ≠ none ∧ ∀ p, Levels ds p → val ds e p = if p = state then 1 else 0
  | [], state, h => by
    rw [levels_nil_iff] at h
    subst h
    refine ⟨_, rfl, one_ne_zero, by simp, fun p hp => ?_⟩
    rw [levels_nil_iff] at hp
    rw [if_pos hp]
    rfl
  | d :: ds, state, h => by
    obtain ⟨k, state, rfl, hk, hs⟩ := levels_cons_iff.1 h
    obtain ⟨f, hf, h1, h2, h3⟩ := makeBasisState_ok ds state hs
    obtain ⟨g1, g2, g3⟩ := makeV_single (d := d) (k := k) (es := (List.replicate d (none : Edge ds)).set k f)
      (by simp) hk h1 h2 (by
        intro i hi
        rw [at'_lt (by simpa using hi), List.getElem_set]
        by_cases hik : i = k
        · rw [if_pos hik, if_pos hik.symm]
        · rw [if_neg hik, if_neg (Ne.symm hik), List.getElem_replicate])
    refine ⟨_, ?_, g1, g2, ?_⟩
    · unfold makeBasisState
      rw [hf]
      dsimp only
      rw [if_pos hk]
    · intro p hp
      obtain ⟨x, p, rfl, hx, hp⟩ := levels_cons_iff.1 hp
      refine (g3 x p hx).trans ?_
      rw [h3 p hp]
      by_cases hxk : x = k
      · rw [if_pos hxk]
        apply if_congr _ rfl rfl
        rw [hxk]
        simp
      · rw [if_neg hxk, if_neg]
        intro h
        exact hxk (List.cons.inj h).1

/-! ### reading a vector -/

theorem readOut_ok : ∀ (ds : List Nat) (w : ℂ) (n : Node ds) (amp : ℂ) (i : Nat) (v : List ℂ), Proper .vec ds (some (w, n)) →
    i + ds.prod ≤ v.length → (∀ j, i ≤ j → j < i + ds.prod → v[j]? = some 0) →
    (readOut ds (some (w, n)) amp i (i + ds.prod) v).length = v.length ∧
    (∀ j, j < i ∨ i + ds.prod ≤ j → (readOut ds (some (w, n)) amp i (i + ds.prod) v)[j]? = v[j]?) ∧
    ∀ p, Levels ds p → (readOut ds (some (w, n)) amp i (i + ds.prod) v)[i + index ds p]? = some (val ds (some (w, n)) p * amp)
  | [], w, n, amp, i, v, hp, hl, h0 => by
    have hl : i + 1 ≤ v.length := hl
    change (v.set i (w * amp)).length = _ ∧ (∀ j, j < i ∨ i + 1 ≤ j → (v.set i (w * amp))[j]? = _) ∧
      ∀ p, Levels [] p → (v.set i (w * amp))[i + index [] p]? = _
    refine ⟨by simp, ?_, ?_⟩
    · intro j hj
      rw [List.getElem?_set_ne (by omega)]
    · intro p hp
      rw [levels_nil_iff] at hp
      subst hp
      change (v.set i (w * amp))[i]? = _
      rw [List.getElem?_set_self (by omega)]
      rfl
  | d :: ds, w, n, amp, i, v, hp, hl, h0 => by
    obtain ⟨hnl, hnp⟩ := proper_ext hp
    rw [arity, cols, Nat.mul_one] at hnl
    have hd : 0 < d := by
      obtain ⟨_, _, _, ⟨e, he, _⟩, _⟩ := hp
      have := List.length_pos_of_mem he
      omega
    have hsize : (i + (d :: ds).prod - i) / n.edges.length = ds.prod := by
      rw [hnl, List.prod_cons, Nat.add_sub_cancel_left, Nat.mul_div_cancel_left _ hd]
    have hprod : (d :: ds).prod = d * ds.prod := List.prod_cons
    rw [hprod] at hl h0
    have key : ∀ s, s ≤ d →
        let v' := (List.range s).foldl
          (fun v k =>
            if weight (at' n.edges k) = 0 then v
            else readOut ds (at' n.edges k) (w * amp) (i + k * ds.prod) (i + (k + 1) * ds.prod) v) v
        v'.length = v.length ∧ (∀ j, j < i ∨ i + s * ds.prod ≤ j → v'[j]? = v[j]?) ∧
          ∀ k p, k < s → Levels ds p → v'[i + (k * ds.prod + index ds p)]? = some (w * val ds (at' n.edges k) p * amp) := by
      intro s
      induction s with
      | zero => intro _; exact ⟨rfl, fun _ _ => rfl, fun k p hk => absurd hk (by omega)⟩
      | succ s ih =>
        intro hs
        obtain ⟨i1, i2, i3⟩ := ih (by omega)
        dsimp only at i1 i2 i3 ⊢
        rw [List.range_succ, List.foldl_append, List.foldl_cons, List.foldl_nil]
        generalize (List.range s).foldl
          (fun v k =>
            if weight (at' n.edges k) = 0 then v
            else readOut ds (at' n.edges k) (w * amp) (i + k * ds.prod) (i + (k + 1) * ds.prod) v) v = u at i1 i2 i3 ⊢
        have hexp : (s + 1) * ds.prod = s * ds.prod + ds.prod := by ring
        have hle : (s + 1) * ds.prod ≤ d * ds.prod := Nat.mul_le_mul_right _ hs
        have hzero : ∀ j, i + s * ds.prod ≤ j → j < i + s * ds.prod + ds.prod → u[j]? = some 0 := by
          intro j h1 h2
          rw [i2 j (Or.inr h1)]
          exact h0 j (by omega) (by omega)
        have hpc := proper_at' hnp s
        rcases he : at' n.edges s with _ | ⟨a, m⟩
        · rw [if_pos (by rfl)]
          refine ⟨i1, ?_, ?_⟩
          · intro j hj
            exact i2 j (by omega)
          · intro k p hk hp
            rcases Nat.lt_succ_iff_lt_or_eq.1 hk with hk | rfl
            · exact i3 k p hk hp
            · rw [he, val_none, mul_zero, zero_mul]
              have := index_lt hp
              exact hzero _ (by omega) (by omega)
        · rw [he] at hpc
          rw [if_neg (c := weight (some (a, m) : Edge ds) = 0) (proper_weight hpc)]
          obtain ⟨r1, r2, r3⟩ := readOut_ok ds a m (w * amp) (i + s * ds.prod) u hpc (by rw [i1]; omega) hzero
          rw [hexp, ← Nat.add_assoc]
          refine ⟨by rw [r1, i1], ?_, ?_⟩
          · intro j hj
            rw [r2 j (by omega)]
            exact i2 j (by omega)
          · intro k p hk hp
            rcases Nat.lt_succ_iff_lt_or_eq.1 hk with hk | rfl
            · have hlt := index_lt hp
              have hkm : (k + 1) * ds.prod ≤ s * ds.prod := Nat.mul_le_mul_right _ hk
              rw [show (k + 1) * ds.prod = k * ds.prod + ds.prod by ring] at hkm
              rw [r2 _ (by omega)]
              exact i3 k p hk hp
            · rw [← Nat.add_assoc, r3 p hp, he]
              congr 1
              ring
    obtain ⟨k1, k2, k3⟩ := key d (le_refl d)
    have hread : readOut (d :: ds) (some (w, n)) amp i (i + (d :: ds).prod) v = (List.range d).foldl
          (fun v k =>
            if weight (at' n.edges k) = 0 then v
            else readOut ds (at' n.edges k) (w * amp) (i + k * ds.prod) (i + (k + 1) * ds.prod) v) v := by
      conv_lhs => unfold readOut
      rw [hsize, hnl]
    rw [hread, hprod]
    refine ⟨k1, k2, ?_⟩
    intro p hp
    obtain ⟨x, p, rfl, hx, hp⟩ := levels_cons_iff.1 hp
    rw [val_cons]
    exact k3 x p hx hp

theorem getVector_ok (ds : List Nat) (e : Edge ds) (hp : Proper .vec ds e) :
    (getVector ds e).length = ds.prod ∧ ∀ p, Levels ds p → (getVector ds e)[index ds p]? = some (val ds e p) := by
  unfold getVector
  rcases e with _ | ⟨w, n⟩
  · have : readOut ds none 1 0 ds.prod (List.replicate ds.prod 0) = (List.replicate ds.prod (0 : ℂ)).set 0 (0 * 1) := by
      cases ds <;> rfl
    rw [this]
    refine ⟨by simp, fun p hl => ?_⟩
    have hlt := index_lt hl
    rw [val_none, zero_mul, List.getElem?_set]
    split
    · rw [if_pos (by rw [List.length_replicate]; omega)]
    · rw [List.getElem?_replicate, if_pos hlt]
  · have := readOut_ok ds w n 1 0 (List.replicate ds.prod 0) hp (by simp) (by
      intro j _ hj
      rw [List.getElem?_replicate, if_pos (by omega)])
    rw [Nat.zero_add] at this
    refine ⟨by rw [this.1, List.length_replicate], fun p hl => ?_⟩
    have h3 := this.2.2 p hl
    rw [Nat.zero_add, mul_one] at h3
    exact h3

/-! ### inner product -/

theorem innerRec_left (ds : List Nat) (y : Edge ds) : innerRec ds none y = 0 := by
  unfold innerRec; rfl

theorem innerRec_right (ds : List Nat) (x : Edge ds) : innerRec ds x none = 0 := by
  rcases x with _ | ⟨a, n⟩ <;> (unfold innerRec; rfl)

theorem innerRec_scale (ds : List Nat) (a b : ℂ) (n m : Node ds) :
    innerRec ds (some (a, n)) (some (b, m)) = a * b * innerRec ds (some (1, n)) (some (1, m)) := by
  cases ds with
  | nil => change a * b = a * b * (1 * 1); ring
  | cons d ds =>
    unfold innerRec
    ring

theorem innerRec_ok : ∀ (ds : List Nat) (n m : Node ds), Proper .vec ds (some (1, n)) → Proper .vec ds (some (1, m)) →
    innerRec ds (some (1, n)) (some (1, m)) = lsum ds fun p => val ds (some (1, n)) p * star (val ds (some (1, m)) p)
  | [], n, m, _, _ => by
    change (1 : ℂ) * 1 = ([[]].map fun _ => (1 : ℂ) * star 1).sum
    simp
  | d :: ds, n, m, hx, hy => by
    obtain ⟨_, hnp⟩ := proper_ext hx
    obtain ⟨_, hmp⟩ := proper_ext hy
    rw [lsum_cons]
    unfold innerRec
    rw [mul_one, mul_one]
    congr 1
    apply List.map_congr_left
    intro i _
    have h1 := proper_at' hnp i
    have h2 := proper_at' hmp i
    rcases he : at' n.edges i with _ | ⟨a, q⟩
    · rw [innerRec_left]
      symm
      apply lsum_eq_zero
      intro p _
      rw [val_cons, he, val_none, mul_zero, zero_mul]
    · rw [he] at h1
      rcases hf : at' m.edges i with _ | ⟨b, r⟩
      · dsimp only
        rw [innerRec_right]
        symm
        apply lsum_eq_zero
        intro p _
        rw [val_cons (n := m), hf, val_none, mul_zero, star_zero, mul_zero]
      · rw [hf] at h2
        dsimp only
        rw [innerRec_scale, innerRec_ok ds q r (proper_some h1 one_ne_zero) (proper_some h2 one_ne_zero), lsum_mul]
        apply lsum_congr
        intro p _
        rw [val_cons, val_cons, he, hf, val_some a, val_some b, one_mul, one_mul, star_mul']
        ring

end Qudits.DD
