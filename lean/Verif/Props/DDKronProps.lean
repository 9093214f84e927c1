import Verif.Lemmas.DDKron
/-
C97: Kronecker products of matrix diagrams (`kronecker`, `extend`).
-/
namespace Qudits
open Spec DD Classical

variable {H : KHash} {t t' : KTable}

/-- C97, partial: for operands on registers of one size, a Kronecker product that is returned is a proper diagram, and it stands
for the Kronecker product of the two matrices if no path of the first operand comes to a multiple of the identity other than
the identity itself.  Missing: other multiples (`C97_weight_violated`) and registers of different sizes (`C97_sizes_violated`). -/
theorem C97_kronecker_partial {ds1 ds2 : List Nat} (ht : KReachable H t) (hs : SameSizes ds1) (x : Edge ds1) (y : Edge ds2)
    (hx : Proper .mat ds1 x) (hy : Proper .mat ds2 y) (hplain : PlainIdentities ds1 x) (r : Edge (ds1 ++ ds2))
    (hr : kronecker H ds1 x ds2 y t = .ok (r, t')) : Proper .mat (ds1 ++ ds2) r ∧ IsKron x y r := by
  obtain ⟨h1, h2⟩ := ((kronecker_ok H ds1 x ds2 y t (kreachable_sound ht)).1 r t' hr).2.2 hs hx hy
  refine ⟨h1, ?_⟩
  intro xs ys us vs hxs hys hus hvs
  rw [h2 xs ys us vs hxs hys hus hvs, (kept_iff hx).2 hplain xs ys hxs hys]

/-- C97: exactly then: for a second operand other than zero the product is right if and only if no path of the first operand
comes to a multiple of the identity other than the identity. -/
theorem C97_kronecker_iff {ds1 ds2 : List Nat} (ht : KReachable H t) (hs : SameSizes ds1) (x : Edge ds1) (y : Edge ds2)
    (hx : Proper .mat ds1 x) (hy : Proper .mat ds2 y) (hne : y ≠ none) (r : Edge (ds1 ++ ds2))
    (hr : kronecker H ds1 x ds2 y t = .ok (r, t')) : IsKron x y r ↔ PlainIdentities ds1 x := by
  constructor
  · intro hk
    obtain ⟨h1, h2⟩ := ((kronecker_ok H ds1 x ds2 y t (kreachable_sound ht)).1 r t' hr).2.2 hs hx hy
    by_contra hn
    rw [← kept_iff hx] at hn
    apply hne
    apply eq_none_of_entry hy
    intro us vs hus hvs
    by_contra he
    apply hn
    intro xs ys hxs hys
    have e1 := h2 xs ys us vs hxs hys hus hvs
    rw [hk xs ys us vs hxs hys hus hvs] at e1
    exact (mul_right_cancel₀ he e1).symm
  · intro hp
    exact (C97_kronecker_partial ht hs x y hx hy hp r hr).2

/-- C97: for a diagonal first operand (on registers of one size) the product is always returned. -/
theorem C97_diagonal_returns {ds1 ds2 : List Nat} (ht : KReachable H t) (hs : SameSizes ds1) (x : Edge ds1) (y : Edge ds2)
    (hx : Proper .mat ds1 x) (hy : Proper .mat ds2 y)
    (hdiag : ∀ xs ys, Levels ds1 xs → Levels ds1 ys → xs ≠ ys → entry ds1 x xs ys = 0) :
    ∃ r t', kronecker H ds1 x ds2 y t = .ok (r, t') := by
  refine (kronecker_ok H ds1 x ds2 y t (kreachable_sound ht)).2 ⟨hs, hx, hy, ds1.length, le_refl _, ?_⟩
  intro xs ys hxs hys hn
  apply hdiag xs ys hxs hys
  rintro rfl
  exact hn (Agree.refl _ _)

/-- C97: `extend` with identities on top only: it always returns (registers of one size on top), and the matrix is the given
one on the old registers and the identity on the new ones. -/
theorem C97_extend_top (ht : KReachable H t) (hs ds : List Nat) (hsame : SameSizes hs) (e : Edge ds) (he : Proper .mat ds e) :
    ∃ r t', extendAbove H ds e hs t = .ok (r, t') ∧ Proper .mat (hs ++ ds) r ∧
      ∀ xs ys us vs, Levels hs xs → Levels hs ys → Levels ds us → Levels ds vs →
        entry (hs ++ ds) r (xs ++ us) (ys ++ vs) = (if xs = ys then 1 else 0) * entry ds e us vs := by
  cases hs with
  | nil =>
    refine ⟨e, t, rfl, he, ?_⟩
    intro xs ys us vs hxs hys _ _
    rw [levels_nil_iff] at hxs hys
    subst hxs hys
    rw [if_pos rfl, one_mul]
    rfl
  | cons h hs =>
    obtain ⟨i, hi, hip, hiv⟩ := makeIdent_ok (h :: hs)
    obtain ⟨r, t', hr⟩ := (kronecker_ok H (h :: hs) i ds e t (kreachable_sound ht)).2
      ⟨hsame, hip, he, _, le_refl _, makeIdent_shape hi⟩
    obtain ⟨h1, h2⟩ := C97_kronecker_partial ht hsame i e hip he (makeIdent_plain hi) r hr
    refine ⟨r, t', ?_, h1, ?_⟩
    · have hl : klift (makeIdent (h :: hs)) = (pure i : KM (Edge (h :: hs))) := by rw [hi]; rfl
      change (klift (makeIdent (h :: hs)) >>= fun i => kronecker H (h :: hs) i ds e) t = _
      rw [hl, pure_bind]
      exact hr
    · intro xs ys us vs hxs hys hus hvs
      rw [h2 xs ys us vs hxs hys hus hvs, hiv xs ys hxs hys]

/-- the matrix of a diagram does not depend on how its list of registers is written -/
private theorem entry_cast {ds ds' : List Nat} (h : ds = ds') (e : Edge ds) (us vs : List Nat) :
    entry ds' (h ▸ e) us vs = entry ds e us vs := by
  subst h
  rfl

private theorem proper_cast {ds ds' : List Nat} (h : ds = ds') {e : Edge ds} (he : Proper .mat ds e) :
    Proper .mat ds' (h ▸ e : Edge ds') := by
  subst h
  exact he

/-- C97, partial: `extend` with identities above and below: if it returns, the matrix is the given one on the old registers and
the identity on the new ones, under the same condition on the given diagram. -/
theorem C97_extend_partial (ht : KReachable H t) (hs ls ds : List Nat) (hsame : SameSizes hs) (hdsame : SameSizes ds) (e : Edge ds)
    (he : Proper .mat ds e) (hplain : PlainIdentities ds e) (r : Edge (hs ++ (ds ++ ls)))
    (hr : extend H hs ls ds e t = .ok (r, t')) :
    ∀ xs ys us vs as bs, Levels hs xs → Levels hs ys → Levels ds us → Levels ds vs → Levels ls as → Levels ls bs →
      entry (hs ++ (ds ++ ls)) r (xs ++ (us ++ as)) (ys ++ (vs ++ bs)) =
        (if xs = ys then 1 else 0) * entry ds e us vs * (if as = bs then 1 else 0) := by
  have hbelow : ∃ f s, extendBelow H ds e ls t = .ok (f, s) ∧ KReachable H s ∧ Proper .mat (ds ++ ls) f ∧
      ∀ us vs as bs, Levels ds us → Levels ds vs → Levels ls as → Levels ls bs →
        entry (ds ++ ls) f (us ++ as) (vs ++ bs) = entry ds e us vs * (if as = bs then 1 else 0) := by
    cases ls with
    | nil =>
      refine ⟨_, t, rfl, ht, proper_cast _ he, ?_⟩
      intro us vs as bs _ _ has hbs
      rw [levels_nil_iff] at has hbs
      subst has hbs
      rw [entry_cast, List.append_nil, List.append_nil, if_pos rfl, mul_one]
    | cons l ls =>
      obtain ⟨i, hi, hip, hiv⟩ := makeIdent_ok (l :: ls)
      have hl : klift (makeIdent (l :: ls)) = (pure i : KM (Edge (l :: ls))) := by rw [hi]; rfl
      have hb : extendBelow H ds e (l :: ls) = kronecker H ds e (l :: ls) i := by
        change (klift (makeIdent (l :: ls)) >>= fun i => kronecker H ds e (l :: ls) i) = _
        rw [hl, pure_bind]
      rcases hk : kronecker H ds e (l :: ls) i t with er | ⟨f, s⟩
      · exfalso
        unfold extend at hr
        rw [hb] at hr
        change (kronecker H ds e (l :: ls) i t >>= fun p => extendAbove H _ p.1 hs p.2) = _ at hr
        rw [hk] at hr
        cases hr
      · obtain ⟨h1, h2⟩ := C97_kronecker_partial ht hdsame e i he hip hplain f hk
        refine ⟨f, s, by rw [hb]; exact hk, KReachable.kron _ _ _ _ _ _ _ ht hk, h1, ?_⟩
        intro us vs as bs hus hvs has hbs
        rw [h2 us vs as bs hus hvs has hbs, hiv as bs has hbs]
  obtain ⟨f, s, hf, hs', hfp, hfe⟩ := hbelow
  obtain ⟨r', s', hr', _, hre⟩ := C97_extend_top (H := H) hs' hs (ds ++ ls) hsame f hfp
  have : extend H hs ls ds e t = .ok (r', s') := by
    unfold extend
    change (extendBelow H ds e ls t >>= fun p => extendAbove H _ p.1 hs p.2) = _
    rw [hf]
    exact hr'
  rw [this] at hr
  injection hr with hr
  injection hr with h1 h2
  subst h1
  intro xs ys us vs as bs hxs hys hus hvs has hbs
  rw [hre xs ys (us ++ as) (vs ++ bs) hxs hys (List.rel_append hus has) (List.rel_append hvs hbs), hfe us vs as bs hus hvs has hbs,
    mul_assoc]

/-! ### where the claim fails -/

private noncomputable def kone : Edge [] := some (1, ())
private noncomputable def id2 : Edge [2] := some (1, mkNode [kone, none, none, kone] true true)
private noncomputable def neg2 : Edge [2] := some (-1, mkNode [kone, none, none, kone] true true)
/-- `Z` on the upper of two qubits, the identity on the lower one -/
private noncomputable def zi : Edge [2, 2] := some (1, mkNode [id2, none, none, neg2] true false)

private theorem id2_proper (w : ℂ) (hw : w ≠ 0) : Proper .mat [2] (some (w, mkNode [kone, none, none, kone] true true)) := by
  refine ⟨hw, rfl, ?_, ⟨kone, by simp [mkNode, Node.edges], by simp [kone]⟩, ?_⟩
  · intro e he
    have : e = kone ∨ e = none := by
      simp only [mkNode, Node.edges, List.mem_cons, List.not_mem_nil, or_false] at he
      tauto
    rcases this with rfl | rfl
    · exact one_ne_zero
    · trivial
  · intro _
    have hp : pairs 2 2 = [(0, 0), (0, 1), (1, 0), (1, 1)] := rfl
    simp [checkSpecial, hp, symLoop, mkNode, Node.edges, Node.sym, Node.ident, at', symOf, identOf, transpose, weight, kone,
      List.range_succ]

private theorem zi_proper : Proper .mat [2, 2] zi := by
  refine ⟨one_ne_zero, rfl, ?_, ⟨id2, by simp [mkNode, Node.edges], by simp [id2]⟩, ?_⟩
  · intro e he
    have : e = id2 ∨ e = none ∨ e = neg2 := by simpa [mkNode, Node.edges, or_assoc] using he
    rcases this with rfl | rfl | rfl
    · exact id2_proper 1 one_ne_zero
    · trivial
    · exact id2_proper (-1) (by norm_num)
  · intro _
    have hp : pairs 2 2 = [(0, 0), (0, 1), (1, 0), (1, 1)] := rfl
    have hne : (-1 : ℂ) ≠ 1 := by norm_num
    simp [checkSpecial, hp, symLoop, mkNode, Node.edges, Node.sym, Node.ident, at', symOf, identOf, transpose, weight, id2, neg2,
      List.range_succ, hne]

private theorem zi_entry : ∀ xs ys, Levels [2, 2] xs → Levels [2, 2] ys →
    entry [2, 2] zi xs ys = if xs = ys then (if xs.head? = some 1 then -1 else 1) else 0 := by
  intro xs ys hx hy
  obtain ⟨x, xs, rfl, hx1, hx2⟩ := levels_cons_iff.1 hx
  obtain ⟨x', xs, rfl, hx3, hx4⟩ := levels_cons_iff.1 hx2
  obtain ⟨y, ys, rfl, hy1, hy2⟩ := levels_cons_iff.1 hy
  obtain ⟨y', ys, rfl, hy3, hy4⟩ := levels_cons_iff.1 hy2
  rw [levels_nil_iff] at hx4 hy4
  subst hx4 hy4
  have two : ∀ k : Nat, k < 2 → k = 0 ∨ k = 1 := by omega
  rcases two x hx1 with rfl | rfl <;> rcases two x' hx3 with rfl | rfl <;> rcases two y hy1 with rfl | rfl <;>
    rcases two y' hy3 with rfl | rfl <;> simp [entry, flat, val, zi, id2, neg2, kone, mkNode, Node.edges, at']

/-- C97 does not hold: the weight in front of an identity is dropped.  The Kronecker product of `Z ⊗ 1` (two qubits, a proper
diagram) with the identity of a qubit is returned in every state of the table, and its entry at `(1,0,0)` is 1 instead of -1. -/
theorem C97_weight_violated (ht : KReachable H t) :
    ∃ (x : Edge [2, 2]) (y : Edge [2]), Proper .mat [2, 2] x ∧ Proper .mat [2] y ∧
      (∀ xs ys, Levels [2, 2] xs → Levels [2, 2] ys →
        entry [2, 2] x xs ys = if xs = ys then (if xs.head? = some 1 then -1 else 1) else 0) ∧
      (∀ us vs, Levels [2] us → Levels [2] vs → entry [2] y us vs = if us = vs then 1 else 0) ∧
      ∃ r t', kronecker H [2, 2] x [2] y t = .ok (r, t') ∧ ¬ IsKron x y r := by
  have hy : Proper .mat [2] id2 := id2_proper 1 one_ne_zero
  obtain ⟨r, t', hr⟩ := C97_diagonal_returns (H := H) ht (ds1 := [2, 2]) (by simp [SameSizes]) zi id2 zi_proper hy (by
    intro xs ys hxs hys hne
    rw [zi_entry xs ys hxs hys, if_neg hne])
  refine ⟨zi, id2, zi_proper, hy, zi_entry, ?_, r, t', hr, ?_⟩
  · intro us vs hus hvs
    exact ident_entry hy rfl us vs hus hvs
  · rw [C97_kronecker_iff ht (by simp [SameSizes]) zi id2 zi_proper hy (by simp [id2]) r hr]
    intro h
    have h1 : PlainIdentities [2] neg2 := by
      have : ∀ e ∈ [id2, none, none, neg2], PlainIdentities [2] e := h
      exact this neg2 (by simp)
    have h2 : (-1 : ℂ) = 1 := h1
    norm_num at h2

private noncomputable def id32 : Edge [3, 2] :=
  some (1, mkNode [id2, none, none, none, id2, none, none, none, id2] true true)

private theorem id32_proper : Proper .mat [3, 2] id32 := by
  refine ⟨one_ne_zero, rfl, ?_, ⟨id2, by simp [mkNode, Node.edges], by simp [id2]⟩, ?_⟩
  · intro e he
    have : e = id2 ∨ e = none := by
      simp only [mkNode, Node.edges, List.mem_cons, List.not_mem_nil, or_false] at he
      tauto
    rcases this with rfl | rfl
    · exact id2_proper 1 one_ne_zero
    · trivial
  · intro _
    have hp : pairs 3 3 = [(0, 0), (0, 1), (0, 2), (1, 0), (1, 1), (1, 2), (2, 0), (2, 1), (2, 2)] := rfl
    simp [checkSpecial, hp, symLoop, mkNode, Node.edges, Node.sym, Node.ident, at', symOf, identOf, transpose, weight, id2,
      List.range_succ]

/-- C97 does not hold for registers of different sizes: in a new package with registers of sizes 2, 3, 2, 3 the Kronecker product
of the identity of the lower two registers with itself is not the identity (the nodes of the lower register get the edges of the
upper one and the other way round). -/
theorem C97_sizes_violated : ∃ x : Edge [3, 2], Proper .mat [3, 2] x ∧
    (∀ xs ys, Levels [3, 2] xs → Levels [3, 2] ys → entry [3, 2] x xs ys = if xs = ys then 1 else 0) ∧
    ∀ r t', kronecker H [3, 2] x [3, 2] x (fun _ => none) = .ok (r, t') → ¬ IsKron x x r := by
  refine ⟨id32, id32_proper, fun xs ys hx hy => ident_entry id32_proper rfl xs ys hx hy, ?_⟩
  intro r t' hr hk
  have h20 : Levels [3, 2] [2, 0] := List.Forall₂.cons (by norm_num) (List.Forall₂.cons (by norm_num) List.Forall₂.nil)
  have he := hk [2, 0] [2, 0] [2, 0] [2, 0] h20 h20 h20 h20
  have hone : entry [3, 2] id32 [2, 0] [2, 0] = 1 := (ident_entry id32_proper rfl _ _ h20 h20).trans (if_pos rfl)
  rw [hone, mul_one] at he
  obtain ⟨e, h1, h2⟩ := kronecker_ident_new H (n := mkNode [id2, none, none, none, id2, none, none, none, id2] true true) rfl hr
  have h1 : identUp 9 3 [3, 2] id32 = .ok e := h1
  have hz : ∀ w n, e = some (w, n) → at' n.edges 8 = none := by
    rintro w' n' rfl
    unfold identUp at h1
    rcases hi : identUp 9 3 [2] id32 with er | f
    · rw [hi] at h1; cases h1
    · rw [hi] at h1
      rcases f with _ | ⟨w, n⟩
      · cases h1
      · dsimp only at h1
        rcases hd : diagEdges n.edges.length 2 (some (w, n) : Edge ([2] ++ [3, 2])) with er | es
        · rw [hd] at h1; cases h1
        · rw [hd] at h1
          refine makeM_none (k := 8) ?_ h1
          rw [diagFold_other 2 _ 8 _ _ _ hd ?_, at'_replicate]
          intro i hi
          have := List.mem_range.1 hi
          omega
  have : entry ([3, 2] ++ [3, 2]) r ([2, 0] ++ [2, 0]) ([2, 0] ++ [2, 0]) = 0 := by
    rw [h2]
    rcases e with _ | ⟨w, n⟩
    · exact entry_none _ _
    · rw [setW_some, if_neg one_ne_zero]
      change 1 * val ([2] ++ [3, 2]) (at' n.edges 8) (flat ([2] ++ [3, 2]) [0, 2, 0] [0, 2, 0]) = 0
      rw [hz w n rfl, val_none, mul_zero]
  rw [this] at he
  exact zero_ne_one he

/-- a product whose first operand is no multiple of the identity -/
example : PlainIdentities [2] (some (1, mkNode [kone, none, none, some (-1, ())] true false)) := by
  intro e he
  rcases e with _ | _ <;> trivial

example : KReachable H fun _ => none := .new

end Qudits
