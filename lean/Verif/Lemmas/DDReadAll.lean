import Verif.Spec.DDReadSpec
import Verif.Lemmas.DDRead
/-
Lemmas on reading out matrices and counting nodes.
-/
namespace Qudits
open DD Spec Classical

/-- Squares of the registers. -/
def sq (ds : List Nat) : List Nat := ds.map fun d => d * d

theorem sq_prod_pos {ds : List Nat} (h : ∀ d ∈ ds, 0 < d) : 0 < (sq ds).prod := by
  refine List.prod_pos fun a ha => ?_
  obtain ⟨d, hd, rfl⟩ := List.mem_map.1 ha
  exact Nat.mul_pos (h d hd) (h d hd)

theorem foldl_sq : ∀ (ds : List Nat) (p : Nat), ds.foldl (fun p d => p * d * d) p = p * (sq ds).prod
  | [], p => by simp [sq]
  | d :: ds, p => by
    rw [List.foldl_cons, foldl_sq ds]
    simp only [sq, List.map_cons, List.prod_cons]
    ring

theorem writeAt_ok {v : List ℂ} {i : Nat} {x : ℂ} (h : i < v.length) : writeAt v i x = .ok (v.set i x) := if_pos h

theorem readOutM_none (ds : List Nat) (amp : ℂ) (i next : Nat) (v : List ℂ) :
    readOutM ds none amp i next v = writeAt v i (0 * amp) := by cases ds <;> rfl

theorem readOutM_ok : ∀ (ds : List Nat) (e : Edge ds) (amp : ℂ) (i : Nat) (v : List ℂ), (∀ d ∈ ds, 0 < d) → Proper .mat ds e →
    i + (sq ds).prod ≤ v.length → (∀ j, i ≤ j → j < i + (sq ds).prod → v[j]? = some 0) →
    ∃ v', readOutM ds e amp i (i + (sq ds).prod) v = .ok v' ∧ v'.length = v.length ∧
    (∀ j, j < i ∨ i + (sq ds).prod ≤ j → v'[j]? = v[j]?) ∧
    ∀ p, Levels (sq ds) p → v'[i + index (sq ds) p]? = some (val ds e p * amp)
  | ds, none, amp, i, v, hd, _, hl, h0 => by
    have hpos := sq_prod_pos hd
    rw [readOutM_none, writeAt_ok (by omega)]
    refine ⟨_, rfl, by simp, fun j hj => ?_, fun p hp => ?_⟩
    · rw [List.getElem?_set_ne (by omega)]
    · have hlt := index_lt hp
      rw [val_none, zero_mul, List.getElem?_set]
      split
      · rw [if_pos (by omega)]
      · exact h0 _ (by omega) (by omega)
  | [], some (w, n), amp, i, v, _, _, hl, h0 => by
    have hl : i + 1 ≤ v.length := hl
    refine ⟨v.set i (w * amp), writeAt_ok (by omega), by simp, fun j hj => ?_, fun p hp => ?_⟩
    · have hj : j < i ∨ i + 1 ≤ j := hj
      rw [List.getElem?_set_ne (by omega)]
    · have hp : Levels [] p := hp
      rw [levels_nil_iff] at hp
      subst hp
      change (v.set i (w * amp))[i]? = _
      rw [List.getElem?_set_self (by omega)]
      rfl
  | d :: ds, some (w, n), amp, i, v, hd, hp, hl, h0 => by
    obtain ⟨_, hnl, hnp, _⟩ := hp
    have hnl : n.edges.length = d * d := hnl
    have hd0 : 0 < d * d := Nat.mul_pos (hd d (by simp)) (hd d (by simp))
    have hds : ∀ c ∈ ds, 0 < c := fun c hc => hd c (by simp [hc])
    have hprod : (sq (d :: ds)).prod = d * d * (sq ds).prod := by simp [sq]
    have hsize : (i + (sq (d :: ds)).prod - i) / n.edges.length = (sq ds).prod := by
      rw [hnl, hprod, Nat.add_sub_cancel_left, Nat.mul_div_cancel_left _ hd0]
    rw [hprod] at hl h0
    have key : ∀ s, s ≤ d * d → ∃ v',
        (List.range s).foldlM (fun v k => readOutM ds (at' n.edges k) (w * amp) (i + k * (sq ds).prod)
          (i + (k + 1) * (sq ds).prod) v) v = .ok v' ∧
        v'.length = v.length ∧ (∀ j, j < i ∨ i + s * (sq ds).prod ≤ j → v'[j]? = v[j]?) ∧
          ∀ k p, k < s → Levels (sq ds) p →
            v'[i + (k * (sq ds).prod + index (sq ds) p)]? = some (w * val ds (at' n.edges k) p * amp) := by
      intro s
      induction s with
      | zero => intro _; exact ⟨v, rfl, rfl, fun _ _ => rfl, fun k p hk => absurd hk (by omega)⟩
      | succ s ih =>
        intro hs
        obtain ⟨u, i0, i1, i2, i3⟩ := ih (by omega)
        have hexp : (s + 1) * (sq ds).prod = s * (sq ds).prod + (sq ds).prod := by ring
        have hle : (s + 1) * (sq ds).prod ≤ d * d * (sq ds).prod := Nat.mul_le_mul_right _ hs
        obtain ⟨u', r0, r1, r2, r3⟩ := readOutM_ok ds (at' n.edges s) (w * amp) (i + s * (sq ds).prod) u hds
          (proper_at' hnp s) (by rw [i1]; omega) (by
            intro j h1 h2
            rw [i2 j (Or.inr h1)]
            exact h0 j (by omega) (by omega))
        refine ⟨u', ?_, by rw [r1, i1], fun j hj => ?_, fun k p hk hp => ?_⟩
        · have hx : readOutM ds (at' n.edges s) (w * amp) (i + s * (sq ds).prod) (i + (s + 1) * (sq ds).prod) u = .ok u' := by
            rw [hexp, ← Nat.add_assoc, r0]
          rw [List.range_succ, List.foldlM_append, i0]
          simp only [bind, Except.bind, List.foldlM_cons, List.foldlM_nil, hx]
          rfl
        · rw [r2 j (by omega)]
          exact i2 j (by omega)
        · rcases Nat.lt_succ_iff_lt_or_eq.1 hk with hk | rfl
          · have hlt := index_lt hp
            have hkm : (k + 1) * (sq ds).prod ≤ s * (sq ds).prod := Nat.mul_le_mul_right _ hk
            rw [show (k + 1) * (sq ds).prod = k * (sq ds).prod + (sq ds).prod by ring] at hkm
            rw [r2 _ (by omega)]
            exact i3 k p hk hp
          · rw [← Nat.add_assoc, r3 p hp]
            congr 1
            ring
    obtain ⟨u, k0, k1, k2, k3⟩ := key (d * d) (le_refl _)
    refine ⟨u, ?_, k1, ?_, fun p hp => ?_⟩
    · unfold readOutM
      rw [hsize, hnl]
      exact k0
    · rw [hprod]
      exact k2
    · obtain ⟨x, q, rfl, hx, hq⟩ := levels_cons_iff.1 (show Levels (d * d :: sq ds) p from hp)
      exact k3 x q hx hq

theorem flat_append : ∀ (ds xs ys : List Nat) (d x y : Nat), xs.length = ds.length → ys.length = ds.length →
    flat (ds ++ [d]) (xs ++ [x]) (ys ++ [y]) = flat ds xs ys ++ [d * x + y]
  | [], [], [], d, x, y, _, _ => rfl
  | c :: ds, a :: xs, b :: ys, d, x, y, hx, hy => by
    simp only [List.cons_append, flat]
    rw [flat_append ds xs ys d x y (by simpa using hx) (by simpa using hy)]

theorem flat_regs : ∀ {n : Nat} {d : Fin n → Nat} (x y : Reg d),
    flat (regs d) (top x) (top y) = (List.ofFn fun i => d i * (x i : Nat) + (y i : Nat)).reverse
  | 0, d, x, y => by simp [regs, top, flat]
  | n + 1, d, x, y => by
    have h := flat_regs (d := fun i => d i.succ) (fun i => x i.succ) (fun i => y i.succ)
    unfold regs top at h ⊢
    simp only [List.ofFn_succ, List.reverse_cons]
    rw [flat_append _ _ _ _ _ _ (by simp) (by simp), h]

theorem sq_regs {n : Nat} (d : Fin n → Nat) : sq (regs d) = (List.ofFn fun i => d i * d i).reverse := by
  unfold sq regs
  rw [List.map_reverse, List.map_ofFn]
  rfl

theorem levels_flat : ∀ (ds xs ys : List Nat), Levels ds xs → Levels ds ys → Levels (sq ds) (flat ds xs ys)
  | [], xs, ys, hx, hy => by
    rw [levels_nil_iff] at hx hy
    subst hx hy
    exact List.Forall₂.nil
  | d :: ds, xs, ys, hx, hy => by
    obtain ⟨x, r, rfl, hxd, hr⟩ := levels_cons_iff.1 hx
    obtain ⟨y, q, rfl, hyd, hq⟩ := levels_cons_iff.1 hy
    refine List.Forall₂.cons ?_ (levels_flat ds r q hr hq)
    calc d * x + y < d * x + d := by omega
      _ = d * (x + 1) := by ring
      _ ≤ d * d := Nat.mul_le_mul_left _ hxd

/-! ### strings -/

theorem valueByString_ok : ∀ (ds : List Nat) (k : Kind) (e : Edge ds) (amp : ℂ) (ps : List Nat) (path rest : List Int),
    Proper k ds e → Levels (ds.map (arity k)) ps → path = (ps.reverse.map fun p : Nat => 48 + (p : Int)) ++ rest →
    valueByString ds e amp path = .ok (amp * val ds e ps)
  | ds, k, none, amp, ps, path, rest, _, _, _ => by
    rw [val_none]
    cases ds <;> rfl
  | [], k, some (w, n), amp, ps, path, rest, _, _, _ => rfl
  | d :: ds, k, some (w, n), amp, ps, path, rest, hp, hl, h => by
    obtain ⟨_, hnl, hnp, _⟩ := hp
    obtain ⟨p, q, rfl, hpd, hq⟩ := levels_cons_iff.1 (show Levels (arity k d :: ds.map (arity k)) ps from hl)
    have hlen : q.length = ds.length := by rw [hq.length_eq, List.length_map]
    have hpath : path = (q.reverse.map fun p : Nat => 48 + (p : Int)) ++ ((48 + (p : Int)) :: rest) := by
      rw [h]; simp
    have hget : path[ds.length]? = some (48 + (p : Int)) := by
      rw [hpath, List.getElem?_append_right (by simp [hlen])]
      simp [hlen]
    have hsub : (48 + (p : Int) - 48).toNat = p := by omega
    unfold valueByString
    rw [hget]
    dsimp only
    rw [hsub, if_pos ⟨by omega, by omega⟩, valueByString_ok ds k _ (amp * w) q path _ (proper_at' hnp p) hq hpath, val_cons]
    rw [mul_assoc]

theorem valueByString_short (d : Nat) (ds : List Nat) (w : ℂ) (n : Node (d :: ds)) (amp : ℂ) (path : List Int)
    (h : path.length < (d :: ds).length) : valueByString (d :: ds) (some (w, n)) amp path = .error .outOfRange := by
  unfold valueByString
  rw [List.getElem?_eq_none (by simpa [Nat.lt_succ_iff] using h)]

theorem getValueByString_eq (ds : List Nat) (e : Edge ds) (path : List Int) :
    getValueByString ds e path = valueByString ds e 1 path := by
  unfold getValueByString
  split
  · rw [show valueByString _ none 1 path = .ok (1 * 0) by unfold valueByString; rfl, mul_zero]
  · show _ = Except.ok (1 * _)
    rw [one_mul]
  · rfl

/-! ### counting -/

/-- The nodes of a diagram as a finite set. -/
noncomputable def nodeSet : (ds : List Nat) → Edge ds → Finset Ptr
  | _, none => {⟨[], ()⟩}
  | [], some (_, n) => {⟨[], n⟩}
  | d :: ds, some (_, n) => insert ⟨d :: ds, n⟩ (n.edges.toFinset.biUnion (nodeSet ds))

theorem nodeSet_none (ds : List Nat) : nodeSet ds none = {⟨[], ()⟩} := by cases ds <;> rfl

/-- The nodes reached from a node. -/
def reach (a : Ptr) : Set Ptr := {b | Relation.ReflTransGen StepDown a b}

theorem reach_term (b : Ptr) (u : Unit) : b ∈ reach ⟨[], u⟩ ↔ b = ⟨[], ()⟩ := by
  constructor
  · intro h
    rcases Relation.ReflTransGen.cases_head h with h | ⟨c, hc, _⟩
    · exact h.symm
    · exact absurd hc (by unfold StepDown; exact id)
  · rintro rfl
    exact Relation.ReflTransGen.refl

theorem mem_nodeSet : ∀ (ds : List Nat) (e : Edge ds) (b : Ptr), b ∈ nodeSet ds e ↔ b ∈ reach (nextNode e)
  | ds, none, b => by
    rw [nodeSet_none, Finset.mem_singleton]
    exact (reach_term b ()).symm
  | [], some (w, n), b => by
    show b ∈ ({⟨[], n⟩} : Finset Ptr) ↔ b ∈ reach ⟨[], n⟩
    rw [Finset.mem_singleton]
    exact (reach_term b n).symm
  | d :: ds, some (w, n), b => by
    show b ∈ insert (⟨d :: ds, n⟩ : Ptr) (n.edges.toFinset.biUnion (nodeSet ds)) ↔ b ∈ reach ⟨d :: ds, n⟩
    rw [Finset.mem_insert, Finset.mem_biUnion]
    constructor
    · rintro (rfl | ⟨e, he, hb⟩)
      · exact Relation.ReflTransGen.refl
      · exact Relation.ReflTransGen.head (b := nextNode e) ⟨e, List.mem_toFinset.1 he, rfl⟩ ((mem_nodeSet ds e b).1 hb)
    · intro h
      rcases Relation.ReflTransGen.cases_head h with h | ⟨c, hc, hcb⟩
      · exact Or.inl h.symm
      · obtain ⟨e, he, rfl⟩ := hc
        exact Or.inr ⟨e, List.mem_toFinset.2 he, (mem_nodeSet ds e b).2 hcb⟩

theorem nextNode_length {ds : List Nat} (e : Edge ds) : (nextNode e).1.length ≤ ds.length := by
  rcases e with _ | ⟨w, n⟩
  · exact Nat.zero_le _
  · exact le_refl _

theorem reach_length {a b : Ptr} (h : b ∈ reach a) : b.1.length ≤ a.1.length := by
  induction h with
  | refl => exact le_refl _
  | tail _ hs ih =>
    rename_i x y _
    obtain ⟨ds, n⟩ := x
    cases ds with
    | nil => exact absurd hs (by unfold StepDown; exact id)
    | cons d ds =>
      obtain ⟨e, _, rfl⟩ := hs
      have := nextNode_length e
      have hx : (d :: ds).length ≤ a.1.length := ih
      rw [List.length_cons] at hx
      omega

/-- Nodes on the given levels are in the set with all the nodes below them. -/
def Closed (m : Nat) (v : Finset Ptr) : Prop := ∀ a ∈ v, a.1.length ≤ m → ∀ b ∈ reach a, b ∈ v

theorem closed_union {ds : List Nat} (e : Edge ds) {v : Finset Ptr} {m : Nat} (h : Closed m v) : Closed m (v ∪ nodeSet ds e) := by
  intro a ha hm b hb
  rcases Finset.mem_union.1 ha with ha | ha
  · exact Finset.mem_union_left _ (h a ha hm b hb)
  · rw [mem_nodeSet] at ha
    exact Finset.mem_union_right _ ((mem_nodeSet ds e b).2 (Relation.ReflTransGen.trans ha hb))

theorem nodeCount_ok : ∀ (ds : List Nat) (e : Edge ds) (v : Finset Ptr), Closed ds.length v → nextNode e ∉ v →
    (nodeCount ds e v).2 = v ∪ nodeSet ds e ∧ (nodeCount ds e v).1 = (nodeSet ds e \ v).card
  | ds, none, v, _, hn => by
    have h : nodeCount ds none v = (1, insert ⟨[], ()⟩ v) := by cases ds <;> rfl
    have hn : (⟨[], ()⟩ : Ptr) ∉ v := hn
    rw [h, nodeSet_none, Finset.union_comm, ← Finset.insert_eq,
      Finset.sdiff_eq_self_of_disjoint (Finset.disjoint_singleton_left.2 hn), Finset.card_singleton]
    exact ⟨rfl, rfl⟩
  | [], some (w, n), v, _, hn => by
    have hn : (⟨[], n⟩ : Ptr) ∉ v := hn
    show insert (⟨[], n⟩ : Ptr) v = v ∪ {⟨[], n⟩} ∧ 1 = (({⟨[], n⟩} : Finset Ptr) \ v).card
    rw [Finset.union_comm, ← Finset.insert_eq,
      Finset.sdiff_eq_self_of_disjoint (Finset.disjoint_singleton_left.2 hn), Finset.card_singleton]
    exact ⟨rfl, rfl⟩
  | d :: ds, some (w, n), v, hc, hn => by
    have hn : (⟨d :: ds, n⟩ : Ptr) ∉ v := hn
    have key : ∀ (es : List (Edge ds)) (s : Nat × Finset Ptr), Closed ds.length s.2 →
        let r := es.foldl
          (fun s e => if nextNode e ∈ s.2 then s else (s.1 + (nodeCount ds e s.2).1, (nodeCount ds e s.2).2)) s
        r.2 = s.2 ∪ es.toFinset.biUnion (nodeSet ds) ∧ r.1 = s.1 + (es.toFinset.biUnion (nodeSet ds) \ s.2).card := by
      intro es
      induction es with
      | nil => intro s _; simp
      | cons e es ih =>
        intro s hs
        dsimp only at ih ⊢
        rw [List.foldl_cons, List.toFinset_cons, Finset.biUnion_insert]
        by_cases he : nextNode e ∈ s.2
        · rw [if_pos he]
          obtain ⟨h1, h2⟩ := ih s hs
          have hsub : nodeSet ds e ⊆ s.2 := by
            intro b hb
            exact hs _ he (nextNode_length e) b ((mem_nodeSet ds e b).1 hb)
          rw [h1, h2, Finset.union_sdiff_distrib, Finset.sdiff_eq_empty_iff_subset.2 hsub, Finset.empty_union,
            ← Finset.union_assoc, Finset.union_eq_left.2 hsub]
          exact ⟨rfl, rfl⟩
        · rw [if_neg he]
          obtain ⟨n1, n2⟩ := nodeCount_ok ds e s.2 hs he
          obtain ⟨h1, h2⟩ := ih (s.1 + (nodeCount ds e s.2).1, (nodeCount ds e s.2).2) (by
            show Closed ds.length (nodeCount ds e s.2).2
            rw [n1]
            exact closed_union e hs)
          dsimp only at h1 h2
          rw [h1, h2, n1, n2, Finset.union_assoc]
          refine ⟨rfl, ?_⟩
          rw [Nat.add_assoc, ← Finset.card_union_of_disjoint]
          · congr 2
            ext b
            simp only [Finset.mem_union, Finset.mem_sdiff]
            tauto
          · rw [Finset.disjoint_left]
            intro b hb hb'
            rw [Finset.mem_sdiff] at hb hb'
            exact hb'.2 (Finset.mem_union_right _ hb.1)
    obtain ⟨h1, h2⟩ := key n.edges (1, insert ⟨d :: ds, n⟩ v) (by
      intro a ha hm b hb
      rcases Finset.mem_insert.1 ha with rfl | ha
      · exact absurd hm (by simp)
      · exact Finset.mem_insert_of_mem (hc a ha (by rw [List.length_cons]; omega) b hb))
    have hnot : (⟨d :: ds, n⟩ : Ptr) ∉ n.edges.toFinset.biUnion (nodeSet ds) := by
      intro h
      obtain ⟨e, _, he⟩ := Finset.mem_biUnion.1 h
      have h3 := reach_length ((mem_nodeSet ds e _).1 he)
      have h4 := nextNode_length e
      have : (d :: ds).length ≤ ds.length := le_trans h3 h4
      simp at this
    refine ⟨?_, ?_⟩
    · refine h1.trans ?_
      show insert (⟨d :: ds, n⟩ : Ptr) v ∪ _ = v ∪ insert (⟨d :: ds, n⟩ : Ptr) _
      rw [Finset.insert_union, Finset.union_insert]
    · refine h2.trans ?_
      show 1 + _ = (insert (⟨d :: ds, n⟩ : Ptr) (n.edges.toFinset.biUnion (nodeSet ds)) \ v).card
      rw [Finset.insert_sdiff_of_notMem _ hn, Finset.card_insert_of_notMem, Nat.add_comm]
      · congr 2
        ext b
        simp only [Finset.mem_sdiff, Finset.mem_insert]
        constructor
        · rintro ⟨hb, hb'⟩
          exact ⟨hb, fun h => hb' (Or.inr h)⟩
        · rintro ⟨hb, hb'⟩
          refine ⟨hb, ?_⟩
          rintro (rfl | h)
          · exact hnot hb
          · exact hb' h
      · intro h
        exact hnot (Finset.mem_sdiff.1 h).1

end Qudits
