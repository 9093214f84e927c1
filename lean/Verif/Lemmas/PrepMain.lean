import Verif.Lemmas.PrepState
namespace Qudits
open Spec MicroDD StatePrep LocalQR Matrix

theorem info_node (I : MInfo) (cs : List MicroDD) : (node I cs).info = I := rfl
theorem children_node (I : MInfo) (cs : List MicroDD) : (node I cs).children = cs := rfl

theorem aggregate_live {k : Nat} {t : MicroDD} (ht : t.info.terminal = false) (hi : t.info.index = [])
    (hc : ∀ c ∈ t.children, ∃ c', aggregate k c = .ok c') (hw : ∃ (i : Nat) (c : MicroDD), t.children[i]? = some c ∧ c.weight ≠ 0) :
    ∃ (cs' : List MicroDD) (r : Bool),
      aggregate (k + 1) t = .ok (node { t.info with
        index := (List.range t.children.length).map (firstWith (t.children.map fun c => c.info.hash)), reduced := some r } cs') ∧
      cs'.map weight = t.children.map weight ∧
      (∀ i c, t.children[i]? = some c → firstWith (t.children.map fun c => c.info.hash) i = i →
        ∃ c', cs'[i]? = some c' ∧ aggregate k c = .ok c') ∧
      (r = true ↔
        (∃ (i j : Nat) (a b : MicroDD), i ≠ j ∧ t.children[i]? = some a ∧ t.children[j]? = some b ∧ a.weight ≠ 0 ∧ b.weight ≠ 0) ∧
        ∀ (i j : Nat) (a b : MicroDD), t.children[i]? = some a → t.children[j]? = some b → a.weight ≠ 0 → b.weight ≠ 0 →
          firstWith (t.children.map fun c => c.info.hash) i = firstWith (t.children.map fun c => c.info.hash) j) := by
  cases t with
  | node I cs =>
    have ht : I.terminal = false := ht
    have hi : I.index = [] := hi
    have hc : ∀ c ∈ cs, ∃ c', aggregate k c = .ok c' := hc
    have hw : ∃ (i : Nat) (c : MicroDD), cs[i]? = some c ∧ c.weight ≠ 0 := hw
    simp only [children_node, info_node]
    obtain ⟨cs', e1, e2, e3, e4⟩ := aggregates_ok k (cs.map fun c => c.info.hash) cs 0 hc
    have back : ∀ (i : Nat) (a : MicroDD), cs[i]? = some a → ∃ a', cs'[i]? = some a' ∧ a'.weight = a.weight := by
      intro i a ha
      obtain ⟨a', h1, _⟩ := e4 i a ha
      refine ⟨a', h1, ?_⟩
      have := congrArg (fun z => z[i]?) e3
      simp only [List.getElem?_map, ha, h1, Option.map_some, Option.some.injEq] at this
      exact this
    have forth : ∀ (i : Nat) (a' : MicroDD), cs'[i]? = some a' → ∃ a, cs[i]? = some a ∧ a.weight = a'.weight := by
      intro i a' ha
      have := congrArg (fun z => z[i]?) e3
      simp only [List.getElem?_map, ha, Option.map_some] at this
      cases h : cs[i]? with
      | none => rw [h] at this; cases this
      | some a => rw [h] at this; simp only [Option.map_some, Option.some.injEq] at this; exact ⟨a, rfl, this.symm⟩
    obtain ⟨r, hr, hr2⟩ := reducedMark_spec ((List.range cs.length).map (firstWith (cs.map fun c => c.info.hash))) cs' (by
      obtain ⟨i, c, h1, h2⟩ := hw
      obtain ⟨a', h3, h4⟩ := back i c h1
      exact ⟨i, a', h3, by rw [h4]; exact h2⟩)
    refine ⟨cs', r, ?_, e3, ?_, ?_⟩
    · rw [aggregate]
      simp only [bind, Except.bind, e1, hi, List.nil_append]
      rw [if_neg (by rw [ht]; decide), hr]
      rfl
    · intro i c h1 h2
      obtain ⟨c', h3, h4⟩ := e4 i c h1
      exact ⟨c', h3, h4 (by simpa using h2)⟩
    · constructor
      swap
      · rintro ⟨⟨i, j, a, b, h1, h2, h3, h4, h5⟩, h6⟩
        refine hr2.2 ⟨?_, ?_⟩
        · obtain ⟨a', p1, p2⟩ := back i a h2
          obtain ⟨b', q1, q2⟩ := back j b h3
          exact ⟨i, j, a', b', h1, p1, q1, by rw [p2]; exact h4, by rw [q2]; exact h5⟩
        · intro i j a b p1 q1 p2 q2
          obtain ⟨a', p3, p4⟩ := forth i a p1
          obtain ⟨b', q3, q4⟩ := forth j b q1
          have := h6 i j a' b' p3 q3 (by rw [p4]; exact p2) (by rw [q4]; exact q2)
          have li := (List.getElem?_eq_some_iff.1 p3).1
          have lj := (List.getElem?_eq_some_iff.1 q3).1
          simpa [List.getD_eq_getElem?_getD, li, lj] using this
      intro hrt
      obtain ⟨⟨i, j, a, b, h1, h2, h3, h4, h5⟩, h6⟩ := hr2.1 hrt
      refine ⟨?_, ?_⟩
      · obtain ⟨a', p1, p2⟩ := forth i a h2
        obtain ⟨b', q1, q2⟩ := forth j b h3
        exact ⟨i, j, a', b', h1, p1, q1, by rw [p2]; exact h4, by rw [q2]; exact h5⟩
      · intro i j a b p1 q1 p2 q2
        obtain ⟨a', p3, p4⟩ := back i a p1
        obtain ⟨b', q3, q4⟩ := back j b q1
        have := h6 i j a' b' p3 q3 (by rw [p4]; exact p2) (by rw [q4]; exact q2)
        have li := (List.getElem?_eq_some_iff.1 p1).1
        have lj := (List.getElem?_eq_some_iff.1 q1).1
        simpa [List.getD_eq_getElem?_getD, li, lj] using this

/-- the operations with different controls on line `k` do not disturb each other -/
theorem acts_branches (D : List Nat) (k : Nat) (sub : Nat → List PrepOp) (hsub : ∀ i, ∀ o ∈ sub i, ((k : Int), (i : Int)) ∈ o.controls)
    (L : List Nat) (x : Nat → Nat) (hL : x k ∉ L) (ψ : (Nat → Nat) → ℂ) : acts D (L.map sub).flatten ψ x = ψ x := by
  induction L generalizing ψ with
  | nil => rfl
  | cons i L ih =>
    rw [List.map_cons, List.flatten_cons, acts_append, ih (fun h => hL (by simp [h]))]
    refine acts_unsat D ((k : Int), (i : Int)) x ?_ _ (hsub i) ψ
    intro h
    simp only [Int.toNat_natCast] at h
    exact hL (by rw [show x k = i from by exact_mod_cast h]; simp)

theorem Spec.Normal.live_weight {c : Nat} {cs : List Nat} {u : MicroDD} (h : Normal (c :: cs) u) (hw : u.weight ≠ 0) : u.info.terminal = false := by
  rcases h with ⟨_, h2⟩ | ⟨h1, _⟩
  · exact absurd h2 hw
  · exact h1

theorem Spec.SharableTree.child {c : Nat} {cs : List Nat} {t u : MicroDD} (h : SharableTree (c :: cs) t) (ht : t.info.terminal = false)
    (hu : u ∈ t.children) : SharableTree cs u := by
  cases cs with
  | nil => exact trivial
  | cons c' cs => exact (h ht).2 u hu

theorem prod_pos_of (l : List Nat) (h : ∀ d ∈ l, 2 ≤ d) : 1 ≤ l.prod := by
  induction l with
  | nil => simp
  | cons a l ih =>
    rw [List.prod_cons]
    have := ih fun d hd => h d (by simp [hd])
    have := h a (by simp)
    nlinarith

/-- the children of the node that have a weight are equal for the hash, and there are two of them -/
def SameHash (H : List (Int × ℂ) → Int) (t : MicroDD) : Prop :=
  (∃ (i j : Nat) (a b : MicroDD), i ≠ j ∧ t.children[i]? = some a ∧ t.children[j]? = some b ∧ a.weight ≠ 0 ∧ b.weight ≠ 0) ∧
  ∀ a b : MicroDD, a ∈ t.children → b ∈ t.children → a.weight ≠ 0 → b.weight ≠ 0 → (hashing H a).info.hash = (hashing H b).info.hash

theorem firstWith_eq_iff {hs : List Int} {i j : Nat} (hi : i < hs.length) (hj : j < hs.length) :
    firstWith hs i = firstWith hs j ↔ hs.getD i 0 = hs.getD j 0 := by
  constructor
  · intro h
    have e1 := (firstWith_le (hs := hs) (i := i) hi).2.1
    have e2 := (firstWith_le (hs := hs) (i := j) hj).2.1
    rw [h, e2] at e1
    exact e1.symm
  · intro h
    unfold firstWith
    rw [h]

open Classical in
/-- The sub-state that is prepared below a node: as `ampRel`, except that below a node whose live children are shared while its child for
level 0 has no weight all further lines stay at level 0. -/
noncomputable def made (H : List (Int × ℂ) → Int) : List Nat → MicroDD → List Nat → ℂ
  | [], _, _ => 1
  | _ :: _, _, [] => 0
  | _ :: cs, t, l :: p =>
    if t.info.terminal then 0
    else match t.children[l]? with
      | some u => u.weight * (if cs ≠ [] ∧ SameHash H t ∧ (∀ a : MicroDD, t.children[0]? = some a → a.weight = 0) then
          (if ∀ y ∈ p, y = 0 then 1 else 0) else made H cs u p)
      | none => 0

open Classical in
/-- nodes with the same hash are prepared alike -/
theorem made_hash {H : List (Int × ℂ) → Int} {P : List (Int × ℂ) → Prop} (hH : ∀ x y, P x → P y → H x = H y → x = y) :
    ∀ (dims : List Nat) (a b : MicroDD), (∀ d ∈ dims, 2 ≤ d) → Normal dims a → Normal dims b →
    (∀ x, Hashed H a x → P x) → (∀ x, Hashed H b x → P x) →
    (hashing H a).info.hash = (hashing H b).info.hash → ∀ p, made H dims a p = made H dims b p
  | [], _, _, _, _, _, _, _, _, _ => rfl
  | _ :: _, _, _, _, _, _, _, _, _, [] => rfl
  | c :: cs, a, b, hd, ha, hb, pa, pb, h, l :: p => by
    have htt := (hash_inj hH (c :: cs) a b hd ha hb pa pb h).1 (by simp)
    cases ta : a.info.terminal with
    | true => rw [made, made, if_pos ta, if_pos (by rw [← htt]; exact ta)]
    | false =>
      have tb : b.info.terminal = false := by rw [← htt]; exact ta
      rcases ha with ⟨ha1, _⟩ | ⟨_, _, ha3, _, ha5⟩
      · rw [ta] at ha1; cases ha1
      rcases hb with ⟨hb1, _⟩ | ⟨_, _, hb3, _, hb5⟩
      · rw [tb] at hb1; cases hb1
      rw [hashing_hash H ta, hashing_hash H tb] at h
      have h := hH _ _ (pa _ (.inner ta)) (pb _ (.inner tb)) h
      have pair : ∀ i : Nat, (∀ u, a.children[i]? = some u → ∃ v, b.children[i]? = some v ∧ (hashing H v).info.hash = (hashing H u).info.hash ∧ v.weight = u.weight) ∧
          (∀ v, b.children[i]? = some v → ∃ u, a.children[i]? = some u ∧ (hashing H v).info.hash = (hashing H u).info.hash ∧ v.weight = u.weight) := by
        intro i
        have hl := congrArg (fun z => z[i]?) h
        simp only [List.getElem?_map] at hl
        constructor
        · intro u hu
          rw [hu] at hl
          cases eb : b.children[i]? with
          | none => rw [eb] at hl; cases hl
          | some v =>
            rw [eb] at hl
            simp only [Option.map_some, Option.some.injEq, Prod.mk.injEq] at hl
            exact ⟨v, rfl, hl.1.symm, hl.2.symm⟩
        · intro v hv
          rw [hv] at hl
          cases ea : a.children[i]? with
          | none => rw [ea] at hl; cases hl
          | some u =>
            rw [ea] at hl
            simp only [Option.map_some, Option.some.injEq, Prod.mk.injEq] at hl
            exact ⟨u, rfl, hl.1.symm, hl.2.symm⟩
      have hsame : SameHash H a ↔ SameHash H b := by
        refine and_congr ⟨?_, ?_⟩ ⟨?_, ?_⟩
        · rintro ⟨i, j, u, v, hij, hu, hv, hwu, hwv⟩
          obtain ⟨u', e1, _, e2⟩ := (pair i).1 u hu
          obtain ⟨v', e3, _, e4⟩ := (pair j).1 v hv
          exact ⟨i, j, u', v', hij, e1, e3, by rw [e2]; exact hwu, by rw [e4]; exact hwv⟩
        · rintro ⟨i, j, u, v, hij, hu, hv, hwu, hwv⟩
          obtain ⟨u', e1, _, e2⟩ := (pair i).2 u hu
          obtain ⟨v', e3, _, e4⟩ := (pair j).2 v hv
          exact ⟨i, j, u', v', hij, e1, e3, by rw [← e2]; exact hwu, by rw [← e4]; exact hwv⟩
        · intro hall u v hu hv hwu hwv
          obtain ⟨i, hi⟩ := List.mem_iff_getElem?.1 hu
          obtain ⟨j, hj⟩ := List.mem_iff_getElem?.1 hv
          obtain ⟨u', e1, f1, e2⟩ := (pair i).2 u hi
          obtain ⟨v', e3, f2, e4⟩ := (pair j).2 v hj
          rw [f1, f2]
          exact hall u' v' (List.mem_of_getElem? e1) (List.mem_of_getElem? e3) (by rw [← e2]; exact hwu) (by rw [← e4]; exact hwv)
        · intro hall u v hu hv hwu hwv
          obtain ⟨i, hi⟩ := List.mem_iff_getElem?.1 hu
          obtain ⟨j, hj⟩ := List.mem_iff_getElem?.1 hv
          obtain ⟨u', e1, f1, e2⟩ := (pair i).1 u hi
          obtain ⟨v', e3, f2, e4⟩ := (pair j).1 v hj
          rw [← f1, ← f2]
          exact hall u' v' (List.mem_of_getElem? e1) (List.mem_of_getElem? e3) (by rw [e2]; exact hwu) (by rw [e4]; exact hwv)
      have hzero : (∀ x, a.children[0]? = some x → x.weight = 0) ↔ ∀ x, b.children[0]? = some x → x.weight = 0 := by
        constructor
        · intro h x hx
          obtain ⟨u, e1, _, e2⟩ := (pair 0).2 x hx
          rw [e2]; exact h u e1
        · intro h x hx
          obtain ⟨u, e1, _, e2⟩ := (pair 0).1 x hx
          rw [← e2]; exact h u e1
      rw [made, made]
      simp only [ta, tb, Bool.false_eq_true, if_false]
      cases ea : a.children[l]? with
      | none =>
        cases eb : b.children[l]? with
        | none => rfl
        | some v => obtain ⟨u, e, _⟩ := (pair l).2 v eb; rw [ea] at e; cases e
      | some u =>
        obtain ⟨v, eb, f1, f2⟩ := (pair l).1 u ea
        rw [eb]
        simp only [f2]
        rw [made_hash hH cs u v (fun d hd' => hd d (by simp [hd'])) (ha5 u (List.mem_of_getElem? ea)) (hb5 v (List.mem_of_getElem? eb))
          (fun x hx => pa x (.deeper ta (List.mem_of_getElem? ea) hx)) (fun x hx => pb x (.deeper tb (List.mem_of_getElem? eb) hx)) f1.symm p]
        congr 1
        exact if_congr (by rw [hsame, hzero]) rfl rfl

theorem lvl_zero_iff {D : List Nat} {x : Nat → Nat} (hx : ValidLv D x) : ∀ (k : Nat) (dims : List Nat), D.drop k = dims →
    ((∀ y ∈ lvl x k dims, y = 0) ↔ ∀ i, k ≤ i → x i = 0)
  | k, [], h => by
    refine ⟨fun _ i hi => ?_, fun _ y hy => by cases hy⟩
    have := hx i
    rw [List.getD_eq_getElem?_getD, List.getElem?_eq_none (by have := List.drop_eq_nil_iff.1 h; omega)] at this
    simp at this; omega
  | k, c :: cs, h => by
    have h' : D.drop (k + 1) = cs := by rw [← List.drop_drop, h]; rfl
    have ih := lvl_zero_iff hx (k + 1) cs h'
    rw [lvl, List.forall_mem_cons, ih]
    constructor
    · rintro ⟨h1, h2⟩ i hi
      by_cases e : i = k
      · rw [e]; exact h1
      · exact h2 i (by omega)
    · intro h
      exact ⟨h k le_rfl, fun i hi => h i (by omega)⟩

open Classical in
/-- aggregation and synthesis on a normalised tree -/
theorem prep_exact {H : List (Int × ℂ) → Int} (D : List Nat) (hD : ∀ d ∈ D, 2 ≤ d) :
    ∀ (dims : List Nat) (k : Nat) (t : MicroDD), D.drop k = dims → NoCollision H t → Normal dims t → Shape dims t →
    ∃ t', aggregate dims.length (hashing H t) = .ok t' ∧ ∀ ctl, CtlOK D k ctl → ∃ ops, synthesis dims k t' ctl = .ok ops ∧
      ops.length + 2 ≤ 2 * dims.prod ∧
      (t.info.terminal = true → ops = []) ∧ (∀ o ∈ ops, OpOK D o ∧ ∀ p ∈ ctl, p ∈ o.controls) ∧
      (t.info.terminal = false ∨ dims = [] → ∀ ψ x, ValidLv D x → Sat ctl x →
        (∀ x', ValidLv D x' → (∀ i, i < k → x' i = x i) → (∃ i, k ≤ i ∧ x' i ≠ 0) → ψ x' = 0) →
        acts D ops ψ x = ψ (zeroFrom k x) * made H dims t (lvl x k dims))
  | [], k, t, hdrop, _, hn, _ => by
    simp only [Normal] at hn
    refine ⟨hashing H t, by rw [List.length_nil, aggregate], ?_⟩
    intro ctl _
    refine ⟨[], ?_, by simp, fun _ => rfl, by simp, ?_⟩
    · rw [synthesis, if_pos (by rw [hashing_terminal]; exact hn)]
    · intro _ ψ x hx _ _
      have : zeroFrom k x = x := by
        funext i
        unfold zeroFrom
        split
        · rfl
        · have := hx i
          rw [List.getD_eq_getElem?_getD, List.getElem?_eq_none (by have := List.drop_eq_nil_iff.1 hdrop; omega)] at this
          simp at this; omega
      rw [this]
      simp [acts, made]
  | c :: cs, k, t, hdrop, hH, hn, hsh => by
    cases ht : t.info.terminal with
    | true =>
      have hagg : ∃ t', aggregate (cs.length + 1) (hashing H t) = .ok t' := by
        cases t with
        | node I ch =>
          have ht : I.terminal = true := ht
          rw [hashing, if_pos ht, aggregate]
          obtain ⟨cs', e1, _⟩ := aggregates_ok cs.length (ch.map fun c => c.info.hash) ch 0 (fun c hc =>
            aggregate_childless _ c (hsh.1 ht c hc).1 (hsh.1 ht c hc).2)
          simp only [bind, Except.bind, e1, pure, Except.pure]
          rw [if_pos ht]
          exact ⟨_, rfl⟩
      obtain ⟨t', hagg⟩ := hagg
      refine ⟨t', hagg, ?_⟩
      intro ctl _
      refine ⟨[], ?_, ?_, fun _ => rfl, by simp, ?_⟩
      rotate_left
      · have := prod_pos_of (c :: cs) (fun d hd => hD d (List.mem_of_mem_drop (i := k) (by rw [hdrop]; exact hd)))
        rw [List.length_nil]; omega
      rotate_right
      · rw [synthesis, if_pos (by rw [(aggregate_info hagg).2, hashing_terminal]; exact ht)]
      · rintro (h | h) <;> cases h
    | false =>
      obtain ⟨hk, hk1, hk0, hdrop'⟩ := drop_succ_of hdrop
      rcases hn with ⟨h, _⟩ | ⟨_, ⟨r, hr, hw⟩, hlen, hsum, hch⟩
      · rw [ht] at h; cases h
      obtain ⟨hidx, hshc⟩ := hsh.2 ht
      have hc2 : 2 ≤ c := by
        have : c ∈ D := by
          have := List.mem_of_mem_drop (l := D) (i := k) (a := c) (by rw [hdrop]; simp)
          exact this
        exact hD c this
      have hcs2 : ∀ d ∈ cs, 2 ≤ d := fun d hd => hD d (List.mem_of_mem_drop (i := k) (by rw [hdrop]; simp [hd]))
      have ih : ∀ u ∈ t.children, _ := fun u hu =>
        prep_exact D hD cs (k + 1) u hdrop' (fun x y hx hy => hH x y (.deeper ht hu hx) (.deeper ht hu hy)) (hch u hu) (hshc u hu)
      have hne : ∃ (i : Nat) (c : MicroDD), t.children[i]? = some c ∧ c.weight ≠ 0 := by
        by_contra hcon
        push Not at hcon
        have : (t.children.map fun u => ‖u.weight‖ ^ 2) = t.children.map fun _ => (0 : ℝ) := by
          refine List.map_congr_left fun u hu => ?_
          obtain ⟨i, hi⟩ := List.mem_iff_getElem?.1 hu
          rw [hcon i u hi]; simp
        rw [this] at hsum
        simp at hsum
      have hchild := hashing_children H ht
      obtain ⟨cs', red, eagg, ewt, efirst, ered⟩ := aggregate_live (k := cs.length) (t := hashing H t) (by rw [hashing_terminal]; exact ht)
        (by rw [hashing_index]; exact hidx) (by
          intro c hc
          rw [hchild] at hc
          obtain ⟨u, hu, rfl⟩ := List.mem_map.1 hc
          obtain ⟨u', h1, _⟩ := ih u hu
          exact ⟨u', h1⟩) (by
          obtain ⟨i, c, h1, h2⟩ := hne
          exact ⟨i, hashing H c, by rw [hchild, List.getElem?_map, h1]; rfl, by rw [hashing_weight]; exact h2⟩)
      rw [hchild] at eagg ewt efirst ered
      set hs := (t.children.map (hashing H)).map fun c => c.info.hash with hhs
      have hhl : hs.length = c := by rw [hhs, List.length_map, List.length_map, hlen]
      have hws : cs'.map weight = t.children.map weight := by
        rw [ewt, List.map_map]
        exact List.map_congr_left fun u _ => hashing_weight H u
      refine ⟨_, eagg, ?_⟩
      intro ctl hctl
      have hsum' : ((t.children.map weight).map fun x => ‖x‖ ^ 2).sum = 1 := by rw [List.map_map]; exact hsum
      obtain ⟨seq, hseq, hact, hlev, hseql⟩ := localSequence_ok hc2 (t.children.map weight) (by rw [List.length_map, hlen]) hsum' hr
      -- children at positions where a hash occurs first
      have hpos : ∀ i, i < c → ∃ u, t.children[i]? = some u := fun i hi => ⟨_, List.getElem?_eq_getElem (by omega)⟩
      have hhash : ∀ i u, t.children[i]? = some u → hs.getD i 0 = (hashing H u).info.hash := by
        intro i u hu
        simp [hhs, List.getD_eq_getElem?_getD, List.getElem?_map, hu]
      have hredS : red = true ↔ SameHash H t := by
        rw [ered]
        refine and_congr ⟨?_, ?_⟩ ⟨?_, ?_⟩
        · rintro ⟨i, j, a, b, hij, ha, hb, hwa, hwb⟩
          rw [List.getElem?_map, Option.map_eq_some_iff] at ha hb
          obtain ⟨a, ha, rfl⟩ := ha
          obtain ⟨b, hb, rfl⟩ := hb
          rw [hashing_weight] at hwa hwb
          exact ⟨i, j, a, b, hij, ha, hb, hwa, hwb⟩
        · rintro ⟨i, j, a, b, hij, ha, hb, hwa, hwb⟩
          exact ⟨i, j, hashing H a, hashing H b, hij, by rw [List.getElem?_map, ha]; rfl, by rw [List.getElem?_map, hb]; rfl,
            by rw [hashing_weight]; exact hwa, by rw [hashing_weight]; exact hwb⟩
        · intro h a b ha hb hwa hwb
          obtain ⟨i, hi⟩ := List.mem_iff_getElem?.1 ha
          obtain ⟨j, hj⟩ := List.mem_iff_getElem?.1 hb
          have li := (List.getElem?_eq_some_iff.1 hi).1
          have lj := (List.getElem?_eq_some_iff.1 hj).1
          have := h i j (hashing H a) (hashing H b) (by rw [List.getElem?_map, hi]; rfl) (by rw [List.getElem?_map, hj]; rfl)
            (by rw [hashing_weight]; exact hwa) (by rw [hashing_weight]; exact hwb)
          rw [firstWith_eq_iff (by omega) (by omega), hhash i a hi, hhash j b hj] at this
          exact this
        · intro h i j a b ha hb hwa hwb
          rw [List.getElem?_map, Option.map_eq_some_iff] at ha hb
          obtain ⟨a, ha, rfl⟩ := ha
          obtain ⟨b, hb, rfl⟩ := hb
          rw [hashing_weight] at hwa hwb
          have li := (List.getElem?_eq_some_iff.1 ha).1
          have lj := (List.getElem?_eq_some_iff.1 hb).1
          rw [firstWith_eq_iff (by omega) (by omega), hhash i a ha, hhash j b hb]
          exact h a b (List.mem_of_getElem? ha) (List.mem_of_getElem? hb) hwa hwb
      have hsame : ∀ i j u v, t.children[i]? = some u → t.children[j]? = some v → firstWith hs i = firstWith hs j →
          (cs ≠ [] → u.info.terminal = v.info.terminal) ∧ ∀ p, made H cs u p = made H cs v p := by
        intro i j u v hu hv hij
        have li := (List.getElem?_eq_some_iff.1 hu).1
        have lj := (List.getElem?_eq_some_iff.1 hv).1
        have e1 := (firstWith_le (hs := hs) (i := i) (by omega)).2.1
        have e2 := (firstWith_le (hs := hs) (i := j) (by omega)).2.1
        rw [hij, e2] at e1
        rw [hhash i u hu, hhash j v hv] at e1
        have hx1 : ∀ x, Hashed H u x → Hashed H t x := fun x hx => .deeper ht (List.mem_of_getElem? hu) hx
        have hx2 : ∀ x, Hashed H v x → Hashed H t x := fun x hx => .deeper ht (List.mem_of_getElem? hv) hx
        exact ⟨(hash_inj hH cs u v hcs2 (hch u (List.mem_of_getElem? hu)) (hch v (List.mem_of_getElem? hv)) hx1 hx2 e1.symm).1,
          made_hash hH cs u v hcs2 (hch u (List.mem_of_getElem? hu)) (hch v (List.mem_of_getElem? hv)) hx1 hx2 e1.symm⟩
      have hwt : ∀ i u, t.children[i]? = some u → (t.children.map weight).getD i 0 = u.weight := by
        intro i u hu
        simp [List.getD_eq_getElem?_getD, List.getElem?_map, hu]
      -- the state after the local sequence
      have hloc : ∀ ψ x, ValidLv D x → Sat ctl x →
          (∀ x', ValidLv D x' → (∀ i, i < k → x' i = x i) → (∃ i, k ≤ i ∧ x' i ≠ 0) → ψ x' = 0) →
          ∀ y, ValidLv D y → (∀ i, i < k → y i = x i) →
            ((∃ i, k < i ∧ y i ≠ 0) → acts D (seq.map fun e => (⟨ctl, k, e.1, e.2.1, e.2.2⟩ : PrepOp)) ψ y = 0) ∧
            ((∀ i, k < i → y i = 0) → acts D (seq.map fun e => (⟨ctl, k, e.1, e.2.1, e.2.2⟩ : PrepOp)) ψ y =
              (t.children.map weight).getD (y k) 0 * ψ (zeroFrom k y)) := by
        intro ψ x hx hs hψ y hy hxy
        exact local_state hdrop hctl hact ψ y hy (hctl.sat_congr hxy hs)
          (fun x' h1 h2 h3 => hψ x' h1 (fun i hi => by rw [h2 i hi, hxy i hi]) h3)
      have hzz : ∀ x : Nat → Nat, zeroFrom k (zeroFrom (k + 1) x) = zeroFrom k x := by
        intro x; funext i; unfold zeroFrom; split
        · rw [if_pos (by omega)]
        · rfl
      have hamp : ∀ x, ValidLv D x → ∃ u, t.children[x k]? = some u ∧ made H (c :: cs) t (lvl x k (c :: cs)) = u.weight * (if cs ≠ [] ∧ SameHash H t ∧ (∀ a : MicroDD, t.children[0]? = some a → a.weight = 0) then
          (if ∀ y ∈ lvl x (k + 1) cs, y = 0 then 1 else 0) else made H cs u (lvl x (k + 1) cs)) := by
        intro x hx
        obtain ⟨u, hu⟩ := hpos (x k) (by rw [← hk1]; exact hx k)
        exact ⟨u, hu, by simp only [lvl, made, ht, Bool.false_eq_true, if_false, hu]; congr⟩
      have hopsOK : ∀ o ∈ seq.map (fun e => (⟨ctl, k, e.1, e.2.1, e.2.2⟩ : PrepOp)), OpOK D o ∧ ∀ p ∈ ctl, p ∈ o.controls := by
        intro o ho
        obtain ⟨e, he, rfl⟩ := List.mem_map.1 ho
        refine ⟨⟨k, rfl, hk, ?_, hctl⟩, fun p hp => hp⟩
        rw [hk0]; exact hlev e he
      have hterm : (hashing H t).info.terminal = false := by rw [hashing_terminal]; exact ht
      have hwH : (hashing H t).info.weight = r := by
        have := hashing_weight H t
        rw [hw] at this; exact this
      have hmapl : (t.children.map (hashing H)).length = c := by rw [List.length_map, hlen]
      rw [synthesis, info_node, if_neg (by simp [hterm])]
      simp only [MicroDD.weight, children_node, info_node, hwH]
      rw [hws, hseq]
      simp only [bind, Except.bind, hmapl]
      cases hred : red with
      | true =>
        obtain ⟨h2, hidxs⟩ := ered.1 hred
        have hcpos : 0 < c := by omega
        have h0 : ((List.range c).map (firstWith hs))[0]? = some 0 := by
          rw [List.getElem?_map, List.getElem?_range hcpos, Option.map_some, firstWith_zero]
        obtain ⟨u0, hu0⟩ := hpos 0 hcpos
        obtain ⟨u0', e1, e2⟩ := efirst 0 (hashing H u0) (by rw [List.getElem?_map, hu0]; rfl) (firstWith_zero hs)
        obtain ⟨u0'', e3, e4⟩ := ih u0 (List.mem_of_getElem? hu0)
        rw [e2] at e3
        injection e3 with e3
        subst e3
        obtain ⟨sub, s1, s0, s2, s3, s4⟩ := e4 ctl hctl.weaken
        simp only [if_true, h0, childAt, e1, s1, pure, Except.pure]
        refine ⟨_, rfl, ?_, fun h => (by cases h), ?_, ?_⟩
        · rw [List.length_append, List.length_map, hseql, List.prod_cons]
          have := Nat.mul_le_mul hc2 (le_refl cs.prod)
          have := Nat.mul_le_mul (le_refl c) (show 1 ≤ cs.prod from prod_pos_of cs hcs2)
          nlinarith
        · intro o ho
          rcases List.mem_append.1 ho with h | h
          · exact hopsOK o h
          · exact s3 o h
        · intro _ ψ x hx hsat hψ
          rw [acts_append]
          set φ := acts D (seq.map fun e => (⟨ctl, k, e.1, e.2.1, e.2.2⟩ : PrepOp)) ψ with hφ
          have hl := hloc ψ x hx hsat hψ
          rw [← hφ] at hl
          have hzk : ∀ i, i < k → zeroFrom (k + 1) x i = x i := fun i hi => by unfold zeroFrom; rw [if_pos (by omega)]
          obtain ⟨u, hu, hau⟩ := hamp x hx
          rw [hau]
          by_cases hmis : cs ≠ [] ∧ SameHash H t ∧ (∀ a : MicroDD, t.children[0]? = some a → a.weight = 0)
          · -- nothing is done on the further lines
            rw [if_pos hmis]
            have hdead : u0.info.terminal = true := by
              have hw0 := hmis.2.2 u0 hu0
              match cs, hmis.1, hch with
              | c' :: cs'', _, hch =>
                rcases hch u0 (List.mem_of_getElem? hu0) with ⟨h, _⟩ | ⟨_, ⟨r', hr', hwr'⟩, _⟩
                · exact h
                · rw [hwr'] at hw0
                  exact absurd hw0 (by exact_mod_cast hr'.ne')
            rw [s2 hdead]
            change φ x = _
            have hz := lvl_zero_iff hx (k + 1) cs hdrop'
            by_cases hrest : ∃ i, k < i ∧ x i ≠ 0
            · rw [(hl x hx (fun _ _ => rfl)).1 hrest, if_neg]
              · ring
              · rw [hz]
                obtain ⟨i, hi, hxi⟩ := hrest
                exact fun h => hxi (h i hi)
            · push Not at hrest
              rw [(hl x hx (fun _ _ => rfl)).2 hrest, hwt _ u hu, if_pos (hz.2 fun i hi => hrest i hi)]
              ring
          rw [if_neg hmis]
          have hlive0 : cs ≠ [] → u0.weight ≠ 0 := by
            intro hne' h0
            refine hmis ⟨hne', hredS.1 hred, fun a ha => ?_⟩
            rw [hu0] at ha
            injection ha with ha
            rw [← ha]; exact h0
          have hcond : u0.info.terminal = false ∨ cs = [] := by
            match cs, hlive0, hch with
            | [], _, _ => exact Or.inr rfl
            | c' :: cs'', hlive0, hch =>
              exact Or.inl ((hch u0 (List.mem_of_getElem? hu0)).live_weight (hlive0 (by simp)))
          rw [s4 hcond φ x hx hsat (by
            intro x' h1 h2 ⟨i, h3, h4⟩
            exact (hl x' h1 (fun j hj => h2 j (by omega))).1 ⟨i, by omega, h4⟩)]
          rw [(hl (zeroFrom (k + 1) x) (valid_zeroFrom hx _) hzk).2 (fun i hi => by unfold zeroFrom; rw [if_neg (by omega)]), hzz]
          rw [show zeroFrom (k + 1) x k = x k from by unfold zeroFrom; rw [if_pos (by omega)], hwt _ u hu]
          by_cases hwu : u.weight = 0
          · rw [hwu]; ring
          · have : made H cs u0 (lvl x (k + 1) cs) = made H cs u (lvl x (k + 1) cs) := by
              by_cases hcs : cs = []
              · subst hcs; rfl
              · exact (hsame 0 (x k) u0 u hu0 hu (hidxs 0 (x k) (hashing H u0) (hashing H u) (by rw [List.getElem?_map, hu0]; rfl)
                  (by rw [List.getElem?_map, hu]; rfl) (by rw [hashing_weight]; exact hlive0 hcs) (by rw [hashing_weight]; exact hwu))).2 _
            rw [this]; ring
      | false =>
        have hsubs : ∀ i, ∃ ops, i < c → ∃ j v v', ((List.range c).map (firstWith hs))[i]? = some j ∧ t.children[j]? = some v ∧
            cs'[j]? = some v' ∧ firstWith hs j = firstWith hs i ∧
            synthesis cs (k + 1) v' (ctl ++ [((k : Int), (i : Int))]) = .ok ops ∧ ops.length + 2 ≤ 2 * cs.prod ∧ (v.info.terminal = true → ops = []) ∧
            (∀ o ∈ ops, OpOK D o ∧ ∀ p ∈ ctl ++ [((k : Int), (i : Int))], p ∈ o.controls) ∧
            (v.info.terminal = false ∨ cs = [] → ∀ ψ x, ValidLv D x → Sat (ctl ++ [((k : Int), (i : Int))]) x →
              (∀ x', ValidLv D x' → (∀ i, i < k + 1 → x' i = x i) → (∃ i, k + 1 ≤ i ∧ x' i ≠ 0) → ψ x' = 0) →
              acts D ops ψ x = ψ (zeroFrom (k + 1) x) * made H cs v (lvl x (k + 1) cs)) := by
          intro i
          by_cases hi : i < c
          · obtain ⟨f1, f2, f3⟩ := firstWith_le (hs := hs) (i := i) (by omega)
            obtain ⟨v, hv⟩ := hpos (firstWith hs i) (by omega)
            obtain ⟨v', e1, e2⟩ := efirst _ (hashing H v) (by rw [List.getElem?_map, hv]; rfl) f3
            obtain ⟨v'', e3, e4⟩ := ih v (List.mem_of_getElem? hv)
            rw [e2] at e3
            injection e3 with e3
            subst e3
            obtain ⟨sub, s1, s0, s2, s3, s4⟩ := e4 (ctl ++ [((k : Int), (i : Int))]) (hctl.push (by rw [hk0]; exact hi))
            refine ⟨sub, fun _ => ⟨firstWith hs i, v, v', ?_, hv, e1, f3, s1, s0, s2, s3, s4⟩⟩
            rw [List.getElem?_map, List.getElem?_range hi, Option.map_some]
          · exact ⟨[], fun h => absurd h hi⟩
        choose sub hsub using hsubs
        have hlen0 : ((List.range c).map (firstWith hs)).length ≠ 0 := by simp; omega
        simp only [Option.some.injEq, Bool.false_eq_true, if_false, hlen0]
        rw [mapM_ok _ sub (List.range c) (by
          intro i hi
          obtain ⟨j, v, v', h1, h2, h3, h4, h5, _⟩ := hsub i (List.mem_range.1 hi)
          simp only [h1, pure, Except.pure, childAt, h3, h5])]
        simp only [pure, Except.pure]
        refine ⟨_, rfl, ?_, fun h => (by cases h), ?_, ?_⟩
        · rw [List.length_append, List.length_map, hseql, List.prod_cons, List.length_flatten, List.map_map]
          have hle : ((List.range c).map (List.length ∘ sub)).sum ≤ c * (2 * cs.prod - 2) := by
            have := List.sum_le_card_nsmul ((List.range c).map (List.length ∘ sub)) (2 * cs.prod - 2) (by
              intro m hm
              obtain ⟨i, hi, rfl⟩ := List.mem_map.1 hm
              obtain ⟨j, v, v', _, _, _, _, _, h0, _⟩ := hsub i (List.mem_range.1 hi)
              simp only [Function.comp_apply]; omega)
            simpa using this
          have hp := prod_pos_of cs hcs2
          obtain ⟨P, hP⟩ : ∃ P, cs.prod = P + 1 := ⟨cs.prod - 1, by omega⟩
          rw [hP, show 2 * (P + 1) - 2 = 2 * P by omega] at hle
          rw [hP]
          nlinarith
        · intro o ho
          rcases List.mem_append.1 ho with h | h
          · exact hopsOK o h
          · obtain ⟨l, hl, hol⟩ := List.mem_flatten.1 h
            obtain ⟨i, hi, rfl⟩ := List.mem_map.1 hl
            obtain ⟨j, v, v', _, _, _, _, _, _, _, h6, _⟩ := hsub i (List.mem_range.1 hi)
            exact ⟨(h6 o hol).1, fun p hp => (h6 o hol).2 p (by simp [hp])⟩
        · intro _ ψ x hx hsat hψ
          rw [acts_append]
          set φ := acts D (seq.map fun e => (⟨ctl, k, e.1, e.2.1, e.2.2⟩ : PrepOp)) ψ with hφ
          have hl := hloc ψ x hx hsat hψ
          rw [← hφ] at hl
          have hxk : x k < c := by rw [← hk1]; exact hx k
          -- only the branch of the level of line k matters
          let sub' : Nat → List PrepOp := fun i => if i < c then sub i else []
          have hsub' : ∀ i, ∀ o ∈ sub' i, ((k : Int), (i : Int)) ∈ o.controls := by
            intro i o ho
            by_cases hi : i < c
            · simp only [sub', hi, if_true] at ho
              obtain ⟨j, v, v', _, _, _, _, _, _, _, h6, _⟩ := hsub i hi
              exact (h6 o ho).2 _ (by simp)
            · simp [sub', hi] at ho
          have hmap : (List.range c).map sub = (List.range c).map sub' :=
            List.map_congr_left fun i hi => by simp [sub', List.mem_range.1 hi]
          obtain ⟨A, B, hAB⟩ := List.append_of_mem (List.mem_range.2 hxk)
          have hnd := List.nodup_range (n := c)
          rw [hAB] at hnd
          have hA : x k ∉ A := fun h => (List.disjoint_of_nodup_append hnd) h (by simp)
          have hB : x k ∉ B := by
            have := (List.nodup_append.1 hnd).2.1
            exact (List.nodup_cons.1 this).1
          rw [hmap, hAB, List.map_append, List.map_cons, List.flatten_append, List.flatten_cons, acts_append, acts_append,
            acts_branches D k sub' hsub' B x hB]
          set φ' := acts D (A.map sub').flatten φ with hφ'
          have hφeq : ∀ y : Nat → Nat, y k = x k → φ' y = φ y := fun y hy => acts_branches D k sub' hsub' A y (by rw [hy]; exact hA) φ
          have hsx : sub' (x k) = sub (x k) := by simp [sub', hxk]
          rw [hsx]
          obtain ⟨u, hu, hau⟩ := hamp x hx
          obtain ⟨j, v, v', h1, h2, h3, h4, h5, _, h6, h7, h8⟩ := hsub (x k) hxk
          obtain ⟨hs1, hs2⟩ := hsame j (x k) v u h2 hu h4
          have hmis : ¬ (cs ≠ [] ∧ SameHash H t ∧ (∀ a : MicroDD, t.children[0]? = some a → a.weight = 0)) := by
            intro h
            rw [hredS.2 h.2.1] at hred
            cases hred
          rw [hau, if_neg hmis]
          by_cases hcond : v.info.terminal = false ∨ cs = []
          · have hsat' : Sat (ctl ++ [((k : Int), ((x k : Nat) : Int))]) x := by
              intro p hp
              rcases List.mem_append.1 hp with hp | hp
              · exact hsat p hp
              · rw [List.mem_singleton.1 hp]; simp
            rw [h8 hcond φ' x hx hsat' (by
              intro x' g1 g2 ⟨i, g3, g4⟩
              rw [hφeq x' (g2 k (by omega))]
              exact (hl x' g1 (fun j hj => g2 j (by omega))).1 ⟨i, by omega, g4⟩)]
            have hzk : ∀ i, i < k → zeroFrom (k + 1) x i = x i := fun i hi => by unfold zeroFrom; rw [if_pos (by omega)]
            have hzx : zeroFrom (k + 1) x k = x k := by unfold zeroFrom; rw [if_pos (by omega)]
            rw [hφeq _ hzx, (hl (zeroFrom (k + 1) x) (valid_zeroFrom hx _) hzk).2 (fun i hi => by unfold zeroFrom; rw [if_neg (by omega)]), hzz,
              hzx, hwt _ u hu, hs2 _]
            ring
          · push Not at hcond
            have hvt : v.info.terminal = true := by
              cases hv : v.info.terminal with
              | true => rfl
              | false => exact absurd hv hcond.1
            have hut : u.info.terminal = true := by rw [← hs1 hcond.2]; exact hvt
            have huw : u.weight = 0 := by
              match cs, hcond.2, hch with
              | c' :: cs'', _, hch =>
                by_contra hwu
                have := (hch u (List.mem_of_getElem? hu)).live_weight hwu
                rw [hut] at this; cases this
            rw [h6 hvt, huw, zero_mul, mul_zero]
            change φ' x = 0
            rw [hφeq x rfl]
            by_cases hrest : ∃ i, k < i ∧ x i ≠ 0
            · exact (hl x hx (fun _ _ => rfl)).1 hrest
            · push Not at hrest
              rw [(hl x hx (fun _ _ => rfl)).2 hrest, hwt _ u hu, huw, zero_mul]

/-- where sharing is harmless the sub-state of the tree is prepared -/
theorem made_sharable {H : List (Int × ℂ) → Int} : ∀ (dims : List Nat) (t : MicroDD), (∀ d ∈ dims, 2 ≤ d) → NoCollision H t → Normal dims t →
    SharableTree dims t → ∀ p, p.length = dims.length → made H dims t p = ampRel t p
  | [], t, _, _, hn, _, p, hp => by
    have : p = [] := List.length_eq_zero_iff.1 hp
    subst this
    rw [made, ampRel, if_pos (show t.info.terminal = true from hn)]
  | _ :: _, _, _, _, _, _, [], hp => by simp at hp
  | c :: cs, t, hd, hH, hn, hst, l :: p, hp => by
    have hcs2 : ∀ d ∈ cs, 2 ≤ d := fun d hd' => hd d (by simp [hd'])
    cases ht : t.info.terminal with
    | true => rw [made, ampRel, if_pos ht, if_pos ht]
    | false =>
      rcases hn with ⟨h, _⟩ | ⟨_, _, _, _, hch⟩
      · rw [ht] at h; cases h
      rw [made, ampRel]
      simp only [ht, Bool.false_eq_true, if_false]
      cases hu : t.children[l]? with
      | none => rfl
      | some u =>
        simp only []
        rw [if_neg, made_sharable cs u hcs2 (fun x y hx hy => hH x y (.deeper ht (List.mem_of_getElem? hu) hx) (.deeper ht (List.mem_of_getElem? hu) hy))
          (hch u (List.mem_of_getElem? hu)) (hst.child ht (List.mem_of_getElem? hu)) p (by simpa using hp)]
        rintro ⟨hne, ⟨h2, hall⟩, h0⟩
        match cs, hne, hst, hch, hcs2 with
        | c' :: cs'', _, hst, hch, hcs2 =>
          obtain ⟨a, ha, hwa⟩ := (hst ht).1 h2 (fun a b ha hb hwa hwb p hp =>
            (hash_inj hH (c' :: cs'') a b hcs2 (hch a ha) (hch b hb) (fun x hx => .deeper ht ha hx) (fun x hx => .deeper ht hb hx)
              (hall a b ha hb hwa hwb)).2 p hp.length)
          exact hwa (h0 a ha)

/-- aggregation and synthesis on a normalised tree in which sharing is harmless -/
theorem prep_main {H : List (Int × ℂ) → Int} (D : List Nat) (hD : ∀ d ∈ D, 2 ≤ d)
    (dims : List Nat) (k : Nat) (t : MicroDD) (hdrop : D.drop k = dims) (hH : NoCollision H t) (hn : Normal dims t) (hsh : Shape dims t)
    (hst : SharableTree dims t) :
    ∃ t', aggregate dims.length (hashing H t) = .ok t' ∧ ∀ ctl, CtlOK D k ctl → ∃ ops, synthesis dims k t' ctl = .ok ops ∧
      ops.length + 2 ≤ 2 * dims.prod ∧
      (t.info.terminal = true → ops = []) ∧ (∀ o ∈ ops, OpOK D o ∧ ∀ p ∈ ctl, p ∈ o.controls) ∧
      (t.info.terminal = false ∨ dims = [] → ∀ ψ x, ValidLv D x → Sat ctl x →
        (∀ x', ValidLv D x' → (∀ i, i < k → x' i = x i) → (∃ i, k ≤ i ∧ x' i ≠ 0) → ψ x' = 0) →
        acts D ops ψ x = ψ (zeroFrom k x) * ampRel t (lvl x k dims)) := by
  have hd : ∀ d ∈ dims, 2 ≤ d := fun d hd => hD d (List.mem_of_mem_drop (i := k) (by rw [hdrop]; exact hd))
  obtain ⟨t', h1, h2⟩ := prep_exact D hD dims k t hdrop hH hn hsh
  refine ⟨t', h1, fun ctl hctl => ?_⟩
  obtain ⟨ops, s1, s2, s3, s4, s5⟩ := h2 ctl hctl
  refine ⟨ops, s1, s2, s3, s4, fun h ψ x hx hs hψ => ?_⟩
  rw [s5 h ψ x hx hs hψ, made_sharable dims t hd hH hn hst _ (lvl_length _ _ _)]

end Qudits
