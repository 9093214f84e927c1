import Verif.Spec.SharedSpec
import Verif.Lemmas.InitialState
/-! # Which gates of a preparation have which controls -/
namespace Qudits
open Spec MicroDD StatePrep LocalQR Matrix

/-- one step of aggregation and synthesis -/
theorem prep_node {H : List (Int × ℂ) → Int} {D : List Nat} (hD : ∀ d ∈ D, 2 ≤ d) {c k : Nat} {cs : List Nat} {t : MicroDD}
    (hdrop : D.drop k = c :: cs) (hH : NoCollision H t) (hn : Normal (c :: cs) t) (hsh : Shape (c :: cs) t) (hst : SharableTree (c :: cs) t)
    (ht : t.info.terminal = false) :
    ∃ t', aggregate (cs.length + 1) (hashing H t) = .ok t' ∧ ∀ ctl, CtlOK D k ctl → ∃ seq : List ((Int × Int) × ℝ × ℝ), ∃ ops,
      synthesis (c :: cs) k t' ctl = .ok ops ∧
      ((SameHash H t ∧ ∃ u u' sub, u ∈ t.children ∧ aggregate cs.length (hashing H u) = .ok u' ∧ synthesis cs (k + 1) u' ctl = .ok sub ∧
          ops = (seq.map fun e => (⟨ctl, k, e.1, e.2.1, e.2.2⟩ : PrepOp)) ++ sub) ∨
       (¬ SameHash H t ∧ ∃ sub : Nat → List PrepOp, (∀ i, i < c → ∃ u u', u ∈ t.children ∧ aggregate cs.length (hashing H u) = .ok u' ∧
            synthesis cs (k + 1) u' (ctl ++ [((k : Int), (i : Int))]) = .ok (sub i)) ∧
          ops = (seq.map fun e => (⟨ctl, k, e.1, e.2.1, e.2.2⟩ : PrepOp)) ++ ((List.range c).map sub).flatten)) := by
  obtain ⟨hk, hk1, hk0, hdrop'⟩ := drop_succ_of hdrop
  rcases hn with ⟨h, _⟩ | ⟨_, ⟨r, hr, hw⟩, hlen, hsum, hch⟩
  · rw [ht] at h; cases h
  obtain ⟨hidx, hshc⟩ := hsh.2 ht
  have hc2 : 2 ≤ c := hD c (List.mem_of_mem_drop (l := D) (i := k) (a := c) (by rw [hdrop]; simp))
  have ih : ∀ u ∈ t.children, _ := fun u hu =>
    prep_main (H := H) D hD cs (k + 1) u hdrop' (fun x y hx hy => hH x y (.deeper ht hu hx) (.deeper ht hu hy)) (hch u hu) (hshc u hu) (hst.child ht hu)
  have hne : ∃ (i : Nat) (c : MicroDD), t.children[i]? = some c ∧ c.weight ≠ 0 := by
    by_contra hcon
    push Not at hcon
    have : (t.children.map fun u => ‖u.weight‖ ^ 2) = t.children.map fun _ => (0 : ℝ) := by
      refine List.map_congr_left fun u hu => ?_
      obtain ⟨i, hi⟩ := List.mem_iff_getElem?.1 hu
      rw [hcon i u hi]; simp
    rw [this] at hsum
    simp at hsum
  have hchild := hashing_children H ht
  obtain ⟨cs', red, eagg, ewt, efirst, ered⟩ := aggregate_live (k := cs.length) (t := hashing H t) (by rw [hashing_terminal]; exact ht)
    (by rw [hashing_index]; exact hidx) (by
      intro c hc
      rw [hchild] at hc
      obtain ⟨u, hu, rfl⟩ := List.mem_map.1 hc
      obtain ⟨u', h1, _⟩ := ih u hu
      exact ⟨u', h1⟩) (by
      obtain ⟨i, c, h1, h2⟩ := hne
      exact ⟨i, hashing H c, by rw [hchild, List.getElem?_map, h1]; rfl, by rw [hashing_weight]; exact h2⟩)
  rw [hchild] at eagg ewt efirst ered
  set hs := (t.children.map (hashing H)).map fun c => c.info.hash with hhs
  have hhl : hs.length = c := by rw [hhs, List.length_map, List.length_map, hlen]
  have hws : cs'.map weight = t.children.map weight := by
    rw [ewt, List.map_map]
    exact List.map_congr_left fun u _ => hashing_weight H u
  have hpos : ∀ i, i < c → ∃ u, t.children[i]? = some u := fun i hi => ⟨_, List.getElem?_eq_getElem (by omega)⟩
  have hhash : ∀ i u, t.children[i]? = some u → hs.getD i 0 = (hashing H u).info.hash := by
    intro i u hu
    simp [hhs, List.getD_eq_getElem?_getD, List.getElem?_map, hu]
  have hred : red = true ↔ SameHash H t := by
    rw [ered]
    refine and_congr ⟨?_, ?_⟩ ⟨?_, ?_⟩
    · rintro ⟨i, j, a, b, hij, ha, hb, hwa, hwb⟩
      rw [List.getElem?_map, Option.map_eq_some_iff] at ha hb
      obtain ⟨a, ha, rfl⟩ := ha
      obtain ⟨b, hb, rfl⟩ := hb
      rw [hashing_weight] at hwa hwb
      exact ⟨i, j, a, b, hij, ha, hb, hwa, hwb⟩
    · rintro ⟨i, j, a, b, hij, ha, hb, hwa, hwb⟩
      exact ⟨i, j, hashing H a, hashing H b, hij, by rw [List.getElem?_map, ha]; rfl, by rw [List.getElem?_map, hb]; rfl,
        by rw [hashing_weight]; exact hwa, by rw [hashing_weight]; exact hwb⟩
    · intro h a b ha hb hwa hwb
      obtain ⟨i, hi⟩ := List.mem_iff_getElem?.1 ha
      obtain ⟨j, hj⟩ := List.mem_iff_getElem?.1 hb
      have li := (List.getElem?_eq_some_iff.1 hi).1
      have lj := (List.getElem?_eq_some_iff.1 hj).1
      have := h i j (hashing H a) (hashing H b) (by rw [List.getElem?_map, hi]; rfl) (by rw [List.getElem?_map, hj]; rfl)
        (by rw [hashing_weight]; exact hwa) (by rw [hashing_weight]; exact hwb)
      rw [firstWith_eq_iff (by omega) (by omega), hhash i a hi, hhash j b hj] at this
      exact this
    · intro h i j a b ha hb hwa hwb
      rw [List.getElem?_map, Option.map_eq_some_iff] at ha hb
      obtain ⟨a, ha, rfl⟩ := ha
      obtain ⟨b, hb, rfl⟩ := hb
      rw [hashing_weight] at hwa hwb
      have li := (List.getElem?_eq_some_iff.1 ha).1
      have lj := (List.getElem?_eq_some_iff.1 hb).1
      rw [firstWith_eq_iff (by omega) (by omega), hhash i a ha, hhash j b hb]
      exact h a b (List.mem_of_getElem? ha) (List.mem_of_getElem? hb) hwa hwb
  refine ⟨_, eagg, ?_⟩
  intro ctl hctl
  have hsum' : ((t.children.map weight).map fun x => ‖x‖ ^ 2).sum = 1 := by rw [List.map_map]; exact hsum
  obtain ⟨seq, hseq, _⟩ := localSequence_ok hc2 (t.children.map weight) (by rw [List.length_map, hlen]) hsum' hr
  have hterm : (hashing H t).info.terminal = false := by rw [hashing_terminal]; exact ht
  have hwH : (hashing H t).info.weight = r := by
    have := hashing_weight H t
    rw [hw] at this; exact this
  have hmapl : (t.children.map (hashing H)).length = c := by rw [List.length_map, hlen]
  rw [synthesis, info_node, if_neg (by simp [hterm])]
  simp only [MicroDD.weight, children_node, info_node, hwH]
  rw [hws, hseq]
  simp only [bind, Except.bind, hmapl]
  refine ⟨seq, ?_⟩
  cases hredv : red with
  | true =>
    have hcpos : 0 < c := by omega
    have h0 : ((List.range c).map (firstWith hs))[0]? = some 0 := by
      rw [List.getElem?_map, List.getElem?_range hcpos, Option.map_some, firstWith_zero]
    obtain ⟨u0, hu0⟩ := hpos 0 hcpos
    obtain ⟨u0', e1, e2⟩ := efirst 0 (hashing H u0) (by rw [List.getElem?_map, hu0]; rfl) (firstWith_zero hs)
    obtain ⟨u0'', e3, e4⟩ := ih u0 (List.mem_of_getElem? hu0)
    rw [e2] at e3
    injection e3 with e3
    subst e3
    obtain ⟨sub, s1, _⟩ := e4 ctl hctl.weaken
    simp only [if_true, h0, childAt, e1, s1, pure, Except.pure]
    exact ⟨_, rfl, Or.inl ⟨hred.1 hredv, u0, u0', sub, List.mem_of_getElem? hu0, e2, s1, rfl⟩⟩
  | false =>
    have hsubs : ∀ i, ∃ ops, i < c → ∃ j v v', ((List.range c).map (firstWith hs))[i]? = some j ∧ t.children[j]? = some v ∧
        cs'[j]? = some v' ∧ aggregate cs.length (hashing H v) = .ok v' ∧
        synthesis cs (k + 1) v' (ctl ++ [((k : Int), (i : Int))]) = .ok ops := by
      intro i
      by_cases hi : i < c
      · obtain ⟨f1, f2, f3⟩ := firstWith_le (hs := hs) (i := i) (by omega)
        obtain ⟨v, hv⟩ := hpos (firstWith hs i) (by omega)
        obtain ⟨v', e1, e2⟩ := efirst _ (hashing H v) (by rw [List.getElem?_map, hv]; rfl) f3
        obtain ⟨v'', e3, e4⟩ := ih v (List.mem_of_getElem? hv)
        rw [e2] at e3
        injection e3 with e3
        subst e3
        obtain ⟨sub, s1, _⟩ := e4 (ctl ++ [((k : Int), (i : Int))]) (hctl.push (by rw [hk0]; exact hi))
        refine ⟨sub, fun _ => ⟨firstWith hs i, v, v', ?_, hv, e1, e2, s1⟩⟩
        rw [List.getElem?_map, List.getElem?_range hi, Option.map_some]
      · exact ⟨[], fun h => absurd h hi⟩
    choose sub hsub using hsubs
    have hlen0 : ((List.range c).map (firstWith hs)).length ≠ 0 := by simp; omega
    simp only [Option.some.injEq, Bool.false_eq_true, if_false, hlen0]
    rw [mapM_ok _ sub (List.range c) (by
      intro i hi
      obtain ⟨j, v, v', h1, h2, h3, h4, h5⟩ := hsub i (List.mem_range.1 hi)
      simp only [h1, pure, Except.pure, childAt, h3, h5])]
    simp only [pure, Except.pure]
    refine ⟨_, rfl, Or.inr ⟨fun h => (by rw [hred.2 h] at hredv; cases hredv), sub, ?_, rfl⟩⟩
    intro i hi
    obtain ⟨j, v, v', h1, h2, h3, h4, h5⟩ := hsub i hi
    exact ⟨v, v', List.mem_of_getElem? h2, h4, h5⟩

/-- a node without weight gives nothing -/
theorem prep_dead {H : List (Int × ℂ) → Int} {dims : List Nat} {m k : Nat} {t t' : MicroDD} {ctl : List (Int × Int)} {ops : List PrepOp}
    (ht : t.info.terminal = true) (hagg : aggregate m (hashing H t) = .ok t') (hs : synthesis dims k t' ctl = .ok ops) : ops = [] := by
  have : t'.info.terminal = true := by
    cases m with
    | zero =>
      rw [aggregate] at hagg
      injection hagg with hagg
      rw [← hagg, hashing_terminal]; exact ht
    | succ m => rw [(aggregate_info hagg).2, hashing_terminal]; exact ht
  cases dims with
  | nil => rw [synthesis, if_pos this] at hs; injection hs with hs; exact hs.symm
  | cons c cs => rw [synthesis, if_pos this] at hs; injection hs with hs; exact hs.symm

/-- an operation is on the line of its node or a later one, and adds controls between the two -/
theorem controls_after {H : List (Int × ℂ) → Int} (D : List Nat) (hD : ∀ d ∈ D, 2 ≤ d) : ∀ (dims : List Nat) (k : Nat) (t : MicroDD),
    D.drop k = dims → NoCollision H t → Normal dims t → Shape dims t → SharableTree dims t → ∀ t', aggregate dims.length (hashing H t) = .ok t' →
    ∀ ctl, CtlOK D k ctl → ∀ ops, synthesis dims k t' ctl = .ok ops → ∀ o ∈ ops, (k : Int) ≤ o.qudit ∧ ∃ ext, o.controls = ctl ++ ext ∧ ∀ p ∈ ext, (k : Int) ≤ p.1 := by
  intro dims
  induction dims with
  | nil =>
    intro k t _ _ hn _ _ t' hagg ctl _ ops hops o ho
    simp only [Normal] at hn
    rw [prep_dead hn hagg hops] at ho
    cases ho
  | cons c cs ih =>
    intro k t hdrop hH hn hsh hst t' hagg ctl hctl ops hops o ho
    cases ht : t.info.terminal with
    | true => rw [prep_dead ht hagg hops] at ho; cases ho
    | false =>
      obtain ⟨hk, hk1, hk0, hdrop'⟩ := drop_succ_of hdrop
      have hch : ∀ u ∈ t.children, Normal cs u := by
        rcases hn with ⟨h, _⟩ | ⟨_, _, _, _, h⟩
        · rw [ht] at h; cases h
        · exact h
      have ih' := fun u (hu : u ∈ t.children) => ih (k + 1) u hdrop' (fun x y hx hy => hH x y (.deeper ht hu hx) (.deeper ht hu hy)) (hch u hu)
        ((hsh.2 ht).2 u hu) (hst.child ht hu)
      obtain ⟨t'', h1, h2⟩ := prep_node hD hdrop hH hn hsh hst ht
      rw [List.length_cons, h1] at hagg
      injection hagg with hagg
      subst hagg
      obtain ⟨seq, ops', h3, h4⟩ := h2 ctl hctl
      rw [h3] at hops
      injection hops with hops
      subst hops
      have hseq : ∀ o ∈ seq.map (fun e => (⟨ctl, k, e.1, e.2.1, e.2.2⟩ : PrepOp)), (k : Int) ≤ o.qudit ∧ ∃ ext, o.controls = ctl ++ ext ∧ ∀ p ∈ ext, (k : Int) ≤ p.1 := by
        intro o ho
        obtain ⟨e, _, rfl⟩ := List.mem_map.1 ho
        exact ⟨le_rfl, [], by simp, by simp⟩
      rcases h4 with ⟨_, u, u', sub, hu, e1, e2, rfl⟩ | ⟨_, sub, hsub, rfl⟩
      · rcases List.mem_append.1 ho with ho | ho
        · exact hseq o ho
        · obtain ⟨q1, ext, q2, q3⟩ := ih' u hu u' e1 ctl hctl.weaken sub e2 o ho
          exact ⟨by omega, ext, q2, fun p hp => by have := q3 p hp; omega⟩
      · rcases List.mem_append.1 ho with ho | ho
        · exact hseq o ho
        · obtain ⟨l, hl, hol⟩ := List.mem_flatten.1 ho
          obtain ⟨i, hi, rfl⟩ := List.mem_map.1 hl
          obtain ⟨u, u', hu, e1, e2⟩ := hsub i (List.mem_range.1 hi)
          obtain ⟨q1, ext, q2, q3⟩ := ih' u hu u' e1 _ (hctl.push (by rw [hk0]; exact List.mem_range.1 hi)) (sub i) e2 o hol
          refine ⟨by omega, ((k : Int), (i : Int)) :: ext, by rw [q2]; simp, ?_⟩
          intro p hp
          rcases List.mem_cons.1 hp with rfl | hp
          · exact le_rfl
          · have := q3 p hp; omega

/-- below a shared node its line is no control -/
theorem controls_shared {H : List (Int × ℂ) → Int} {D : List Nat} (hD : ∀ d ∈ D, 2 ≤ d) {c k : Nat} {cs : List Nat} {t : MicroDD}
    (hdrop : D.drop k = c :: cs) (hH : NoCollision H t) (hn : Normal (c :: cs) t) (hsh : Shape (c :: cs) t) (hst : SharableTree (c :: cs) t)
    (hsame : t.info.terminal = false → SameHash H t) {t' : MicroDD} (hagg : aggregate (cs.length + 1) (hashing H t) = .ok t') {ctl : List (Int × Int)}
    (hctl : CtlOK D k ctl) {ops : List PrepOp} (hops : synthesis (c :: cs) k t' ctl = .ok ops) :
    ∀ o ∈ ops, (k : Int) ≤ o.qudit ∧ ∃ ext, o.controls = ctl ++ ext ∧ ∀ p ∈ ext, ((k + 1 : Nat) : Int) ≤ p.1 := by
  intro o ho
  cases ht : t.info.terminal with
  | true => rw [prep_dead ht hagg hops] at ho; cases ho
  | false =>
    obtain ⟨hk, hk1, hk0, hdrop'⟩ := drop_succ_of hdrop
    have hch : ∀ u ∈ t.children, Normal cs u := by
      rcases hn with ⟨h, _⟩ | ⟨_, _, _, _, h⟩
      · rw [ht] at h; cases h
      · exact h
    obtain ⟨t'', h1, h2⟩ := prep_node hD hdrop hH hn hsh hst ht
    rw [h1] at hagg
    injection hagg with hagg
    subst hagg
    obtain ⟨seq, ops', h3, h4⟩ := h2 ctl hctl
    rw [h3] at hops
    injection hops with hops
    subst hops
    rcases h4 with ⟨_, u, u', sub, hu, e1, e2, rfl⟩ | ⟨h, _⟩
    · rcases List.mem_append.1 ho with ho | ho
      · obtain ⟨e, _, rfl⟩ := List.mem_map.1 ho
        exact ⟨le_rfl, [], by simp, by simp⟩
      · obtain ⟨q1, ext, q2, q3⟩ := controls_after D hD cs (k + 1) u hdrop' (fun x y hx hy => hH x y (.deeper ht hu hx) (.deeper ht hu hy)) (hch u hu)
          ((hsh.2 ht).2 u hu) (hst.child ht hu) u' e1 ctl hctl.weaken sub e2 o ho
        exact ⟨by omega, ext, q2, q3⟩
    · exact absurd (hsame ht) h

/-- no node above the last line is shared -/
def UnsharedTree : List Nat → MicroDD → Prop
  | _ :: c' :: cs, t => t.info.terminal = false →
      ¬ ((∃ (i j : Nat) (a b : MicroDD), i ≠ j ∧ t.children[i]? = some a ∧ t.children[j]? = some b ∧ a.weight ≠ 0 ∧ b.weight ≠ 0) ∧
        ∀ a b : MicroDD, a ∈ t.children → b ∈ t.children → a.weight ≠ 0 → b.weight ≠ 0 → ∀ p, Levels (c' :: cs) p → ampRel a p = ampRel b p) ∧
      ∀ a ∈ t.children, UnsharedTree (c' :: cs) a
  | _, _ => True

theorem UnsharedTree.sharable : ∀ {dims : List Nat} {t : MicroDD}, UnsharedTree dims t → SharableTree dims t
  | [], _, _ => trivial
  | [_], _, _ => trivial
  | _ :: _ :: _, _, h => fun ht => ⟨fun h1 h2 => absurd ⟨h1, h2⟩ (h ht).1, fun a ha => ((h ht).2 a ha).sharable⟩

theorem UnsharedTree.child {c : Nat} {cs : List Nat} {t u : MicroDD} (h : UnsharedTree (c :: cs) t) (ht : t.info.terminal = false)
    (hu : u ∈ t.children) : UnsharedTree cs u := by
  cases cs with
  | nil => exact trivial
  | cons c' cs => exact (h ht).2 u hu

/-- without shared nodes all lines from that of the node to that of the gate are controls -/
theorem controls_unshared {H : List (Int × ℂ) → Int} (D : List Nat) (hD : ∀ d ∈ D, 2 ≤ d) : ∀ (dims : List Nat) (k : Nat) (t : MicroDD),
    D.drop k = dims → NoCollision H t → Normal dims t → Shape dims t → UnsharedTree dims t → ∀ t', aggregate dims.length (hashing H t) = .ok t' →
    ∀ ctl, CtlOK D k ctl → ∀ ops, synthesis dims k t' ctl = .ok ops → ∀ o ∈ ops, ∃ m : Nat, o.qudit = ((k + m : Nat) : Int) ∧ ∃ ext, o.controls = ctl ++ ext ∧
      ext.map Prod.fst = (List.range' k m).map Int.ofNat := by
  intro dims
  induction dims with
  | nil =>
    intro k t _ _ hn _ _ t' hagg ctl _ ops hops o ho
    simp only [Normal] at hn
    rw [prep_dead hn hagg hops] at ho
    cases ho
  | cons c cs ih =>
    intro k t hdrop hH hn hsh hst t' hagg ctl hctl ops hops o ho
    cases ht : t.info.terminal with
    | true => rw [prep_dead ht hagg hops] at ho; cases ho
    | false =>
      obtain ⟨hk, hk1, hk0, hdrop'⟩ := drop_succ_of hdrop
      have hch : ∀ u ∈ t.children, Normal cs u := by
        rcases hn with ⟨h, _⟩ | ⟨_, _, _, _, h⟩
        · rw [ht] at h; cases h
        · exact h
      have ih' := fun u (hu : u ∈ t.children) => ih (k + 1) u hdrop' (fun x y hx hy => hH x y (.deeper ht hu hx) (.deeper ht hu hy)) (hch u hu)
        ((hsh.2 ht).2 u hu) (hst.child ht hu)
      obtain ⟨t'', h1, h2⟩ := prep_node hD hdrop hH hn hsh hst.sharable ht
      rw [List.length_cons, h1] at hagg
      injection hagg with hagg
      subst hagg
      obtain ⟨seq, ops', h3, h4⟩ := h2 ctl hctl
      rw [h3] at hops
      injection hops with hops
      subst hops
      have hseq : ∀ o ∈ seq.map (fun e => (⟨ctl, k, e.1, e.2.1, e.2.2⟩ : PrepOp)), ∃ m : Nat, o.qudit = ((k + m : Nat) : Int) ∧ ∃ ext, o.controls = ctl ++ ext ∧
          ext.map Prod.fst = (List.range' k m).map Int.ofNat := by
        intro o ho
        obtain ⟨e, _, rfl⟩ := List.mem_map.1 ho
        exact ⟨0, rfl, [], by simp, rfl⟩
      rcases h4 with ⟨hsame, u, u', sub, hu, e1, e2, rfl⟩ | ⟨_, sub, hsub, rfl⟩
      · rcases List.mem_append.1 ho with ho | ho
        · exact hseq o ho
        · match cs, hst, hch, ih', e1, e2, hdrop', hdrop with
          | [], hst, hch, ih', e1, e2, hdrop', hdrop =>
            have := hch u hu
            simp only [Normal] at this
            rw [prep_dead this e1 e2] at ho
            cases ho
          | c' :: cs, hst, hch, ih', e1, e2, hdrop', hdrop =>
            exfalso
            refine (hst ht).1 ⟨hsame.1, fun a b ha hb hwa hwb p hp => ?_⟩
            exact (hash_inj hH (c' :: cs) a b (fun d hd => hD d (List.mem_of_mem_drop (i := k + 1) (by rw [hdrop']; exact hd))) (hch a ha) (hch b hb)
              (fun x hx => .deeper ht ha hx) (fun x hx => .deeper ht hb hx) (hsame.2 a b ha hb hwa hwb)).2 p hp.length
      · rcases List.mem_append.1 ho with ho | ho
        · exact hseq o ho
        · obtain ⟨l, hl, hol⟩ := List.mem_flatten.1 ho
          obtain ⟨i, hi, rfl⟩ := List.mem_map.1 hl
          obtain ⟨u, u', hu, e1, e2⟩ := hsub i (List.mem_range.1 hi)
          obtain ⟨m, q1, ext, q2, q3⟩ := ih' u hu u' e1 _ (hctl.push (by rw [hk0]; exact List.mem_range.1 hi)) (sub i) e2 o hol
          refine ⟨m + 1, by rw [q1]; push_cast; ring, ((k : Int), (i : Int)) :: ext, by rw [q2]; simp, ?_⟩
          rw [List.map_cons, q3, List.range'_succ]
          rfl

/-! ### from the state to the tree -/

theorem unshared_setWeight (dims : List Nat) (t : MicroDD) (w : ℂ) : UnsharedTree dims (t.setWeight w) ↔ UnsharedTree dims t := by
  match dims with
  | [] => rfl
  | [_] => rfl
  | _ :: _ :: _ => rfl

theorem hash_setWeight (H : List (Int × ℂ) → Int) (t : MicroDD) (w : ℂ) : (hashing H (t.setWeight w)).info.hash = (hashing H t).info.hash := by
  cases t with
  | node I ch =>
    simp only [setWeight, hashing, info_node, children_node]
    split <;> rfl

/-- the node of the state and the nodes of its parts -/
theorem build_parts {c c' : Nat} {cs : List Nat} {data : List ℂ} {t : MicroDD} (hpos : ∀ d ∈ c :: c' :: cs, 0 < d) (hl : data.length = (c :: c' :: cs).prod)
    (h : build (c :: c' :: cs) data = .ok t) (ht : t.info.terminal = false) :
    ∃ (f : Nat → MicroDD) (N : ℂ), N ≠ 0 ∧ t.children = (List.range c).map (fun i => (f i).setWeight ((f i).weight / N)) ∧
      ∀ i, i < c → build (c' :: cs) (slice data i (c' :: cs).prod) = .ok (f i) ∧ Normal (c' :: cs) (f i) ∧
        ((f i).weight ≠ 0 ↔ ∃ x ∈ slice data i (c' :: cs).prod, x ≠ 0) ∧
        ∀ path, Levels (c' :: cs) path → amp (f i) path = (slice data i (c' :: cs).prod).getD (index (c' :: cs) path) 0 := by
  rw [List.prod_cons] at hl
  have hc := hpos c (by simp)
  have hpos' : ∀ d ∈ c' :: cs, 0 < d := fun d hd => hpos d (by simp only [List.mem_cons] at hd ⊢; tauto)
  have : ∀ i, ∃ u, i < c → build (c' :: cs) (slice data i (c' :: cs).prod) = .ok u ∧ Normal (c' :: cs) u ∧
      (u.weight ≠ 0 ↔ ∃ x ∈ slice data i (c' :: cs).prod, x ≠ 0) ∧
      ∀ path, Levels (c' :: cs) path → amp u path = (slice data i (c' :: cs).prod).getD (index (c' :: cs) path) 0 := by
    intro i
    by_cases hi : i < c
    · obtain ⟨u, hu, h1, h2, h3⟩ := build_spec (c' :: cs) (slice data i (c' :: cs).prod) hpos' (slice_length data c _ i hl hi)
      exact ⟨u, fun _ => ⟨hu, h1, weight_ne_zero_iff h2, h3⟩⟩
    · exact ⟨zeroNode, fun h => absurd h hi⟩
  choose f hf using this
  rw [build_cons hc hl f fun i hi => (hf i hi).1] at h
  injection h with h
  by_cases hN : vecNorm (((List.range c).map f).map weight) = 0
  · rw [if_pos hN] at h
    rw [← h] at ht
    cases ht
  · rw [if_neg hN] at h
    refine ⟨f, ((vecNorm (((List.range c).map f).map weight) : ℝ) : ℂ), by exact_mod_cast hN, by rw [← h, children_node], hf⟩

/-- equal sub-states of the children are proportional parts of the state -/
theorem parts_proportional {c : Nat} {cs : List Nat} {data : List ℂ} {i j : Nat} {a b : MicroDD} (hl : data.length = c * cs.prod) (hi : i < c) (hj : j < c)
    (ha : Normal cs a) (hb : Normal cs b) (hcs : cs ≠ []) (ha0 : a.weight ≠ 0) (hb0 : b.weight ≠ 0)
    (ea : ∀ path, Levels cs path → amp a path = (slice data i cs.prod).getD (index cs path) 0)
    (eb : ∀ path, Levels cs path → amp b path = (slice data j cs.prod).getD (index cs path) 0)
    (h : ∀ p, Levels cs p → ampRel a p = ampRel b p) :
    ∃ r : ℝ, 0 < r ∧ slice data i cs.prod = (slice data j cs.prod).map fun x => (r : ℂ) * x := by
  have pw : ∀ u, Normal cs u → u.weight ≠ 0 → ∃ r : ℝ, 0 < r ∧ u.weight = r := by
    intro u hu hw
    match cs, hcs, hu with
    | c :: cs, _, hu =>
      rcases hu with ⟨_, h⟩ | ⟨_, h, _⟩
      · exact absurd h hw
      · exact h
  obtain ⟨r, hr, er⟩ := pw a ha ha0
  obtain ⟨s, hs, es⟩ := pw b hb hb0
  refine ⟨r / s, div_pos hr hs, ?_⟩
  apply List.ext_getElem
  · rw [List.length_map, slice_length data c _ i hl hi, slice_length data c _ j hl hj]
  intro k h1 h2
  rw [slice_length data c _ i hl hi] at h1
  obtain ⟨p, hp, hpk⟩ := index_surj h1
  have e1 := ea p hp
  have e2 := eb p hp
  rw [hpk, List.getD_eq_getElem?_getD, List.getElem?_eq_getElem (by rw [slice_length data c _ i hl hi]; exact h1), Option.getD_some] at e1
  rw [hpk, List.getD_eq_getElem?_getD, List.getElem?_eq_getElem (by rw [slice_length data c _ j hl hj]; exact h1), Option.getD_some] at e2
  rw [List.getElem_map, ← e1, ← e2]
  unfold amp
  rw [h p hp, er, es]
  have : (s : ℂ) ≠ 0 := by exact_mod_cast hs.ne'
  push_cast
  field_simp

theorem build_unshared : ∀ (dims : List Nat) (data : List ℂ) (t : MicroDD), (∀ d ∈ dims, 0 < d) → data.length = dims.prod →
    build dims data = .ok t → Unshared dims data → UnsharedTree dims t
  | [], _, _, _, _, _, _ => trivial
  | [_], _, _, _, _, _, _ => trivial
  | c :: c' :: cs, data, t, hpos, hl, h, hU => fun ht => by
    obtain ⟨f, N, hN, hch, hf⟩ := build_parts hpos hl h ht
    rw [List.prod_cons] at hl
    have hpos' : ∀ d ∈ c' :: cs, 0 < d := fun d hd => hpos d (by simp only [List.mem_cons] at hd ⊢; tauto)
    have hget : ∀ (i : Nat) (u : MicroDD), t.children[i]? = some u → i < c ∧ u = (f i).setWeight ((f i).weight / N) := by
      intro i u hu
      rw [hch] at hu
      have hi : i < c := by
        have := (List.getElem?_eq_some_iff.1 hu).1
        simpa using this
      rw [List.getElem?_map, List.getElem?_range hi, Option.map_some, Option.some.injEq] at hu
      exact ⟨hi, hu.symm⟩
    have hwt : ∀ i, i < c → (((f i).setWeight ((f i).weight / N)).weight ≠ 0 ↔ ∃ x ∈ slice data i (c' :: cs).prod, x ≠ 0) := by
      intro i hi
      rw [weight_setWeight, ← (hf i hi).2.2.1, div_ne_zero_iff]
      exact ⟨fun h => h.1, fun h => ⟨h, hN⟩⟩
    refine ⟨?_, ?_⟩
    · rintro ⟨⟨i, j, a, b, hij, ha, hb, ha0, hb0⟩, hall⟩
      obtain ⟨hi, rfl⟩ := hget i a ha
      obtain ⟨hj, rfl⟩ := hget j b hb
      refine hU.1 ⟨⟨i, j, hi, hj, hij, (hwt i hi).1 ha0, (hwt j hj).1 hb0⟩, fun i j hi hj hi0 hj0 => ?_⟩
      refine parts_proportional hl hi hj (hf i hi).2.1 (hf j hj).2.1 (by simp) ((hf i hi).2.2.1.2 hi0) ((hf j hj).2.2.1.2 hj0) (hf i hi).2.2.2 (hf j hj).2.2.2 ?_
      intro p hp
      have := hall _ _ (by rw [hch]; exact List.mem_map.2 ⟨i, List.mem_range.2 hi, rfl⟩) (by rw [hch]; exact List.mem_map.2 ⟨j, List.mem_range.2 hj, rfl⟩)
        ((hwt i hi).2 hi0) ((hwt j hj).2 hj0) p hp
      rwa [ampRel_setWeight, ampRel_setWeight] at this
    · intro a ha
      rw [hch] at ha
      obtain ⟨i, hi, rfl⟩ := List.mem_map.1 ha
      rw [unshared_setWeight]
      have hi := List.mem_range.1 hi
      exact build_unshared (c' :: cs) _ _ hpos' (slice_length data c _ i hl hi) (hf i hi).1 (hU.2 i hi)

theorem Spec.Unshared.sharable : ∀ {dims : List Nat} {data : List ℂ}, Unshared dims data → SharableState dims data
  | [], _, _ => trivial
  | [_], _, _ => trivial
  | _ :: _ :: _, _, h => ⟨fun h1 h2 => absurd ⟨h1, h2⟩ h.1, fun i hi => (h.2 i hi).sharable⟩

theorem slice_map (data : List ℂ) (g : ℂ → ℂ) (i m : Nat) : slice (data.map g) i m = (slice data i m).map g := by
  unfold slice
  rw [List.map_take, List.map_drop]

theorem vecNorm_scale (r : ℝ) (hr : 0 < r) (l : List ℂ) : vecNorm (l.map fun x => (r : ℂ) * x) = r * vecNorm l := by
  unfold vecNorm
  rw [List.map_map]
  have : (l.map ((fun x : ℂ => ‖x‖ ^ 2) ∘ fun x => (r : ℂ) * x)) = l.map fun x => r ^ 2 * ‖x‖ ^ 2 := by
    refine List.map_congr_left fun x _ => ?_
    simp only [Function.comp_apply, norm_mul, Complex.norm_real, Real.norm_eq_abs, abs_of_pos hr]
    ring
  rw [this, List.sum_map_mul_left, Real.sqrt_mul (by positivity), Real.sqrt_sq hr.le]

theorem setWeight_setWeight (t : MicroDD) (v w : ℂ) : (t.setWeight v).setWeight w = t.setWeight w := rfl

/-- the tree of a positive multiple -/
theorem build_scale (r : ℝ) (hr : 0 < r) : ∀ (dims : List Nat) (data : List ℂ) (t : MicroDD), (∀ d ∈ dims, 0 < d) → data.length = dims.prod →
    build dims data = .ok t → build dims (data.map fun x => (r : ℂ) * x) = .ok (t.setWeight (r * t.weight))
  | [], data, t, _, hl, h => by
    obtain ⟨x, rfl⟩ : ∃ x, data = [x] := List.length_eq_one_iff.1 (by simpa using hl)
    have hrc : (r : ℂ) ≠ 0 := by exact_mod_cast hr.ne'
    have e : ∀ y : ℂ, build [] [y] = .ok (node { weight := y, terminal := true } [if y = 0 then zeroNode else oneNode]) := fun y => rfl
    rw [e] at h
    injection h with h
    subst h
    rw [List.map_singleton, e]
    simp [setWeight, weight, hrc, info_node, children_node]
  | c :: cs, data, t, hpos, hl, h => by
    rw [List.prod_cons] at hl
    have hc := hpos c (by simp)
    have hpos' : ∀ d ∈ cs, 0 < d := fun d hd => hpos d (by simp [hd])
    have : ∀ i, ∃ u, i < c → build cs (slice data i cs.prod) = .ok u := by
      intro i
      by_cases hi : i < c
      · obtain ⟨u, hu, _⟩ := build_spec cs (slice data i cs.prod) hpos' (slice_length data c _ i hl hi)
        exact ⟨u, fun _ => hu⟩
      · exact ⟨zeroNode, fun h => absurd h hi⟩
    choose f hf using this
    have hg : ∀ i, i < c → build cs (slice (data.map fun x => (r : ℂ) * x) i cs.prod) = .ok ((f i).setWeight (r * (f i).weight)) := by
      intro i hi
      rw [slice_map]
      exact build_scale r hr cs _ _ hpos' (slice_length data c _ i hl hi) (hf i hi)
    rw [build_cons hc hl f hf] at h
    injection h with h
    rw [build_cons hc (by rw [List.length_map]; exact hl) (fun i => (f i).setWeight (r * (f i).weight)) hg]
    have hw : ((List.range c).map fun i => (f i).setWeight (r * (f i).weight)).map weight = (((List.range c).map f).map weight).map fun x => (r : ℂ) * x := by
      rw [List.map_map, List.map_map, List.map_map]
      exact List.map_congr_left fun i _ => weight_setWeight _ _
    rw [hw, vecNorm_scale r hr]
    congr 1
    subst h
    by_cases hN : vecNorm (((List.range c).map f).map weight) = 0
    · rw [if_pos hN, if_pos (by rw [hN, mul_zero])]
      have h0 : (((List.range c).map f).map weight).headD 0 = 0 := by
        cases hh : ((List.range c).map f).map weight with
        | nil => rfl
        | cons a l =>
          rw [hh] at hN
          exact vecNorm_eq_zero hN a (by simp)
      have h1 : ((((List.range c).map f).map weight).map fun x => (r : ℂ) * x).headD 0 = 0 := by
        cases hh : ((List.range c).map f).map weight with
        | nil => rfl
        | cons a l => rw [hh] at h0; simpa using Or.inr h0
      rw [h0, h1]
      simp [setWeight, weight, info_node, children_node]
    · rw [if_neg hN, if_neg (mul_ne_zero hr.ne' hN)]
      have hrc : (r : ℂ) ≠ 0 := by exact_mod_cast hr.ne'
      have hNc : ((vecNorm (((List.range c).map f).map weight) : ℝ) : ℂ) ≠ 0 := by exact_mod_cast hN
      simp only [setWeight, weight, info_node, children_node]
      push_cast
      congr 1
      refine List.map_congr_left fun i _ => ?_
      rw [mul_div_mul_left _ _ hrc]

/-- a line that factors out is shared -/
theorem factors_sameHash {H : List (Int × ℂ) → Int} {c c' : Nat} {cs : List Nat} {data : List ℂ} {t : MicroDD} (hpos : ∀ d ∈ c :: c' :: cs, 0 < d)
    (hl : data.length = (c :: c' :: cs).prod) (h : build (c :: c' :: cs) data = .ok t) (ht : t.info.terminal = false)
    (hF : Factors c (c' :: cs).prod data) : SameHash H t := by
  obtain ⟨f, N, hN, hch, hf⟩ := build_parts hpos hl h ht
  rw [List.prod_cons] at hl
  have hpos' : ∀ d ∈ c' :: cs, 0 < d := fun d hd => hpos d (by simp only [List.mem_cons] at hd ⊢; tauto)
  have hwt : ∀ i, i < c → (((f i).setWeight ((f i).weight / N)).weight ≠ 0 ↔ ∃ x ∈ slice data i (c' :: cs).prod, x ≠ 0) := by
    intro i hi
    rw [weight_setWeight, ← (hf i hi).2.2.1, div_ne_zero_iff]
    exact ⟨fun h => h.1, fun h => ⟨h, hN⟩⟩
  obtain ⟨⟨i, j, hi, hj, hij, hi0, hj0⟩, hall⟩ := hF
  refine ⟨⟨i, j, _, _, hij, by rw [hch, List.getElem?_map, List.getElem?_range hi]; rfl, by rw [hch, List.getElem?_map, List.getElem?_range hj]; rfl,
    (hwt i hi).2 hi0, (hwt j hj).2 hj0⟩, ?_⟩
  intro a b ha hb ha0 hb0
  rw [hch] at ha hb
  obtain ⟨i, hi, rfl⟩ := List.mem_map.1 ha
  obtain ⟨j, hj, rfl⟩ := List.mem_map.1 hb
  rw [List.mem_range] at hi hj
  obtain ⟨r, hr, e⟩ := hall i j hi hj ((hwt i hi).1 ha0) ((hwt j hj).1 hb0)
  have e1 := (hf i hi).1
  rw [e, build_scale r hr _ _ _ hpos' (slice_length data c _ j hl hj) (hf j hj).1] at e1
  injection e1 with e1
  rw [hash_setWeight, hash_setWeight, ← e1, hash_setWeight]

/-! ### the gates -/

variable {n : Nat} {d : Fin n → Nat}

/-- every gate comes from an operation -/
theorem fromTree_sources (hd : ∀ i, 2 ≤ d i) {H : List (Int × ℂ) → Int} {t : MicroDD} (hN : Normal (List.ofFn d) t) (hSh : Shape (List.ofFn d) t)
    (hS : SharableTree (List.ofFn d) t) (hH : NoCollision H t) {del : ℝ} {out : List PInstr} (hout : fromTree H del (List.ofFn d) t = .ok out)
    {t' : MicroDD} (hagg : aggregate (List.ofFn d).length (hashing H t) = .ok t') {ops : List PrepOp} (hops : synthesis (List.ofFn d) 0 t' [] = .ok ops) :
    ∀ g ∈ out, ∃ o ∈ ops, ∃ ob k A cs lev, PrepForm d g ob k A cs lev ∧ o.qudit = (k : Nat) ∧
      o.controls.map Prod.fst = cs.map (fun c : Fin n => ((c : Nat) : Int)) := by
  obtain ⟨t2, ops2, h1, h2, hok, hrun⟩ := fromTree_ops hd hN hSh hH del
  rw [hagg] at h1
  injection h1 with h1
  subst h1
  rw [hops] at h2
  injection h2 with h2
  subst h2
  rw [hrun] at hout
  cases houts : ops.mapM (instrOf (List.ofFn d) del) with
  | error e => rw [houts] at hout; cases hout
  | ok outs =>
  rw [houts] at hout
  injection hout with hout
  subst hout
  intro g hg
  obtain ⟨o, ho, gs, h1, h2⟩ := mapM_mem ops outs houts g hg
  exact ⟨o, ho, instrOf_form hd (hok o ho) h1 g h2⟩

theorem mapM_exists {α β : Type} {f : α → Except PyErr β} : ∀ (l : List α), (∀ a ∈ l, ∃ b, f a = .ok b) → ∃ bs, l.mapM f = .ok bs
  | [], _ => ⟨[], rfl⟩
  | a :: l, h => by
    obtain ⟨b, hb⟩ := h a (by simp)
    obtain ⟨bs, hbs⟩ := mapM_exists l fun a ha => h a (by simp [ha])
    exact ⟨b :: bs, by rw [List.mapM_cons, hb]; simp only [bind, Except.bind, hbs, pure, Except.pure]⟩

/-- without shared nodes every gate can be added, and none is refused by the simulator -/
theorem fromTree_unshared (hd : ∀ i, 2 ≤ d i) {H : List (Int × ℂ) → Int} {t : MicroDD} (hN : Normal (List.ofFn d) t) (hSh : Shape (List.ofFn d) t)
    (hU : UnsharedTree (List.ofFn d) t) (hH : NoCollision H t) (del : ℝ) :
    ∃ out, fromTree H del (List.ofFn d) t = .ok out ∧ ∀ g ∈ out, refusal g = none := by
  obtain ⟨t', ops, hagg, hops, hok, hrun⟩ := fromTree_ops hd hN hSh hH del
  have hctl := controls_unshared (H := H) (List.ofFn d) (dims_ge_two hd) (List.ofFn d) 0 t rfl hH hN hSh hU t' hagg [] ⟨List.Pairwise.nil, by simp⟩ ops hops
  have : ∃ outs, ops.mapM (instrOf (List.ofFn d) del) = .ok outs := by
    refine mapM_exists ops fun o ho => ?_
    rw [instrOf_ok_iff hd (hok o ho)]
    intro _ j p hp
    obtain ⟨k, hq, hkn, _, hctlo⟩ := hok o ho
    rw [List.length_ofFn] at hkn
    obtain ⟨m, _, ext, q2, q3⟩ := hctl o ho
    rw [List.nil_append] at q2
    obtain ⟨a, b, e, h1, h2⟩ := hctlo.2 p (List.mem_of_getElem? hp)
    have hj : p.1 = (j : Int) := by
      have := congrArg (fun l => l[j]?) q3
      simp only [List.getElem?_map] at this
      rw [← q2, hp] at this
      have hjm : j < m := by
        have h1 := congrArg List.length q3
        rw [List.length_map, List.length_map, List.length_range', ← q2] at h1
        have := (List.getElem?_eq_some_iff.1 hp).1
        omega
      rw [List.getElem?_range' hjm] at this
      simp only [Option.map_some, Option.some.injEq] at this
      rw [this]; simp
    rw [e] at hj
    have hja : a = j := Int.ofNat.inj hj
    subst hja
    have hjn : a < n := by omega
    refine ⟨d ⟨a, hjn⟩, by rw [List.getElem?_ofFn, dif_pos hjn], ?_⟩
    have h3 : (List.ofFn d).getD a 0 = d ⟨a, hjn⟩ := getD_dims ⟨a, hjn⟩ 0
    rw [h3] at h2
    rw [e]
    simp only
    omega
  obtain ⟨outs, houts⟩ := this
  have hout : fromTree H del (List.ofFn d) t = .ok outs.flatten := by rw [hrun, houts]; rfl
  refine ⟨_, hout, fun g hg => ?_⟩
  obtain ⟨o, ho, ob, k, A, cs, lev, hf, hk, hcs⟩ := fromTree_sources hd hN hSh hU.sharable hH hout hagg hops g hg
  obtain ⟨m, q1, ext, q2, q3⟩ := hctl o ho
  rw [List.nil_append] at q2
  rw [q2, q3] at hcs
  have hkm : (k : Nat) = m := by
    rw [q1] at hk
    have := Int.ofNat.inj hk
    omega
  unfold refusal
  rw [hf.controls]
  by_cases hc : cs = []
  · rw [if_pos hc]
  rw [if_neg hc, ← hcs, hf.target]
  cases m with
  | zero => exact absurd (List.map_eq_nil_iff.1 hcs.symm) hc
  | succ m =>
    rw [List.range'_succ]
    cases m with
    | zero => simp [hkm]
    | succ m => simp [List.range'_succ]

/-- if the first line is shared, the simulator refuses every gate with controls -/
theorem fromTree_shared {m : Nat} {d : Fin (m + 1) → Nat} (hd : ∀ i, 2 ≤ d i) {H : List (Int × ℂ) → Int} {t : MicroDD} (hN : Normal (List.ofFn d) t)
    (hSh : Shape (List.ofFn d) t) (hS : SharableTree (List.ofFn d) t) (hH : NoCollision H t) (hsame : t.info.terminal = false → SameHash H t) {del : ℝ}
    {out : List PInstr} (hout : fromTree H del (List.ofFn d) t = .ok out) :
    ∀ g ∈ out, g.controls = none ∨ refusal g = some .indexError := by
  obtain ⟨t', ops, hagg, hops, hok, hrun⟩ := fromTree_ops hd hN hSh hH del
  intro g hg
  obtain ⟨o, ho, ob, k, A, cs, lev, hf, hk, hcs⟩ := fromTree_sources hd hN hSh hS hH hout hagg hops g hg
  have e : List.ofFn d = d 0 :: List.ofFn fun i : Fin m => d i.succ := List.ofFn_succ
  have hD := dims_ge_two hd
  rw [e] at hN hSh hS hops hagg
  obtain ⟨_, ext, q2, q3⟩ := controls_shared (k := 0) (ctl := []) hD e hH hN hSh hS hsame hagg ⟨List.Pairwise.nil, by simp⟩ hops o ho
  rw [List.nil_append] at q2
  rw [hf.controls]
  by_cases hc : cs = []
  · exact Or.inl (if_pos hc)
  refine Or.inr ?_
  unfold refusal
  rw [hf.controls, if_neg hc]
  obtain ⟨c, cr, rfl⟩ := List.exists_cons_of_ne_nil hc
  rw [q2] at hcs
  obtain ⟨p, ext', rfl⟩ : ∃ p ext', ext = p :: ext' := by
    cases ext with
    | nil => cases hcs
    | cons p ext' => exact ⟨p, ext', rfl⟩
  have h1 := q3 p (by simp)
  simp only [List.map_cons, List.cons.injEq] at hcs
  simp only [List.map_cons, List.head?_cons]
  rw [if_pos]
  intro h
  injection h with h
  rw [h] at hcs
  omega

/-- if the first line is not shared but the parts for its levels share the second one, the simulator refuses every gate on the third line -/
theorem fromTree_skip {m : Nat} {d : Fin (m + 3) → Nat} (hd : ∀ i, 2 ≤ d i) {H : List (Int × ℂ) → Int} {t : MicroDD} (hN : Normal (List.ofFn d) t)
    (hSh : Shape (List.ofFn d) t) (hS : SharableTree (List.ofFn d) t) (hH : NoCollision H t) (ht : t.info.terminal = false) (hnot : ¬ SameHash H t)
    (hsame : ∀ u ∈ t.children, u.info.terminal = false → SameHash H u) {del : ℝ} {out : List PInstr} (hout : fromTree H del (List.ofFn d) t = .ok out) :
    ∀ g ∈ out, (refusal g = none ∨ refusal g = some .valueError) ∧ (g.target = .one 2 → refusal g = some .valueError) := by
  obtain ⟨t', ops, hagg, hops, hok, hrun⟩ := fromTree_ops hd hN hSh hH del
  intro g hg
  obtain ⟨o, ho, ob, k, A, cs, lev, hf, hk, hcs⟩ := fromTree_sources hd hN hSh hS hH hout hagg hops g hg
  have e : List.ofFn d = d 0 :: d 1 :: List.ofFn fun i : Fin (m + 1) => d i.succ.succ := by rw [List.ofFn_succ, List.ofFn_succ]; rfl
  have hD := dims_ge_two hd
  rw [e] at hN hSh hS hops hagg
  obtain ⟨t2, h1, h2⟩ := prep_node (k := 0) hD e hH hN hSh hS ht
  have hch : ∀ u ∈ t.children, Normal (d 1 :: List.ofFn fun i : Fin (m + 1) => d i.succ.succ) u := by
    rcases hN with ⟨h, _⟩ | ⟨_, _, _, _, h⟩
    · rw [ht] at h; cases h
    · exact h
  rw [List.length_cons, h1] at hagg
  injection hagg with hagg
  subst hagg
  obtain ⟨seq, ops', h3, h4⟩ := h2 [] ⟨List.Pairwise.nil, by simp⟩
  rw [hops] at h3
  injection h3 with h3
  subst h3
  obtain ⟨sub, hsub, rfl⟩ := (h4.resolve_left fun h => hnot h.1).2
  rcases List.mem_append.1 ho with ho | ho
  · obtain ⟨e, _, rfl⟩ := List.mem_map.1 ho
    have hcn : cs = [] := List.map_eq_nil_iff.1 hcs.symm
    have hr : refusal g = none := by unfold refusal; rw [hf.controls, if_pos hcn]
    refine ⟨Or.inl hr, fun h2 => ?_⟩
    rw [hf.target] at h2
    injection h2 with h2
    have hk' : ((0 : Nat) : Int) = (k : Nat) := hk
    omega
  · obtain ⟨l, hl, hol⟩ := List.mem_flatten.1 ho
    obtain ⟨i, hi, rfl⟩ := List.mem_map.1 hl
    have hi := List.mem_range.1 hi
    obtain ⟨u, u', hu, e1, e2⟩ := hsub i hi
    have hc0 : CtlOK (List.ofFn d) 1 ([] ++ [(((0 : Nat) : Int), (i : Int))]) :=
      CtlOK.push (k := 0) (ctl := []) ⟨List.Pairwise.nil, by simp⟩ (by rw [e]; exact hi)
    obtain ⟨q1, ext, q2, q3⟩ := controls_shared (k := 1) hD (by rw [e]; rfl) (fun x y hx hy => hH x y (.deeper ht hu hx) (.deeper ht hu hy)) (hch u hu)
      ((hSh.2 ht).2 u hu) (hS.child ht hu) (hsame u hu) e1 hc0 e2 o hol
    rw [q2] at hcs
    simp only [List.nil_append, List.cons_append, List.map_cons] at hcs
    obtain ⟨c, cr, rfl⟩ : ∃ c cr, cs = c :: cr := by
      cases cs with
      | nil => cases hcs
      | cons c cr => exact ⟨c, cr, rfl⟩
    simp only [List.map_cons, List.cons.injEq] at hcs
    obtain ⟨hc1, hc2⟩ := hcs
    unfold refusal
    rw [hf.controls, if_neg (by simp)]
    simp only [List.map_cons, List.head?_cons, ← hc1]
    rw [if_neg (by simp)]
    constructor
    · split
      · exact Or.inr rfl
      · exact Or.inl rfl
    · intro htgt
      rw [if_pos]
      have hk2 : ((k : Nat) : Int) = 2 := by
        have := htgt
        rw [hf.target] at this
        injection this
      refine ⟨?_, by rw [htgt]; decide⟩
      have hcr : cr = [] := by
        cases cr with
        | nil => rfl
        | cons c' cr' =>
          cases ext with
          | nil => cases hc2
          | cons p ext' =>
            have := q3 p (by simp)
            simp only [List.map_cons, List.cons.injEq] at hc2
            have h5 := hf.below c' (by simp)
            rw [Fin.lt_def] at h5
            omega
      rw [hcr]; rfl

end Qudits
