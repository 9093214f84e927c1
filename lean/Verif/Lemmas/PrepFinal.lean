import Verif.Lemmas.PrepSem
import Verif.Props.PhaseCircuitProps
import Mathlib.Data.Set.Countable
namespace Qudits
open Spec MicroDD StatePrep LocalQR Matrix
open PhasePass (GateSemantics Matches arrayOf)

/-! ### the built tree -/

/-- the node that `build_decision_tree` makes from the trees of the parts -/
theorem build_cons {c : Nat} {cs : List Nat} {data : List ℂ} (hc : 0 < c) (hl : data.length = c * cs.prod) (f : Nat → MicroDD)
    (hf : ∀ i, i < c → build cs (slice data i cs.prod) = .ok (f i)) :
    build (c :: cs) data = .ok (if vecNorm (((List.range c).map f).map weight) = 0 then
      node { weight := 0, terminal := true } [zeroNode.setWeight ((((List.range c).map f).map weight).headD 0)]
      else node { weight := (vecNorm (((List.range c).map f).map weight) : ℝ) }
        ((List.range c).map fun i => (f i).setWeight ((f i).weight / (vecNorm (((List.range c).map f).map weight) : ℝ)))) := by
  have hs : data.length / c = cs.prod := by rw [hl, Nat.mul_div_cancel_left _ hc]
  have hmap : (List.range c).mapM (fun i => build cs (slice data i (data.length / c))) = .ok ((List.range c).map f) := by
    refine mapM_ok _ f _ ?_
    intro i hi
    rw [hs]; exact hf i (List.mem_range.1 hi)
  set ws := ((List.range c).map f).map weight with hws
  unfold build
  rw [if_neg (by omega)]
  simp only [bind, Except.bind, hmap, ← hws, normalize_eq]
  by_cases h0 : vecNorm ws = 0
  · simp only [h0, if_true, pure, Except.pure]
  · have hne : (1 : ℂ) * (vecNorm ws : ℂ) ≠ 0 := by rw [one_mul]; exact_mod_cast h0
    simp only [h0, if_false, hne, pure, Except.pure]
    have hz : List.zipWith setWeight ((List.range c).map f) (ws.map fun x => x / (vecNorm ws : ℂ)) =
        (List.range c).map fun i => (f i).setWeight ((f i).weight / vecNorm ws) := by
      rw [hws, List.map_map, List.map_map, List.zipWith_map, List.zipWith_self]
      rfl
    rw [hz, one_mul]

theorem shape_setWeight (dims : List Nat) (t : MicroDD) (w : ℂ) : Shape dims (t.setWeight w) ↔ Shape dims t := by
  cases dims <;> rfl

theorem sharable_setWeight (dims : List Nat) (t : MicroDD) (w : ℂ) : SharableTree dims (t.setWeight w) ↔ SharableTree dims t := by
  match dims with
  | [] => rfl
  | [_] => rfl
  | _ :: _ :: _ => rfl

theorem build_shape : ∀ (dims : List Nat) (data : List ℂ) (t : MicroDD), (∀ d ∈ dims, 0 < d) → data.length = dims.prod →
    build dims data = .ok t → Shape dims t
  | [], _, _, _, _, _ => trivial
  | c :: cs, data, t, hpos, hl, h => by
    rw [List.prod_cons] at hl
    have hc := hpos c (by simp)
    have : ∀ i, ∃ u, i < c → build cs (slice data i cs.prod) = .ok u ∧ Shape cs u := by
      intro i
      by_cases hi : i < c
      · obtain ⟨u, hu, _⟩ := build_spec cs (slice data i cs.prod) (fun d hd => hpos d (by simp [hd])) (slice_length data c _ i hl hi)
        exact ⟨u, fun _ => ⟨hu, build_shape cs _ u (fun d hd => hpos d (by simp [hd])) (slice_length data c _ i hl hi) hu⟩⟩
      · exact ⟨zeroNode, fun h => absurd h hi⟩
    choose f hf using this
    rw [build_cons hc hl f fun i hi => (hf i hi).1] at h
    injection h with h
    rw [← h]
    split
    · refine ⟨fun _ u hu => ?_, fun h => (by cases h)⟩
      rw [children_node, List.mem_singleton] at hu
      rw [hu]; exact ⟨rfl, rfl⟩
    · refine ⟨fun h => (by cases h), fun _ => ⟨rfl, ?_⟩⟩
      intro u hu
      rw [children_node] at hu
      obtain ⟨i, hi, rfl⟩ := List.mem_map.1 hu
      rw [shape_setWeight]
      exact (hf i (List.mem_range.1 hi)).2

theorem weight_ne_zero_iff {data : List ℂ} {t : MicroDD} (h : ‖t.weight‖ ^ 2 = (data.map fun x => ‖x‖ ^ 2).sum) :
    t.weight ≠ 0 ↔ ∃ x ∈ data, x ≠ 0 := by
  rw [← vecNorm_sq] at h
  constructor
  · intro hw
    by_contra hcon
    push Not at hcon
    apply hw
    have : vecNorm data ^ 2 = 0 := by
      rw [vecNorm_sq]
      rw [List.map_congr_left (g := fun _ => (0 : ℝ)) fun x hx => by rw [hcon x hx]; simp]
      simp
    rw [this] at h
    simpa using h
  · rintro ⟨x, hx, hx0⟩ hw
    rw [hw] at h
    have : vecNorm data = 0 := by simpa using h.symm
    exact hx0 (vecNorm_eq_zero this x hx)

theorem build_sharable : ∀ (dims : List Nat) (data : List ℂ) (t : MicroDD), (∀ d ∈ dims, 0 < d) → data.length = dims.prod →
    build dims data = .ok t → SharableState dims data → SharableTree dims t
  | [], _, _, _, _, _, _ => trivial
  | [_], _, _, _, _, _, _ => trivial
  | c :: c' :: cs, data, t, hpos, hl, h, hS => by
    rw [List.prod_cons] at hl
    have hc := hpos c (by simp)
    have hpos' : ∀ d ∈ c' :: cs, 0 < d := fun d hd => hpos d (by simp only [List.mem_cons] at hd ⊢; tauto)
    have : ∀ i, ∃ u, i < c → build (c' :: cs) (slice data i (c' :: cs).prod) = .ok u ∧ SharableTree (c' :: cs) u ∧
        Normal (c' :: cs) u ∧ (u.weight ≠ 0 ↔ ∃ x ∈ slice data i (c' :: cs).prod, x ≠ 0) ∧
        ∀ path, Levels (c' :: cs) path → amp u path = (slice data i (c' :: cs).prod).getD (index (c' :: cs) path) 0 := by
      intro i
      by_cases hi : i < c
      · obtain ⟨u, hu, h1, h2, h3⟩ := build_spec (c' :: cs) (slice data i (c' :: cs).prod) hpos' (slice_length data c _ i hl hi)
        exact ⟨u, fun _ => ⟨hu, build_sharable (c' :: cs) _ u hpos' (slice_length data c _ i hl hi) hu (hS.2 i hi), h1,
          weight_ne_zero_iff h2, h3⟩⟩
      · exact ⟨zeroNode, fun h => absurd h hi⟩
    choose f hf using this
    rw [build_cons hc hl f fun i hi => (hf i hi).1] at h
    injection h with h
    rw [← h]
    split
    · intro h; cases h
    rename_i hN
    have hN' : ((vecNorm (((List.range c).map f).map weight) : ℝ) : ℂ) ≠ 0 := by exact_mod_cast hN
    generalize vecNorm (((List.range c).map f).map weight) = N at *
    have hget : ∀ i u, ((List.range c).map fun i => (f i).setWeight ((f i).weight / (N : ℂ)))[i]? = some u →
        i < c ∧ u = (f i).setWeight ((f i).weight / (N : ℂ)) := by
      intro i u hu
      have hi : i < c := by
        have := (List.getElem?_eq_some_iff.1 hu).1
        simpa using this
      rw [List.getElem?_map, List.getElem?_range hi, Option.map_some, Option.some.injEq] at hu
      exact ⟨hi, hu.symm⟩
    have hwt : ∀ i, i < c → (((f i).setWeight ((f i).weight / (N : ℂ))).weight ≠ 0 ↔ ∃ x ∈ slice data i (c' :: cs).prod, x ≠ 0) := by
      intro i hi
      rw [weight_setWeight, ← (hf i hi).2.2.2.1, div_ne_zero_iff]
      exact ⟨fun h => h.1, fun h => ⟨h, hN'⟩⟩
    intro _
    rw [children_node]
    refine ⟨?_, ?_⟩
    · rintro ⟨i, j, a, b, hij, ha, hb, ha0, hb0⟩ hall
      obtain ⟨hi, rfl⟩ := hget i a ha
      obtain ⟨hj, rfl⟩ := hget j b hb
      have h0 := hS.1 ⟨i, j, hi, hj, hij, (hwt i hi).1 ha0, (hwt j hj).1 hb0⟩ (by
        intro i j hi hj hi0 hj0
        have wi := (hf i hi).2.2.2.1.2 hi0
        have wj := (hf j hj).2.2.2.1.2 hj0
        have pw : ∀ k, k < c → (f k).weight ≠ 0 → ∃ r : ℝ, 0 < r ∧ (f k).weight = r := by
          intro k hk hw
          rcases (hf k hk).2.2.1 with ⟨_, h⟩ | ⟨_, h, _⟩
          · exact absurd h hw
          · exact h
        obtain ⟨r, hr, er⟩ := pw i hi wi
        obtain ⟨s, hs, es⟩ := pw j hj wj
        refine ⟨r / s, div_pos hr hs, ?_⟩
        apply List.ext_getElem
        · rw [List.length_map, slice_length data c _ i hl hi, slice_length data c _ j hl hj]
        intro k h1 h2
        rw [slice_length data c _ i hl hi] at h1
        obtain ⟨p, hp, hpk⟩ := index_surj h1
        have e1 := (hf i hi).2.2.2.2 p hp
        have e2 := (hf j hj).2.2.2.2 p hp
        rw [hpk, List.getD_eq_getElem?_getD, List.getElem?_eq_getElem (by rw [slice_length data c _ i hl hi]; exact h1), Option.getD_some] at e1
        rw [hpk, List.getD_eq_getElem?_getD, List.getElem?_eq_getElem (by rw [slice_length data c _ j hl hj]; exact h1), Option.getD_some] at e2
        rw [List.getElem_map, ← e1, ← e2]
        have e3 := hall _ _ (List.mem_map.2 ⟨i, List.mem_range.2 hi, rfl⟩) (List.mem_map.2 ⟨j, List.mem_range.2 hj, rfl⟩)
          ((hwt i hi).2 hi0) ((hwt j hj).2 hj0) p hp
        rw [ampRel_setWeight, ampRel_setWeight] at e3
        unfold amp
        rw [e3, er, es]
        have : (s : ℂ) ≠ 0 := by exact_mod_cast hs.ne'
        push_cast
        field_simp)
      refine ⟨(f 0).setWeight ((f 0).weight / (N : ℂ)), ?_, (hwt 0 hc).2 h0⟩
      rw [List.getElem?_map, List.getElem?_range hc, Option.map_some]
    · intro a ha
      obtain ⟨i, hi, rfl⟩ := List.mem_map.1 ha
      rw [sharable_setWeight]
      exact (hf i (List.mem_range.1 hi)).2.1

/-! ### hash functions without collisions exist -/

theorem exists_noCollision (t : MicroDD) : ∃ H, NoCollision H t := by
  classical
  -- weights that occur
  have key : ∃ W : Set ℂ, W.Countable ∧ ∀ (H : List (Int × ℂ) → Int) x, Hashed H t x → ∀ p ∈ x, p.2 ∈ W := by
    suffices h : ∀ n (t : MicroDD), sizeOf t < n → ∃ W : Set ℂ, W.Countable ∧ ∀ (H : List (Int × ℂ) → Int) x, Hashed H t x → ∀ p ∈ x, p.2 ∈ W from
      h _ t (Nat.lt_succ_self _)
    intro n
    induction n with
    | zero => intro t h; omega
    | succ n ih =>
      intro t ht
      have : ∀ c : {c // c ∈ t.children}, ∃ W : Set ℂ, W.Countable ∧ ∀ (H : List (Int × ℂ) → Int) x, Hashed H c.1 x → ∀ p ∈ x, p.2 ∈ W := by
        rintro ⟨c, hc⟩
        refine ih c ?_
        cases t with
        | node i cs =>
          have := List.sizeOf_lt_of_mem (show c ∈ cs from hc)
          simp only [node.sizeOf_spec] at ht
          omega
      choose W hW1 hW2 using this
      have hfin : (Set.univ : Set {c // c ∈ t.children}).Countable := by
        have : {c | c ∈ t.children}.Finite := List.finite_toSet _
        have : Finite {c // c ∈ t.children} := this
        exact Set.finite_univ.countable
      refine ⟨{1} ∪ ({w | w ∈ t.children.map weight} ∪ ⋃ c ∈ (Set.univ : Set {c // c ∈ t.children}), W c), ?_, ?_⟩
      · refine (Set.countable_singleton _).union (((List.finite_toSet _).countable).union ?_)
        exact hfin.biUnion fun c _ => hW1 c
      · intro H x hx p hp
        cases hx with
        | leaf h =>
          rw [List.mem_singleton] at hp
          exact Or.inl (by rw [hp]; rfl)
        | inner h =>
          obtain ⟨c, hc, rfl⟩ := List.mem_map.1 hp
          exact Or.inr (Or.inl (List.mem_map.2 ⟨c, hc, rfl⟩))
        | @deeper _ c _ h hc hx =>
          exact Or.inr (Or.inr (Set.mem_biUnion (Set.mem_univ ⟨c, hc⟩) (hW2 ⟨c, hc⟩ H x hx p hp)))
  obtain ⟨W, hW, hmem⟩ := key
  have hc : ({x : List (Int × ℂ) | ∀ p ∈ x, p ∈ (Set.univ : Set Int) ×ˢ W}).Countable := by
    have hS : ((Set.univ : Set Int) ×ˢ W).Countable := (Set.countable_univ).prod hW
    have := hS.to_subtype
    refine (Set.countable_range (fun l : List ((Set.univ : Set Int) ×ˢ W : Set (Int × ℂ)) => l.map Subtype.val)).mono ?_
    intro x hx
    refine ⟨x.attach.map fun p => ⟨p.1, hx p.1 p.2⟩, ?_⟩
    simp only [List.map_map, Function.comp_def]
    exact List.attach_map_subtype_val x
  obtain ⟨F, hF⟩ := Set.countable_iff_exists_injOn.1 hc
  refine ⟨fun x => (F x : Int), ?_⟩
  intro x y hx hy h
  refine hF (fun p hp => ⟨trivial, hmem _ x hx p hp⟩) (fun p hp => ⟨trivial, hmem _ y hy p hp⟩) ?_
  exact Int.ofNat_inj.1 h

/-! ### the emitted gates -/

theorem ctl_pos {D : List Nat} {k : Nat} {ctl : List (Int × Int)} (h : CtlOK D k ctl) :
    ∀ (j : Nat) (p : Int × Int), ctl[j]? = some p → (j : Int) ≤ p.1
  | 0, p, hp => by
    obtain ⟨a, b, e, _⟩ := h.2 p (List.mem_of_getElem? hp)
    rw [e]; simp
  | j + 1, p, hp => by
    obtain ⟨hl, e⟩ := List.getElem?_eq_some_iff.1 hp
    have hq : ctl[j]? = some ctl[j] := List.getElem?_eq_getElem (by omega)
    have := ctl_pos h j _ hq
    have h2 := List.pairwise_iff_getElem.1 h.1 j (j + 1) (by omega) hl (by omega)
    rw [e] at h2
    push_cast
    omega

theorem ctl_length {D : List Nat} {k : Nat} {ctl : List (Int × Int)} (h : CtlOK D k ctl) : ctl.length ≤ k := by
  by_contra hcon
  have hq : ctl[k]? = some ctl[k] := List.getElem?_eq_getElem (by omega)
  have := ctl_pos h k _ hq
  obtain ⟨a, b, e, h1, _⟩ := h.2 _ (List.mem_of_getElem? hq)
  rw [e] at this
  simp only at this
  omega


variable {n : Nat} {d : Fin n → Nat}

/-- when the gate of an operation can be added to the circuit -/
theorem instrOf_ok_iff (hd : ∀ i, 2 ≤ d i) {o : PrepOp} (ho : OpOK (List.ofFn d) o) (del : ℝ) :
    (∃ gs, instrOf (List.ofFn d) del o = .ok gs) ↔
      (|o.theta| > del → ∀ (j : Nat) (p : Int × Int), o.controls[j]? = some p → ∃ e : Nat, (List.ofFn d)[j]? = some e ∧ p.2 < e) := by
  obtain ⟨kn, hq, hkn, hlv, hctl⟩ := ho
  rw [List.length_ofFn] at hkn
  obtain ⟨k, rfl⟩ : ∃ k : Fin n, kn = k := ⟨⟨kn, hkn⟩, rfl⟩
  rw [getD_dims] at hlv
  unfold instrOf
  by_cases hdel : |o.theta| > del
  swap
  · rw [if_neg hdel]
    exact ⟨fun _ h => absurd h hdel, fun _ => ⟨_, rfl⟩⟩
  rw [if_pos hdel]
  have hqn : o.qudit.toNat = k := by rw [hq]; simp
  have hdim : (List.ofFn d)[(k : Nat)]? = some (d k) := by rw [List.getElem?_ofFn]; simp
  obtain ⟨kind, hkind, _⟩ := instrOf_kind (hd k) o hlv
  simp only [bind, Except.bind, hqn, hdim, pure, Except.pure, hkind]
  cases hc : o.controls with
  | nil =>
    simp [Gate.control]
  | cons p ps =>
    rw [← hc]
    have hi : o.controls.map Prod.fst ≠ [] := by rw [hc]; simp
    have hl : o.controls.map Prod.snd ≠ [] := by rw [hc]; simp
    constructor
    · rintro ⟨gs, hgs⟩ _ j p hp
      cases hg : Gate.control ⟨List.ofFn d, "R", .single, .one o.qudit, none, false, false⟩ (o.controls.map Prod.fst) (o.controls.map Prod.snd) with
      | error e => rw [hg] at hgs; cases hgs
      | ok g' =>
        have := ((control_ok_iff _ _ _ _ hi hl).1 hg).1.2.2.2 j p.2 (by rw [List.getElem?_map, hp]; rfl)
        exact this
    · intro h
      have hpos := (control_ok_iff ⟨List.ofFn d, "R", .single, .one o.qudit, none, false, false⟩ _ (o.controls.map Prod.fst)
        (o.controls.map Prod.snd) hi hl).2 ⟨⟨rfl, ?_, ?_, ?_⟩, rfl⟩
      · rw [hpos]; exact ⟨_, rfl⟩
      · simp only [List.length_map, List.length_ofFn]
        have hlt := ctl_length hctl
        omega
      · intro i hi
        obtain ⟨p, hp, rfl⟩ := List.mem_map.1 hi
        obtain ⟨a, b, e, h1, _⟩ := hctl.2 p hp
        rw [e]
        simp only [List.length_ofFn, Target.lines, List.mem_singleton, hq]
        omega
      · intro j l hj
        rw [List.getElem?_map] at hj
        cases hp : o.controls[j]? with
        | none => rw [hp] at hj; cases hj
        | some p =>
          rw [hp] at hj
          injection hj with hj
          rw [← hj]
          exact h hdel j p hp

/-- on registers whose dimensions do not increase every gate can be added -/
theorem instrOf_ok (hd : ∀ i, 2 ≤ d i) (hanti : ∀ i j, i ≤ j → d j ≤ d i) {o : PrepOp} (ho : OpOK (List.ofFn d) o) (del : ℝ) :
    ∃ gs, instrOf (List.ofFn d) del o = .ok gs := by
  rw [instrOf_ok_iff hd ho]
  intro _ j p hp
  obtain ⟨k, hq, hkn, hlv, hctl⟩ := ho
  obtain ⟨a, b, e, h1, h2⟩ := hctl.2 p (List.mem_of_getElem? hp)
  have hj := ctl_pos hctl j p hp
  rw [e] at hj
  simp only at hj
  rw [List.length_ofFn] at hkn
  have hjn : j < n := by omega
  have han : a < n := by omega
  refine ⟨d ⟨j, hjn⟩, by rw [List.getElem?_ofFn, dif_pos hjn], ?_⟩
  have h3 : (List.ofFn d).getD a 0 = d ⟨a, han⟩ := getD_dims ⟨a, han⟩ 0
  rw [h3] at h2
  have h4 := hanti ⟨j, hjn⟩ ⟨a, han⟩ (by simp only [Fin.le_def]; omega)
  rw [e]
  simp only
  omega

/-- the emitted gates do what the operations do, up to the rotations that were left out -/
theorem instrs_near (hd : ∀ i, 2 ≤ d i) {sem : PInstr → Matrix (Reg d) (Reg d) ℂ} (hsem : GateSemantics d sem) {del : ℝ} :
    ∀ (ops : List PrepOp) (outs : List (List PInstr)), (∀ o ∈ ops, OpOK (List.ofFn d) o) →
      ops.mapM (instrOf (List.ofFn d) del) = .ok outs →
      circuitOp sem outs.flatten ∈ unitaryGroup (Reg d) ℂ ∧
      ∀ ψ (φ : Reg d → ℂ), (∀ x, φ x = ψ (ext x)) →
        nrm (circuitOp sem outs.flatten *ᵥ φ - fun x => acts (List.ofFn d) ops ψ (ext x)) ≤ ops.length * (max del 0 / 2) * nrm φ
  | [], outs, _, h => by
    rw [List.mapM_nil] at h
    injection h with h
    rw [← h]
    refine ⟨by rw [List.flatten_nil, circuitOp_nil]; exact one_mem _, ?_⟩
    intro ψ φ hφ
    have : circuitOp sem ([] : List (List PInstr)).flatten *ᵥ φ - (fun x => acts (List.ofFn d) [] ψ (ext x)) = 0 := by
      rw [List.flatten_nil, circuitOp_nil, one_mulVec]
      funext x
      simp [acts, hφ]
    rw [this]
    simp [nrm]
  | o :: os, outs, hok, h => by
    rw [List.mapM_cons] at h
    cases h1 : instrOf (List.ofFn d) del o with
    | error e => rw [h1] at h; cases h
    | ok gs =>
    rw [h1] at h
    cases h2 : os.mapM (instrOf (List.ofFn d) del) with
    | error e => simp only [bind, Except.bind, h2] at h; cases h
    | ok rest =>
    simp only [bind, Except.bind, h2, pure, Except.pure, Except.ok.injEq] at h
    subst h
    obtain ⟨hu, hnear⟩ := instrs_near hd hsem os rest (fun o ho => hok o (by simp [ho])) h2
    obtain ⟨M, hM, hact, hone, hgs⟩ := op_matrix hd (hok o (by simp))
    obtain ⟨hg1, hg2⟩ := hgs sem hsem del gs h1
    rw [List.flatten_cons, circuitOp_append]
    have hG : circuitOp sem gs ∈ unitaryGroup (Reg d) ℂ ∧ ∀ φ, nrm (circuitOp sem gs *ᵥ φ - M *ᵥ φ) ≤ max del 0 / 2 * nrm φ := by
      by_cases hdel : |o.theta| > del
      · rw [hg1 hdel]
        refine ⟨hM, fun φ => ?_⟩
        rw [sub_self]
        have : nrm (0 : Reg d → ℂ) = 0 := by simp [nrm]
        rw [this]
        have := nrm_nonneg φ
        positivity
      · rw [hg2 hdel, circuitOp_nil]
        refine ⟨one_mem _, fun φ => ?_⟩
        rw [one_mulVec]
        have e : nrm (φ - M *ᵥ φ) = nrm (M *ᵥ φ - φ) := by
          unfold nrm; rw [WithLp.toLp_sub, WithLp.toLp_sub]; exact norm_sub_rev _ _
        rw [e]
        refine (hone φ).trans ?_
        refine mul_le_mul_of_nonneg_right ?_ (nrm_nonneg φ)
        have := le_max_left del 0
        linarith [not_lt.1 hdel]
    refine ⟨mul_mem hu hG.1, ?_⟩
    intro ψ φ hφ
    have hφ' : ∀ x, (M *ᵥ φ) x = act (List.ofFn d) o ψ (ext x) := hact ψ φ hφ
    have h3 := hnear _ _ hφ'
    rw [nrm_unitary hM] at h3
    have h4 : (circuitOp sem rest.flatten * circuitOp sem gs) *ᵥ φ - (fun x => acts (List.ofFn d) (o :: os) ψ (ext x)) =
        circuitOp sem rest.flatten *ᵥ (circuitOp sem gs *ᵥ φ - M *ᵥ φ) +
        (circuitOp sem rest.flatten *ᵥ (M *ᵥ φ) - fun x => acts (List.ofFn d) os (act (List.ofFn d) o ψ) (ext x)) := by
      rw [mulVec_sub, mulVec_mulVec]
      funext x
      simp only [Pi.sub_apply, Pi.add_apply, acts]
      ring
    rw [h4]
    refine (nrm_add _ _).trans ?_
    rw [nrm_unitary hu]
    have h5 := hG.2 φ
    rw [List.length_cons]
    push_cast
    linarith

end Qudits
