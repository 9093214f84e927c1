import Verif.Props.StatePrepProps
/-! # State preparation: states that are not prepared -/
namespace Qudits
open Spec MicroDD StatePrep LocalQR Matrix
open PhasePass (GateSemantics)

/-- the leaf of an amplitude -/
noncomputable def prepLeaf (x : ℂ) : MicroDD := node { weight := x, terminal := true } [if x = 0 then zeroNode else oneNode]

theorem build_leaf (x : ℂ) : build [] [x] = .ok (prepLeaf x) := rfl

noncomputable def prepDead : MicroDD := node { weight := 0, terminal := true } [zeroNode.setWeight 0]

theorem vecNorm_eq {l : List ℂ} {r : ℝ} (hr : 0 ≤ r) (h : (l.map fun x => ‖x‖ ^ 2).sum = r ^ 2) : vecNorm l = r := by
  unfold vecNorm; rw [h, Real.sqrt_sq hr]

/-- the tree of a qubit -/
theorem build_two (a b : ℂ) {r : ℝ} (hr : 0 ≤ r) (h : ‖a‖ ^ 2 + ‖b‖ ^ 2 = r ^ 2) :
    build [2] [a, b] = .ok (if r = 0 then prepDead else
      node { weight := (r : ℂ) } [(prepLeaf a).setWeight (a / r), (prepLeaf b).setWeight (b / r)]) := by
  rw [build_cons (by norm_num) (by simp) (fun i => prepLeaf ([a, b].getD i 0)) ?_]
  · have hw : ((List.range 2).map fun i => prepLeaf ([a, b].getD i 0)).map weight = [a, b] := by
      simp [List.range_succ, prepLeaf, weight, info]
    rw [hw, vecNorm_eq hr (by simpa using h)]
    by_cases h0 : r = 0
    · rw [if_pos h0, if_pos h0]
      have ha : a = 0 := by
        rw [h0] at h
        have : ‖a‖ ^ 2 = 0 := by nlinarith [sq_nonneg ‖a‖, sq_nonneg ‖b‖]
        simpa using this
      simp [ha, prepDead]
    · rw [if_neg h0, if_neg h0]
      simp [List.range_succ, prepLeaf, weight, info]
  · intro i hi
    interval_cases i
    · simpa [slice, List.take] using build_leaf a
    · simpa [slice, List.take] using build_leaf b

/-! ### a shared branch that is zero -/

/-- the state 3/5 |11> + 4/5 |21> of a line of three levels and a line of two -/
noncomputable def lostState : List ℂ := [0, 0, 0, 3 / 5, 0, 4 / 5]

noncomputable def lostBranch : MicroDD := node { weight := 1 } [(prepLeaf 0).setWeight 0, (prepLeaf 1).setWeight 1]

theorem prepLeaf_set {x w : ℂ} (hx : x ≠ 0) : (prepLeaf x).setWeight w = (prepLeaf 1).setWeight w := by
  simp [prepLeaf, setWeight, info, children, hx]

theorem build_lost : build [3, 2] lostState = .ok (node { weight := 1 }
    [prepDead.setWeight 0, lostBranch.setWeight (3 / 5), lostBranch.setWeight (4 / 5)]) := by
  have n1 : ‖(3 / 5 : ℂ)‖ = 3 / 5 := by rw [show (3 / 5 : ℂ) = ((3 / 5 : ℝ) : ℂ) by norm_num, Complex.norm_real]; norm_num
  have n2 : ‖(4 / 5 : ℂ)‖ = 4 / 5 := by rw [show (4 / 5 : ℂ) = ((4 / 5 : ℝ) : ℂ) by norm_num, Complex.norm_real]; norm_num
  set f : Nat → MicroDD := fun i => [prepDead, lostBranch.setWeight (3 / 5), lostBranch.setWeight (4 / 5)].getD i zeroNode with hf
  have h0 : build [2] [0, 0] = .ok prepDead := by
    rw [build_two 0 0 le_rfl (by simp), if_pos rfl]
  have h1 : build [2] [0, 3 / 5] = .ok (lostBranch.setWeight (3 / 5)) := by
    rw [build_two (r := 3 / 5) 0 (3 / 5) (by norm_num) (by rw [n1]; simp), if_neg (by norm_num)]
    rw [prepLeaf_set (show (3 / 5 : ℂ) ≠ 0 by norm_num)]
    push_cast
    rw [zero_div, div_self (by norm_num)]
    rfl
  have h2 : build [2] [0, 4 / 5] = .ok (lostBranch.setWeight (4 / 5)) := by
    rw [build_two (r := 4 / 5) 0 (4 / 5) (by norm_num) (by rw [n2]; simp), if_neg (by norm_num)]
    rw [prepLeaf_set (show (4 / 5 : ℂ) ≠ 0 by norm_num)]
    push_cast
    rw [zero_div, div_self (by norm_num)]
    rfl
  rw [build_cons (by norm_num) (by simp [lostState]) f ?_]
  · have hw : ((List.range 3).map f).map weight = [0, 3 / 5, 4 / 5] := by
      simp [List.range_succ, hf, weight_setWeight]
      rfl
    rw [hw, vecNorm_eq (r := 1) (by norm_num) (by simp; norm_num), if_neg (by norm_num)]
    simp [List.range_succ, hf, weight_setWeight]
    refine ⟨by simp [setWeight, weight, info, prepDead], rfl, rfl⟩
  · intro i hi
    interval_cases i
    · simpa [slice, lostState, hf] using h0
    · simpa [slice, lostState, hf] using h1
    · simpa [slice, lostState, hf] using h2

/-- synthesis of a node that is marked as reduced -/
theorem synthesis_reduced {c k j : Nat} {cs : List Nat} {I : MInfo} {ch : List MicroDD} {ctl : List (Int × Int)} {u : MicroDD}
    {seq : List ((Int × Int) × ℝ × ℝ)} {sub : List PrepOp} (ht : I.terminal = false) (hr : I.reduced = some true) (hj : I.index[0]? = some j)
    (hu : ch[j]? = some u) (hseq : localSequence c I.weight (ch.map weight) = .ok seq) (hsub : synthesis cs (k + 1) u ctl = .ok sub) :
    synthesis (c :: cs) k (node I ch) ctl = .ok ((seq.map fun e => (⟨ctl, k, e.1, e.2.1, e.2.2⟩ : PrepOp)) ++ sub) := by
  have hw : (node I ch).weight = I.weight := rfl
  rw [synthesis, info_node, if_neg (by simp [ht]), hw, children_node, hseq]
  simp only [bind, Except.bind, hr, if_true, hj, childAt, hu, hsub, pure, Except.pure]

/-- synthesis of a node that is not marked as reduced -/
theorem synthesis_branch {c k : Nat} {cs : List Nat} {I : MInfo} {ch : List MicroDD} {ctl : List (Int × Int)}
    {seq : List ((Int × Int) × ℝ × ℝ)} (sub : Nat → List PrepOp) (ht : I.terminal = false) (hr : I.reduced = some false)
    (hne : I.index ≠ [])
    (hseq : localSequence c I.weight (ch.map weight) = .ok seq)
    (hsub : ∀ i, i < c → ∃ j u, I.index[i]? = some j ∧ ch[j]? = some u ∧ synthesis cs (k + 1) u (ctl ++ [((k : Int), (i : Int))]) = .ok (sub i)) :
    synthesis (c :: cs) k (node I ch) ctl = .ok ((seq.map fun e => (⟨ctl, k, e.1, e.2.1, e.2.2⟩ : PrepOp)) ++ ((List.range c).map sub).flatten) := by
  have hw : (node I ch).weight = I.weight := rfl
  rw [synthesis, info_node, if_neg (by simp [ht]), hw, children_node, hseq]
  simp only [bind, Except.bind, hr, Option.some.injEq, Bool.false_eq_true, if_false, pure, Except.pure]
  rw [mapM_ok _ sub (List.range c) ?_]
  intro i hi
  obtain ⟨j, u, h1, h2, h3⟩ := hsub i (List.mem_range.1 hi)
  rw [if_neg (by intro h; exact hne (List.length_eq_zero_iff.1 h))]
  simp only [h1, childAt, h2, h3]

/-- both lines at level 1 -/
def bothOne : Reg ![3, 2] := fun i => ⟨1, by fin_cases i <;> decide⟩

/-- what is prepared for `lostState` has, up to the rotations left out, no part with the second line at level 1 -/
theorem lost_prepared (H : List (Int × ℂ) → Int) (hH : ∀ t, create (List.ofFn ![3, 2]) lostState = .ok t → NoCollision H t)
    (del : ℝ) (hdel : 0 ≤ del) :
    ∃ out, compileState H del (List.ofFn ![3, 2]) lostState = .ok out ∧
      ∀ sem, GateSemantics ![3, 2] sem → ∀ y : Reg ![3, 2], ((y 1 : Fin 2) : Nat) = 1 → ‖(circuitOp sem out *ᵥ ground ![3, 2]) y‖ ≤ 2 * del := by
  have hD : List.ofFn (![3, 2] : Fin 2 → Nat) = [3, 2] := rfl
  have hd : ∀ i : Fin 2, 2 ≤ (![3, 2] : Fin 2 → Nat) i := by decide
  have hD2 : ∀ e ∈ ([3, 2] : List Nat), 2 ≤ e := by decide
  rw [hD] at hH ⊢
  set T : MicroDD := node { weight := 1 } [prepDead.setWeight 0, lostBranch.setWeight (3 / 5), lostBranch.setWeight (4 / 5)] with hT
  have hcol := hH T build_lost
  obtain ⟨T0, hT0, hN, _, _⟩ := build_spec [3, 2] lostState (by decide) rfl
  rw [build_lost] at hT0
  injection hT0 with hT0
  rw [← hT0] at hN
  have hSh := build_shape [3, 2] lostState _ (by decide) rfl build_lost
  have htf : T.info.terminal = false := rfl
  have hchN : ∀ u ∈ T.children, Normal [2] u := by
    rcases hN with ⟨h, _⟩ | ⟨_, _, _, _, h⟩
    · cases h
    · exact h
  have hsum : ((T.children.map weight).map fun x => ‖x‖ ^ 2).sum = 1 := by
    rcases hN with ⟨h, _⟩ | ⟨_, _, _, h, _⟩
    · cases h
    · rw [List.map_map]; exact h
  have hagg1 : ∀ u ∈ T.children, ∃ u', aggregate 1 (hashing H u) = .ok u' := by
    intro u hu
    obtain ⟨u', h, _⟩ := prep_main (H := H) [3, 2] hD2 [2] 1 u rfl (fun x y hx hy => hcol x y (.deeper htf hu hx) (.deeper htf hu hy))
      (hchN u hu) ((hSh.2 htf).2 u hu) trivial
    exact ⟨u', h⟩
  obtain ⟨cs', red, eagg, ewt, efirst, ered⟩ := aggregate_live (k := 1) (t := hashing H T) (by rw [hashing_terminal]; rfl)
    (by rw [hashing_index]; rfl) (by
      intro c hc
      rw [hashing_children H htf] at hc
      obtain ⟨u, hu, rfl⟩ := List.mem_map.1 hc
      exact hagg1 u hu) ⟨1, hashing H (lostBranch.setWeight (3 / 5)), by rw [hashing_children H htf]; rfl, by
        rw [hashing_weight, weight_setWeight]; norm_num⟩
  rw [hashing_children H htf] at eagg ewt efirst ered
  have hw' : cs'.map weight = [0, 3 / 5, 4 / 5] := by
    rw [ewt, List.map_map]
    simp only [Function.comp_def, hashing_weight]
    rfl
  have hhash : (hashing H (lostBranch.setWeight (3 / 5))).info.hash = (hashing H (lostBranch.setWeight (4 / 5))).info.hash := by
    rw [hashing_hash H rfl, hashing_hash H rfl]; rfl
  have hred : red = true := by
    rw [ered]
    refine ⟨⟨1, 2, hashing H (lostBranch.setWeight (3 / 5)), hashing H (lostBranch.setWeight (4 / 5)), by norm_num, rfl, rfl, ?_, ?_⟩, ?_⟩
    · rw [hashing_weight, weight_setWeight]; norm_num
    · rw [hashing_weight, weight_setWeight]; norm_num
    · intro i j a b ha hb ha0 hb0
      have key : ∀ (i : Nat) (a : MicroDD), (T.children.map (hashing H))[i]? = some a → a.weight ≠ 0 →
          firstWith ((T.children.map (hashing H)).map fun c => c.info.hash) i =
          firstWith ((T.children.map (hashing H)).map fun c => c.info.hash) 1 := by
        intro i a ha ha0
        have hi : i < 3 := by have := (List.getElem?_eq_some_iff.1 ha).1; simpa [hT, children] using this
        interval_cases i
        · simp only [hT, children_node, List.map_cons, List.getElem?_cons_zero, Option.some.injEq] at ha
          rw [← ha, hashing_weight, weight_setWeight] at ha0
          exact absurd rfl ha0
        · rfl
        · unfold firstWith
          congr 1
      rw [key i a ha ha0, key j b hb hb0]
  obtain ⟨u0, hu0, hu0a⟩ := efirst 0 (hashing H (prepDead.setWeight 0)) rfl (firstWith_zero _)
  have hu0t : u0.info.terminal = true := by rw [(aggregate_info hu0a).2, hashing_terminal]; rfl
  obtain ⟨seq, hseq, _, hlev, hsl⟩ := localSequence_ok (d := 3) (by norm_num) (T.children.map weight) rfl hsum (r := 1) one_pos
  set ops := seq.map fun e => (⟨[], (0 : Nat), e.1, e.2.1, e.2.2⟩ : PrepOp) with hops
  have hsyn : synthesis [3, 2] 0 (node { (hashing H T).info with
        index := (List.range (T.children.map (hashing H)).length).map (firstWith ((T.children.map (hashing H)).map fun c => c.info.hash)),
        reduced := some red } cs') [] = .ok ops := by
    rw [synthesis_reduced (j := 0) (u := u0) (seq := seq) (sub := []) ?_ (by simp only [hred]) ?_ hu0 ?_ ?_, List.append_nil]
    · simp only []; rw [hashing_terminal]; rfl
    · simp only [hT, children_node, List.map_cons, List.map_nil, List.length_cons, List.length_nil]
      rw [List.getElem?_map, List.getElem?_range (by norm_num), Option.map_some, firstWith_zero]
    · rw [hw']
      have : (hashing H T).info.weight = ((1 : ℝ) : ℂ) := by
        have := hashing_weight H T
        rw [show T.weight = 1 from rfl] at this
        rw [Complex.ofReal_one]; exact this
      simp only [this]
      exact hseq
    · rw [synthesis, if_pos hu0t]
  have hok : ∀ o ∈ ops, OpOK (List.ofFn ![3, 2]) o := by
    intro o ho
    obtain ⟨e, he, rfl⟩ := List.mem_map.1 ho
    exact ⟨0, rfl, by simp, hlev e he, List.Pairwise.nil, by simp⟩
  have hmap : ∃ outs, ops.mapM (instrOf [3, 2] del) = .ok outs := by
    have h : ∀ o ∈ ops, ∃ gs, instrOf [3, 2] del o = .ok gs := fun o ho => instrOf_ok hd (by decide) (hok o ho) del
    generalize ops = l at h
    induction l with
    | nil => exact ⟨[], rfl⟩
    | cons o os ih =>
      obtain ⟨gs, hgs⟩ := h o (by simp)
      obtain ⟨outs, houts⟩ := ih fun o ho => h o (by simp [ho])
      exact ⟨gs :: outs, by rw [List.mapM_cons, hgs]; simp only [bind, Except.bind, houts, pure, Except.pure]⟩
  obtain ⟨outs, houts⟩ := hmap
  refine ⟨outs.flatten, ?_, ?_⟩
  · unfold compileState create fromTree
    rw [build_lost]
    simp only [bind, Except.bind]
    rw [← hT, show ([3, 2] : List Nat).length = 1 + 1 from rfl, eagg]
    simp only [hsyn, houts, pure, Except.pure]
  · intro sem hsem y hy
    have h1 := (instrs_near hd hsem ops outs hok houts).2 groundAll (ground _) ground_ext
    rw [nrm_ground (fun i => by have := hd i; omega), mul_one, max_eq_left hdel, hops, List.length_map, hsl] at h1
    set ψ := circuitOp sem outs.flatten *ᵥ ground ![3, 2] with hψ
    have h2 : acts (List.ofFn ![3, 2]) ops groundAll (ext y) = 0 := by
      rw [hops, acts_local _ [] 0 (by simp) seq groundAll (ext y) (by intro p hp; cases hp) (ext_valid y 0)]
      refine Finset.sum_eq_zero fun l _ => ?_
      have : groundAll (Function.update (ext y) 0 (l : Nat)) = 0 := by
        unfold groundAll
        refine if_neg fun h => ?_
        have := h 1
        rw [Function.update_of_ne (by norm_num)] at this
        have e : ext y 1 = 1 := hy
        rw [e] at this
        cases this
      rw [this, mul_zero]
    have h3 : ‖ψ y‖ ^ 2 ≤ nrm (ψ - fun x => acts (List.ofFn ![3, 2]) ops groundAll (ext x)) ^ 2 := by
      rw [nrm_sq]
      have := Finset.single_le_sum (f := fun x : Reg ![3, 2] => ‖ψ x - acts (List.ofFn ![3, 2]) ops groundAll (ext x)‖ ^ 2)
        (fun x _ => by positivity) (Finset.mem_univ y)
      simp only [h2, sub_zero] at this
      exact this
    have h4 := abs_le_of_sq_le_sq h3 (nrm_nonneg _)
    rw [abs_of_nonneg (norm_nonneg _)] at h4
    have h5 := h4.trans h1
    norm_num at h5
    linarith

/-- The state 3/5 |11> + 4/5 |21> is a unit vector, the circuit is returned, but its amplitude at |11> is 0 up to the rotations left out:
both non-zero branches of the first line are equal, so the node is shared, and the branch that is synthesised is that of level 0, which is
zero. No collision of hashes is involved. -/
theorem C40_violated : vecNorm lostState = 1 ∧ lostState.getD (idx ![3, 2] bothOne) 0 = 3 / 5 ∧
    ∀ H : List (Int × ℂ) → Int, (∀ t, create (List.ofFn ![3, 2]) lostState = .ok t → NoCollision H t) → ∀ del : ℝ, 0 ≤ del →
      ∃ out, compileState H del (List.ofFn ![3, 2]) lostState = .ok out ∧
        ∀ sem, GateSemantics ![3, 2] sem → ‖(circuitOp sem out *ᵥ ground ![3, 2]) bothOne‖ ≤ 2 * del := by
  have n1 : ‖(3 / 5 : ℂ)‖ = 3 / 5 := by rw [show (3 / 5 : ℂ) = ((3 / 5 : ℝ) : ℂ) by norm_num, Complex.norm_real]; norm_num
  have n2 : ‖(4 / 5 : ℂ)‖ = 4 / 5 := by rw [show (4 / 5 : ℂ) = ((4 / 5 : ℝ) : ℂ) by norm_num, Complex.norm_real]; norm_num
  refine ⟨vecNorm_eq (by norm_num) (by simp [lostState]; norm_num), ?_, ?_⟩
  · simp [idx, bothOne, index, lostState]
  intro H hH del hdel
  obtain ⟨out, h1, h2⟩ := lost_prepared H hH del hdel
  exact ⟨out, h1, fun sem hsem => h2 sem hsem bothOne rfl⟩

/-! ### a control that is refused -/

/-- the product of 3/5 |0> + 4/5 |1> and 3/5 |00> + 4/5 |21> on lines of two, three and two levels -/
noncomputable def refusedState : List ℂ := [9 / 25, 0, 0, 0, 0, 12 / 25, 12 / 25, 0, 0, 0, 0, 16 / 25]

noncomputable def upBranch : MicroDD := node { weight := 1 } [(prepLeaf 1).setWeight 1, (prepLeaf 0).setWeight 0]

noncomputable def refusedBranch : MicroDD :=
  node { weight := 1 } [upBranch.setWeight (3 / 5), prepDead.setWeight 0, lostBranch.setWeight (4 / 5)]

theorem build_refused_branch {s : ℝ} (hs : 0 < s) :
    build [3, 2] [(3 * s : ℝ), 0, 0, 0, 0, (4 * s : ℝ)] = .ok (refusedBranch.setWeight (5 * s : ℝ)) := by
  set f : Nat → MicroDD := fun i => [upBranch.setWeight (3 * s : ℝ), prepDead, lostBranch.setWeight (4 * s : ℝ)].getD i zeroNode with hf
  have ne3 : ((3 * s : ℝ) : ℂ) ≠ 0 := by exact_mod_cast (by positivity : (3 * s : ℝ) ≠ 0)
  have ne4 : ((4 * s : ℝ) : ℂ) ≠ 0 := by exact_mod_cast (by positivity : (4 * s : ℝ) ≠ 0)
  have ne5 : ((5 * s : ℝ) : ℂ) ≠ 0 := by exact_mod_cast (by positivity : (5 * s : ℝ) ≠ 0)
  have hsc : (s : ℂ) ≠ 0 := by exact_mod_cast hs.ne'
  have h0 : build [2] [0, 0] = .ok prepDead := by
    rw [build_two 0 0 le_rfl (by simp), if_pos rfl]
  have h1 : build [2] [((3 * s : ℝ) : ℂ), 0] = .ok (upBranch.setWeight (3 * s : ℝ)) := by
    rw [build_two (r := 3 * s) _ 0 (by positivity) (by rw [Complex.norm_real]; simp [mul_pow]), if_neg (by positivity)]
    rw [prepLeaf_set ne3, zero_div, div_self ne3]
    rfl
  have h2 : build [2] [0, ((4 * s : ℝ) : ℂ)] = .ok (lostBranch.setWeight (4 * s : ℝ)) := by
    rw [build_two (r := 4 * s) 0 _ (by positivity) (by rw [Complex.norm_real]; simp [mul_pow]), if_neg (by positivity)]
    rw [prepLeaf_set ne4, zero_div, div_self ne4]
    rfl
  rw [build_cons (by norm_num) (by simp) f ?_]
  · have hw : ((List.range 3).map f).map weight = [((3 * s : ℝ) : ℂ), 0, ((4 * s : ℝ) : ℂ)] := by
      simp only [List.range_succ, List.range_zero, hf, List.nil_append, List.map_cons, List.map_nil, List.cons_append,
        List.getD_eq_getElem?_getD, List.getElem?_cons_zero, List.getElem?_cons_succ, Option.getD_some, weight_setWeight]
      rfl
    rw [hw, vecNorm_eq (r := 5 * s) (by positivity) (by
      simp only [List.map_cons, List.map_nil, Complex.norm_real, Real.norm_eq_abs, sq_abs, List.sum_cons, List.sum_nil, norm_zero]; ring),
      if_neg (by positivity)]
    have e1 : ((3 * s : ℝ) : ℂ) / ((5 * s : ℝ) : ℂ) = 3 / 5 := by push_cast; field_simp
    have e2 : ((4 * s : ℝ) : ℂ) / ((5 * s : ℝ) : ℂ) = 4 / 5 := by push_cast; field_simp
    simp only [List.range_succ, List.range_zero, hf, List.nil_append, List.map_cons, List.map_nil, List.cons_append,
        List.getD_eq_getElem?_getD, List.getElem?_cons_zero, List.getElem?_cons_succ, Option.getD_some, weight_setWeight, e1, e2]
    rw [show prepDead.weight = 0 from rfl, zero_div]
    rfl
  · intro i hi
    interval_cases i
    · simpa [slice, hf] using h1
    · simpa [slice, hf] using h0
    · simpa [slice, hf] using h2

theorem build_refused : build [2, 3, 2] refusedState = .ok (node { weight := 1 }
    [refusedBranch.setWeight (3 / 5), refusedBranch.setWeight (4 / 5)]) := by
  set f : Nat → MicroDD := fun i => [refusedBranch.setWeight (3 / 5), refusedBranch.setWeight (4 / 5)].getD i zeroNode with hf
  have h1 := build_refused_branch (s := 3 / 25) (by norm_num)
  have h2 := build_refused_branch (s := 4 / 25) (by norm_num)
  norm_num at h1 h2
  have n1 : ‖(3 / 5 : ℂ)‖ = 3 / 5 := by rw [show (3 / 5 : ℂ) = ((3 / 5 : ℝ) : ℂ) by norm_num, Complex.norm_real]; norm_num
  have n2 : ‖(4 / 5 : ℂ)‖ = 4 / 5 := by rw [show (4 / 5 : ℂ) = ((4 / 5 : ℝ) : ℂ) by norm_num, Complex.norm_real]; norm_num
  rw [build_cons (by norm_num) (by simp [refusedState]) f ?_]
  · have hw : ((List.range 2).map f).map weight = [3 / 5, 4 / 5] := by
      simp [List.range_succ, hf, weight_setWeight]
    rw [hw, vecNorm_eq (r := 1) (by norm_num) (by simp; norm_num), if_neg (by norm_num)]
    simp [List.range_succ, hf, weight_setWeight]
    exact ⟨rfl, rfl⟩
  · intro i hi
    interval_cases i
    · simpa [slice, refusedState, hf] using h1
    · simpa [slice, refusedState, hf] using h2

theorem localSequence_flip {r : ℂ} {seq : List ((Int × Int) × ℝ × ℝ)} (h : localSequence 2 r [0, 1] = .ok seq) :
    ∃ e ∈ seq, e.2.1 = -Real.pi := by
  unfold localSequence at h
  rw [if_neg (by simp)] at h
  simp only [List.length_cons, List.length_nil, bind, Except.bind, seqLoop] at h
  split at h
  · cases h
  rename_i v hv
  split at hv
  · cases hv
  split at hv
  · cases hv
  split at hv
  · cases hv
  simp only [Except.ok.injEq] at hv
  rw [← hv] at h
  simp only [pure, Except.pure, Except.ok.injEq] at h
  rw [← h]
  refine ⟨_, List.mem_cons_of_mem _ (List.mem_singleton.2 rfl), ?_⟩
  have : arctan2 1 0 = Real.pi / 2 := Complex.arg_I
  simp [getAngles, this]
  ring

theorem synthesis_prefix {c k : Nat} {cs : List Nat} {I : MInfo} {ch : List MicroDD} {ctl : List (Int × Int)} {ops : List PrepOp}
    {seq : List ((Int × Int) × ℝ × ℝ)} (ht : I.terminal = false) (hseq : localSequence c I.weight (ch.map weight) = .ok seq)
    (h : synthesis (c :: cs) k (node I ch) ctl = .ok ops) : ∀ e ∈ seq, (⟨ctl, k, e.1, e.2.1, e.2.2⟩ : PrepOp) ∈ ops := by
  have hw : (node I ch).weight = I.weight := rfl
  rw [synthesis, info_node, if_neg (by simp [ht]), hw, children_node, hseq] at h
  intro e he
  have hm : (⟨ctl, k, e.1, e.2.1, e.2.2⟩ : PrepOp) ∈ seq.map fun e => (⟨ctl, k, e.1, e.2.1, e.2.2⟩ : PrepOp) := List.mem_map.2 ⟨e, he, rfl⟩
  simp only [bind, Except.bind, pure, Except.pure] at h
  split at h
  · split at h
    · split at h
      · cases h
      split at h
      · cases h
      injection h with h
      rw [← h]; exact List.mem_append_left _ hm
    · cases h
  · split at h
    · cases h
    injection h with h
    rw [← h]; exact List.mem_append_left _ hm

/-- On lines of two, three and two levels the unit vector (3/5 |0> + 4/5 |1>) ⊗ (3/5 |00> + 4/5 |21>) is refused: the first line is shared, so
the last line is controlled by the second line alone, and `control` compares the level 2 with the dimension of the first line (C03). -/
theorem C56_violated : vecNorm refusedState = 1 ∧ SharableState [2, 3, 2] refusedState ∧
    ∀ H : List (Int × ℂ) → Int, (∀ t, create [2, 3, 2] refusedState = .ok t → NoCollision H t) → ∀ del : ℝ, del < 1 →
      ∃ e, compileState H del [2, 3, 2] refusedState = .error e := by
  refine ⟨vecNorm_eq (by norm_num) (by simp [refusedState]; norm_num), ?_, ?_⟩
  · refine ⟨fun _ _ => ⟨9 / 25, by simp [slice, refusedState], by norm_num⟩, fun i hi => ⟨fun _ _ => ?_, fun _ _ => trivial⟩⟩
    interval_cases i
    · exact ⟨9 / 25, by simp [slice, refusedState], by norm_num⟩
    · exact ⟨12 / 25, by simp [slice, refusedState], by norm_num⟩
  intro H hH del hdel
  have hd : ∀ i : Fin 3, 2 ≤ (![2, 3, 2] : Fin 3 → Nat) i := by decide
  have hD2 : ∀ e ∈ ([2, 3, 2] : List Nat), 2 ≤ e := by decide
  set T : MicroDD := node { weight := 1 } [refusedBranch.setWeight (3 / 5), refusedBranch.setWeight (4 / 5)] with hT
  have hcol := hH T build_refused
  obtain ⟨T0, hT0, hN, _, _⟩ := build_spec [2, 3, 2] refusedState (by decide) rfl
  rw [build_refused] at hT0
  injection hT0 with hT0
  rw [← hT0] at hN
  have hSh := build_shape [2, 3, 2] refusedState _ (by decide) rfl build_refused
  have htf : T.info.terminal = false := rfl
  have hchN : ∀ u ∈ T.children, Normal [3, 2] u := by
    rcases hN with ⟨h, _⟩ | ⟨_, _, _, _, h⟩
    · cases h
    · exact h
  have hsum : ((T.children.map weight).map fun x => ‖x‖ ^ 2).sum = 1 := by
    rcases hN with ⟨h, _⟩ | ⟨_, _, _, h, _⟩
    · cases h
    · rw [List.map_map]; exact h
  have hmem : ∀ u ∈ T.children, ∃ w : ℂ, u = refusedBranch.setWeight w := by
    intro u hu
    simp only [hT, children_node, List.mem_cons, List.not_mem_nil, or_false] at hu
    rcases hu with rfl | rfl <;> exact ⟨_, rfl⟩
  have hchS : ∀ u ∈ T.children, SharableTree [3, 2] u := by
    intro u hu
    obtain ⟨w, rfl⟩ := hmem u hu
    rw [sharable_setWeight]
    refine fun _ => ⟨fun _ _ => ⟨upBranch.setWeight (3 / 5), rfl, ?_⟩, fun _ _ => trivial⟩
    rw [weight_setWeight]; norm_num
  have hagg1 : ∀ u ∈ T.children, ∃ u', aggregate 2 (hashing H u) = .ok u' := by
    intro u hu
    obtain ⟨u', h, _⟩ := prep_main (H := H) [2, 3, 2] hD2 [3, 2] 1 u rfl (fun x y hx hy => hcol x y (.deeper htf hu hx) (.deeper htf hu hy))
      (hchN u hu) ((hSh.2 htf).2 u hu) (hchS u hu)
    exact ⟨u', h⟩
  obtain ⟨cs', red, eagg, ewt, efirst, ered⟩ := aggregate_live (k := 2) (t := hashing H T) (by rw [hashing_terminal]; rfl)
    (by rw [hashing_index]; rfl) (by
      intro c hc
      rw [hashing_children H htf] at hc
      obtain ⟨u, hu, rfl⟩ := List.mem_map.1 hc
      exact hagg1 u hu) ⟨0, hashing H (refusedBranch.setWeight (3 / 5)), by rw [hashing_children H htf]; rfl, by
        rw [hashing_weight, weight_setWeight]; norm_num⟩
  rw [hashing_children H htf] at eagg ewt efirst ered
  have hw' : cs'.map weight = T.children.map weight := by
    rw [ewt, List.map_map]
    simp only [Function.comp_def, hashing_weight]
  have hred : red = true := by
    rw [ered]
    refine ⟨⟨0, 1, hashing H (refusedBranch.setWeight (3 / 5)), hashing H (refusedBranch.setWeight (4 / 5)), by norm_num, rfl, rfl, ?_, ?_⟩, ?_⟩
    · rw [hashing_weight, weight_setWeight]; norm_num
    · rw [hashing_weight, weight_setWeight]; norm_num
    · have hhash : (hashing H (refusedBranch.setWeight (3 / 5))).info.hash = (hashing H (refusedBranch.setWeight (4 / 5))).info.hash := by
        rw [hashing_hash H rfl, hashing_hash H rfl]; rfl
      have key : ∀ (i : Nat) (a : MicroDD), (T.children.map (hashing H))[i]? = some a →
          firstWith ((T.children.map (hashing H)).map fun c => c.info.hash) i =
          firstWith ((T.children.map (hashing H)).map fun c => c.info.hash) 0 := by
        intro i a ha
        have hi : i < 2 := by have := (List.getElem?_eq_some_iff.1 ha).1; simpa [hT, children] using this
        interval_cases i
        · rfl
        · unfold firstWith
          congr 1
      intro i j a b ha hb _ _
      rw [key i a ha, key j b hb]
  -- the shared branch
  set U := refusedBranch.setWeight (3 / 5) with hU
  have hUmem : U ∈ T.children := by simp [hT, children]
  have hUf : U.info.terminal = false := rfl
  have hUcol : NoCollision H U := fun x y hx hy => hcol x y (.deeper htf hUmem hx) (.deeper htf hUmem hy)
  obtain ⟨u0, hu0, hu0a⟩ := efirst 0 (hashing H U) rfl (firstWith_zero _)
  have hUch : ∀ v ∈ U.children, Normal [2] v := by
    rcases hchN U hUmem with ⟨h, _⟩ | ⟨_, _, _, _, h⟩
    · cases h
    · exact h
  have hUsum : ((U.children.map weight).map fun x => ‖x‖ ^ 2).sum = 1 := by
    rcases hchN U hUmem with ⟨h, _⟩ | ⟨_, _, _, h, _⟩
    · cases h
    · rw [List.map_map]; exact h
  have hUsh : ∀ v ∈ U.children, Shape [2] v := ((((hSh.2 htf).2 U hUmem).2 hUf).2)
  have hmain : ∀ v ∈ U.children, _ := fun v hv =>
    prep_main (H := H) [2, 3, 2] hD2 [2] 2 v rfl (fun x y hx hy => hUcol x y (.deeper hUf hv hx) (.deeper hUf hv hy)) (hUch v hv) (hUsh v hv) trivial
  obtain ⟨cs1, red1, eagg1, ewt1, efirst1, ered1⟩ := aggregate_live (k := 1) (t := hashing H U) (by rw [hashing_terminal]; rfl)
    (by rw [hashing_index]; rfl) (by
      intro c hc
      rw [hashing_children H hUf] at hc
      obtain ⟨u, hu, rfl⟩ := List.mem_map.1 hc
      obtain ⟨u', h, _⟩ := hmain u hu
      exact ⟨u', h⟩) ⟨0, hashing H (upBranch.setWeight (3 / 5)), by rw [hashing_children H hUf]; rfl, by
        rw [hashing_weight, weight_setWeight]; norm_num⟩
  rw [hashing_children H hUf] at eagg1 ewt1 efirst1 ered1
  rw [hu0a] at eagg1
  injection eagg1 with eagg1
  have hw1 : cs1.map weight = U.children.map weight := by
    rw [ewt1, List.map_map]
    simp only [Function.comp_def, hashing_weight]
  set hs := (U.children.map (hashing H)).map fun c => c.info.hash with hhs
  have hsl : hs.length = 3 := rfl
  have hA : upBranch.setWeight (3 / 5) ∈ U.children := by simp [hU, refusedBranch, setWeight, children]
  have hB : prepDead.setWeight 0 ∈ U.children := by simp [hU, refusedBranch, setWeight, children]
  have hC : lostBranch.setWeight (4 / 5) ∈ U.children := by simp [hU, refusedBranch, setWeight, children]
  have h02 : hs.getD 0 0 ≠ hs.getD 2 0 := by
    intro h
    have := (hash_inj (P := Hashed H U) hUcol [2] (upBranch.setWeight (3 / 5)) (lostBranch.setWeight (4 / 5)) (by decide) (hUch _ hA) (hUch _ hC)
      (fun x hx => .deeper hUf hA hx) (fun x hx => .deeper hUf hC hx) h).2 [0] rfl
    rw [ampRel_setWeight, ampRel_setWeight] at this
    simp [ampRel, upBranch, lostBranch, prepLeaf, setWeight, info, children, weight] at this
  have h12 : hs.getD 1 0 ≠ hs.getD 2 0 := by
    intro h
    have := (hash_inj (P := Hashed H U) hUcol [2] (prepDead.setWeight 0) (lostBranch.setWeight (4 / 5)) (by decide) (hUch _ hB) (hUch _ hC)
      (fun x hx => .deeper hUf hB hx) (fun x hx => .deeper hUf hC hx) h).1 (by simp)
    cases this
  have hf2 : firstWith hs 2 = 2 := by
    obtain ⟨h1, h2, _⟩ := firstWith_le (hs := hs) (i := 2) (by rw [hsl]; norm_num)
    rw [hsl] at h1
    generalize firstWith hs 2 = j at *
    interval_cases j
    · exact absurd h2 h02
    · exact absurd h2 h12
    · rfl
  have hred1 : red1 = false := by
    cases hr : red1 with
    | false => rfl
    | true =>
      have h := (ered1.1 hr).2 0 2 (hashing H (upBranch.setWeight (3 / 5))) (hashing H (lostBranch.setWeight (4 / 5))) rfl rfl
        (by rw [hashing_weight, weight_setWeight]; norm_num) (by rw [hashing_weight, weight_setWeight]; norm_num)
      rw [hf2, firstWith_zero] at h
      cases h
  -- the operations of the shared branch
  have hsub : ∀ i : Nat, ∃ sub : List PrepOp, i < 3 → ∃ (j : Nat) (u : MicroDD), ((List.range (U.children.map (hashing H)).length).map (firstWith hs))[i]? = some j ∧
      cs1[j]? = some u ∧ synthesis [2] 2 u ([] ++ [(((1 : Nat) : Int), (i : Int))]) = .ok sub ∧ (∀ o ∈ sub, OpOK (List.ofFn ![2, 3, 2]) o) := by
    intro i
    by_cases hi : i < 3
    swap
    · exact ⟨[], fun h => absurd h hi⟩
    obtain ⟨hj1, _, hj3⟩ := firstWith_le (hs := hs) (i := i) (by rw [hsl]; exact hi)
    have hjl : firstWith hs i < U.children.length := hj1
    obtain ⟨u, hu1, hu2⟩ := efirst1 (firstWith hs i) (hashing H U.children[firstWith hs i]) (by
      rw [List.getElem?_map, List.getElem?_eq_getElem hjl]; rfl) hj3
    obtain ⟨u', h1, h2⟩ := hmain _ (List.getElem_mem hjl)
    have : u' = u := by
      have := h1.symm.trans hu2
      injection this
    subst this
    obtain ⟨sub, s1, _, _, s4, _⟩ := h2 [(((1 : Nat) : Int), (i : Int))] ⟨List.pairwise_singleton _ _, by
      intro p hp
      rw [List.mem_singleton.1 hp]
      exact ⟨1, i, rfl, by norm_num, hi⟩⟩
    refine ⟨sub, fun _ => ⟨firstWith hs i, u', ?_, hu1, s1, fun o ho => (s4 o ho).1⟩⟩
    rw [List.getElem?_map, show (U.children.map (hashing H)).length = 3 from rfl, List.getElem?_range hi, Option.map_some]
  choose sub hsub using hsub
  have hUw : (hashing H U).info.weight = ((3 / 5 : ℝ) : ℂ) := by
    have := hashing_weight H U
    rw [show U.weight = 3 / 5 from rfl] at this
    push_cast
    exact this
  obtain ⟨seq1, hseq1, _, hlev1, _⟩ := localSequence_ok (d := 3) (by norm_num) (U.children.map weight) rfl hUsum (r := 3 / 5) (by norm_num)
  have hsynU : synthesis [3, 2] 1 u0 [] = .ok ((seq1.map fun e => (⟨[], (1 : Nat), e.1, e.2.1, e.2.2⟩ : PrepOp)) ++ ((List.range 3).map sub).flatten) := by
    rw [eagg1]
    refine synthesis_branch (k := 1) sub ?_ (by simp only [hred1]) ?_ ?_ ?_
    · simp only []; rw [hashing_terminal]; rfl
    · simp only []
      intro h
      have := congrArg List.length h
      simp [hU, refusedBranch, setWeight, children] at this
    · rw [hw1]; simp only [hUw]; exact hseq1
    · intro i hi
      obtain ⟨j, u, h1, h2, h3, _⟩ := hsub i hi
      exact ⟨j, u, h1, h2, h3⟩
  obtain ⟨seq0, hseq0, _, hlev0, _⟩ := localSequence_ok (d := 2) (by norm_num) (T.children.map weight) rfl hsum (r := 1) one_pos
  have hTw : (hashing H T).info.weight = ((1 : ℝ) : ℂ) := by
    have := hashing_weight H T
    rw [show T.weight = 1 from rfl] at this
    rw [Complex.ofReal_one]; exact this
  have hsyn := synthesis_reduced (c := 2) (k := 0) (cs := [3, 2]) (ctl := []) (j := 0) (u := u0) (I := { (hashing H T).info with
        index := (List.range (T.children.map (hashing H)).length).map (firstWith ((T.children.map (hashing H)).map fun c => c.info.hash)),
        reduced := some red }) (ch := cs') (seq := seq0) (by simp only []; rw [hashing_terminal]; rfl) (by simp only [hred]) (by
          simp only [hT, children_node, List.map_cons, List.map_nil, List.length_cons, List.length_nil]
          rw [List.getElem?_map, List.getElem?_range (by norm_num), Option.map_some, firstWith_zero]) hu0 (by
          rw [hw']; simp only [hTw]; exact hseq0) hsynU
  -- the refused operation
  obtain ⟨j, u, h1, h2, h3, h4⟩ := hsub 2 (by norm_num)
  have hj2 : j = 2 := by
    rw [List.getElem?_map, List.getElem?_range (by simp [hU, refusedBranch, setWeight, children]), Option.map_some, hf2] at h1
    injection h1 with h1
    exact h1.symm
  subst hj2
  obtain ⟨u', hu'1, hu'2⟩ := efirst1 2 (hashing H (lostBranch.setWeight (4 / 5))) rfl hf2
  rw [h2] at hu'1
  injection hu'1 with hu'1
  subst hu'1
  set V := lostBranch.setWeight (4 / 5) with hV
  have hVf : V.info.terminal = false := rfl
  obtain ⟨cs2, red2, eagg2, ewt2, _, _⟩ := aggregate_live (k := 0) (t := hashing H V) (by rw [hashing_terminal]; rfl)
    (by rw [hashing_index]; rfl) (fun c _ => ⟨c, by rw [aggregate]⟩)
    ⟨1, hashing H ((prepLeaf 1).setWeight 1), by rw [hashing_children H hVf]; rfl, by
        rw [hashing_weight, weight_setWeight]; norm_num⟩
  rw [show (0 + 1 : Nat) = 1 from rfl, hu'2] at eagg2
  injection eagg2 with eagg2
  have hw2 : cs2.map weight = [0, 1] := by
    rw [ewt2, hashing_children H hVf, List.map_map]
    simp only [Function.comp_def, hashing_weight]
    rfl
  obtain ⟨seq2, hseq2, _, _, _⟩ := localSequence_ok (d := 2) (by norm_num) [0, 1] rfl (by simp) (r := 4 / 5) (by norm_num)
  have hVw : (hashing H V).info.weight = ((4 / 5 : ℝ) : ℂ) := by
    have := hashing_weight H V
    rw [show V.weight = 4 / 5 from rfl] at this
    push_cast
    exact this
  obtain ⟨e, he, hth⟩ := localSequence_flip hseq2
  rw [eagg2] at h3
  have hin := synthesis_prefix (seq := seq2) (by
    change (hashing H V).info.terminal = false
    rw [hashing_terminal]; rfl) (by
    rw [hw2]
    change localSequence 2 (hashing H V).info.weight [0, 1] = .ok seq2
    rw [hVw]; exact hseq2) h3 e he
  set o : PrepOp := ⟨[] ++ [(((1 : Nat) : Int), ((2 : Nat) : Int))], (2 : Nat), e.1, e.2.1, e.2.2⟩ with ho
  have hbad : ∀ gs, instrOf [2, 3, 2] del o ≠ .ok gs := by
    intro gs hgs
    have hb := (instrOf_ok_iff (d := ![2, 3, 2]) hd (h4 o hin) del).1 ⟨gs, hgs⟩ (by
      simp only [ho, hth]
      rw [abs_neg, abs_of_pos Real.pi_pos]
      linarith [Real.two_le_pi]) 0 ((1 : Int), (2 : Int)) rfl
    obtain ⟨m, hm1, hm2⟩ := hb
    have : m = 2 := by
      have : (some 2 : Option Nat) = some m := hm1
      injection this with this
      exact this.symm
    subst this
    norm_num at hm2
  have herr : ∀ l : List PrepOp, o ∈ l → ∃ e, l.mapM (instrOf [2, 3, 2] del) = .error e := by
    intro l hl
    cases hm : l.mapM (instrOf [2, 3, 2] del) with
    | error e => exact ⟨e, rfl⟩
    | ok outs =>
      exfalso
      induction l generalizing outs with
      | nil => cases hl
      | cons a l ih =>
        rw [List.mapM_cons] at hm
        cases e1 : instrOf [2, 3, 2] del a with
        | error e => rw [e1] at hm; cases hm
        | ok gs =>
        rw [e1] at hm
        cases e2 : l.mapM (instrOf [2, 3, 2] del) with
        | error e => simp only [bind, Except.bind, e2] at hm; cases hm
        | ok rest =>
        rcases List.mem_cons.1 hl with h | h
        · rw [← h] at e1; exact hbad gs e1
        · exact ih h rest e2
  obtain ⟨err, herr⟩ := herr _ (List.mem_append_right (seq0.map fun e => (⟨[], (0 : Nat), e.1, e.2.1, e.2.2⟩ : PrepOp))
    (List.mem_append_right (seq1.map fun e => (⟨[], (1 : Nat), e.1, e.2.1, e.2.2⟩ : PrepOp))
    (List.mem_flatten.2 ⟨sub 2, List.mem_map.2 ⟨2, List.mem_range.2 (show 2 < 3 by norm_num), rfl⟩, hin⟩)))
  refine ⟨err, ?_⟩
  unfold compileState create fromTree
  rw [build_refused]
  simp only [bind, Except.bind]
  rw [← hT, show ([2, 3, 2] : List Nat).length = 2 + 1 from rfl, eagg]
  simp only [hsyn, herr]

end Qudits
