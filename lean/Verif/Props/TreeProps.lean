import Verif.Lemmas.DfsTree
import Mathlib.Tactic.NormNum
import Mathlib.Data.List.Induction
import Mathlib.Data.List.Nodup
/- C37: the tree of partial decompositions. -/
namespace Qudits
open Tree Spec
variable {α γ : Type}

/-! ### retrieving a decomposition -/

/-- `retrieve_decomposition` of any tree. A decomposition is found exactly if some node is marked as finished. Without one the answer is
empty, with the placement of the root. Otherwise the answer is the branch, ending in a finished node, of least cost, the leftmost of
these; its costs and placement are those of its last node. The exception is a tree in which a node with children is finished but none
below it is: then an exception is raised. -/
theorem C37_retrieve (t : Tree α γ) :
    ((retrieve t).1.top.finished = true ↔ Finished t) ∧
    (¬ Finished t → (retrieve t).2 = .ok ⟨[], none, t.top.graph⟩) ∧
    (Stuck t → (retrieve t).2 = .error .valueError) ∧
    (Finished t → ¬ Stuck t → ∃ pre p suf l, branches t = pre ++ p :: suf ∧ p.getLast? = some l ∧ l.finished = true ∧
      (retrieve t).2 = .ok ⟨p.map marked, some (l.cost, l.dcost), l.graph⟩ ∧
      (∀ q ∈ pre, ∀ x, EndsAt q x → l.cost < x) ∧ ∀ q ∈ suf, ∀ x, EndsAt q x → l.cost ≤ x) := by
  have h0 := found_top t
  refine ⟨h0, ?_, ?_, ?_⟩
  · intro h
    have : (foundChecker t).top.finished = false := by
      cases e : (foundChecker t).top.finished
      · rfl
      · exact absurd (h0.1 e) h
    unfold retrieve
    simp only [this, Bool.not_false, if_true]
    rw [found_keeps]
  · intro hs
    have hf : Finished t := by
      by_contra hn
      exact stuck_finished t hs fun x hx => by
        cases e : x.finished
        · rfl
        · exact absurd ⟨x, hx, e⟩ hn
    unfold retrieve
    simp only [h0.2 hf, Bool.not_true, Bool.false_eq_true, if_false]
    rw [(minCost_eq t hf).1 hs]
    rfl
  · intro hf hs
    obtain ⟨k1, k2⟩ := (minCost_eq t hf).2 hs
    obtain ⟨x, xs, hx⟩ := List.exists_cons_of_ne_nil k2
    obtain ⟨pre, m, suf, h1, h2, h3, h4⟩ := pyMin_spec x xs
    rw [← hx] at h1 h2
    unfold fins at h1
    obtain ⟨a, b, e1, e2, e3⟩ := List.filterMap_eq_append_iff.1 h1
    obtain ⟨a', p, b', e4, e5, e6, e7⟩ := List.filterMap_eq_cons_iff.1 e3
    have hp : ∃ l, p.getLast? = some l ∧ l.finished = true ∧ m = ⟨p.map marked, (l.cost, l.dcost), l.graph⟩ := by
      unfold toFound at e6
      cases e : p.getLast? with
      | none => rw [e] at e6; cases e6
      | some l =>
        rw [e] at e6
        simp only [] at e6
        split at e6
        · rename_i hl
          exact ⟨l, rfl, hl, (Option.some.inj e6).symm⟩
        · cases e6
    obtain ⟨l, l1, l2, l3⟩ := hp
    have hq : ∀ (q : List (TNode α γ)) (x : ℝ), EndsAt q x → ∃ y, toFound q = some y ∧ y.cost.1 = x := by
      rintro q x ⟨l', q1, q2, q3⟩
      refine ⟨⟨q.map marked, (l'.cost, l'.dcost), l'.graph⟩, ?_, q3⟩
      unfold toFound
      rw [q1]
      simp [q2]
    have hm : m.cost.1 = l.cost := by rw [l3]
    refine ⟨a ++ a', p, b', l, by rw [e1, e4, List.append_assoc], l1, l2, ?_, ?_, ?_⟩
    · unfold retrieve
      simp only [h0.2 hf, Bool.not_true, Bool.false_eq_true, if_false]
      rw [k1, h2, l3]
      rfl
    · intro q hqm x hx
      obtain ⟨y, y1, y2⟩ := hq q x hx
      rw [← hm, ← y2]
      rcases List.mem_append.1 hqm with hqm | hqm
      · exact h3 y (by rw [← e2]; exact List.mem_filterMap.2 ⟨q, hqm, y1⟩)
      · rw [e5 q hqm] at y1
        cases y1
    · intro q hqm x hx
      obtain ⟨y, y1, y2⟩ := hq q x hx
      rw [← hm, ← y2]
      exact h4 y (by rw [← e7]; exact List.mem_filterMap.2 ⟨q, hqm, y1⟩)

/-- If only nodes without children are marked, as the search does, no exception is raised. -/
theorem C37_marked_leaves (t : Tree α γ) (h : ∀ p ∈ branches t, ∀ r ∈ p.dropLast, r.finished = false) : ¬ Stuck t := by
  suffices hs : ∀ n, ∀ cs : List (Tree α γ), (nodesL cs).length ≤ n → (∀ p ∈ branchesL cs, ∀ r ∈ p.dropLast, r.finished = false) → ¬ StuckL cs by
    intro hst
    refine hs _ [t] le_rfl ?_ ?_
    · simpa [branchesL] using h
    · rw [StuckL]; exact Or.inl hst
  intro n
  induction n with
  | zero =>
    intro cs hn _ hst
    cases cs with
    | nil => simp [StuckL] at hst
    | cons c cs =>
      cases c
      rw [nodesL, nodes] at hn
      simp at hn
  | succ n ih =>
    intro cs hn hb hst
    cases cs with
    | nil => simp [StuckL] at hst
    | cons c cs =>
      cases c with
      | node r ds =>
      rw [nodesL, nodes] at hn
      simp only [List.cons_append, List.length_cons, List.length_append] at hn
      rw [branchesL] at hb
      rw [StuckL, Stuck] at hst
      rcases hst with (⟨h1, h2, _⟩ | hst) | hst
      · obtain ⟨d, ds, rfl⟩ := List.exists_cons_of_ne_nil h1
        obtain ⟨p, hp⟩ := List.exists_mem_of_ne_nil _ (branches_ne d)
        have hp2 : r :: p ∈ branches (.node r (d :: ds)) := by
          rw [branches, branchesL]
          exact List.mem_map_of_mem (List.mem_append_left _ hp)
        obtain ⟨y, ys, rfl⟩ := List.exists_cons_of_ne_nil (branch_ne d p hp)
        have := hb _ (List.mem_append_left _ hp2) r (by simp)
        rw [this] at h2
        cases h2
      · refine ih ds (by omega) ?_ hst
        intro p hp x hx
        cases ds with
        | nil => cases hp
        | cons d ds =>
          have hp2 : r :: p ∈ branches (.node r (d :: ds)) := by
            rw [branches]
            exact List.mem_map_of_mem hp
          obtain ⟨y, ys, rfl⟩ := List.exists_cons_of_ne_nil (branchL_ne _ p hp)
          exact hb _ (List.mem_append_left _ hp2) x (by
            rw [List.dropLast_cons₂]
            exact List.mem_cons_of_mem _ hx)
      · exact ih cs (by omega) (fun p hp => hb p (List.mem_append_right _ hp)) hst

/-! ### building a tree -/

/-- `add` with a parent key: it succeeds exactly if the key is in the tree. Then there is one node more, below that parent, nothing else
changes, and the size grows by one. -/
theorem C37_add (t : NAryTree α γ) (root : Tree α γ) (hr : t.root = some root) (hl : Linked root) (a : NAryTree.AddArgs α γ) (p : Int)
    (hp : a.parent = some p) :
    ((∃ r ∈ nodes root, r.key = p) → ∃ root', t.add a = .ok ⟨some root', t.size + 1⟩ ∧ Linked root' ∧
      ((nodes root').map bare).Perm (⟨a.key, a.data, a.graph, a.cost, a.dcost, false, 0, a.parent⟩ :: (nodes root).map bare)) ∧
    ((∀ r ∈ nodes root, r.key ≠ p) → t.add a = .error .nodeNotFound) := by
  have h1 := modifyNode_some p (nodeAdd a.key a.data a.graph a.cost a.dcost) root
  have h2 := congrArg Option.isSome (findNode_eq p root)
  rw [Option.isSome_map] at h2
  unfold NAryTree.add
  rw [hp]
  simp only []
  rw [hr]
  simp only []
  refine ⟨?_, ?_⟩
  · rintro ⟨r, hr1, hr2⟩
    have : ((nodes root).find? fun r => r.key == p).isSome = true := by
      rw [List.find?_isSome]
      exact ⟨r, hr1, by simp [hr2]⟩
    rw [← h2, ← h1] at this
    obtain ⟨root', e⟩ := Option.isSome_iff_exists.1 this
    obtain ⟨k1, _, _, k4⟩ := modify_add p a.key a.data a.graph a.cost a.dcost root root' hl e
    rw [e]
    exact ⟨root', rfl, k1, k4⟩
  · intro h
    have : ((nodes root).find? fun r => r.key == p).isSome = false := by
      rw [Bool.eq_false_iff]
      intro hs
      obtain ⟨r, hr1, hr2⟩ := List.find?_isSome.1 hs
      exact h r hr1 (by simpa using hr2)
    rw [← h2, ← h1] at this
    cases e : modifyNode p (nodeAdd a.key a.data a.graph a.cost a.dcost) root with
    | none => rfl
    | some x => rw [e] at this; cases this

/-- After any history of `add` calls: the nodes of the tree are those added since the last call without a parent, the size and
`total_size` are their number, `is_empty` is false, and every node knows its parent and the number of its children. -/
theorem C37_history (old : List (NAryTree.AddArgs α γ)) (a : NAryTree.AddArgs α γ) (rest : List (NAryTree.AddArgs α γ))
    (ha : a.parent = none) (hrest : ∀ b ∈ rest, b.parent ≠ none) (t : NAryTree α γ)
    (h : (old ++ a :: rest).foldlM NAryTree.add (⟨none, 0⟩ : NAryTree α γ) = .ok t) :
    ∃ root, t.root = some root ∧ t.size = rest.length + 1 ∧ t.isEmpty = false ∧ (∃ t', t.totalSize = .ok (t', rest.length + 1)) ∧
      Linked root ∧ (nodes root).length = rest.length + 1 ∧
      ((nodes root).map bare).Perm ((a :: rest).map fun b => ⟨b.key, b.data, b.graph, b.cost, b.dcost, false, 0, b.parent⟩) := by
  suffices hs : ∀ rest : List (NAryTree.AddArgs α γ), (∀ b ∈ rest, b.parent ≠ none) → ∀ t, (old ++ a :: rest).foldlM NAryTree.add (⟨none, 0⟩ : NAryTree α γ) = .ok t →
      ∃ root, t.root = some root ∧ t.size = rest.length + 1 ∧ Linked root ∧
      ((nodes root).map bare).Perm ((a :: rest).map fun b => ⟨b.key, b.data, b.graph, b.cost, b.dcost, false, 0, b.parent⟩) by
    obtain ⟨root, h1, h2, h3, h4⟩ := hs rest hrest t h
    have h5 : (nodes root).length = rest.length + 1 := by simpa using h4.length_eq
    refine ⟨root, h1, h2, ?_, ?_, h3, h5, h4⟩
    · unfold NAryTree.isEmpty
      rw [h2]
      rfl
    · unfold NAryTree.totalSize
      rw [h1]
      simp only []
      rw [sizeRefresh_eq, h5]
      exact ⟨_, rfl⟩
  clear h t hrest rest
  intro rest
  induction rest using List.reverseRecOn with
  | nil =>
    intro _ t h
    rw [List.foldlM_append] at h
    simp only [bind, Except.bind, List.foldlM_cons, List.foldlM_nil, pure, Except.pure] at h
    cases e : old.foldlM NAryTree.add (⟨none, 0⟩ : NAryTree α γ) with
    | error x => rw [e] at h; cases h
    | ok s =>
      rw [e] at h
      simp only [NAryTree.add, ha] at h
      cases h
      exact ⟨_, rfl, rfl, by simp [Tree.new, Linked, LinkedL], by simp [Tree.new, nodes, nodesL, bare, ha]⟩
  | append_singleton rest b ih =>
    intro hrest t h
    rw [← List.cons_append, ← List.append_assoc, List.foldlM_append] at h
    simp only [bind, Except.bind, List.foldlM_cons, List.foldlM_nil, pure, Except.pure] at h
    cases e : (old ++ a :: rest).foldlM NAryTree.add (⟨none, 0⟩ : NAryTree α γ) with
    | error x => rw [e] at h; cases h
    | ok s =>
      rw [e] at h
      simp only [] at h
      obtain ⟨root, h1, h2, h3, h4⟩ := ih (fun b hb => hrest b (List.mem_append_left _ hb)) s e
      obtain ⟨p, hp⟩ := Option.ne_none_iff_exists'.1 (hrest b (by simp))
      obtain ⟨k1, k2⟩ := C37_add s root h1 h3 b p hp
      by_cases hk : ∃ r ∈ nodes root, r.key = p
      · obtain ⟨root', l1, l2, l3⟩ := k1 hk
        rw [l1] at h
        simp only [Except.ok.injEq] at h
        subst h
        refine ⟨root', rfl, by simp [h2], l2, l3.trans ?_⟩
        rw [← List.cons_append, List.map_append]
        refine (List.Perm.cons _ h4).trans ?_
        exact (List.perm_append_comm (l₁ := [_]))
      · rw [k2 fun r hr hc => hk ⟨r, hr, hc⟩] at h
        simp at h

/-- `find_node` returns the first node with the key, none exactly if the key is not there. -/
theorem C37_find (key : Int) (t : Tree α γ) : (findNode key t).map top = (nodes t).find? fun r => r.key == key := findNode_eq key t

/-- Keys that were inserted once are found with what was inserted. -/
theorem C37_find_unique (key : Int) (t : Tree α γ) (h : ((nodes t).map TNode.key).Nodup) (r : TNode α γ) (hr : r ∈ nodes t) (hk : r.key = key) :
    (findNode key t).map top = some r := by
  rw [findNode_eq]
  cases e : (nodes t).find? fun r => r.key == key with
  | none =>
    rw [List.find?_eq_none] at e
    exact absurd (by simpa using hk) (e r hr)
  | some x =>
    have h1 := List.mem_of_find?_eq_some e
    have h2 := List.find?_some e
    rw [List.inj_on_of_nodup_map h h1 hr (by rw [hk]; simpa using h2)]

/-- `total_size` is the number of nodes and `depth` the number of steps of a longest way down, for every tree. -/
theorem C37_total_size (root : Tree α γ) (n : Nat) : ∃ t', (NAryTree.totalSize ⟨some root, n⟩) = .ok (t', (nodes root).length) := by
  rw [← sizeRefresh_eq]
  exact ⟨_, rfl⟩

theorem C37_depth (t : Tree α γ) : (∃ p ∈ branches t, p.length = maxDepth t + 1) ∧ ∀ p ∈ branches t, p.length ≤ maxDepth t + 1 := maxDepth_spec t

/-! ### where the claim fails -/

/-- Asking for `total_size` makes a tree of one node say that it is empty. -/
theorem C37_size_violated : ∃ t t' : NAryTree Unit Unit, ∃ n, t.isEmpty = false ∧ t.totalSize = .ok (t', n) ∧ n = 1 ∧ t'.isEmpty = true :=
  ⟨⟨some (Tree.new 0 () () 0 0 none), 1⟩, ⟨some (Tree.new 0 () () 0 0 none), 0⟩, 1, by
    simp [NAryTree.isEmpty, NAryTree.totalSize, Tree.new, sizeRefresh]⟩

/-- A node that is finished although the search went on below it makes `retrieve_decomposition` raise. -/
theorem C37_inner_finished_violated : ∃ t : Tree Unit Unit, Finished t ∧ (retrieve t).2 = .error .valueError := by
  refine ⟨.node ⟨0, (), (), 0, 0, true, 1, none⟩ [Tree.new 1 () () 1 1 (some 0)], ⟨⟨0, (), (), 0, 0, true, 1, none⟩, by simp [nodes], rfl⟩, ?_⟩
  apply (C37_retrieve _).2.2.1
  simp [Stuck, nodesL, nodes, Tree.new]

/-! ### examples -/

/-- a root with two finished children -/
noncomputable def sampleTree : Tree Unit Nat :=
  .node ⟨0, (), 0, 0, 0, false, 2, none⟩
    [.node ⟨1, (), 1, 5, 1, true, 0, some 0⟩ [], .node ⟨2, (), 2, 3, 1, true, 0, some 0⟩ []]

example : ∃ m, (retrieve sampleTree).2 = .ok m ∧ m.graph = 2 ∧ m.cost = some (3, 1) := by
  have hs : ¬ Stuck sampleTree := by simp [sampleTree, Stuck, StuckL, nodesL, nodes]
  obtain ⟨pre, p, suf, l, h1, h2, h3, h4, h5, h6⟩ := (C37_retrieve sampleTree).2.2.2 ⟨⟨1, (), 1, 5, 1, true, 0, some 0⟩, by simp [sampleTree, nodes, nodesL], rfl⟩ hs
  have hb : branches sampleTree = [[⟨0, (), 0, 0, 0, false, 2, none⟩, ⟨1, (), 1, 5, 1, true, 0, some 0⟩],
      [⟨0, (), 0, 0, 0, false, 2, none⟩, ⟨2, (), 2, 3, 1, true, 0, some 0⟩]] := by
    simp [sampleTree, branches, branchesL]
  rw [hb] at h1
  match pre, h1, h5 with
  | [], h1, _ =>
    simp only [List.nil_append, List.cons.injEq] at h1
    obtain ⟨rfl, rfl⟩ := h1
    simp only [List.getLast?_cons_cons, List.getLast?_singleton, Option.some.injEq] at h2
    have := h6 _ List.mem_cons_self 3 ⟨_, rfl, rfl, rfl⟩
    rw [← h2] at this
    norm_num at this
  | [x], h1, _ =>
    simp only [List.cons_append, List.nil_append, List.cons.injEq] at h1
    obtain ⟨_, rfl, _⟩ := h1
    simp only [List.getLast?_cons_cons, List.getLast?_singleton, Option.some.injEq] at h2
    rw [h4, ← h2]
    exact ⟨_, rfl, rfl, rfl⟩
  | x :: y :: pre, h1, _ => simp at h1

example : ∃ t, [(⟨7, (), (), 0, 0, none⟩ : NAryTree.AddArgs Unit Unit), ⟨8, (), (), 0, 0, some 7⟩].foldlM NAryTree.add ⟨none, 0⟩ = .ok t ∧
    t.size = 2 := by
  refine ⟨⟨some (.node ⟨7, (), (), 0, 0, false, 1, none⟩ [Tree.new 8 () () 0 0 (some 7)]), 2⟩, ?_, rfl⟩
  simp [List.foldlM_cons, NAryTree.add, bind, Except.bind, pure, Except.pure, Tree.new, modifyNode, nodeAdd]

end Qudits
