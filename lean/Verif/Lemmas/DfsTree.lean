import Verif.Spec.TreeSpec
import Mathlib.Tactic.Linarith
/- Auxiliary lemmas for trees of decompositions. -/
namespace Qudits
open Tree Spec
variable {α γ : Type}

/-! ### sizes and depths -/

mutual
theorem sizeRefresh_eq : ∀ t : Tree α γ, sizeRefresh t + 1 = (nodes t).length
  | .node r cs => by
    have := sizes_eq cs
    rw [sizeRefresh, nodes, List.length_cons]
    split
    · rename_i h
      rw [List.length_eq_zero_iff] at h
      subst h
      rfl
    · omega
theorem sizes_eq : ∀ cs : List (Tree α γ), cs.length + sizes cs = (nodesL cs).length
  | [] => rfl
  | c :: cs => by
    have h1 := sizeRefresh_eq c
    have h2 := sizes_eq cs
    rw [sizes, nodesL, List.length_append, List.length_cons]
    omega
end

theorem foldl_max_spec (l : List Nat) (a : Nat) : (a ≤ l.foldl max a) ∧ (∀ x ∈ l, x ≤ l.foldl max a) ∧ (l.foldl max a = a ∨ l.foldl max a ∈ l) := by
  induction l generalizing a with
  | nil => simp
  | cons x l ih =>
    obtain ⟨h1, h2, h3⟩ := ih (max a x)
    refine ⟨by simp only [List.foldl_cons]; omega, ?_, ?_⟩
    · intro y hy
      simp only [List.foldl_cons]
      rcases List.mem_cons.1 hy with rfl | hy
      · omega
      · exact h2 y hy
    · simp only [List.foldl_cons]
      rcases h3 with h3 | h3
      · rcases max_cases a x with ⟨h, _⟩ | ⟨h, _⟩
        · left; rw [h3, h]
        · right; rw [h3, h]; exact List.mem_cons_self
      · right; exact List.mem_cons_of_mem _ h3

mutual
theorem branches_ne : ∀ t : Tree α γ, branches t ≠ []
  | .node r [] => by simp [branches]
  | .node r (c :: cs) => by
    have := branches_ne c
    simp [branches, branchesL, this]
end

mutual
theorem maxDepth_spec : ∀ t : Tree α γ, (∃ p ∈ branches t, p.length = maxDepth t + 1) ∧ ∀ p ∈ branches t, p.length ≤ maxDepth t + 1
  | .node r [] => by simp [branches, maxDepth]
  | .node r (c :: cs) => by
    have h := depths_spec (c :: cs)
    obtain ⟨k1, k2, k3⟩ := foldl_max_spec (depths (c :: cs)) 0
    have hd : maxDepth (.node r (c :: cs)) = 1 + (depths (c :: cs)).foldl max 0 := by rw [maxDepth]; simp
    rw [branches, hd]
    have hm : (depths (c :: cs)).foldl max 0 ∈ depths (c :: cs) := by
      rcases k3 with k3 | k3
      · have : maxDepth c ≤ (depths (c :: cs)).foldl max 0 := k2 _ (by rw [depths]; exact List.mem_cons_self)
        have e : maxDepth c = (depths (c :: cs)).foldl max 0 := by omega
        rw [← e, depths]
        exact List.mem_cons_self
      · exact k3
    refine ⟨?_, ?_⟩
    · obtain ⟨p, hp, hl⟩ := h.1 _ hm
      exact ⟨r :: p, List.mem_map.2 ⟨p, hp, rfl⟩, by rw [List.length_cons, hl]; omega⟩
    · intro p hp
      obtain ⟨q, hq, rfl⟩ := List.mem_map.1 hp
      obtain ⟨x, hx, hl⟩ := h.2 q hq
      have := k2 x hx
      rw [List.length_cons]
      omega
theorem depths_spec : ∀ cs : List (Tree α γ), (∀ x ∈ depths cs, ∃ p ∈ branchesL cs, p.length = x + 1) ∧
    ∀ p ∈ branchesL cs, ∃ x ∈ depths cs, p.length ≤ x + 1
  | [] => by simp [depths, branchesL]
  | c :: cs => by
    have h1 := maxDepth_spec c
    have h2 := depths_spec cs
    rw [depths, branchesL]
    refine ⟨?_, ?_⟩
    · intro x hx
      rcases List.mem_cons.1 hx with rfl | hx
      · obtain ⟨p, hp, hl⟩ := h1.1
        exact ⟨p, List.mem_append_left _ hp, hl⟩
      · obtain ⟨p, hp, hl⟩ := h2.1 x hx
        exact ⟨p, List.mem_append_right _ hp, hl⟩
    · intro p hp
      rcases List.mem_append.1 hp with hp | hp
      · exact ⟨_, List.mem_cons_self, h1.2 p hp⟩
      · obtain ⟨x, hx, hl⟩ := h2.2 p hp
        exact ⟨x, List.mem_cons_of_mem _ hx, hl⟩
end

/-! ### finding nodes -/

theorem top_mem (t : Tree α γ) : t.top ∈ nodes t := by
  cases t
  rw [nodes]
  exact List.mem_cons_self

mutual
theorem findNode_eq (k : Int) : ∀ t : Tree α γ, (findNode k t).map top = (nodes t).find? fun r => r.key == k
  | .node r cs => by
    rw [findNode, nodes, List.find?_cons]
    by_cases h : r.key = k
    · rw [if_pos h, beq_iff_eq.2 h]
      rfl
    · rw [if_neg h, findList_eq k cs, beq_eq_false_iff_ne.2 h]
theorem findList_eq (k : Int) : ∀ cs : List (Tree α γ), (findList k cs).map top = (nodesL cs).find? fun r => r.key == k
  | [] => rfl
  | c :: cs => by
    have h1 := findNode_eq k c
    have h2 := findList_eq k cs
    rw [findList, nodesL, List.find?_append, ← h1, ← h2]
    cases findNode k c <;> simp
end

mutual
theorem modifyNode_some (k : Int) (f : Tree α γ → Tree α γ) : ∀ t : Tree α γ, (modifyNode k f t).isSome = (findNode k t).isSome
  | .node r cs => by
    rw [modifyNode, findNode]
    split
    · rfl
    · rw [Option.isSome_map, modifyList_some k f cs]
theorem modifyList_some (k : Int) (f : Tree α γ → Tree α γ) : ∀ cs : List (Tree α γ), (modifyList k f cs).isSome = (findList k cs).isSome
  | [] => rfl
  | c :: cs => by
    have h1 := modifyNode_some k f c
    have h2 := modifyList_some k f cs
    rw [modifyList, findList]
    cases e : modifyNode k f c with
    | some x =>
      rw [e] at h1
      cases e2 : findNode k c with
      | some y => rfl
      | none => rw [e2] at h1; cases h1
    | none =>
      rw [e] at h1
      cases e2 : findNode k c with
      | some y => rw [e2] at h1; cases h1
      | none => simp only []; rw [Option.isSome_map, h2]
end

theorem nodesL_append (xs ys : List (Tree α γ)) : nodesL (xs ++ ys) = nodesL xs ++ nodesL ys := by
  induction xs with
  | nil => rfl
  | cons x xs ih => rw [List.cons_append, nodesL, nodesL, ih, List.append_assoc]

theorem linkedL_iff (cs : List (Tree α γ)) : LinkedL cs ↔ ∀ c ∈ cs, Linked c := by
  induction cs with
  | nil => simp [LinkedL]
  | cons c cs ih => rw [LinkedL, ih]; simp

mutual
theorem modify_add (k : Int) (key : Int) (data : α) (graph : γ) (cost dcost : ℝ) : ∀ t t' : Tree α γ, Linked t →
    modifyNode k (nodeAdd key data graph cost dcost) t = some t' →
    Linked t' ∧ t'.top.key = t.top.key ∧ t'.top.parent = t.top.parent ∧
    ((nodes t').map bare).Perm (⟨key, data, graph, cost, dcost, false, 0, some k⟩ :: (nodes t).map bare)
  | .node r cs, t', hl, h => by
    rw [modifyNode] at h
    rw [Linked] at hl
    obtain ⟨l1, l2, l3⟩ := hl
    split at h
    · rename_i hk
      cases h
      have hcs : (if r.size = 0 then [] else cs) = cs := by
        split
        · rename_i h0
          rw [h0] at l1
          exact (List.length_eq_zero_iff.1 l1.symm).symm
        · rfl
      rw [nodeAdd, hcs]
      refine ⟨?_, rfl, rfl, ?_⟩
      · rw [Linked]
        refine ⟨by simp [l1], ?_, ?_⟩
        · intro c hc
          rcases List.mem_append.1 hc with hc | hc
          · exact l2 c hc
          · rw [List.mem_singleton.1 hc]; rfl
        · rw [linkedL_iff]
          intro c hc
          rcases List.mem_append.1 hc with hc | hc
          · exact (linkedL_iff cs).1 l3 c hc
          · rw [List.mem_singleton.1 hc, Tree.new, Linked]
            simp [LinkedL]
      · rw [nodes, nodes, nodesL_append]
        simp only [List.map_cons, List.map_append]
        subst hk
        have : (nodesL [Tree.new key data graph cost dcost (some r.key)]).map bare =
            [(⟨key, data, graph, cost, dcost, false, 0, some r.key⟩ : TNode α γ)] := rfl
        rw [this]
        refine List.Perm.trans ?_ (List.Perm.swap _ _ _)
        exact List.Perm.cons (bare r) (List.perm_append_comm)
    · obtain ⟨cs', h1, rfl⟩ := Option.map_eq_some_iff.1 h
      obtain ⟨k1, k2, k3⟩ := modify_addL k key data graph cost dcost cs cs' l3 h1
      refine ⟨?_, rfl, rfl, ?_⟩
      · rw [Linked]
        have hlen : (cs'.map fun c => (c.top.key, c.top.parent)).length = (cs.map fun c => (c.top.key, c.top.parent)).length := by rw [k2]
        rw [List.length_map, List.length_map] at hlen
        refine ⟨by rw [l1, hlen], ?_, k1⟩
        intro c hc
        have : (c.top.key, c.top.parent) ∈ cs'.map fun c => (c.top.key, c.top.parent) := List.mem_map_of_mem hc
        rw [k2] at this
        obtain ⟨c', hc', e⟩ := List.mem_map.1 this
        rw [← (Prod.mk.inj e).2]
        exact l2 c' hc'
      · rw [nodes, nodes, List.map_cons, List.map_cons]
        exact (List.Perm.cons _ k3).trans (List.Perm.swap _ _ _)
theorem modify_addL (k : Int) (key : Int) (data : α) (graph : γ) (cost dcost : ℝ) : ∀ cs cs' : List (Tree α γ), LinkedL cs →
    modifyList k (nodeAdd key data graph cost dcost) cs = some cs' →
    LinkedL cs' ∧ (cs'.map fun c => (c.top.key, c.top.parent)) = (cs.map fun c => (c.top.key, c.top.parent)) ∧
    ((nodesL cs').map bare).Perm (⟨key, data, graph, cost, dcost, false, 0, some k⟩ :: (nodesL cs).map bare)
  | [], _, _, h => by cases h
  | c :: cs, cs', hl, h => by
    rw [LinkedL] at hl
    rw [modifyList] at h
    cases e : modifyNode k (nodeAdd key data graph cost dcost) c with
    | some c' =>
      rw [e] at h
      cases h
      obtain ⟨k1, k2, k3, k4⟩ := modify_add k key data graph cost dcost c c' hl.1 e
      refine ⟨by rw [LinkedL]; exact ⟨k1, hl.2⟩, by simp [k2, k3], ?_⟩
      rw [nodesL, nodesL, List.map_append, List.map_append]
      exact List.Perm.append_right _ k4
    | none =>
      rw [e] at h
      simp only [] at h
      obtain ⟨cs'', h1, rfl⟩ := Option.map_eq_some_iff.1 h
      obtain ⟨k1, k2, k3⟩ := modify_addL k key data graph cost dcost cs cs'' hl.2 h1
      refine ⟨by rw [LinkedL]; exact ⟨hl.1, k1⟩, by simp [k2], ?_⟩
      rw [nodesL, nodesL, List.map_append, List.map_append]
      exact (List.Perm.append_left _ k3).trans List.perm_middle
end

/-! ### the cheapest branch -/

/-- the answer for a branch -/
def toFound (p : List (TNode α γ)) : Option (Found α γ) :=
  match p.getLast? with
  | some l => if l.finished then some ⟨p.map marked, (l.cost, l.dcost), l.graph⟩ else none
  | none => none

/-- the answers for all branches -/
def fins (t : Tree α γ) : List (Found α γ) := (branches t).filterMap toFound
def finsL (cs : List (Tree α γ)) : List (Found α γ) := (branchesL cs).filterMap toFound

/-- the cheaper one -/
noncomputable def less (b y : Found α γ) : Found α γ := if y.cost.1 < b.cost.1 then y else b

theorem less_assoc (a b c : Found α γ) : less (less a b) c = less a (less b c) := by
  unfold less
  split_ifs <;> first | rfl | (exfalso; linarith)

theorem foldl_less (x : Found α γ) (ys : List (Found α γ)) (z : Found α γ) (zs : List (Found α γ)) :
    (z :: zs).foldl less (ys.foldl less x) = less (ys.foldl less x) (zs.foldl less z) := by
  induction zs generalizing z with
  | nil => rfl
  | cons w zs ih =>
    have := ih (less z w)
    simp only [List.foldl_cons] at this ⊢
    rw [less_assoc, this]

theorem pyMin_append (x : Found α γ) (xs zs : List (Found α γ)) (m : Found α γ) (hz : pyMin zs = .ok m) :
    pyMin ((x :: xs) ++ zs) = .ok (less (xs.foldl less x) m) := by
  cases zs with
  | nil => cases hz
  | cons z zs =>
    cases hz
    refine (congrArg Except.ok (List.foldl_append (f := less) (b := x) (l := xs) (l' := z :: zs))).trans ?_
    exact congrArg _ (foldl_less x xs z zs)

/-- `P` holds for all: the list that remains, and the answer is the same -/
theorem pyMin_cons_ok (x : Found α γ) (ms : List (Found α γ)) (m : Found α γ) (h : pyMin ms = .ok m) : pyMin (x :: ms) = .ok (less x m) := by
  have := pyMin_append x [] ms m h
  exact this

theorem pyMin_map (f : Found α γ → Found α γ) (hf : ∀ x, (f x).cost = x.cost) (l : List (Found α γ)) :
    pyMin (l.map f) = (pyMin l).map f := by
  cases l with
  | nil => rfl
  | cons x xs =>
    show Except.ok _ = Except.ok _
    congr 1
    induction xs generalizing x with
    | nil => rfl
    | cons y ys ih =>
      rw [List.map_cons, List.foldl_cons, List.foldl_cons, ← ih]
      congr 1
      rw [hf, hf]
      split_ifs <;> rfl

theorem branches_last {r : TNode α γ} {p : List (TNode α γ)} (hp : p ≠ []) : (r :: p).getLast? = p.getLast? := by
  cases p with
  | nil => exact absurd rfl hp
  | cons x p => simp [List.getLast?_cons_cons]

mutual
theorem branch_ne : ∀ (t : Tree α γ), ∀ p ∈ branches t, p ≠ []
  | .node r [], p, hp => by
    rw [branches] at hp
    rw [List.mem_singleton.1 hp]
    simp
  | .node r (c :: cs), p, hp => by
    rw [branches] at hp
    obtain ⟨q, _, rfl⟩ := List.mem_map.1 hp
    simp
theorem branchL_ne : ∀ (cs : List (Tree α γ)), ∀ p ∈ branchesL cs, p ≠ []
  | [], p, hp => by cases hp
  | c :: cs, p, hp => by
    rw [branchesL] at hp
    rcases List.mem_append.1 hp with hp | hp
    · exact branch_ne c p hp
    · exact branchL_ne cs p hp
end

/-- the node in front of the answer -/
def front (r : TNode α γ) (m : Found α γ) : Found α γ := { m with nodes := marked r :: m.nodes }

theorem fins_inner (r : TNode α γ) (c : Tree α γ) (cs : List (Tree α γ)) : fins (.node r (c :: cs)) = (finsL (c :: cs)).map (front r) := by
  unfold fins finsL
  rw [branches]
  have h := branchL_ne (c :: cs)
  generalize branchesL (c :: cs) = l at h
  induction l with
  | nil => rfl
  | cons p l ih =>
    rw [List.map_cons, List.filterMap_cons, List.filterMap_cons, ih fun q hq => h q (List.mem_cons_of_mem _ hq)]
    have e : toFound (r :: p) = (toFound p).map (front r) := by
      unfold toFound
      rw [branches_last (h p List.mem_cons_self)]
      cases p.getLast? with
      | none => rfl
      | some l =>
        simp only []
        split_ifs <;> rfl
    rw [e]
    cases toFound p <;> rfl

theorem fins_append (c : Tree α γ) (cs : List (Tree α γ)) : finsL (c :: cs) = fins c ++ finsL cs := by
  unfold finsL fins
  rw [branchesL, List.filterMap_append]

theorem found_isEmpty : ∀ cs : List (Tree α γ), (foundList cs).isEmpty = cs.isEmpty
  | [] => rfl
  | c :: cs => by rw [foundList]; rfl

mutual
theorem found_top : ∀ t : Tree α γ, (foundChecker t).top.finished = true ↔ Finished t
  | .node r [] => by simp [foundChecker, top, Finished, nodes, nodesL]
  | .node r (c :: cs) => by
    have h := found_topL (c :: cs)
    rw [foundChecker]
    simp only [List.isEmpty_cons, Bool.false_eq_true, if_false]
    unfold Finished
    rw [nodes]
    show (r.finished || (foundList (c :: cs)).any fun c => c.top.finished) = true ↔ _
    simp only [Bool.or_eq_true, List.mem_cons, exists_eq_or_imp]
    rw [h]
theorem found_topL : ∀ cs : List (Tree α γ), ((foundList cs).any fun c => c.top.finished) = true ↔ ∃ r ∈ nodesL cs, r.finished = true
  | [] => by simp [foundList, nodesL]
  | c :: cs => by
    have h1 := found_top c
    have h2 := found_topL cs
    rw [foundList, nodesL, List.any_cons, Bool.or_eq_true, h1, h2]
    unfold Finished
    simp only [List.mem_append, or_and_right, exists_or]
end

theorem found_keeps (t : Tree α γ) : (foundChecker t).top = { t.top with finished := (foundChecker t).top.finished } := by
  cases t with
  | node r cs =>
    rw [foundChecker]
    simp only []
    split <;> rfl

/-- nothing finished below: no answers -/
theorem fins_none {cs : List (Tree α γ)} (h : ∀ x ∈ nodesL cs, x.finished = false) : finsL cs = [] := by
  have hb : ∀ (n : Nat), ∀ cs : List (Tree α γ), (nodesL cs).length ≤ n → ∀ p ∈ branchesL cs, ∀ x ∈ p, x ∈ nodesL cs := by
    intro n
    induction n with
    | zero =>
      intro cs hn p hp
      cases cs with
      | nil => cases hp
      | cons c cs =>
        cases c
        rw [nodesL, nodes] at hn
        simp at hn
    | succ n ih =>
      intro cs hn p hp x hx
      cases cs with
      | nil => cases hp
      | cons c cs =>
        cases c with
        | node r ds =>
        rw [nodesL, nodes] at hn
        simp only [List.cons_append, List.length_cons, List.length_append] at hn
        rw [branchesL] at hp
        rw [nodesL, nodes]
        rcases List.mem_append.1 hp with hp | hp
        · cases ds with
          | nil =>
            rw [branches] at hp
            rw [List.mem_singleton.1 hp] at hx
            rw [List.mem_singleton.1 hx]
            simp
          | cons d ds =>
            rw [branches] at hp
            obtain ⟨q, hq, rfl⟩ := List.mem_map.1 hp
            rcases List.mem_cons.1 hx with rfl | hx
            · simp
            · have := ih (d :: ds) (by omega) q hq x hx
              simp [this]
        · have := ih cs (by omega) p hp x hx
          simp [this]
  unfold finsL
  rw [List.filterMap_eq_nil_iff]
  intro p hp
  unfold toFound
  cases e : p.getLast? with
  | none => rfl
  | some l =>
    simp only []
    have := h l (hb _ cs le_rfl p hp l (List.mem_of_getLast? e))
    rw [this]
    rfl

mutual
theorem minCost_eq : ∀ t : Tree α γ, Finished t →
    (Stuck t → minCost (foundChecker t) = .error .valueError) ∧ (¬ Stuck t → minCost (foundChecker t) = pyMin (fins t) ∧ fins t ≠ [])
  | .node r [], hf => by
    have hr : r.finished = true := by
      obtain ⟨x, hx, h⟩ := hf
      simp only [nodes, nodesL, List.mem_singleton] at hx
      rw [← hx]; exact h
    refine ⟨?_, ?_⟩
    · intro h
      simp [Stuck, StuckL] at h
    · intro _
      have e : fins (.node r []) = [⟨[r], (r.cost, r.dcost), r.graph⟩] := by
        unfold fins
        rw [branches]
        have : marked r = r := by
          unfold marked
          rw [← hr]
        simp [toFound, hr, this]
      rw [e, foundChecker]
      simp [minCost, pyMin]
  | .node r (c :: cs), hf => by
    have h := minList_eq (c :: cs)
    have htop := (found_top (.node r (c :: cs))).2 hf
    have e : foundChecker (.node r (c :: cs)) = .node (marked r) (foundList (c :: cs)) := by
      rw [foundChecker] at htop ⊢
      simp only [List.isEmpty_cons, Bool.false_eq_true, if_false] at htop ⊢
      have htop : (r.finished || (foundList (c :: cs)).any fun c => c.top.finished) = true := htop
      rw [htop]
      rfl
    rw [e, minCost, found_isEmpty]
    simp only [List.isEmpty_cons, Bool.false_eq_true, if_false, bind, Except.bind, pure, Except.pure]
    by_cases hL : StuckL (c :: cs)
    · refine ⟨fun _ => by rw [h.1 hL], fun hn => ?_⟩
      exfalso
      apply hn
      rw [Stuck]
      exact Or.inr hL
    · obtain ⟨ms, k1, k2⟩ := h.2 hL
      rw [k1]
      simp only []
      by_cases hne : ∃ x ∈ nodesL (c :: cs), x.finished = true
      · obtain ⟨k3, k4⟩ := k2.1 hne
        refine ⟨fun hs => ?_, fun _ => ?_⟩
        · exfalso
          rw [Stuck] at hs
          rcases hs with hs | hs
          · obtain ⟨x, hx, hx2⟩ := hne
            rw [hs.2.2 x hx] at hx2
            cases hx2
          · exact hL hs
        · rw [fins_inner]
          refine ⟨?_, by simpa using k4⟩
          rw [pyMin_map (front r) (fun _ => rfl), k3]
          cases pyMin (finsL (c :: cs)) <;> rfl
      · have hnone : ∀ x ∈ nodesL (c :: cs), x.finished = false := by
          intro x hx
          cases hxf : x.finished
          · rfl
          · exact absurd ⟨x, hx, hxf⟩ hne
        have hm := k2.2 hnone
        rw [hm]
        refine ⟨fun _ => rfl, fun hs => ?_⟩
        exfalso
        apply hs
        rw [Stuck]
        left
        refine ⟨by simp, ?_, hnone⟩
        obtain ⟨x, hx, hx2⟩ := hf
        rw [nodes] at hx
        rcases List.mem_cons.1 hx with rfl | hx
        · exact hx2
        · exact absurd ⟨x, hx, hx2⟩ hne
theorem minList_eq : ∀ cs : List (Tree α γ), (StuckL cs → minList (foundList cs) = .error .valueError) ∧
    (¬ StuckL cs → ∃ ms, minList (foundList cs) = .ok ms ∧
      ((∃ x ∈ nodesL cs, x.finished = true) → pyMin ms = pyMin (finsL cs) ∧ finsL cs ≠ []) ∧
      ((∀ x ∈ nodesL cs, x.finished = false) → ms = []))
  | [] => by
    refine ⟨fun h => by simp [StuckL] at h, fun _ => ⟨[], by rw [foundList, minList], ?_, fun _ => rfl⟩⟩
    rintro ⟨x, hx, _⟩
    cases hx
  | c :: cs => by
    have h1 := minCost_eq c
    have h2 := minList_eq cs
    have h3 := found_top c
    rw [foundList, minList]
    by_cases hc : Finished c
    · rw [if_pos (h3.2 hc)]
      simp only [bind, Except.bind, pure, Except.pure]
      by_cases hs : Stuck c
      · rw [(h1 hc).1 hs]
        refine ⟨fun _ => rfl, fun hn => ?_⟩
        exfalso
        apply hn
        rw [StuckL]
        exact Or.inl hs
      · obtain ⟨k1, k2⟩ := (h1 hc).2 hs
        obtain ⟨x, xs, hx⟩ := List.exists_cons_of_ne_nil k2
        have k3 : pyMin (fins c) = .ok (xs.foldl less x) := by rw [hx]; rfl
        rw [k1, k3]
        simp only []
        by_cases hL : StuckL cs
        · rw [h2.1 hL]
          refine ⟨fun _ => rfl, fun hn => ?_⟩
          exfalso
          apply hn
          rw [StuckL]
          exact Or.inr hL
        · obtain ⟨ms, l1, l2, l3⟩ := h2.2 hL
          rw [l1]
          simp only []
          refine ⟨fun hn => ?_, fun _ => ⟨_, rfl, fun _ => ?_, fun hn => ?_⟩⟩
          · exfalso
            rw [StuckL] at hn
            rcases hn with hn | hn
            · exact hs hn
            · exact hL hn
          · rw [fins_append]
            refine ⟨?_, by simp [k2]⟩
            by_cases hne : ∃ x ∈ nodesL cs, x.finished = true
            · obtain ⟨m1, m2⟩ := l2 hne
              obtain ⟨y, ys, hy⟩ := List.exists_cons_of_ne_nil m2
              have m3 : pyMin (finsL cs) = .ok (ys.foldl less y) := by rw [hy]; rfl
              rw [pyMin_cons_ok _ ms _ (m1.trans m3), hx, pyMin_append x xs _ _ m3]
            · have hnone : ∀ x ∈ nodesL cs, x.finished = false := by
                intro x hx
                cases hxf : x.finished
                · rfl
                · exact absurd ⟨x, hx, hxf⟩ hne
              rw [l3 hnone, fins_none hnone, List.append_nil, k3]
              rfl
          · exfalso
            obtain ⟨x, hx, hx2⟩ := hc
            rw [hn x (by rw [nodesL]; exact List.mem_append_left _ hx)] at hx2
            cases hx2
    · rw [if_neg (fun h => hc (h3.1 h))]
      have hnone : ∀ x ∈ nodes c, x.finished = false := by
        intro x hx
        cases hxf : x.finished
        · rfl
        · exact absurd ⟨x, hx, hxf⟩ hc
      have hns : ¬ Stuck c := by
        intro hs
        exact stuck_finished c hs hnone
      have hf : fins c = [] := by
        have := fins_none (cs := [c]) (by
          intro x hx
          rw [nodesL, nodesL, List.append_nil] at hx
          exact hnone x hx)
        rw [fins_append] at this
        exact (List.append_eq_nil_iff.1 this).1
      refine ⟨fun hn => ?_, fun hn => ?_⟩
      · rw [StuckL] at hn
        rcases hn with hn | hn
        · exact absurd hn hns
        · exact h2.1 hn
      · obtain ⟨ms, l1, l2, l3⟩ := h2.2 (fun h => hn (by rw [StuckL]; exact Or.inr h))
        refine ⟨ms, l1, ?_, ?_⟩
        · rintro ⟨x, hx, hx2⟩
          rw [fins_append, hf, List.nil_append]
          apply l2
          rw [nodesL] at hx
          rcases List.mem_append.1 hx with hx | hx
          · rw [hnone x hx] at hx2
            cases hx2
          · exact ⟨x, hx, hx2⟩
        · intro h
          exact l3 fun x hx => h x (by rw [nodesL]; exact List.mem_append_right _ hx)
theorem stuck_finished : ∀ t : Tree α γ, Stuck t → (∀ x ∈ nodes t, x.finished = false) → False
  | .node r cs, hs, h => by
    rw [Stuck] at hs
    rcases hs with hs | hs
    · have := h r (by rw [nodes]; exact List.mem_cons_self)
      rw [hs.2.1] at this
      cases this
    · exact stuckL_finished cs hs fun x hx => h x (by rw [nodes]; exact List.mem_cons_of_mem _ hx)
theorem stuckL_finished : ∀ cs : List (Tree α γ), StuckL cs → (∀ x ∈ nodesL cs, x.finished = false) → False
  | [], hs, _ => by simp [StuckL] at hs
  | c :: cs, hs, h => by
    rw [StuckL] at hs
    rcases hs with hs | hs
    · exact stuck_finished c hs fun x hx => h x (by rw [nodesL]; exact List.mem_append_left _ hx)
    · exact stuckL_finished cs hs fun x hx => h x (by rw [nodesL]; exact List.mem_append_right _ hx)
end

/-- the first of the smallest, by its position -/
theorem pyMin_spec (x : Found α γ) (xs : List (Found α γ)) : ∃ pre m suf, x :: xs = pre ++ m :: suf ∧ pyMin (x :: xs) = .ok m ∧
    (∀ y ∈ pre, m.cost.1 < y.cost.1) ∧ ∀ y ∈ suf, m.cost.1 ≤ y.cost.1 := by
  show ∃ pre m suf, x :: xs = pre ++ m :: suf ∧ Except.ok (xs.foldl less x) = .ok m ∧ _
  induction xs generalizing x with
  | nil => exact ⟨[], x, [], rfl, rfl, by simp, by simp⟩
  | cons y ys ih =>
    obtain ⟨pre, m, suf, h1, h2, h3, h4⟩ := ih (less x y)
    rw [List.foldl_cons, h2]
    unfold less at h1
    split at h1
    · rename_i hlt
      refine ⟨x :: pre, m, suf, by rw [h1]; rfl, rfl, ?_, h4⟩
      intro z hz
      rcases List.mem_cons.1 hz with rfl | hz
      · cases pre with
        | nil =>
          have := (List.cons.inj h1).1
          rw [← this]; exact hlt
        | cons p pre =>
          have e := (List.cons.inj h1).1
          have := h3 p List.mem_cons_self
          rw [← e] at this
          linarith
      · exact h3 z hz
    · rename_i hge
      cases pre with
      | nil =>
        obtain ⟨e1, e2⟩ := List.cons.inj h1
        refine ⟨[], m, y :: suf, by rw [← e1, ← e2]; rfl, rfl, by simp, ?_⟩
        intro z hz
        rcases List.mem_cons.1 hz with rfl | hz
        · rw [← e1]; exact not_lt.1 hge
        · exact h4 z hz
      | cons p pre =>
        obtain ⟨e1, e2⟩ := List.cons.inj h1
        refine ⟨p :: y :: pre, m, suf, by rw [← e1, e2]; rfl, rfl, ?_, h4⟩
        intro z hz
        rcases List.mem_cons.1 hz with rfl | hz
        · exact h3 z List.mem_cons_self
        · rcases List.mem_cons.1 hz with rfl | hz
          · have := h3 p List.mem_cons_self
            rw [← e1] at this
            exact lt_of_lt_of_le this (not_lt.1 hge)
          · exact h3 z (List.mem_cons_of_mem _ hz)

end Qudits
