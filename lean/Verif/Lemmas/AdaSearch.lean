import Verif.Model.Adaptive
import Verif.Props.TreeProps
/- The search of the adaptive decompositions, for any rule that makes children. -/
namespace Qudits.Adaptive
open LGraph LocalQR Qudits.Tree Spec

/-- what the rule that makes children may depend on -/
structure Core where
  data : NodeData
  graph : Option LGraph
  dcost : ℝ

/-- the part of a node that is never changed -/
def core (r : TNode NodeData (Option LGraph)) : Core := ⟨r.data, r.graph, r.dcost⟩

/-- finished nodes are leaves with a diagonal matrix; children follow from their parents -/
def TreeOk (off : ℝ) (R : Core → Core → Prop) : STree → Prop
  | .node r cs => (r.finished = true → cs = [] ∧ IsDiag off r.data.u) ∧ ∀ c ∈ cs, R (core r) (core c.top) ∧ TreeOk off R c

/-- a new node with its children so far -/
def withChildren (r : TNode NodeData (Option LGraph)) (news : List STree) : STree := .node { r with size := news.length } news

theorem nodeAdd_withChildren (r : TNode NodeData (Option LGraph)) (news : List STree) (key : Int) (data : NodeData) (graph : Option LGraph)
    (cost dcost : ℝ) : nodeAdd key data graph cost dcost (withChildren r news) =
      withChildren r (news ++ [Tree.new key data graph cost dcost (some r.key)]) := by
  unfold withChildren nodeAdd
  by_cases h : news = []
  · subst h; simp
  · have : news.length ≠ 0 := by simpa using h
    simp [this]

/-- a fresh child -/
def Fresh (t : STree) : Prop := ∃ r, t = .node r [] ∧ r.finished = false ∧ r.size = 0

/-- The rule works on every node that satisfies `I`: it leaves the node alone or adds one child, which follows by `R`. -/
def StepOk (triples : Nat → List (Nat × Nat × Nat)) (step : Step) (I : Core → Prop) (R : Core → Core → Prop) : Prop :=
  ∀ (r : TNode NodeData (Option LGraph)) (news : List STree) (k : Nat) (t : Nat × Nat × Nat), t ∈ triples r.data.u.rows → I (core r) →
    step (withChildren r news, k) t = .ok (withChildren r news, k) ∨
    ∃ data graph cost dcost, step (withChildren r news, k) t =
      .ok (withChildren r (news ++ [Tree.new ((k + 1 : Nat) : Int) data graph cost dcost (some r.key)]), k + 1) ∧
      R (core r) ⟨data, graph, dcost⟩ ∧ I ⟨data, graph, dcost⟩

variable {off : ℝ} {triples : Nat → List (Nat × Nat × Nat)} {step : Step} {I : Core → Prop} {R : Core → Core → Prop}

theorem expand_ok (hs : StepOk triples step I R) (r : TNode NodeData (Option LGraph)) (hI : I (core r)) (l : List (Nat × Nat × Nat))
    (hl : ∀ t ∈ l, t ∈ triples r.data.u.rows) (news : List STree) (k : Nat)
    (hn : ∀ c ∈ news, Fresh c ∧ R (core r) (core c.top) ∧ I (core c.top)) :
    ∃ more k', l.foldlM step (withChildren r news, k) = .ok (withChildren r (news ++ more), k') ∧
      ∀ c ∈ news ++ more, Fresh c ∧ R (core r) (core c.top) ∧ I (core c.top) := by
  induction l generalizing news k with
  | nil => exact ⟨[], k, by simp [pure, Except.pure], by simpa using hn⟩
  | cons t ts ih =>
    rw [List.foldlM_cons]
    rcases hs r news k t (hl t (by simp)) hI with e | ⟨data, graph, cost, dcost, e, hR, hI'⟩
    · rw [e]
      exact ih (fun t ht => hl t (by simp [ht])) news k hn
    · rw [e]
      obtain ⟨more, k', e1, e2⟩ := ih (fun t ht => hl t (by simp [ht])) (news ++ [Tree.new ((k + 1 : Nat) : Int) data graph cost dcost (some r.key)]) (k + 1) (by
        intro c hc
        rcases List.mem_append.1 hc with hc | hc
        · exact hn c hc
        · rw [List.mem_singleton] at hc
          subst hc
          exact ⟨⟨_, rfl, rfl, rfl⟩, hR, hI'⟩)
      exact ⟨_ :: more, k', by rw [List.append_assoc] at e1; exact e1, by rw [List.append_assoc] at e2; exact e2⟩

theorem not_finished_fresh (t : STree) (h : Fresh t) : ¬ Finished t := by
  obtain ⟨r, rfl, h, _⟩ := h
  rintro ⟨x, hx, hf⟩
  simp [Spec.nodes, nodesL] at hx
  subst hx
  rw [h] at hf
  cases hf

theorem treeOk_fresh (t : STree) (h : Fresh t) : TreeOk off R t := by
  obtain ⟨r, rfl, h, _⟩ := h
  rw [TreeOk]
  exact ⟨fun h' => (by rw [h] at h'; cases h'), by simp⟩

/-- some node of the list or below is finished -/
def FinishedL (cs : List STree) : Prop := ∃ c ∈ cs, Finished c

theorem finished_node (r : TNode NodeData (Option LGraph)) (cs : List STree) :
    Finished (.node r cs : STree) ↔ r.finished = true ∨ FinishedL cs := by
  have : ∀ cs : List STree, (∃ x ∈ nodesL cs, x.finished = true) ↔ FinishedL cs := by
    intro cs
    induction cs with
    | nil => simp [nodesL, FinishedL]
    | cons c cs ih =>
      unfold FinishedL at ih ⊢
      rw [nodesL]
      simp only [List.mem_append, or_and_right, exists_or, List.mem_cons]
      rw [ih]
      simp only [exists_eq_left]
      rfl
  unfold Finished
  rw [Spec.nodes]
  simp only [List.mem_cons, exists_eq_or_imp, this]

theorem visit_ok (f : STree → Nat → Except PyErr (STree × Nat × Bool)) (e : PyErr) (c0 : Core)
    (hf : ∀ c k, Fresh c → R c0 (core c.top) → I (core c.top) → f c k = .error e ∨ ∃ c' k' b, f c k = .ok (c', k', b) ∧ TreeOk off R c' ∧
      core c'.top = core c.top ∧ (b = true ↔ Finished c'))
    (cs : List STree) (k : Nat) (h : ∀ c ∈ cs, Fresh c ∧ R c0 (core c.top) ∧ I (core c.top)) :
    visit f cs k = .error e ∨ ∃ cs' k' b, visit f cs k = .ok (cs', k', b) ∧ (∀ c ∈ cs', R c0 (core c.top) ∧ TreeOk off R c) ∧
      (b = true ↔ FinishedL cs') := by
  induction cs generalizing k with
  | nil => exact Or.inr ⟨[], k, false, rfl, by simp, by simp [FinishedL]⟩
  | cons c cs ih =>
    obtain ⟨h1, h2, h3⟩ := h c (by simp)
    unfold visit
    simp only [bind, Except.bind, pure, Except.pure]
    rcases hf c k h1 h2 h3 with e1 | ⟨c', k', b, e1, e2, e3, e4⟩
    · left; rw [e1]
    · rw [e1]
      simp only []
      cases b with
      | true =>
        right
        refine ⟨c' :: cs, k', true, by simp, ?_, ?_⟩
        · intro x hx
          rcases List.mem_cons.1 hx with rfl | hx
          · exact ⟨by rw [e3]; exact h2, e2⟩
          · obtain ⟨a1, a2, _⟩ := h x (by simp [hx])
            exact ⟨a2, treeOk_fresh x a1⟩
        · exact ⟨fun _ => ⟨c', by simp, e4.1 rfl⟩, fun _ => rfl⟩
      | false =>
        simp only [Bool.false_eq_true, if_false]
        rcases ih k' (fun x hx => h x (by simp [hx])) with i1 | ⟨cs', k'', b, i1, i2, i3⟩
        · left; rw [i1]
        · right
          rw [i1]
          refine ⟨c' :: cs', k'', b, rfl, ?_, ?_⟩
          · intro x hx
            rcases List.mem_cons.1 hx with rfl | hx
            · exact ⟨by rw [e3]; exact h2, e2⟩
            · exact i2 x hx
          · rw [i3]
            unfold FinishedL
            constructor
            · rintro ⟨x, hx, hx'⟩; exact ⟨x, by simp [hx], hx'⟩
            · rintro ⟨x, hx, hx'⟩
              rcases List.mem_cons.1 hx with rfl | hx
              · exact absurd (e4.2 hx') (by simp)
              · exact ⟨x, hx, hx'⟩

/-- the search runs out of stack, or returns a tree in which children follow from their parents -/
theorem dfs_ok (hs : StepOk triples step I R) (fuel : Nat) : ∀ (c : STree) (k : Nat), Fresh c → I (core c.top) →
    dfs off triples step fuel c k = .error .recursion ∨ ∃ c' k' b, dfs off triples step fuel c k = .ok (c', k', b) ∧ TreeOk off R c' ∧
      core c'.top = core c.top ∧ (b = true ↔ Finished c') := by
  classical
  induction fuel with
  | zero => intro c k _ _; left; rfl
  | succ fuel ih =>
    rintro c k ⟨r, rfl, hf, h0⟩ hI
    unfold dfs
    by_cases hd : IsDiag off r.data.u
    · right
      rw [if_pos hd]
      refine ⟨_, k, true, rfl, ?_, rfl, ?_⟩
      · rw [TreeOk]; exact ⟨fun _ => ⟨rfl, hd⟩, by simp⟩
      · rw [finished_node]; simp
    · rw [if_neg hd]
      have e0 : (.node r [] : STree) = withChildren r [] := by
        unfold withChildren
        cases r
        simp only [List.length_nil] at h0 ⊢
        subst h0
        rfl
      rw [e0]
      obtain ⟨more, k', e1, e2⟩ := expand_ok hs r hI (triples r.data.u.rows) (fun _ h => h) [] k (by simp)
      rw [List.nil_append] at e1 e2
      simp only [bind, Except.bind, pure, Except.pure]
      rw [e1]
      simp only [withChildren]
      rcases visit_ok (off := off) (dfs off triples step fuel) .recursion (core r) (fun c k a _ b => ih c k a b) more k' e2 with v | ⟨cs', k'', b, v1, v2, v3⟩
      · left; rw [v]
      · right
        rw [v1]
        refine ⟨_, k'', b, rfl, ?_, rfl, ?_⟩
        · rw [TreeOk]
          refine ⟨fun h => ?_, v2⟩
          rw [show (({ r with size := more.length } : TNode NodeData (Option LGraph)).finished) = r.finished from rfl, hf] at h
          cases h
        · rw [v3, finished_node]
          rw [show (({ r with size := more.length } : TNode NodeData (Option LGraph)).finished) = r.finished from rfl, hf]
          simp

theorem branches_ok (t : STree) (h : TreeOk off R t) : ∀ p ∈ branches t, (p.map core).IsChain R ∧ p.head? = some t.top ∧
    (∀ x ∈ p.dropLast, x.finished = false) ∧ ∀ l, p.getLast? = some l → l.finished = true → IsDiag off l.data.u := by
  suffices hs : ∀ n, (∀ t : STree, (Spec.nodes t).length ≤ n → TreeOk off R t → ∀ p ∈ branches t, (p.map core).IsChain R ∧ p.head? = some t.top ∧
      (∀ x ∈ p.dropLast, x.finished = false) ∧ ∀ l, p.getLast? = some l → l.finished = true → IsDiag off l.data.u) ∧
      (∀ cs : List STree, (nodesL cs).length ≤ n → (∀ c ∈ cs, TreeOk off R c) → ∀ p ∈ branchesL cs, ∃ c ∈ cs, (p.map core).IsChain R ∧
        p.head? = some c.top ∧ (∀ x ∈ p.dropLast, x.finished = false) ∧ ∀ l, p.getLast? = some l → l.finished = true → IsDiag off l.data.u) by
    exact (hs _).1 t le_rfl h
  intro n
  induction n with
  | zero =>
    refine ⟨?_, ?_⟩
    · intro t ht
      cases t with
      | node r cs => simp [Spec.nodes] at ht
    · intro cs hcs
      cases cs with
      | nil => intro _ p hp; simp [branchesL] at hp
      | cons c cs =>
        cases c with
        | node r l => simp [nodesL, Spec.nodes] at hcs
  | succ n ih =>
    obtain ⟨ih1, ih2⟩ := ih
    have hA : ∀ t : STree, (Spec.nodes t).length ≤ n + 1 → TreeOk off R t → ∀ p ∈ branches t, (p.map core).IsChain R ∧ p.head? = some t.top ∧
      (∀ x ∈ p.dropLast, x.finished = false) ∧ ∀ l, p.getLast? = some l → l.finished = true → IsDiag off l.data.u := by
      intro t ht h p hp
      cases t with
      | node r cs =>
        rw [TreeOk] at h
        cases cs with
        | nil =>
          simp [branches] at hp
          subst hp
          refine ⟨by simp, rfl, by simp, ?_⟩
          intro l hl hf
          simp at hl
          subst hl
          exact (h.1 hf).2
        | cons c cs =>
          rw [branches, List.mem_map] at hp
          obtain ⟨p', hp', rfl⟩ := hp
          have hlen : (nodesL (c :: cs)).length ≤ n := by
            rw [Spec.nodes] at ht
            simpa using ht
          obtain ⟨c', hc', i1, i2, i3, i4⟩ := ih2 (c :: cs) hlen (fun x hx => (h.2 x hx).2) p' hp'
          obtain ⟨y, ys, rfl⟩ : ∃ y ys, p' = y :: ys := by
            cases p' with
            | nil => simp at i2
            | cons y ys => exact ⟨y, ys, rfl⟩
          simp at i2
          subst i2
          refine ⟨?_, rfl, ?_, ?_⟩
          · simp only [List.map_cons, List.isChain_cons_cons] at i1 ⊢
            exact ⟨(h.2 c' hc').1, i1⟩
          · intro x hx
            rw [List.dropLast_cons_cons] at hx
            rcases List.mem_cons.1 hx with rfl | hx
            · by_contra hc
              have := (h.1 (by simpa using hc)).1
              cases this
            · exact i3 x hx
          · intro l hl
            rw [List.getLast?_cons_cons] at hl
            exact i4 l hl
    refine ⟨hA, ?_⟩
    intro cs
    induction cs with
    | nil => intro _ _ p hp; simp [branchesL] at hp
    | cons c cs ihc =>
      intro hcs h p hp
      rw [branchesL, List.mem_append] at hp
      have hle : (Spec.nodes c).length + (nodesL cs).length ≤ n + 1 := by simpa [nodesL] using hcs
      rcases hp with hp | hp
      · exact ⟨c, by simp, hA c (by omega) (h c (by simp)) p hp⟩
      · obtain ⟨c', hc', i⟩ := ihc (by omega) (fun x hx => h x (by simp [hx])) p hp
        exact ⟨c', by simp [hc'], i⟩

/-- the search does not run out of stack if `D n c` bounds the depth below `c` by `n` -/
theorem dfs_ends (hs : StepOk triples step I R) (D : Nat → Core → Prop) (hD : ∀ n c c', R c c' → D n c → ∃ m, n = m + 1 ∧ D m c') (n : Nat) :
    ∀ (fuel : Nat) (c : STree) (k : Nat), n < fuel → Fresh c → I (core c.top) → D n (core c.top) →
      ∃ c' k' b, dfs off triples step fuel c k = .ok (c', k', b) ∧ TreeOk off R c' ∧ core c'.top = core c.top ∧ (b = true ↔ Finished c') := by
  classical
  induction n with
  | zero =>
    rintro fuel c k hfu ⟨r, rfl, hf, h0⟩ hI hd0
    obtain ⟨fuel, rfl⟩ : ∃ m, fuel = m + 1 := ⟨fuel - 1, by omega⟩
    rcases dfs_ok (off := off) hs (fuel + 1) (.node r [] : STree) k ⟨r, rfl, hf, h0⟩ hI with e | e
    · exfalso
      unfold dfs at e
      by_cases hd : IsDiag off r.data.u
      · rw [if_pos hd] at e; cases e
      · rw [if_neg hd] at e
        have e0 : (.node r [] : STree) = withChildren r [] := by
          unfold withChildren
          cases r
          simp only [List.length_nil] at h0 ⊢
          subst h0
          rfl
        rw [e0] at e
        obtain ⟨more, k', e1, e2⟩ := expand_ok hs r hI (triples r.data.u.rows) (fun _ h => h) [] k (by simp)
        rw [List.nil_append] at e1 e2
        simp only [bind, Except.bind, pure, Except.pure] at e
        rw [e1] at e
        simp only [withChildren] at e
        cases more with
        | nil => simp [visit] at e
        | cons x xs =>
          obtain ⟨_, hr, _⟩ := e2 x (by simp)
          obtain ⟨m, hm, _⟩ := hD 0 _ _ hr hd0
          omega
    · exact e
  | succ n ih =>
    rintro fuel c k hfu ⟨r, rfl, hf, h0⟩ hI hd0
    obtain ⟨fuel, rfl⟩ : ∃ m, fuel = m + 1 := ⟨fuel - 1, by omega⟩
    rcases dfs_ok (off := off) hs (fuel + 1) (.node r [] : STree) k ⟨r, rfl, hf, h0⟩ hI with e | e
    · exfalso
      unfold dfs at e
      by_cases hd : IsDiag off r.data.u
      · rw [if_pos hd] at e; cases e
      · rw [if_neg hd] at e
        have e0 : (.node r [] : STree) = withChildren r [] := by
          unfold withChildren
          cases r
          simp only [List.length_nil] at h0 ⊢
          subst h0
          rfl
        rw [e0] at e
        obtain ⟨more, k', e1, e2⟩ := expand_ok hs r hI (triples r.data.u.rows) (fun _ h => h) [] k (by simp)
        rw [List.nil_append] at e1 e2
        simp only [bind, Except.bind, pure, Except.pure] at e
        rw [e1] at e
        simp only [withChildren] at e
        rcases visit_ok (off := off) (R := R) (I := I) (dfs off triples step fuel) .keyError (core r) (fun c k a b i => by
          obtain ⟨m, hm, hdm⟩ := hD (n + 1) _ _ b hd0
          have : m = n := by omega
          subst this
          exact Or.inr (ih fuel c k (by omega) a i hdm)) more k' e2 with v | ⟨cs', k'', b, v1, _⟩
        · rw [v] at e; cases e
        · rw [v1] at e; cases e
    · exact e

/-- the rule adds the child `c'` to a node `c` -/
def Adds (step : Step) (c : Core) (t : Nat × Nat × Nat) (c' : Core) : Prop :=
  ∀ (r : TNode NodeData (Option LGraph)) (news : List STree) (k : Nat), core r = c → ∃ cost, step (withChildren r news, k) t =
    .ok (withChildren r (news ++ [Tree.new ((k + 1 : Nat) : Int) c'.data c'.graph cost c'.dcost (some r.key)]), k + 1)

/-- some way of applying the rule leads from a node to a diagonal matrix -/
inductive Leads (off : ℝ) (triples : Nat → List (Nat × Nat × Nat)) (step : Step) : Core → Prop
  | diag (c : Core) (h : IsDiag off c.data.u) : Leads off triples step c
  | step (c : Core) (t : Nat × Nat × Nat) (c' : Core) (ht : t ∈ triples c.data.u.rows) (ha : Adds step c t c') (h : Leads off triples step c') :
      Leads off triples step c

theorem expand_adds (hs : StepOk triples step I R) (r : TNode NodeData (Option LGraph)) (hI : I (core r)) (l : List (Nat × Nat × Nat))
    (hl : ∀ t ∈ l, t ∈ triples r.data.u.rows) (news : List STree) (k : Nat) (t0 : Nat × Nat × Nat) (c' : Core) (ha : Adds step (core r) t0 c')
    (hn : t0 ∈ l ∨ ∃ c ∈ news, core c.top = c') (s : STree) (k' : Nat) (he : l.foldlM step (withChildren r news, k) = .ok (s, k')) :
    ∃ more, s = withChildren r more ∧ ∃ c ∈ more, core c.top = c' := by
  induction l generalizing news k with
  | nil =>
    simp only [List.foldlM_nil, pure, Except.pure, Except.ok.injEq, Prod.mk.injEq] at he
    exact ⟨news, he.1.symm, hn.resolve_left (by simp)⟩
  | cons t ts ih =>
    rw [List.foldlM_cons] at he
    by_cases ht : t = t0
    · subst ht
      obtain ⟨cost, e⟩ := ha r news k rfl
      rw [e] at he
      exact ih (fun t ht => hl t (by simp [ht])) _ _ (Or.inr ⟨_, List.mem_append_right _ (List.mem_singleton.2 rfl), rfl⟩) he
    · have hn' : t0 ∈ ts ∨ ∃ c ∈ news, core c.top = c' := by
        rcases hn with h | h
        · rcases List.mem_cons.1 h with h | h
          · exact absurd h.symm ht
          · exact Or.inl h
        · exact Or.inr h
      rcases hs r news k t (hl t (by simp)) hI with e | ⟨data, graph, cost, dcost, e, _⟩
      · rw [e] at he
        exact ih (fun t ht => hl t (by simp [ht])) news k hn' he
      · rw [e] at he
        refine ih (fun t ht => hl t (by simp [ht])) _ _ ?_ he
        rcases hn' with h | ⟨c, hc, h⟩
        · exact Or.inl h
        · exact Or.inr ⟨c, by simp [hc], h⟩

theorem visit_false (f : STree → Nat → Except PyErr (STree × Nat × Bool)) (cs : List STree) (k : Nat) (cs' : List STree) (k' : Nat)
    (h : visit f cs k = .ok (cs', k', false)) : ∀ c ∈ cs, ∃ k c' k', f c k = .ok (c', k', false) := by
  induction cs generalizing k cs' k' with
  | nil => simp
  | cons c cs ih =>
    unfold visit at h
    simp only [bind, Except.bind, pure, Except.pure] at h
    cases e : f c k with
    | error x => rw [e] at h; cases h
    | ok v =>
      obtain ⟨c1, k1, b⟩ := v
      rw [e] at h
      simp only at h
      cases b with
      | true => simp at h
      | false =>
        simp only [Bool.false_eq_true, if_false] at h
        cases e' : visit f cs k1 with
        | error x => rw [e'] at h; cases h
        | ok v =>
          obtain ⟨cs2, k2, b2⟩ := v
          rw [e'] at h
          simp only [Except.ok.injEq, Prod.mk.injEq] at h
          obtain ⟨_, _, rfl⟩ := h
          intro x hx
          rcases List.mem_cons.1 hx with rfl | hx
          · exact ⟨k, c1, k1, e⟩
          · exact ih k1 cs2 k2 e' x hx

/-- a search that ends finds something if there is something -/
theorem dfs_found (hs : StepOk triples step I R) (c0 : Core) (hl : Leads off triples step c0) : ∀ (fuel : Nat) (c : STree) (k : Nat) (c' : STree) (k' : Nat)
    (b : Bool), core c.top = c0 → Fresh c → I c0 → dfs off triples step fuel c k = .ok (c', k', b) → b = true := by
  classical
  induction hl with
  | diag c0 hd =>
    rintro fuel c k c' k' b h0 ⟨r, rfl, _, _⟩ hI he
    cases fuel with
    | zero => cases he
    | succ fuel =>
      unfold dfs at he
      have : IsDiag off r.data.u := by
        have : r.data.u = c0.data.u := congrArg (fun c => c.data.u) h0
        rw [this]; exact hd
      rw [if_pos this] at he
      simp only [Except.ok.injEq, Prod.mk.injEq] at he
      exact he.2.2.symm
  | step c0 t c1 ht ha hl' ih =>
    rintro fuel c k c' k' b h0 ⟨r, rfl, hf, hz⟩ hI he
    cases fuel with
    | zero => cases he
    | succ fuel =>
      have h0 : core r = c0 := h0
      have hu : r.data.u = c0.data.u := congrArg (fun c => c.data.u) h0
      unfold dfs at he
      by_cases hd : IsDiag off r.data.u
      · rw [if_pos hd] at he
        simp only [Except.ok.injEq, Prod.mk.injEq] at he
        exact he.2.2.symm
      · rw [if_neg hd] at he
        simp only [bind, Except.bind, pure, Except.pure] at he
        have hw : (.node r [] : STree) = withChildren r [] := by
          unfold withChildren
          cases r
          simp only at hz
          subst hz
          rfl
        rw [hw] at he
        obtain ⟨more, k2, e2, e3⟩ := expand_ok hs r (by rw [h0]; exact hI) (triples r.data.u.rows) (fun _ h => h) [] k (by simp)
        rw [List.nil_append] at e2 e3
        obtain ⟨more', e4, cc, e5, e6⟩ := expand_adds hs r (by rw [h0]; exact hI) (triples r.data.u.rows) (fun _ h => h) [] k t c1
          (by rw [h0]; exact ha) (Or.inl (by rw [hu]; exact ht)) _ _ e2
        have : more' = more := by
          unfold withChildren at e4
          injection e4 with _ e4
          exact e4.symm
        subst this
        rw [e2] at he
        unfold withChildren at he
        simp only at he
        cases hv : visit (dfs off triples step fuel) more' k2 with
        | error x => rw [hv] at he; cases he
        | ok v =>
          obtain ⟨cs2, k3, b2⟩ := v
          rw [hv] at he
          simp only [Except.ok.injEq, Prod.mk.injEq] at he
          obtain ⟨_, _, rfl⟩ := he
          cases hb : b2 with
          | true => rfl
          | false =>
            subst hb
            obtain ⟨k4, c4, k5, e⟩ := visit_false _ _ _ _ _ hv cc e5
            obtain ⟨g1, g2, g3⟩ := e3 cc e5
            exact absurd (ih fuel cc k4 c4 k5 false e6 g1 (by rw [← e6]; exact g3) e) (by simp)

/-- What a search that does not run out of stack returns: nothing, or a branch that ends in a diagonal matrix. -/
theorem search_ok (hs : StepOk triples step I R) (fuel : Nat) (extract : Extract) (limit : ℝ × ℝ) (u : Arr2 ℂ) (g : LGraph)
    (hI : I ⟨⟨none, u, limit, []⟩, some g.phaseStoringSetup, 0⟩) :
    (execute fuel off triples step extract limit u g = .error .recursion ∧
      ∀ (D : Nat → Core → Prop) (n : Nat), (∀ n c c', R c c' → D n c → ∃ m, n = m + 1 ∧ D m c') →
        D n ⟨⟨none, u, limit, []⟩, some g.phaseStoringSetup, 0⟩ → fuel ≤ n) ∨
    (execute fuel off triples step extract limit u g = .ok ⟨[], none, some g.phaseStoringSetup⟩ ∧
      ¬ Leads off triples step ⟨⟨none, u, limit, []⟩, some g.phaseStoringSetup, 0⟩) ∨
    ∃ p l, (p.map core).IsChain R ∧ (p.map core).head? = some ⟨⟨none, u, limit, []⟩, some g.phaseStoringSetup, 0⟩ ∧ p.getLast? = some l ∧
      IsDiag off l.data.u ∧
      execute fuel off triples step extract limit u g = (do
        let (gates, graph) ← extract p l.graph
        pure ⟨gates, some (l.cost, l.dcost), graph⟩) := by
  have hfr : Fresh (Tree.new 0 ⟨none, u, limit, []⟩ (some g.phaseStoringSetup) 0 0 none : STree) := ⟨_, rfl, rfl, rfl⟩
  unfold execute
  simp only [bind, Except.bind, pure, Except.pure]
  rcases dfs_ok (off := off) hs fuel _ 0 hfr hI with e | ⟨t, k, b, e1, e2, e3, e4⟩
  · left
    refine ⟨by rw [e], fun D n hD h0 => ?_⟩
    by_contra hc
    obtain ⟨_, _, _, e', _⟩ := dfs_ends (off := off) hs D hD n fuel _ 0 (not_le.1 hc) hfr hI h0
    rw [e'] at e
    cases e
  · right
    rw [e1]
    simp only []
    have hb := branches_ok t e2
    by_cases hF : Finished t
    · right
      have hns : ¬ Stuck t := C37_marked_leaves t fun p hp => (hb p hp).2.2.1
      obtain ⟨pre, p, suf, l, k1, k2, k3, k4, _⟩ := (C37_retrieve t).2.2.2 hF hns
      have hp : p ∈ branches t := by rw [k1]; simp
      obtain ⟨b1, b2, b3, b4⟩ := hb p hp
      have hcore : (p.map marked).map core = p.map core := by
        rw [List.map_map]; rfl
      refine ⟨p.map marked, marked l, by rw [hcore]; exact b1, ?_, by rw [List.getLast?_map, k2]; rfl, b4 l k2 k3, ?_⟩
      · rw [hcore, List.head?_map, b2, Option.map_some, e3]
        rfl
      · rw [k4]
        simp only []
        have hne : (p.map marked).isEmpty = false := by
          cases p with
          | nil => simp at k2
          | cons _ _ => rfl
        rw [hne]
        rfl
    · left
      refine ⟨?_, fun hl => hF (e4.1 (dfs_found hs _ hl fuel _ 0 t k b rfl hfr hI e1))⟩
      rw [(C37_retrieve t).2.1 hF]
      simp only []
      have : t.top.graph = some g.phaseStoringSetup := congrArg Core.graph e3
      rw [this]
      rfl

end Qudits.Adaptive
