import Verif.Lemmas.UniqueTable
import Verif.Model.DD
/-
Property C20: the unique table and the compute tables.
-/
namespace Qudits
open Spec DD

variable {W : Type} [DecidableEq W] {hash : List (UEdge W) → Nat} {s : UTable W} {made : List (Nat × Nat × List (UEdge W))}

/-- C20: in every state the package can reach, whatever the hash function is, the loop of the lookup ends; the node it returns has
the requested variable and successors, and the weight is kept. -/
theorem C20_make (h : Used hash s made) (v : Nat) (es : List (UEdge W)) (w : W) :
    ∃ p s', s.make hash v es w = some (⟨some p, w⟩, s') ∧ (s'.mem p).var = v ∧ (s'.mem p).edges = es := by
  obtain ⟨chain, free, hi, _⟩ := used_inv h
  obtain ⟨p, s', _, _, h1, _, _, h4, h5, _⟩ := make_ok hi v es w
  exact ⟨p, s', h1, h4, h5⟩

/-- C20: nodes are never overwritten: every node made so far still has its variable and successors. -/
theorem C20_kept (h : Used hash s made) (p v : Nat) (es : List (UEdge W)) (hp : (p, v, es) ∈ made) :
    (s.mem p).var = v ∧ (s.mem p).edges = es := by
  obtain ⟨_, _, _, hall⟩ := used_inv h
  exact (hall p v es hp).2

/-- C20: two requests, at any two moments, receive the same address exactly if variable and successors are the same. -/
theorem C20_unique (h : Used hash s made) (p q v v' : Nat) (es es' : List (UEdge W)) (hp : (p, v, es) ∈ made)
    (hq : (q, v', es') ∈ made) : p = q ↔ v = v' ∧ es = es' := by
  obtain ⟨chain, free, hi, hall⟩ := used_inv h
  obtain ⟨h1, h2, h3⟩ := hall p v es hp
  obtain ⟨k1, k2, k3⟩ := hall q v' es' hq
  constructor
  · rintro rfl
    exact ⟨h2.symm.trans k2, h3.symm.trans k3⟩
  · rintro ⟨rfl, rfl⟩
    exact hi.uniq _ _ p q h1 k1 (h3.trans k3.symm)

/-- C20: looking up an edge to a node made before returns that edge and changes nothing. -/
theorem C20_again (h : Used hash s made) (p v : Nat) (es : List (UEdge W)) (hp : (p, v, es) ∈ made) (w : W) (keep : Bool) :
    s.lookup hash ⟨some p, w⟩ keep = some (⟨some p, w⟩, s) := by
  obtain ⟨chain, free, hi, hall⟩ := used_inv h
  exact lookup_again hi (hall p v es hp).1 w keep

/-- C20: comparing addresses is comparing diagrams: two nodes of the same variable have the same address exactly if the whole
diagrams below them (weights and shape, without addresses) are the same. This is what allows the model of the diagrams to do without
addresses. -/
theorem C20_content (h : Used hash s made) (hl : Layered made) (p q v : Nat) (es es' : List (UEdge W)) (hp : (p, v, es) ∈ made)
    (hq : (q, v, es') ∈ made) : p = q ↔ content s.mem (v + 1) p = content s.mem (v + 1) q := by
  constructor
  · rintro rfl; rfl
  · intro hc
    induction v generalizing p q es es' with
    | zero =>
      rw [C20_unique h p q 0 0 es es' hp hq]
      refine ⟨rfl, ?_⟩
      unfold content at hc
      rw [(C20_kept h p 0 es hp).2, (C20_kept h q 0 es' hq).2] at hc
      have hn : ∀ r (l : List (UEdge W)), (r, 0, l) ∈ made → ∀ e ∈ l, e.node = none := by
        intro r l hr e he
        rcases hx : e.node with _ | x
        · rfl
        · obtain ⟨v', _, hv, _⟩ := hl r 0 l hr e he x hx
          omega
      apply List.ext_getElem
      · have := congrArg List.length hc
        simpa using this
      · intro i h1 h2
        have hi := congrArg (fun l : List (W × Option (Content W 0)) => l[i]?) hc
        dsimp only at hi
        rw [List.getElem?_map, List.getElem?_map, List.getElem?_eq_getElem h1, List.getElem?_eq_getElem h2] at hi
        have hw : es[i].weight = es'[i].weight := congrArg Prod.fst (Option.some.inj hi)
        have e1 := hn p es hp _ (List.getElem_mem h1)
        have e2 := hn q es' hq _ (List.getElem_mem h2)
        rcases ha : es[i] with ⟨a1, a2⟩
        rcases hb : es'[i] with ⟨b1, b2⟩
        rw [ha] at e1 hw
        rw [hb] at e2 hw
        dsimp only at e1 e2 hw
        rw [e1, e2, hw]
    | succ v ih =>
      rw [C20_unique h p q _ _ es es' hp hq]
      refine ⟨rfl, ?_⟩
      unfold content at hc
      rw [(C20_kept h p _ es hp).2, (C20_kept h q _ es' hq).2] at hc
      apply List.ext_getElem
      · have := congrArg List.length hc
        simpa using this
      · intro i h1 h2
        have hi := congrArg (fun l : List (W × Option (Content W (v + 1))) => l[i]?) hc
        rw [List.getElem?_map, List.getElem?_map, List.getElem?_eq_getElem h1, List.getElem?_eq_getElem h2] at hi
        have hw : es[i].weight = es'[i].weight := congrArg Prod.fst (Option.some.inj hi)
        have hnode : es[i].node.map (content s.mem (v + 1)) = es'[i].node.map (content s.mem (v + 1)) :=
          congrArg Prod.snd (Option.some.inj hi)
        have e1 := hl p _ es hp _ (List.getElem_mem h1)
        have e2 := hl q _ es' hq _ (List.getElem_mem h2)
        rcases ha : es[i] with ⟨a1, a2⟩
        rcases hb : es'[i] with ⟨b1, b2⟩
        rw [ha] at e1 hw hnode
        rw [hb] at e2 hw hnode
        change a2 = b2 at hw
        change a1.map _ = b1.map _ at hnode
        subst hw
        rcases a1 with _ | a <;> rcases b1 with _ | b
        · rfl
        · cases hnode
        · cases hnode
        · obtain ⟨v1, es1, hv1, hm1⟩ := e1 a rfl
          obtain ⟨v2, es2, hv2, hm2⟩ := e2 b rfl
          obtain rfl : v = v1 := by omega
          obtain rfl : v = v2 := by omega
          rw [ih a b es1 es2 hm1 hm2 (Option.some.inj hnode)]

/-- With a hash function that sends everything to one bucket: two different nodes, a zero node given back, the first content
requested again (the node taken for it is given back), and a node above them, which reuses that node. -/
example : ∃ s : UTable Nat, Used (fun _ => 0) s [(2, 1, [⟨some 0, 1⟩, ⟨some 1, 2⟩]), (0, 0, [⟨none, 3⟩]),
    (1, 0, [⟨none, 4⟩]), (0, 0, [⟨none, 3⟩])] ∧ s.fresh = 3 := by
  let mem : Nat → UNode Nat := fun _ => ⟨0, [], none⟩
  exact ⟨_, .make _ _ _ 1 [⟨some 0, 1⟩, ⟨some 1, 2⟩] 1 2 1 (.make _ _ _ 0 [⟨none, 3⟩] 1 0 1 (.zero _ _ 0 [⟨none, 0⟩] false
    (.make _ _ _ 0 [⟨none, 4⟩] 1 1 1 (.make _ _ _ 0 [⟨none, 3⟩] 1 0 1 (.new mem) rfl) rfl)) rfl) rfl, rfl⟩

/-! ### compute tables -/

/-- An insertion into a compute table: registers, operands and result. -/
abbrev Insertion := Σ ds, Entry ds

/-- The table after a list of insertions, first one first. -/
def afterInserts (bucket : Insertion → Nat) (hist : List Insertion) : Table :=
  hist.foldl (fun t i => t.insert (bucket i) i.2.left i.2.right i.2.result) fun _ => none

theorem afterInserts_get (bucket : Insertion → Nat) (hist : List Insertion) (b : Nat) (i : Insertion)
    (h : afterInserts bucket hist b = some i) : bucket i = b ∧ ∃ pre post, hist = pre ++ i :: post ∧ ∀ j ∈ post, bucket j ≠ b := by
  unfold afterInserts at h
  induction hist using List.reverseRecOn with
  | nil => cases h
  | append_singleton hist j ih =>
    rw [List.foldl_append] at h
    simp only [List.foldl_cons, List.foldl_nil] at h
    unfold Table.insert at h
    by_cases hb : b = bucket j
    · rw [if_pos hb] at h
      obtain rfl : j = i := Option.some.inj h
      exact ⟨hb.symm, hist, [], rfl, by simp⟩
    · rw [if_neg hb] at h
      obtain ⟨h1, pre, post, rfl, h2⟩ := ih h
      refine ⟨h1, pre, post ++ [j], by simp, ?_⟩
      intro k hk
      rcases List.mem_append.1 hk with hk | hk
      · exact h2 k hk
      · rw [List.mem_singleton] at hk
        subst hk
        exact fun e => hb e.symm

/-- C20: after any history of insertions, a lookup misses or returns the result of the last insertion for exactly these operands,
whatever the hash function (`bucket`) is. -/
theorem C20_compute_hit (bucket : (ds : List Nat) → Edge ds → Edge ds → Nat) (hist : List Insertion) {ds : List Nat} (x y r : Edge ds)
    (h : (afterInserts (fun i => bucket i.1 i.2.left i.2.right) hist).lookup (bucket ds x y) x y = some r) :
    ∃ pre post, hist = pre ++ ⟨ds, ⟨x, y, r⟩⟩ :: post ∧ ∀ r', (⟨ds, ⟨x, y, r'⟩⟩ : Insertion) ∉ post := by
  unfold Table.lookup at h
  rcases ht : afterInserts (fun i => bucket i.1 i.2.left i.2.right) hist (bucket ds x y) with _ | ⟨ds', e⟩
  · rw [ht] at h; cases h
  · rw [ht] at h
    dsimp only at h
    split at h
    · rename_i hds
      subst hds
      dsimp only at h
      split at h
      · cases h
      · split at h
        · cases h
        · rename_i h1 h2
          obtain ⟨_, pre, post, hh, hpost⟩ := afterInserts_get _ hist _ _ ht
          refine ⟨pre, post, ?_, ?_⟩
          · rw [hh]
            congr 2
            rcases e with ⟨a, b, c⟩
            simp only [ne_eq, not_not] at h1 h2
            obtain rfl : c = r := Option.some.inj h
            rw [h1, h2]
          · intro r' hr'
            exact hpost _ hr' rfl
    · cases h

/-- C20: a result is found right after it was inserted. -/
theorem C20_compute_inserted (t : Table) (b : Nat) {ds : List Nat} (x y r : Edge ds) : (t.insert b x y r).lookup b x y = some r := by
  unfold Table.insert Table.lookup
  simp

/-- Two insertions into the same bucket: the second one is found, the first one is lost. -/
example : (afterInserts (fun _ => 0) [⟨[], ⟨none, none, none⟩⟩, ⟨[], ⟨none, some (1, ()), some (2, ())⟩⟩]).lookup 0
      (none : Edge []) (some (1, ())) = some (some (2, ())) ∧
    (afterInserts (fun _ => 0) [⟨[], ⟨none, none, none⟩⟩, ⟨[], ⟨none, some (1, ()), some (2, ())⟩⟩]).lookup 0
      (none : Edge []) none = none := by
  constructor <;> simp [afterInserts, Table.insert, Table.lookup] <;> rfl

end Qudits
