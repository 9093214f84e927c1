import Verif.Lemmas.DDReadAll
/-
Bounds on the number of nodes.
-/
namespace Qudits
open DD Spec Classical

/-- Paths to amplitudes that are not zero. -/
noncomputable def supp : (ds : List Nat) → Edge ds → Finset (List Nat)
  | _, none => ∅
  | [], some _ => {[]}
  | _ :: ds, some (_, n) => (Finset.range n.edges.length).biUnion fun k => (supp ds (at' n.edges k)).image (k :: ·)

theorem supp_none (ds : List Nat) : supp ds none = ∅ := by cases ds <;> rfl

theorem mem_supp : ∀ (ds : List Nat) (e : Edge ds) (p : List Nat), Proper .vec ds e →
    (p ∈ supp ds e ↔ Levels ds p ∧ val ds e p ≠ 0)
  | ds, none, p, _ => by
    rw [supp_none, val_none]
    simp
  | [], some (w, n), p, hp => by
    show p ∈ ({[]} : Finset (List Nat)) ↔ _
    rw [Finset.mem_singleton, levels_nil_iff]
    exact ⟨fun h => ⟨h, hp⟩, fun h => h.1⟩
  | d :: ds, some (w, n), p, hp => by
    obtain ⟨hw, hnl, hnp, _⟩ := hp
    have hnl : n.edges.length = d := by rw [hnl, arity, cols, Nat.mul_one]
    show p ∈ (Finset.range n.edges.length).biUnion (fun k => (supp ds (at' n.edges k)).image (k :: ·)) ↔ _
    rw [Finset.mem_biUnion, hnl]
    constructor
    · rintro ⟨k, hk, hp⟩
      obtain ⟨q, hq, rfl⟩ := Finset.mem_image.1 hp
      obtain ⟨h1, h2⟩ := (mem_supp ds _ q (proper_at' hnp k)).1 hq
      refine ⟨List.Forall₂.cons (Finset.mem_range.1 hk) h1, ?_⟩
      rw [val_cons]
      exact mul_ne_zero hw h2
    · rintro ⟨h1, h2⟩
      obtain ⟨k, q, rfl, hk, hq⟩ := levels_cons_iff.1 h1
      rw [val_cons] at h2
      exact ⟨k, Finset.mem_range.2 hk, Finset.mem_image.2
        ⟨q, (mem_supp ds _ q (proper_at' hnp k)).2 ⟨hq, right_ne_zero_of_mul h2⟩, rfl⟩⟩

theorem supp_card (d : Nat) (ds : List Nat) (w : ℂ) (n : Node (d :: ds)) :
    (supp (d :: ds) (some (w, n))).card = ∑ k ∈ Finset.range n.edges.length, (supp ds (at' n.edges k)).card := by
  show ((Finset.range n.edges.length).biUnion fun k => (supp ds (at' n.edges k)).image (k :: ·)).card = _
  rw [Finset.card_biUnion]
  · refine Finset.sum_congr rfl fun k _ => ?_
    exact Finset.card_image_of_injective _ fun a b h => (List.cons.inj h).2
  · intro i _ j _ hij
    rw [Function.onFun, Finset.disjoint_left]
    intro p hp hq
    obtain ⟨a, _, rfl⟩ := Finset.mem_image.1 hp
    obtain ⟨b, _, h⟩ := Finset.mem_image.1 hq
    exact hij (List.cons.inj h).1.symm

theorem term_mem_nodeSet : ∀ (ds : List Nat) (k : Kind) (e : Edge ds), Proper k ds e → (⟨[], ()⟩ : Ptr) ∈ nodeSet ds e
  | ds, _, none, _ => by rw [nodeSet_none]; exact Finset.mem_singleton_self _
  | [], _, some (w, n), _ => Finset.mem_singleton_self _
  | d :: ds, k, some (w, n), hp => by
    obtain ⟨_, _, hnp, ⟨e, he, _⟩, _⟩ := hp
    exact Finset.mem_insert_of_mem (Finset.mem_biUnion.2 ⟨e, List.mem_toFinset.2 he, term_mem_nodeSet ds k e (hnp e he)⟩)

theorem nodeSet_lower : ∀ (ds : List Nat) (k : Kind) (e : Edge ds), Proper k ds e → e ≠ none → ds.length + 1 ≤ (nodeSet ds e).card
  | _, _, none, _, h => absurd rfl h
  | [], _, some (w, n), _, _ => by
    show 1 ≤ ({⟨[], n⟩} : Finset Ptr).card
    rw [Finset.card_singleton]
  | d :: ds, k, some (w, n), hp, _ => by
    obtain ⟨_, _, hnp, ⟨e, he, hne⟩, _⟩ := hp
    have h := nodeSet_lower ds k e (hnp e he) hne
    have hnot : (⟨d :: ds, n⟩ : Ptr) ∉ nodeSet ds e := by
      intro h
      have h3 : (d :: ds).length ≤ ds.length := le_trans (reach_length ((mem_nodeSet ds e _).1 h)) (nextNode_length e)
      simp at h3
    have hsub : insert (⟨d :: ds, n⟩ : Ptr) (nodeSet ds e) ⊆ nodeSet (d :: ds) (some (w, n)) := by
      intro b hb
      rcases Finset.mem_insert.1 hb with rfl | hb
      · exact Finset.mem_insert_self _ _
      · exact Finset.mem_insert_of_mem (Finset.mem_biUnion.2 ⟨e, List.mem_toFinset.2 he, hb⟩)
    have := Finset.card_le_card hsub
    rw [Finset.card_insert_of_notMem hnot] at this
    rw [List.length_cons]
    omega

theorem supp_pos : ∀ (ds : List Nat) (k : Kind) (e : Edge ds), Proper k ds e → e ≠ none → 0 < (supp ds e).card
  | _, _, none, _, h => absurd rfl h
  | [], _, some (w, n), _, _ => by
    show 0 < ({[]} : Finset (List Nat)).card
    rw [Finset.card_singleton]
    exact one_pos
  | d :: ds, k, some (w, n), hp, _ => by
    obtain ⟨_, _, hnp, ⟨e, he, hne⟩, _⟩ := hp
    obtain ⟨i, hi, rfl⟩ := List.getElem_of_mem he
    have hat : at' n.edges i = n.edges[i] := by
      unfold at'
      rw [List.getElem?_eq_getElem hi]
      rfl
    rw [supp_card]
    have h := supp_pos ds k _ (hnp _ he) hne
    rw [← hat] at h
    exact lt_of_lt_of_le h (Finset.single_le_sum (f := fun k => (supp ds (at' n.edges k)).card)
      (fun _ _ => Nat.zero_le _) (Finset.mem_range.2 hi))

theorem nodeSet_upper : ∀ (ds : List Nat) (k : Kind) (e : Edge ds), Proper k ds e →
    (nodeSet ds e \ {⟨[], ()⟩}).card ≤ (supp ds e).card * ds.length
  | ds, _, none, _ => by
    rw [nodeSet_none, Finset.sdiff_self]
    exact Nat.zero_le _
  | [], _, some (w, n), _ => by
    have h : (({⟨[], n⟩} : Finset Ptr) \ {⟨[], n⟩}).card ≤ 0 := by rw [Finset.sdiff_self]; exact le_refl 0
    exact le_trans h (Nat.zero_le _)
  | d :: ds, k, some (w, n), hp => by
    have hpos := supp_pos (d :: ds) k _ hp (by simp)
    obtain ⟨_, _, hnp, _, _⟩ := hp
    have hsub : nodeSet (d :: ds) (some (w, n)) \ {⟨[], ()⟩} ⊆
        insert (⟨d :: ds, n⟩ : Ptr) ((Finset.range n.edges.length).biUnion fun k => nodeSet ds (at' n.edges k) \ {⟨[], ()⟩}) := by
      intro b hb
      obtain ⟨h1, h2⟩ := Finset.mem_sdiff.1 hb
      rcases Finset.mem_insert.1 h1 with rfl | h1
      · exact Finset.mem_insert_self _ _
      · obtain ⟨e, he, hb⟩ := Finset.mem_biUnion.1 h1
        obtain ⟨i, hi, rfl⟩ := List.getElem_of_mem (List.mem_toFinset.1 he)
        have hat : at' n.edges i = n.edges[i] := by
          unfold at'
          rw [List.getElem?_eq_getElem hi]
          rfl
        refine Finset.mem_insert_of_mem (Finset.mem_biUnion.2 ⟨i, Finset.mem_range.2 hi, Finset.mem_sdiff.2 ⟨?_, h2⟩⟩)
        rw [hat]
        exact hb
    have h1 := Finset.card_le_card hsub
    have h2 := Finset.card_insert_le (⟨d :: ds, n⟩ : Ptr)
      ((Finset.range n.edges.length).biUnion fun k => nodeSet ds (at' n.edges k) \ {⟨[], ()⟩})
    have h3 := Finset.card_biUnion_le (s := Finset.range n.edges.length)
      (t := fun k => nodeSet ds (at' n.edges k) \ {(⟨[], ()⟩ : Ptr)})
    have h4 : ∑ i ∈ Finset.range n.edges.length, (nodeSet ds (at' n.edges i) \ {(⟨[], ()⟩ : Ptr)}).card ≤
        (supp (d :: ds) (some (w, n))).card * ds.length := by
      rw [supp_card, Finset.sum_mul]
      exact Finset.sum_le_sum fun i _ => nodeSet_upper ds k _ (proper_at' hnp i)
    rw [List.length_cons, Nat.mul_succ]
    omega

end Qudits
